import Verif.Lemmas.KV
/-! Counting rows of a map under put and delete; the committed view of a batch. -/
namespace Verif

namespace OMapL
variable {K V : Type} [StrictOrd K]

theorem countP_put (P : K → Bool) {k : K} {v : V} {l : List (K × V)} (hs : Sorted l) :
    ((put k v l).filter (fun r => P r.1)).length =
      (l.filter (fun r => P r.1)).length + (if P k && (get k l).isNone then 1 else 0) := by
  induction l with
  | nil => simp only [put, get]; cases h : P k <;> simp [h]
  | cons a m ih =>
    obtain ⟨k', v'⟩ := a
    obtain ⟨h1, h2⟩ := List.pairwise_cons.1 hs
    simp only [put]
    split
    · rename_i hlt
      have hn : get k ((k', v') :: m) = none := by
        apply get_none_of_lt
        intro x hx
        rcases List.mem_cons.1 hx with e | hx
        · rw [e]; exact hlt
        · exact StrictOrd.trans hlt (h1 x hx)
      rw [hn]
      cases h : P k <;> simp [List.filter_cons, h]
    · rename_i hlt
      split
      · rename_i hgt
        have hg : get k ((k', v') :: m) = get k m := by simp [get, hgt]
        rw [hg]
        have := ih h2
        cases h : P k' <;> simp only [List.filter_cons, h, if_true, Bool.false_eq_true, if_false, List.length_cons] <;> omega
      · rename_i hgt
        have hg : get k ((k', v') :: m) = some v' := by simp [get, hlt, hgt]
        rw [hg]
        have : k = k' := by
          rcases StrictOrd.tri k k' with h | h | h
          · exact absurd h hlt
          · exact h
          · exact absurd h hgt
        subst this
        cases h : P k <;> simp [List.filter_cons, h]

theorem countP_del (P : K → Bool) {k : K} {l : List (K × V)} (hs : Sorted l) :
    ((del k l).filter (fun r => P r.1)).length + (if P k && (get k l).isSome then 1 else 0) =
      (l.filter (fun r => P r.1)).length := by
  induction l with
  | nil => simp [del, get]
  | cons a m ih =>
    obtain ⟨k', v'⟩ := a
    obtain ⟨h1, h2⟩ := List.pairwise_cons.1 hs
    have := ih h2
    simp only [del]
    split
    · rename_i hne
      have hg : get k ((k', v') :: m) = get k m := by simp only [get, if_pos hne]
      rw [hg]
      cases h : P k' <;> simp only [List.filter_cons, h, if_true, Bool.false_eq_true, if_false, List.length_cons] <;> omega
    · rename_i hne
      have hk : k = k' := by
        rcases StrictOrd.tri k k' with h | h | h
        · exact absurd (.inl h) hne
        · exact h
        · exact absurd (.inr h) hne
      subst hk
      have hn : get k m = none := get_none_of_lt h1
      have hg : get k ((k, v') :: m) = some v' := by simp only [get, if_neg hne]
      rw [hg]
      rw [hn] at this
      simp at this
      cases h : P k <;> simp [List.filter_cons, h] <;> omega
end OMapL

namespace OMap
variable {K V : Type} [StrictOrd K]

/-- Number of rows whose key satisfies `P`. -/
def countKeys (m : OMap K V) (P : K → Bool) : Nat := (m.rows.filter (fun r => P r.1)).length

theorem countKeys_put (m : OMap K V) (P : K → Bool) (k : K) (v : V) :
    (m.put k v).countKeys P = m.countKeys P + (if P k && (m.get k).isNone then 1 else 0) :=
  OMapL.countP_put P m.sorted

theorem countKeys_del (m : OMap K V) (P : K → Bool) (k : K) :
    (m.del k).countKeys P + (if P k && (m.get k).isSome then 1 else 0) = m.countKeys P :=
  OMapL.countP_del P m.sorted
end OMap

section view
variable {V : Type}

theorem Db.commit_empty (db : Db V) : db.commit OMap.empty = db := rfl

theorem Db.commit_stagePut (db : Db V) (t : Txn V) (k : Bytes) (v : V) :
    db.commit (t.stagePut k v) = (db.commit t).put k v := by
  apply OMap.ext
  intro j
  rw [Db.get_commit, getFromDbOrTxn_stagePut, OMap.get_put, Db.get_commit]

theorem Db.commit_stageDel (db : Db V) (t : Txn V) (k : Bytes) :
    db.commit (t.stageDel k) = (db.commit t).del k := by
  apply OMap.ext
  intro j
  rw [Db.get_commit, getFromDbOrTxn_stageDel, OMap.get_del, Db.get_commit]
end view
end Verif
