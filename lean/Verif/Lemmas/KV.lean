import Verif.Model.KV
/-! Helper lemmas on the key/value layer. -/
namespace Verif

theorem OMapL.get_tail_none {K V : Type} [StrictOrd K] {k : K} {v : V} {m : List (K × V)}
    (h : OMapL.Sorted ((k, v) :: m)) : OMapL.get k m = none :=
  OMapL.get_none_of_lt (List.pairwise_cons.1 h).1

theorem OMapL.get_cons {K V : Type} [StrictOrd K] [DecidableEq K] {k j : K} {v : V} {m : List (K × V)} :
    OMapL.get j ((k, v) :: m) = if j = k then some v else OMapL.get j m := by
  simp only [OMapL.get]
  by_cases h : j = k
  · subst h; simp [StrictOrd.irrefl]
  · rcases StrictOrd.tri j k with h' | h' | h'
    · simp [h, h']
    · exact absurd h' h
    · simp [h, h']

namespace Db
variable {V : Type}

theorem get_applyRow (db : Db V) (r : Bytes × Option V) (k : Bytes) :
    (applyRow db r).get k = if k = r.1 then r.2 else db.get k := by
  unfold applyRow
  split
  · rename_i h; rw [OMap.get_del, h]
  · rename_i h; rw [OMap.get_put, h]

theorem get_foldl_applyRow (l : List (Bytes × Option V)) (hs : OMapL.Sorted l) (db : Db V) (k : Bytes) :
    (l.foldl applyRow db).get k = match OMapL.get k l with | some v => v | none => db.get k := by
  induction l generalizing db with
  | nil => simp [OMapL.get]
  | cons a m ih =>
    obtain ⟨k', v'⟩ := a
    have h2 := (List.pairwise_cons.1 hs).2
    rw [List.foldl_cons, ih h2, get_applyRow, OMapL.get_cons]
    by_cases h : k = k'
    · subst h; simp [OMapL.get_tail_none hs]
    · simp [h]

theorem get_commit (db : Db V) (t : Txn V) (k : Bytes) :
    (db.commit t).get k = getFromDbOrTxn db t k := by
  unfold commit getFromDbOrTxn
  rw [get_foldl_applyRow _ t.sorted]
  rfl

end Db

namespace Txn
variable {V : Type}

theorem get_stagePut (t : Txn V) (k j : Bytes) (v : V) :
    (t.stagePut k v).get j = if j = k then some (some v) else t.get j := OMap.get_put t k j (some v)

theorem get_stageDel (t : Txn V) (k j : Bytes) :
    (t.stageDel k).get j = if j = k then some none else t.get j := OMap.get_put t k j none

theorem get_foldl_put {K W : Type} [StrictOrd K] [DecidableEq K] (l : List (K × W)) (hs : OMapL.Sorted l) (t : OMap K W) (k : K) :
    (l.foldl (fun acc r => OMap.put acc r.1 r.2) t).get k =
      match OMapL.get k l with | some v => some v | none => t.get k := by
  induction l generalizing t with
  | nil => simp [OMapL.get]
  | cons a m ih =>
    obtain ⟨k', v'⟩ := a
    have h2 := (List.pairwise_cons.1 hs).2
    rw [List.foldl_cons, ih h2, OMap.get_put, OMapL.get_cons]
    by_cases h : k = k'
    · subst h; simp [OMapL.get_tail_none hs]
    · simp [h]

theorem get_merge (t o : Txn V) (k : Bytes) :
    (t.merge o).get k = match o.get k with | some v => some v | none => t.get k := by
  unfold merge
  rw [get_foldl_put _ o.sorted, show OMapL.get k o.rows = o.get k from rfl]
  cases o.get k <;> rfl

end Txn

/-- Reading through a staged put. -/
theorem getFromDbOrTxn_stagePut {V : Type} (db : Db V) (t : Txn V) (k j : Bytes) (v : V) :
    getFromDbOrTxn db (t.stagePut k v) j = if j = k then some v else getFromDbOrTxn db t j := by
  unfold getFromDbOrTxn
  rw [Txn.get_stagePut]
  by_cases h : j = k <;> simp [h]

theorem getFromDbOrTxn_stageDel {V : Type} (db : Db V) (t : Txn V) (k j : Bytes) :
    getFromDbOrTxn db (t.stageDel k) j = if j = k then none else getFromDbOrTxn db t j := by
  unfold getFromDbOrTxn
  rw [Txn.get_stageDel]
  by_cases h : j = k <;> simp [h]

/-! ### Iteration -/

/-- Without a row limit and with a callback that never stops, iteration is a fold. -/
theorem iterate_none_cont {V σ : Type} (g : σ → Bytes → V → σ) (rows : List (Bytes × V)) (c : Nat) (s : σ) :
    iterate none (fun s k v => .ok (g s k v, false)) rows c s
      = .ok (rows.foldl (fun s r => g s r.1 r.2) s, true) := by
  induction rows generalizing s c with
  | nil => rfl
  | cons a m ih => obtain ⟨k, v⟩ := a; simp [iterate, ih]

/-- With a row limit `n` and a callback that never stops, iteration folds over the first `max n 1` rows. -/
theorem iterate_some_cont {V σ : Type} (g : σ → Bytes → V → σ) (n : Nat) (rows : List (Bytes × V))
    (c : Nat) (s : σ) (hc : c < max n 1) :
    iterate (some n) (fun s k v => .ok (g s k v, false)) rows c s
      = .ok ((rows.take (max n 1 - c)).foldl (fun s r => g s r.1 r.2) s, true) := by
  induction rows generalizing s c with
  | nil => simp [iterate]
  | cons a m ih =>
    obtain ⟨k, v⟩ := a
    simp only [iterate]
    split
    · have : max n 1 - c = 1 := by omega
      rw [this]; simp
    · rw [ih (c + 1) _ (by omega)]
      have : max n 1 - c = (max n 1 - (c + 1)) + 1 := by omega
      rw [this]; simp

theorem scanRows_sublist {V : Type} (db : Db V) (lo hi : Bytes) :
    (scanRows db lo hi false).Sublist db.rows := by
  simp [scanRows]

theorem mem_scanRows {V : Type} {db : Db V} {lo hi : Bytes} {rev : Bool} {r : Bytes × V} :
    r ∈ scanRows db lo hi rev ↔ r ∈ db.rows ∧ Bytes.blt r.1 lo = false ∧ Bytes.blt r.1 hi = true := by
  cases rev <;> simp [scanRows]

/-- The order rows are visited in. -/
def DirSorted {V : Type} (rev : Bool) (l : List (Bytes × V)) : Prop :=
  l.Pairwise (fun a b => if rev then b.1 ≺ a.1 else a.1 ≺ b.1)

theorem scanRows_dirSorted {V : Type} (db : Db V) (lo hi : Bytes) (rev : Bool) :
    DirSorted rev (scanRows db lo hi rev) := by
  have h : OMapL.Sorted (db.rows.filter (fun r => !Bytes.blt r.1 lo && Bytes.blt r.1 hi)) :=
    List.Pairwise.filter _ db.sorted
  cases rev
  · simpa [DirSorted, scanRows, OMapL.Sorted] using h
  · simp only [DirSorted, scanRows, if_true]
    rw [List.pairwise_reverse]
    exact h

end Verif
