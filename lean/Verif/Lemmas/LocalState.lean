import Verif.Spec.Consensus
import Verif.Lemmas.Scan
/-!
Proposals kept on disk.
-/
namespace Verif
open Verif.Spec

theorem heightPrefix_length (s h : Nat) : (heightPrefix s h).length = 13 := by simp [heightPrefix, be_length]

theorem heightPrefix_inj {s h s' h' : Nat} (h1 : s < 2 ^ 32) (h2 : h < 2 ^ 64) (h3 : s' < 2 ^ 32) (h4 : h' < 2 ^ 64)
    (e : heightPrefix s h = heightPrefix s' h') : s = s' ∧ h = h' := by
  unfold heightPrefix at e
  simp only [List.cons.injEq, true_and] at e
  obtain ⟨a, b⟩ := List.append_inj e (by simp [be_length])
  exact ⟨be_inj (w := 4) (by omega) (by omega) a, be_inj (w := 8) (by omega) (by omega) b⟩

theorem proposalKey_inj {s h r s' h' r' : Nat} (h1 : s < 2 ^ 32) (h2 : h < 2 ^ 64) (h3 : s' < 2 ^ 32) (h4 : h' < 2 ^ 64)
    (h5 : r < 2 ^ 63) (h6 : r' < 2 ^ 63) (e : proposalKey s h r = proposalKey s' h' r') : s = s' ∧ h = h' ∧ r = r' := by
  unfold proposalKey at e
  obtain ⟨a, b⟩ := List.append_inj e (by simp [heightPrefix_length])
  obtain ⟨x, y⟩ := heightPrefix_inj h1 h2 h3 h4 a
  exact ⟨x, y, be_inj (w := 8) (by omega) (by omega) b⟩

theorem heightPrefix_some (s h : Nat) : ∃ b ∈ heightPrefix s h, b ≠ 255 := ⟨1, by simp [heightPrefix], by decide⟩

theorem foldl_del_rows {V : Type} (rows : List (Bytes × V)) (db : Db V) (k : Bytes) :
    (rows.foldl (fun d r => d.del r.1) db).get k = if k ∈ rows.map (·.1) then none else db.get k := by
  induction rows generalizing db with
  | nil => simp
  | cons a l ih =>
    rw [List.foldl_cons, ih, OMap.get_del]
    by_cases h1 : k ∈ l.map (·.1)
    · simp [h1]
    · by_cases h2 : k = a.1 <;> simp [h1, h2]

/-- What a deletion removes: the rows in the scanned range. -/
theorem get_deleteProposals {V : Type} (db : Db V) (s h : Nat) (k : Bytes) :
    (deleteProposals db s h).get k =
      if Bytes.blt k (heightPrefix s h) = false ∧ Bytes.blt k (incrementVec (heightPrefix s h)) = true then none
      else db.get k := by
  unfold deleteProposals
  simp only [iterBounds, Bool.false_eq_true, if_false]
  rw [foldl_del_rows]
  by_cases hr : Bytes.blt k (heightPrefix s h) = false ∧ Bytes.blt k (incrementVec (heightPrefix s h)) = true
  · rw [if_pos hr]
    split
    · rfl
    · next hk =>
      cases hg : db.get k with
      | none => rfl
      | some v =>
        exfalso
        apply hk
        exact List.mem_map.2 ⟨(k, v), mem_scanRows.2 ⟨(OMap.get_eq_some_iff _).1 hg, hr⟩, rfl⟩
  · rw [if_neg hr, if_neg]
    intro hm
    obtain ⟨r, h1, h2⟩ := List.mem_map.1 hm
    have := mem_scanRows.1 h1
    rw [h2] at this
    exact hr this.2

/-- A proposal is removed iff it is of that shard and height. -/
theorem get_delete_proposal {V : Type} (db : Db V) {s h s' h' : Nat} (r : Nat) (h1 : s < 2 ^ 32) (h2 : h < 2 ^ 64)
    (h3 : s' < 2 ^ 32) (h4 : h' < 2 ^ 64) :
    (deleteProposals db s h).get (proposalKey s' h' r) =
      if s' = s ∧ h' = h then none else db.get (proposalKey s' h' r) := by
  rw [get_deleteProposals]
  have hl : (heightPrefix s h).length ≤ (proposalKey s' h' r).length := by
    simp [proposalKey, heightPrefix_length]
  have : (Bytes.blt (proposalKey s' h' r) (heightPrefix s h) = false ∧
      Bytes.blt (proposalKey s' h' r) (incrementVec (heightPrefix s h)) = true) ↔ s' = s ∧ h' = h := by
    rw [mem_range_iff_prefix (heightPrefix_some s h) hl]
    constructor
    · intro hp
      have e : heightPrefix s h = heightPrefix s' h' := by
        have h5 := List.prefix_append (heightPrefix s' h') (be 8 r)
        have h6 := List.prefix_of_prefix_length_le hp h5 (by simp [heightPrefix_length])
        exact h6.eq_of_length (by simp [heightPrefix_length])
      obtain ⟨a, b⟩ := heightPrefix_inj h1 h2 h3 h4 e
      exact ⟨a.symm, b.symm⟩
    · rintro ⟨rfl, rfl⟩
      exact List.prefix_append _ _
  by_cases hc : s' = s ∧ h' = h
  · rw [if_pos hc, if_pos (this.2 hc)]
  · rw [if_neg hc, if_neg (fun x => hc (this.1 x))]

/-- Rows with another first byte than 1 and 2 are not removed. -/
theorem get_delete_other {V : Type} (db : Db V) (s h : Nat) {k : Bytes} (hk : k.head? = some 17 ∨ k.head? = some 21) :
    (deleteProposals db s h).get k = db.get k := by
  rw [get_deleteProposals, if_neg]
  rintro ⟨_, hr⟩
  cases k with
  | nil => simp at hk
  | cons x k =>
    have hx : x = 17 ∨ x = 21 := by simpa using hk
    have hhead : ∃ y t, incrementVec (heightPrefix s h) = y :: t ∧ y.toNat ≤ 2 := by
      unfold incrementVec
      cases hi : incrRev (heightPrefix s h).reverse with
      | none =>
        have := incrRev_none.1 hi 1 (by simp [heightPrefix])
        exact absurd this (by decide)
      | some r =>
        obtain ⟨l, b, n, g1, g2, g3⟩ := incrRev_some hi
        rw [List.reverse_reverse] at g1
        simp only
        rw [g3]
        cases l with
        | nil =>
          rw [List.nil_append, heightPrefix, List.cons.injEq] at g1
          refine ⟨_, _, rfl, ?_⟩
          rw [← g1.1]
          decide
        | cons c l =>
          rw [List.cons_append, heightPrefix, List.cons.injEq] at g1
          refine ⟨_, _, rfl, ?_⟩
          rw [← g1.1]
          decide
    obtain ⟨y, t, e, hy⟩ := hhead
    rw [e] at hr
    rw [Bytes.blt] at hr
    have hx2 : 2 < x.toNat := by rcases hx with rfl | rfl <;> decide
    rw [if_neg (by omega), if_pos (by omega)] at hr
    cases hr

end Verif
