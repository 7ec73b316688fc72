import Verif.Spec.Consensus
/-!
The cache of proposed values.
-/
namespace Verif
open Verif.Spec

section
variable {B : Type}

namespace ProposedValues

/-- At or below. -/
def Le (a h : BlockHeight) : Prop := ¬ h ≺ a

instance (a h : BlockHeight) : Decidable (Le a h) := inferInstanceAs (Decidable (¬ h ≺ a))

theorem mem_dueHeights {h : BlockHeight} : ∀ {rows : List (BlockHeight × List ShardHash)}, OMapL.Sorted rows →
    ∀ g, g ∈ dueHeights h rows ↔ Le g h ∧ ∃ hs, (g, hs) ∈ rows := by
  intro rows
  induction rows with
  | nil => intro _ g; simp [dueHeights]
  | cons r l ih =>
    intro hs g
    obtain ⟨e, v⟩ := r
    obtain ⟨h1, h2⟩ := List.pairwise_cons.1 hs
    unfold dueHeights
    by_cases hc : h ≺ e
    · rw [if_pos hc]
      refine ⟨fun x => by simp at x, ?_⟩
      rintro ⟨hle, vs, hm⟩
      rcases List.mem_cons.1 hm with e1 | e1
      · exact absurd (by rw [Prod.mk.injEq] at e1; rw [e1.1]; exact hc) hle
      · exact absurd (StrictOrd.trans hc (h1 _ e1)) hle
    · rw [if_neg hc, List.mem_cons, ih h2 g]
      constructor
      · rintro (rfl | ⟨a, vs, b⟩)
        · exact ⟨hc, v, by simp⟩
        · exact ⟨a, vs, by simp [b]⟩
      · rintro ⟨a, vs, b⟩
        rcases List.mem_cons.1 b with e1 | e1
        · exact .inl (congrArg Prod.fst e1)
        · exact .inr ⟨a, vs, e1⟩

theorem foldl_del_get (hs : List ShardHash) (m : OMap ShardHash (FullProposal B)) (k : ShardHash) :
    (hs.foldl OMap.del m).get k = if k ∈ hs then none else m.get k := by
  induction hs generalizing m with
  | nil => simp
  | cons a l ih =>
    rw [List.foldl_cons, ih, OMap.get_del]
    by_cases h1 : k ∈ l
    · simp [h1]
    · by_cases h2 : k = a <;> simp [h1, h2]

/-- The hash is listed under the height. -/
def Listed (pv : ProposedValues B) (g : BlockHeight) (k : ShardHash) : Prop := ∃ hs, pv.byHeight.get g = some hs ∧ k ∈ hs

theorem dropHeight_byHeight (pv : ProposedValues B) (g g' : BlockHeight) :
    (pv.dropHeight g).byHeight.get g' = if g' = g then none else pv.byHeight.get g' := by
  unfold dropHeight
  cases hg : pv.byHeight.get g with
  | none =>
    simp only
    split
    · next h => rw [h, hg]
    · rfl
  | some hs => simp only [OMap.get_del]

theorem dropHeight_values_some {pv : ProposedValues B} {g : BlockHeight} {k : ShardHash} {p : FullProposal B} :
    (pv.dropHeight g).values.get k = some p ↔ pv.values.get k = some p ∧ ¬ pv.Listed g k := by
  unfold dropHeight Listed
  cases hg : pv.byHeight.get g with
  | none => simp
  | some hs =>
    simp only [foldl_del_get, Option.some.injEq, exists_eq_left']
    by_cases h : k ∈ hs <;> simp [h]

theorem foldl_drop_byHeight (gs : List BlockHeight) (pv : ProposedValues B) (g' : BlockHeight) :
    (gs.foldl dropHeight pv).byHeight.get g' = if g' ∈ gs then none else pv.byHeight.get g' := by
  induction gs generalizing pv with
  | nil => simp
  | cons a l ih =>
    rw [List.foldl_cons, ih, dropHeight_byHeight]
    by_cases h1 : g' ∈ l
    · simp [h1]
    · by_cases h2 : g' = a <;> simp [h1, h2]

theorem foldl_drop_values (gs : List BlockHeight) (pv : ProposedValues B) {k : ShardHash} {p : FullProposal B} :
    (gs.foldl dropHeight pv).values.get k = some p ↔ pv.values.get k = some p ∧ ∀ g ∈ gs, ¬ pv.Listed g k := by
  induction gs generalizing pv with
  | nil => simp
  | cons a l ih =>
    rw [List.foldl_cons, ih, dropHeight_values_some]
    constructor
    · rintro ⟨⟨h1, h2⟩, h3⟩
      refine ⟨h1, fun g hg => ?_⟩
      rcases List.mem_cons.1 hg with rfl | hg
      · exact h2
      · intro ⟨hs, hget, hk⟩
        by_cases e : g = a
        · subst e; exact h2 ⟨hs, hget, hk⟩
        · exact h3 g hg ⟨hs, by rw [dropHeight_byHeight, if_neg e]; exact hget, hk⟩
    · rintro ⟨h1, h2⟩
      refine ⟨⟨h1, h2 a (by simp)⟩, fun g hg => ?_⟩
      rintro ⟨hs, hget, hk⟩
      rw [dropHeight_byHeight] at hget
      by_cases e : g = a
      · rw [if_pos e] at hget; cases hget
      · rw [if_neg e] at hget
        exact h2 g (by simp [hg]) ⟨hs, hget, hk⟩

theorem mem_due (pv : ProposedValues B) (h g : BlockHeight) :
    g ∈ dueHeights h pv.byHeight.rows ↔ Le g h ∧ pv.byHeight.get g ≠ none := by
  rw [mem_dueHeights pv.byHeight.sorted]
  constructor
  · rintro ⟨a, hs, b⟩
    exact ⟨a, by rw [(OMap.get_eq_some_iff _).2 b]; simp⟩
  · rintro ⟨a, b⟩
    obtain ⟨hs, hb⟩ := Option.ne_none_iff_exists'.1 b
    exact ⟨a, hs, (OMap.get_eq_some_iff _).1 hb⟩

theorem decide_listed {pv : ProposedValues B} {h g : BlockHeight} {k : ShardHash} :
    (pv.decide h).Listed g k ↔ pv.Listed g k ∧ h ≺ g := by
  unfold Listed decide
  rw [foldl_drop_byHeight]
  by_cases hg : g ∈ dueHeights h pv.byHeight.rows
  · rw [if_pos hg]
    have := ((mem_due pv h g).1 hg).1
    refine ⟨fun ⟨hs, x, _⟩ => (by cases x), fun ⟨_, x⟩ => absurd x this⟩
  · rw [if_neg hg]
    refine ⟨fun ⟨hs, a, b⟩ => ⟨⟨hs, a, b⟩, ?_⟩, fun x => x.1⟩
    by_cases hc : h ≺ g
    · exact hc
    · exact absurd ((mem_due pv h g).2 ⟨hc, by rw [a]; simp⟩) hg

theorem decide_get {pv : ProposedValues B} {h : BlockHeight} {k : ShardHash} {p : FullProposal B} :
    (pv.decide h).get k = some p ↔ pv.get k = some p ∧ ∀ g, Le g h → ¬ pv.Listed g k := by
  unfold get decide
  rw [foldl_drop_values]
  constructor
  · rintro ⟨a, b⟩
    refine ⟨a, fun g hg hl => ?_⟩
    obtain ⟨hs, h1, h2⟩ := hl
    exact b g ((mem_due pv h g).2 ⟨hg, by rw [h1]; simp⟩) ⟨hs, h1, h2⟩
  · rintro ⟨a, b⟩
    exact ⟨a, fun g hg => b g ((mem_due pv h g).1 hg).1⟩

theorem add_listed {pv : ProposedValues B} {q : FullProposal B} {g : BlockHeight} {k : ShardHash} :
    (pv.add q).Listed g k ↔ pv.Listed g k ∨ (g = q.height ∧ k = q.shardHash) := by
  unfold Listed add
  simp only [OMap.get_put]
  by_cases hg : g = q.height
  · subst hg
    rw [if_pos rfl]
    cases hq : pv.byHeight.get q.height with
    | none => simp
    | some hs => simp
  · rw [if_neg hg]
    simp [hg]

theorem add_get {pv : ProposedValues B} {q : FullProposal B} {k : ShardHash} :
    (pv.add q).get k = if k = q.shardHash then some q else pv.get k := by
  unfold get add
  simp only [OMap.get_put]

end ProposedValues

/-- What is found was added, has that hash and is listed under its height. -/
structure ProposalsInv (ops : List (CacheOp B)) (pv : ProposedValues B) : Prop where
  found : ∀ k p, pv.get k = some p → CacheOp.add p ∈ ops ∧ p.shardHash = k ∧ pv.Listed p.height k
  listed : ∀ g k, pv.Listed g k → ∃ p, CacheOp.add p ∈ ops ∧ p.height = g ∧ p.shardHash = k

theorem cacheRun_snoc (ops : List (CacheOp B)) (o : CacheOp B) :
    cacheRun (ops ++ [o]) = cacheStep (cacheRun ops) o := by simp [cacheRun]

theorem cache_inv (ops : List (CacheOp B)) : ProposalsInv ops (cacheRun ops) := by
  have : ∀ r : List (CacheOp B), ProposalsInv r.reverse (cacheRun r.reverse) := by
    intro r
    induction r with
    | nil =>
      exact ⟨fun k p h => by simp [cacheRun, ProposedValues.get, ProposedValues.empty] at h,
        fun g k ⟨hs, h, _⟩ => by simp [cacheRun, ProposedValues.empty] at h⟩
    | cons o l ih =>
      rw [List.reverse_cons, cacheRun_snoc]
      cases o with
      | add q =>
        constructor
        · intro k p h
          simp only [cacheStep, ProposedValues.add_get] at h
          split at h
          · next hk =>
            cases h
            exact ⟨by simp, hk.symm, ProposedValues.add_listed.2 (.inr ⟨rfl, hk⟩)⟩
          · obtain ⟨a, b, c⟩ := ih.found k p h
            exact ⟨by simpa using .inl (by simpa using a), b, ProposedValues.add_listed.2 (.inl c)⟩
        · intro g k h
          rcases ProposedValues.add_listed.1 h with h | ⟨h1, h2⟩
          · obtain ⟨p, a, b⟩ := ih.listed g k h
            exact ⟨p, by simpa using .inl (by simpa using a), b⟩
          · exact ⟨q, by simp, h1.symm, h2.symm⟩
      | decide h =>
        constructor
        · intro k p hg
          obtain ⟨h1, h2⟩ := ProposedValues.decide_get.1 hg
          obtain ⟨a, b, c⟩ := ih.found k p h1
          refine ⟨by simpa using a, b, ProposedValues.decide_listed.2 ⟨c, ?_⟩⟩
          by_cases hc : h ≺ p.height
          · exact hc
          · exact absurd c (h2 _ hc)
        · intro g k hl
          obtain ⟨p, a, b⟩ := ih.listed g k (ProposedValues.decide_listed.1 hl).1
          exact ⟨p, by simpa using a, b⟩
  have := this ops.reverse
  rwa [List.reverse_reverse] at this

end
end Verif
