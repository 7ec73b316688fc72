import Verif.Lemmas.Consensus
/-!
C55: validator sets and proposers.
-/
namespace Verif
open Verif.Spec

section

/-- If the first configured set is for this shard and in effect, then the validators in charge of a height are exactly
the keys of the set that took effect last, each once and in ascending order. -/
theorem C55_last_effective_set {shard height : Nat} {first : SetConfig} (others : List SetConfig)
    (hf : Applies shard height first) :
    ∃ c, Current shard height (first :: others) c ∧
      (∀ k, k ∈ inCharge (configured shard first others) height ↔ k ∈ c.keys) ∧
      (inCharge (configured shard first others) height).Pairwise (· ≺ ·) := by
  obtain ⟨c, h1, h2, h3⟩ := foldl_betterSet_spec others first hf
  have he : validatorSetAt (configured shard first others) height = (StoredSet.ofConfig shard c).validators := by
    unfold validatorSetAt configured
    rw [List.foldl_cons]
    have e : betterSet shard height (StoredSet.ofConfig shard first) (StoredSet.ofConfig shard first) =
        StoredSet.ofConfig shard first := by unfold betterSet; split <;> rfl
    simp only [e, h1]
  refine ⟨c, ?_, ?_, inCharge_sorted⟩
  · rcases h3 with ⟨rfl, h⟩ | ⟨hlt, pre, post, h4, h5, h6⟩
    · exact ⟨[], others, rfl, h2, by simp, h⟩
    · refine ⟨first :: pre, post, by rw [h4]; rfl, h2, ?_, h6⟩
      intro d hd ha
      rcases List.mem_cons.1 hd with rfl | hd
      · exact hlt
      · exact h5 d hd ha
  · intro k
    unfold inCharge
    rw [he]
    exact (ofConfig_ok shard c).2 k

/-- Which set is current is a question with one answer, up to the position of equal sets. -/
theorem C55_current_unique {shard height : Nat} {sets : List SetConfig} {c d : SetConfig}
    (hc : Current shard height sets c) (hd : Current shard height sets d) : c.effectiveAt = d.effectiveAt := by
  obtain ⟨p, q, h1, h2, h3, h4⟩ := hc
  obtain ⟨p', q', g1, g2, g3, g4⟩ := hd
  have a : d ∈ p ++ c :: q := by rw [← h1, g1]; simp
  have b : c ∈ p' ++ d :: q' := by rw [← g1, h1]; simp
  have x : d.effectiveAt ≤ c.effectiveAt := by
    rcases List.mem_append.1 a with h | h
    · exact Nat.le_of_lt (h3 d h g2)
    · rcases List.mem_cons.1 h with h | h
      · rw [h]; exact Nat.le_refl _
      · exact h4 d h g2
  have y : c.effectiveAt ≤ d.effectiveAt := by
    rcases List.mem_append.1 b with h | h
    · exact Nat.le_of_lt (g3 c h h2)
    · rcases List.mem_cons.1 h with h | h
      · rw [h]; exact Nat.le_refl _
      · exact g4 c h h2
  omega

/-- A proposer is selected whenever the set is not empty and the round not negative, and it is a validator of the
set. -/
theorem C55_proposer_is_validator (set : List Validator) (h : BlockHeight) (r : Int) :
    (set ≠ [] ∧ 0 ≤ r ↔ (selectProposer set h r).isSome = true) ∧ ∀ v, selectProposer set h r = some v → v ∈ set := by
  unfold selectProposer
  by_cases hc : (set.isEmpty || decide (r < 0)) = true
  · rw [if_pos hc]
    refine ⟨⟨fun ⟨h1, h2⟩ => ?_, fun x => by simp at x⟩, fun v hv => by cases hv⟩
    simp only [Bool.or_eq_true, List.isEmpty_iff, decide_eq_true_eq] at hc
    rcases hc with e | e
    · exact absurd e h1
    · omega
  · rw [if_neg hc]
    simp only [Bool.or_eq_true, List.isEmpty_iff, decide_eq_true_eq, not_or] at hc
    have hp : 0 < set.length := List.length_pos_iff.2 hc.1
    have hl := Nat.mod_lt ((h.block + 2 ^ 64 - 1 + r.toNat) % 2 ^ 64) hp
    refine ⟨⟨fun _ => ?_, fun _ => ⟨hc.1, by omega⟩⟩, fun v hv => List.mem_of_getElem? hv⟩
    rw [List.getElem?_eq_getElem hl]
    rfl

/-- Over any `n` consecutive rounds of a height each of the `n` validators is selected exactly once. -/
theorem C55_rounds_fair (set : List Validator) {s h : Nat} (h1 : 1 ≤ h) (r : Nat)
    (hr : h + r + set.length ≤ 2 ^ 64) :
    ((List.range set.length).map (fun i => selectProposer set ⟨s, h⟩ ((r + i : Nat) : Int))).Perm (set.map some) := by
  by_cases hn : set = []
  · subst hn; simp
  have e : (List.range set.length).map (fun i => selectProposer set ⟨s, h⟩ ((r + i : Nat) : Int)) =
      (List.range set.length).map (fun i => (fun j => set[j % set.length]?) (h - 1 + r + i)) := by
    apply List.map_congr_left
    intro i hi
    have := List.mem_range.1 hi
    rw [select_turn hn h1 (by omega)]
    simp only [Nat.add_assoc]
  rw [e, ← range_getElem]
  exact rotate_perm (fun j => set[j % set.length]?) set.length (by intro i; simp) _

/-- The same for a round of consecutive heights with the same validators. -/
theorem C55_heights_fair (set : List Validator) {s h : Nat} (h1 : 1 ≤ h) (r : Nat)
    (hr : h + r + set.length ≤ 2 ^ 64) :
    ((List.range set.length).map (fun i => selectProposer set ⟨s, h + i⟩ (r : Int))).Perm (set.map some) := by
  by_cases hn : set = []
  · subst hn; simp
  have e : (List.range set.length).map (fun i => selectProposer set ⟨s, h + i⟩ (r : Int)) =
      (List.range set.length).map (fun i => (fun j => set[j % set.length]?) (h - 1 + r + i)) := by
    apply List.map_congr_left
    intro i hi
    have := List.mem_range.1 hi
    rw [select_turn hn (by omega) (by omega)]
    simp only
    congr 2
    omega
  rw [e, ← range_getElem]
  exact rotate_perm (fun j => set[j % set.length]?) set.length (by intro i; simp) _

end

namespace C55Case

def old : SetConfig := ⟨0, [[3], [1], [2], [1]], [0, 1]⟩
def other : SetConfig := ⟨50, [[9]], [2]⟩
def new : SetConfig := ⟨100, [[4], [1]], [0, 1]⟩

example : Applies 1 120 old := by unfold Applies; decide

example : [99, 100].map (inCharge (configured 1 old [other, new])) = [[[1], [2], [3]], [[1], [4]]] := by decide

example : (List.range 4).map (fun r => (selectProposer (validatorSetAt (configured 1 old []) 7) ⟨1, 7⟩ (r : Nat)).map (·.key)) =
    [some [1], some [2], some [3], some [1]] := by decide

end C55Case

/-- The first configured set is used even if it is for another shard, and hides sets for this shard that took effect
earlier: with a set for shard 2 first, a set for shard 1 in effect from height 0 is never used. -/
theorem C55_first_set_hides_others :
    ∃ (first c : SetConfig), ¬ 1 ∈ first.shards ∧ 1 ∈ c.shards ∧ c.effectiveAt = 0 ∧
      ∀ height, inCharge (configured 1 first [c]) height = first.keys := by
  refine ⟨⟨50, [[9]], [2]⟩, ⟨0, [[1]], [1]⟩, by decide, by decide, rfl, fun height => ?_⟩
  have h : validatorSetAt (configured 1 ⟨50, [[9]], [2]⟩ [⟨0, [[1]], [1]⟩]) height = [⟨1, [9]⟩] := by
    unfold validatorSetAt configured
    simp [betterSet, StoredSet.ofConfig, addValidator]
  unfold inCharge
  rw [h]
  rfl

/-- Height 0 is not fair: the index wraps, and of three validators the first has rounds 0 and 1. -/
theorem C55_height_zero_unfair :
    ∃ set : List Validator, set.length = 3 ∧ set.Nodup ∧
      selectProposer set ⟨1, 0⟩ 0 = selectProposer set ⟨1, 0⟩ 1 := by
  refine ⟨[⟨1, [1]⟩, ⟨1, [2]⟩, ⟨1, [3]⟩], rfl, by decide, by decide⟩

end Verif
