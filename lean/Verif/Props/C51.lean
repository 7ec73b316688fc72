import Verif.Lemmas.Consensus
/-!
C51: accepted commit certificates carry a quorum of distinct validators.
-/
namespace Verif
open Spec
section
variable {cr : Crypto} {sets : StoredSets}

/-- Exactly which certificates are accepted: those with more signatures than two thirds of the validators in charge,
whose signers are validators listed in the order of the validator set, each with a valid signature on a precommit for
the certificate's value, height and round. -/
theorem C51_accepted_iff {c : Commits} :
    verifySignatures cr sets c = true ↔
      2 * (inCharge sets c.height.block).length < 3 * c.sigs.length ∧
      (c.sigs.map (·.1)).Sublist (inCharge sets c.height.block) ∧
      ∀ s ∈ c.sigs, cr.valid s.1 ⟨c.height, cr.roundOf c.round, c.value, s.1⟩ s.2 = true := by
  unfold verifySignatures quorumMet
  simp only [Bool.and_eq_true, decide_eq_true_eq, checkSignatures_iff]
  exact Iff.rfl

/-- An accepted certificate was signed by distinct validators of the set in charge, more than two thirds of it. -/
theorem C51_quorum {shard : Nat} {first : SetConfig} {others : List SetConfig} {c : Commits}
    (h : verifySignatures cr (configured shard first others) c = true) :
    ∃ signers : List Bytes, signers.Nodup ∧
      (∀ k ∈ signers, k ∈ inCharge (configured shard first others) c.height.block ∧ SignedBy cr c k) ∧
      2 * (inCharge (configured shard first others) c.height.block).length < 3 * signers.length := by
  obtain ⟨h1, h2, h3⟩ := C51_accepted_iff.1 h
  refine ⟨c.sigs.map (·.1), inCharge_nodup.sublist h2, ?_, by simpa using h1⟩
  intro k hk
  refine ⟨h2.subset hk, ?_⟩
  obtain ⟨s, hs, rfl⟩ := List.mem_map.1 hk
  exact ⟨s.2, hs, h3 s hs⟩

/-- No signer counts twice, and outsiders are rejected. -/
theorem C51_no_duplicates_or_outsiders {shard : Nat} {first : SetConfig} {others : List SetConfig} {c : Commits}
    (h : ¬ (c.sigs.map (·.1)).Nodup ∨ ∃ s ∈ c.sigs, s.1 ∉ inCharge (configured shard first others) c.height.block) :
    verifySignatures cr (configured shard first others) c = false := by
  cases hv : verifySignatures cr (configured shard first others) c with
  | false => rfl
  | true =>
    obtain ⟨_, h2, _⟩ := C51_accepted_iff.1 hv
    rcases h with h | ⟨s, hs, hn⟩
    · exact absurd (inCharge_nodup.sublist h2) h
    · exact absurd (h2.subset (List.mem_map_of_mem hs)) hn

/-- Two accepted certificates for one height have more than a third of the validators in common; so if they name
different values for one round, more than a third signed both. -/
theorem C51_two_certificates_overlap {shard : Nat} {first : SetConfig} {others : List SetConfig} {c c' : Commits}
    (hh : c.height.block = c'.height.block)
    (h : verifySignatures cr (configured shard first others) c = true)
    (h' : verifySignatures cr (configured shard first others) c' = true) :
    ∃ both : List Bytes, both.Nodup ∧
      (∀ k ∈ both, k ∈ inCharge (configured shard first others) c.height.block ∧ SignedBy cr c k ∧ SignedBy cr c' k) ∧
      (inCharge (configured shard first others) c.height.block).length < 3 * both.length := by
  obtain ⟨A, hA, hA1, hA2⟩ := C51_quorum h
  obtain ⟨B, hB, hB1, hB2⟩ := C51_quorum h'
  rw [← hh] at hB1 hB2
  refine ⟨A.filter (fun k => decide (k ∈ B)), hA.sublist List.filter_sublist, ?_, ?_⟩
  · intro k hk
    simp only [List.mem_filter, decide_eq_true_eq] at hk
    exact ⟨(hA1 k hk.1).1, (hA1 k hk.1).2, (hB1 k hk.2).2⟩
  · have hlen := Tree.Good.length_le_of_subset (l := A.filter (fun k => !decide (k ∈ B)) ++ B)
      (m := inCharge (configured shard first others) c.height.block)
      (by
        rw [List.nodup_append]
        refine ⟨hA.sublist List.filter_sublist, hB, ?_⟩
        intro a ha b hb e
        subst e
        simp [List.mem_filter, hb] at ha)
      (by
        intro k hk
        rcases List.mem_append.1 hk with hk | hk
        · exact (hA1 k (List.mem_filter.1 hk).1).1
        · exact (hB1 k hk).1)
    have hsplit : A.length = (A.filter (fun k => decide (k ∈ B))).length + (A.filter (fun k => !decide (k ∈ B))).length := by
      clear hlen hA hA1 hA2
      induction A with
      | nil => rfl
      | cons a A ih =>
        by_cases hab : a ∈ B
        · simp only [List.filter_cons, hab, decide_true, if_true, List.length_cons, Bool.not_true, Bool.false_eq_true,
            if_false]; omega
        · simp only [List.filter_cons, hab, decide_false, if_true, List.length_cons, Bool.not_false, Bool.false_eq_true,
            if_false]; omega
    simp only [List.length_append] at hlen
    omega

end

namespace C51Case

/-- A signature is valid if it repeats the key and the value. -/
def cr : Crypto := ⟨fun r => r, fun k v sig => sig == k ++ v.value.hash⟩
def cfg : SetConfig := ⟨0, [[3], [1], [4], [2], [1]], [1]⟩
def sets : StoredSets := configured 1 cfg []
def cert (signers : List Bytes) : Commits := ⟨⟨1, 5⟩, 0, ⟨1, [9]⟩, signers.map (fun k => (k, k ++ [9]))⟩

/-- The set in charge is sorted and without repetition; three of the four in order are accepted, two are too few, a
repeated signer and an outsider are refused. -/
example : inCharge sets 5 = [[1], [2], [3], [4]] ∧ verifySignatures cr sets (cert [[1], [2], [4]]) = true ∧
    verifySignatures cr sets (cert [[1], [2]]) = false ∧ verifySignatures cr sets (cert [[1], [1], [2]]) = false ∧
    verifySignatures cr sets (cert [[1], [2], [5]]) = false ∧
    verifySignatures cr sets { cert [[1], [2], [4]] with value := ⟨1, [8]⟩ } = false := by decide +kernel

end C51Case

/-- A genuine quorum listed in another order is refused. -/
theorem C51_order_matters :
    ∃ (cr : Crypto) (sets : StoredSets) (c c' : Commits), c.sigs.Perm c'.sigs ∧ c' = { c with sigs := c'.sigs } ∧
      verifySignatures cr sets c = true ∧ verifySignatures cr sets c' = false :=
  ⟨C51Case.cr, C51Case.sets, C51Case.cert [[1], [2], [4]], C51Case.cert [[2], [1], [4]], by decide +kernel, rfl,
    by decide +kernel, by decide +kernel⟩

end Verif
