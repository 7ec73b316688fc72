import Verif.Lemmas.ValidateMsg
import Verif.Case.Validate
/-! C71: profile entries and name proofs are accepted exactly when they are well formed. -/
namespace Verif

/-- A profile entry in a message that is otherwise in order is accepted exactly when its value is of the documented form
for its kind.  The only thing asked of the Unicode tables is that a dash is no digit. -/
theorem C71_profile_accepted_iff (env : VEnv) (ho : env.otherDigit 45 = false) (current : Network) (pro : Bool) (now : Nat)
    (v : EngineVersion) (m : WMsg) (d : WData) (bytes : Bytes) (ty : Int) (s : Bytes)
    (he : GoodEnvelope env current pro now v.num m d bytes) (hb : d.body = some (.userData ty s)) :
    validateMessage env current pro now v m = .ok () ↔ GoodProfile env ty s pro v.num := by
  rw [validateMessage_of_envelope he, validateContent, hb]
  exact validateUserData_ok ho

/-- A name proof in a message that is otherwise in order is accepted exactly when its name is an ENS name or a base name
according to its kind. -/
theorem C71_name_proof_accepted_iff (env : VEnv) (current : Network) (pro : Bool) (now : Nat)
    (v : EngineVersion) (m : WMsg) (d : WData) (bytes : Bytes) (ty : Int) (name owner : Bytes) (ts fid : Nat)
    (he : GoodEnvelope env current pro now v.num m d bytes) (hb : d.body = some (.usernameProof ty name ts owner fid)) :
    validateMessage env current pro now v m = .ok () ↔ GoodProof env ty name v.num := by
  rw [validateMessage_of_envelope he, validateContent, hb]
  exact validateProofName_ok

/-- Names of the three kinds never coincide, and a name with a suffix determines the bare name. -/
theorem C71_kinds_of_names_are_disjoint (s : Bytes) :
    ¬ (IsName s ∧ IsEnsName s) ∧ ¬ (IsName s ∧ IsBaseName s) ∧ ¬ (IsEnsName s ∧ IsBaseName s) := by
  refine ⟨?_, ?_, ?_⟩
  · rintro ⟨h, p, -, rfl⟩
    exact h.noDot (by simp)
  · rintro ⟨h, p, -, rfl⟩
    exact h.noDot (by simp)
  · rintro ⟨⟨p, hp, rfl⟩, q, hq, he⟩
    have : p ++ [46, 101, 116, 104] = q ++ [46, 98, 97, 115, 101] ++ [46, 101, 116, 104] := by rw [he]; simp
    have := List.append_cancel_right this
    exact hp.noDot (by rw [this]; simp)

/-- A user can clear each kind of entry that their version and subscription let them set, except the GitHub name. -/
theorem C71_entries_can_be_cleared (env : VEnv) (ho : env.otherDigit 45 = false) (hc : env.chars [] = some []) (ty : Int)
    (s : Bytes) (pro : Bool) (v : EngineVersion) (h : validateUserData env ty s pro v = .ok ()) :
    validateUserData env ty [] pro v = .ok () ↔ ty ≠ 9 := by
  rw [validateUserData_ok ho] at h ⊢
  unfold GoodProfile at h ⊢
  by_cases h9 : ty = 9
  · subst h9
    simp [hc, IsGithubName]
  · simp only [IsTwitterName, List.length_nil, Nat.zero_le, List.not_mem_nil, false_implies, implies_true, and_true,
      true_or, h9, false_and, false_or, ne_eq, not_false_eq_true, iff_true] at h ⊢
    grind

/-- The GitHub name cannot be cleared once set. -/
theorem C71_github_cannot_be_cleared (env : VEnv) (pro : Bool) (v : EngineVersion) (hc : env.chars [] = some []) :
    validateUserData env 9 [] pro v ≠ .ok () := by
  simp [validateUserData, UdType.ofInt, validateGithub, hc, githubMatch]

/-- A GitHub name may have digits of any script, which GitHub does not allow. -/
theorem C71_github_takes_other_digits : ∃ (env : VEnv) (s : Bytes) (cs : List Nat) (c : Nat),
    env.chars s = some cs ∧ c ∈ cs ∧ 127 < c ∧ validateUserData env 9 s false .v20 = .ok () :=
  ⟨{ demoEnv (demoData 1 (.castRemove [])) with chars := fun _ => some [97, 0x663] }, [97, 0xd9, 0xa3], [97, 0x663], 0x663,
    rfl, by decide, by decide, rfl⟩

/-! Concrete values of each form. -/

-- "alice", "alice.eth" and "alice.base.eth" as usernames; "-alice" and "a.b.eth" are refused.
example : validateUserData (demoEnv (demoData 1 (.castRemove []))) 6 [97, 108, 105, 99, 101] false .v20 = .ok () := rfl
example : validateUserData (demoEnv (demoData 1 (.castRemove []))) 6 ([97, 108, 105, 99, 101] ++ dotEth) false .v20 = .ok () := rfl
example : validateUserData (demoEnv (demoData 1 (.castRemove []))) 6 ([97, 108, 105, 99, 101] ++ dotBaseEth) false .v20 = .ok () := rfl
example : validateUserData (demoEnv (demoData 1 (.castRemove []))) 6 [45, 97] false .v20 = .error .nameDoesntMatch := rfl
example : validateUserData (demoEnv (demoData 1 (.castRemove []))) 6 ([97, 46, 98] ++ dotEth) false .v20 =
    .error .unsupportedSubdomain := rfl
-- "geo:-90.00,180.00" is a location, "geo:90.01,0.00" is not.
example : validateLocation [103, 101, 111, 58, 45, 57, 48, 46, 48, 48, 44, 49, 56, 48, 46, 48, 48] = .ok () := rfl
example : validateLocation [103, 101, 111, 58, 57, 48, 46, 48, 49, 44, 48, 46, 48, 48] = .error .latitudeOutOfRange := rfl
-- "ab:1/erc:0x/7" is an asset.
example : validateCaip19 [97, 98, 58, 49, 47, 101, 114, 99, 58, 48, 120, 47, 55] = .ok () := by decide +kernel
example : GoodEnvelope (demoEnv (demoData 11 (.userData 2 [97]))) .mainnet false 1000 20
    (demoMsg (demoData 11 (.userData 2 [97]))) (demoData 11 (.userData 2 [97])) [7] :=
  ⟨.inl ⟨rfl, by simp [demoEnv]⟩, by decide, ⟨by decide, fun _ => rfl⟩, ⟨by decide, rfl, rfl, rfl, rfl, rfl, rfl⟩,
    fun _ => by decide⟩

end Verif
