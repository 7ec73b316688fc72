import Verif.Lemmas.ValidateMsg
import Verif.Case.Validate
/-! C72: a message is accepted exactly when its envelope and its content are in order. -/
namespace Verif

/-- The whole of stateless validation.  `now` is the time of the block in seconds since the Farcaster epoch. -/
theorem C72_accepted_iff (env : VEnv) (ho : env.otherDigit 45 = false) (current : Network) (pro : Bool) (now : Nat)
    (v : EngineVersion) (m : WMsg) (h1 : 600 ≤ now) (h2 : now < 2 ^ 32) :
    validateMessage env current pro now v m = .ok () ↔
      ∃ d bytes, GoodEnvelope env current pro now v.num m d bytes ∧ GoodBody env pro now v.num d :=
  validateMessage_ok ho h1 h2

/-- At any time: an accepted message has the hash of the bytes it carries, a signature of its signer over that hash, is for
this network, is no larger than its kind allows, and from version 6 on is not from the future. -/
theorem C72_accepted_envelope (env : VEnv) (current : Network) (pro : Bool) (now : Nat) (v : EngineVersion) (m : WMsg)
    (h : validateMessage env current pro now v m = .ok ()) :
    ∃ d bytes, GoodEnvelope env current pro now v.num m d bytes := by
  obtain ⟨d, bytes, he, -⟩ := validateMessage_envelope.1 h
  exact ⟨d, bytes, he⟩

/-- No accepted message is larger than 64 KiB, and before version 5 none is larger than 2 KiB. -/
theorem C72_size_bounded (env : VEnv) (current : Network) (pro : Bool) (now : Nat) (v : EngineVersion) (m : WMsg)
    (d : WData) (bytes : Bytes) (hc : Contents env m d bytes) (h : validateMessage env current pro now v m = .ok ()) :
    bytes.length ≤ 65536 ∧ (v.num < 5 → bytes.length ≤ 2048) := by
  obtain ⟨d', b', he⟩ := C72_accepted_envelope env current pro now v m h
  obtain ⟨rfl, rfl⟩ := hc.unique he.contents
  have := he.size
  unfold sizeLimit at this
  split at this
  · omega
  · split at this
    · omega
    · split at this <;> omega

/-- What is accepted at some time stays accepted at later times, unless it lends storage. -/
theorem C72_acceptance_lasts (env : VEnv) (current : Network) (pro : Bool) (now later : Nat) (v : EngineVersion) (m : WMsg)
    (d : WData) (bytes : Bytes) (hc : Contents env m d bytes)
    (hl : ∀ to units ty, d.body ≠ some (.lendStorage to units ty)) (hle : now ≤ later)
    (h : validateMessage env current pro now v m = .ok ()) : validateMessage env current pro later v m = .ok () := by
  obtain ⟨d', b', he, hb⟩ := validateMessage_envelope.1 h
  obtain ⟨rfl, rfl⟩ := hc.unique he.contents
  refine validateMessage_envelope.2 ⟨d, bytes, { he with time := fun h => by have := he.time h; omega }, ?_⟩
  rw [← hb]
  unfold validateContent
  cases hd : d.body with
  | none => rfl
  | some b => cases b <;> first | exact absurd hd (hl _ _ _) | rfl

/-- In the first ten minutes of Farcaster time the check on lends wraps around: a lend made right then is refused.  All
real blocks are later. -/
theorem C72_lends_at_the_epoch_are_refused (env : VEnv) (pro : Bool) (v : EngineVersion) (n : Int) (d : WData)
    (to units : Nat) (ty : Int) (now : Nat) (hd : d.body = some (.lendStorage to units ty)) (hn : now < 600)
    (ht : d.ts ≤ now + 600) : validateContent env pro now v n d = .error .tooFarInPast := by
  simp only [validateContent, hd]
  have : d.ts < lendFloor now := by unfold lendFloor; omega
  rw [if_pos this]

/-! A message that is accepted, and three that are not: for another network, tampered with, and from the future. -/

example : validateMessage (demoEnv (demoData 2 (.castRemove (List.replicate 20 1)))) .mainnet false 1000 .v20
    (demoMsg (demoData 2 (.castRemove (List.replicate 20 1)))) = .ok () := rfl

example : validateMessage (demoEnv { demoData 2 (.castRemove (List.replicate 20 1)) with network := 3 }) .mainnet false 1000
    .v20 (demoMsg { demoData 2 (.castRemove (List.replicate 20 1)) with network := 3 }) = .error .invalidNetwork := rfl

example : validateMessage (demoEnv (demoData 2 (.castRemove (List.replicate 20 1)))) .mainnet false 1000 .v20
    { demoMsg (demoData 2 (.castRemove (List.replicate 20 1))) with hash := List.replicate 20 6 } = .error .invalidHash := rfl

example : validateMessage (demoEnv { demoData 2 (.castRemove (List.replicate 20 1)) with ts := 1601 }) .mainnet false 1000
    .v20 (demoMsg { demoData 2 (.castRemove (List.replicate 20 1)) with ts := 1601 }) = .error .tooFarInFuture := rfl

end Verif
