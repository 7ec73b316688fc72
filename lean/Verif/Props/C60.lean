import Verif.Lemmas.ValidateMsg
import Verif.Case.Validate
/-! C60: accepted casts are exactly the well-formed ones. -/
namespace Verif

/-- The cast in an accepted message is well formed for its time, its author's subscription and the protocol version. -/
theorem C60_accepted_casts_are_well_formed (env : VEnv) (current : Network) (pro : Bool) (now : Nat) (v : EngineVersion)
    (m : WMsg) (d : WData) (bytes : Bytes) (b : WCast) (hc : Contents env m d bytes) (hb : d.body = some (.castAdd b))
    (h : validateMessage env current pro now v m = .ok ()) : GoodCast b d.ts pro v.num := by
  obtain ⟨d', b', he, hv⟩ := validateMessage_envelope.1 h
  obtain ⟨rfl, rfl⟩ := hc.unique he.contents
  rw [validateContent, hb] at hv
  exact validateCastAdd_ok.1 hv

/-- And every well-formed cast in a message that is otherwise in order is accepted. -/
theorem C60_well_formed_casts_are_accepted (env : VEnv) (current : Network) (pro : Bool) (now : Nat) (v : EngineVersion)
    (m : WMsg) (d : WData) (bytes : Bytes) (b : WCast) (he : GoodEnvelope env current pro now v.num m d bytes)
    (hb : d.body = some (.castAdd b)) (hg : GoodCast b d.ts pro v.num) :
    validateMessage env current pro now v m = .ok () := by
  rw [validateMessage_of_envelope he, validateContent, hb]
  exact validateCastAdd_ok.2 hg

/-- A subscription and newer versions only ever admit more casts. -/
theorem C60_subscription_and_versions_only_add (b : WCast) (ts : Nat) (pro pro' : Bool) (v v' : Nat)
    (hp : pro = true → pro' = true) (hv : v ≤ v') (h : GoodCast b ts pro v) : GoodCast b ts pro' v' :=
  { h with
    text := by
      rcases h.text with h | h | ⟨h1, h2, h3⟩
      · exact .inl h
      · exact .inr (.inl h)
      · exact .inr (.inr ⟨h1, hp h2, h3⟩)
    embedCount := by
      rcases h.embedCount with h | ⟨h1, h2⟩
      · exact .inl h
      · exact .inr ⟨h1, h2.imp hp fun h => Nat.le_trans h hv⟩ }

/-! A cast with mentions, an embed and a parent is accepted; one with its positions swapped is not. -/

example : validateMessage (demoEnv (demoData 1 (.castAdd demoCast))) .mainnet false 1000 .v20
    (demoMsg (demoData 1 (.castAdd demoCast))) = .ok () := rfl

example : Contents (demoEnv (demoData 1 (.castAdd demoCast))) (demoMsg (demoData 1 (.castAdd demoCast)))
    (demoData 1 (.castAdd demoCast)) [7] := .inl ⟨rfl, by simp [demoEnv]⟩

example : validateMessage (demoEnv (demoData 1 (.castAdd { demoCast with positions := [2, 0] }))) .mainnet false 1000 .v20
    (demoMsg (demoData 1 (.castAdd { demoCast with positions := [2, 0] }))) = .error .positionsNotSorted := rfl

/-- Three embeds need a subscription before version 20. -/
example : validateCastAdd { demoCast with embeds := List.replicate 3 (some (.url [97])) } false false .v19 =
    .error .embedsExceedsLimit ∧
    validateCastAdd { demoCast with embeds := List.replicate 3 (some (.url [97])) } false true .v19 = .ok () ∧
    validateCastAdd { demoCast with embeds := List.replicate 3 (some (.url [97])) } false false .v20 = .ok () :=
  ⟨rfl, rfl, rfl⟩

end Verif
