import Verif.Lemmas.ValidateMsg
import Verif.Case.Validate
/-! C74: reactions, links, removals, frame actions, lends, keys and channel messages are accepted exactly when they are
well formed. -/
namespace Verif

/-- The content of a message that is otherwise in order decides, by the documented limits for its kind. -/
theorem C74_accepted_iff (env : VEnv) (current : Network) (pro : Bool) (now : Nat) (v : EngineVersion) (m : WMsg)
    (d : WData) (bytes : Bytes) (b : WBody) (he : GoodEnvelope env current pro now v.num m d bytes)
    (hb : d.body = some b) (ho : b.other = true) (h1 : 600 ≤ now) (h2 : now < 2 ^ 32) :
    validateMessage env current pro now v m = .ok () ↔ GoodOther v.num now d.ts b := by
  rw [validateMessage_of_envelope he]
  exact validateContent_other hb ho h1 h2

/-- The kind announced in the envelope is not compared with the kind of the content: whether the content is well formed
does not depend on it. -/
theorem C74_announced_type_is_not_checked (env : VEnv) (pro : Bool) (now : Nat) (v : EngineVersion) (n ty : Int)
    (d : WData) : validateContent env pro now v n { d with ty := ty } = validateContent env pro now v n d := rfl

/-- Reactions of kind 0, "none", are accepted like likes and recasts. -/
theorem C74_reactions_of_no_kind (target : Option WTarget) :
    validateReaction 0 target = .ok () ↔ validateReaction 1 target = .ok () := by
  rw [validateReaction_ok, validateReaction_ok]
  simp

/-! One of each kind. -/

example : validateContent (demoEnv (demoData 1 (.castRemove []))) false 1000 .v21 1
    (demoData 3 (.reaction 1 (some (.url [97])))) = .ok () := rfl
example : validateContent (demoEnv (demoData 1 (.castRemove []))) false 1000 .v21 1
    (demoData 5 (.link [102, 111, 108, 108, 111, 119] (some 3))) = .ok () := rfl
example : validateContent (demoEnv (demoData 1 (.castRemove []))) false 1000 .v21 1
    (demoData 5 (.link [102, 111, 108, 108, 111, 119] (some 0))) = .error .fidIsMissing := rfl
example : validateContent (demoEnv (demoData 1 (.castRemove []))) false 1000 .v21 1
    (demoData 14 (.linkCompactState [102] [3, 4])) = .ok () := rfl
example : validateContent (demoEnv (demoData 1 (.castRemove []))) false 1000 .v21 1
    (demoData 13 (.frameAction ⟨[97], 5, none, [], [], [], []⟩)) = .ok () := rfl
example : validateContent (demoEnv (demoData 1 (.castRemove []))) false 1600 .v21 1
    (demoData 15 (.lendStorage 3 5000 2)) = .ok () := rfl
example : validateContent (demoEnv (demoData 1 (.castRemove []))) false 1601 .v21 1
    (demoData 15 (.lendStorage 3 5000 2)) = .error .tooFarInPast := rfl
example : validateContent (demoEnv (demoData 1 (.castRemove []))) false 1000 .v21 1
    (demoData 19 (.channelMember (List.replicate 32 0) 5 6)) = .ok () := rfl
example : validateContent (demoEnv (demoData 1 (.castRemove []))) false 1000 .v20 1
    (demoData 19 (.channelMember (List.replicate 32 0) 5 6)) = .error .invalidMessageType := rfl

example : GoodEnvelope (demoEnv (demoData 19 (.channelMember (List.replicate 32 0) 5 6))) .mainnet false 1000 21
    (demoMsg (demoData 19 (.channelMember (List.replicate 32 0) 5 6)))
    (demoData 19 (.channelMember (List.replicate 32 0) 5 6)) [7] :=
  ⟨.inl ⟨rfl, by simp [demoEnv]⟩, by decide, ⟨by decide, fun _ => rfl⟩, ⟨by decide, rfl, rfl, rfl, rfl, rfl, rfl⟩,
    fun _ => by decide⟩

end Verif
