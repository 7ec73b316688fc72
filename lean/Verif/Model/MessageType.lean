/-! Message types. -/
namespace Verif

/-- `MessageType`, /repo/proto/definitions/message.proto:69-93. -/
inductive MessageType where
  | none | castAdd | castRemove | reactionAdd | reactionRemove | linkAdd | linkRemove
  | verificationAdd | verificationRemove | userDataAdd | usernameProof | frameAction
  | linkCompactState | lendStorage | keyAdd | keyRemove | channelUpdate | channelMember
  | channelPin | channelModerate
  deriving DecidableEq, Repr

/-- The wire numbers, message.proto:69-93. -/
def MessageType.num : MessageType → Nat
  | .none => 0 | .castAdd => 1 | .castRemove => 2 | .reactionAdd => 3 | .reactionRemove => 4
  | .linkAdd => 5 | .linkRemove => 6 | .verificationAdd => 7 | .verificationRemove => 8
  | .userDataAdd => 11 | .usernameProof => 12 | .frameAction => 13 | .linkCompactState => 14
  | .lendStorage => 15 | .keyAdd => 16 | .keyRemove => 17 | .channelUpdate => 18
  | .channelMember => 19 | .channelPin => 20 | .channelModerate => 21

end Verif
