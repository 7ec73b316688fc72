import Verif.Model.Usage
import Verif.Spec.ShardTrie
/-! Counting messages. -/
namespace Verif

/-- There are `n` messages with the property. -/
def NumberOf (P : Msg → Prop) (n : Nat) : Prop := ∃ ms : List Msg, ms.Nodup ∧ (∀ m, m ∈ ms ↔ P m) ∧ ms.length = n

/-- The limit that applies to a store. -/
def StoreKind.limit : StoreKind → LimitKind
  | .casts => .casts | .reactions => .reactions | .links => .links
  | .verifications => .verifications | .userData => .userData | .lends => .lends

/-- The message types of a store. -/
def StoreKind.types : StoreKind → List MessageType
  | .casts => [.castAdd, .castRemove] | .reactions => [.reactionAdd, .reactionRemove]
  | .links => [.linkAdd, .linkRemove] | .verifications => [.verificationAdd, .verificationRemove]
  | .userData => [.userDataAdd] | .lends => [.lendStorage]

/-- The message is listed under the user: they wrote it or, for a loan, received it. -/
def Msg.concerns (m : Msg) (fid : Nat) : Prop :=
  m.fid = fid ∨ ∃ units ty, m.body = .lend fid units ty

/-- The user has a message of the type, or none was committed when the pending batch began. -/
def StoreState.NotEmptied (D : StoreDef) (ctx : Nat → MergeCtx) (st : StoreState) (fid : Nat) (ty : MessageType) : Prop :=
  (∃ m, st.Has D m ∧ m.concerns fid ∧ m.ty = ty) ∨ ∀ m, (st.exec D ctx .drop).Has D m → ¬ (m.concerns fid ∧ m.ty = ty)

end Verif
