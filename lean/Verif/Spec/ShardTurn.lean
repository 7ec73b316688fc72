import Verif.Model.ShardEngine
import Verif.Spec.ShardTrie
/-! What a transaction should do to the messages a shard holds. -/
namespace Verif

/-- Work of an engine whose record is a history C84 covers: the stores and the trie are what the recorded steps make. -/
def ShardCfg.Worked {R F : Type} (c : ShardCfg R F) (U : Msg → Prop) (E : TrieEntry → Prop) (w : ShardWork R) : Prop :=
  ∃ ops, w.done = some ops ∧ StoreTrie.shardRun c.H c.ord c.sha256 c.env.channelOf c.env.ctx ops {} = .ok w.st ∧
    ({} : StoreState).ShardStepsOK c.env.channelOf c.env.ctx U c.sha256 E {} ops

namespace Spec

/-- `st'` holds what `st` holds, except that in the store `kind` the message `m` replaces the messages about its item; if
`stays` is false it goes itself. -/
def Replaces (channelOf : Bytes → Option Bytes) (st st' : StoreState) (kind : StoreKind) (m : Msg) (stays : Prop) : Prop :=
  ∀ (j : StoreKind) x, st'.Has (j.store channelOf) x ↔
    (j = kind ∧ x = m ∧ stays) ∨ (st.Has (j.store channelOf) x ∧ ¬ (j = kind ∧ x.Rivals m))

/-- The withdrawal of a loan. -/
def Withdrawal (m : Msg) : Prop := m.ty = .lendStorage ∧ ∃ to ty, m.body = .lend to 0 ty

/-- The profile field a message sets. -/
def field (m : Msg) : Option Nat :=
  match m.body with
  | .userData t _ => some t
  | _ => none

/-- The order in which the user messages of a transaction are taken: verified addresses first, then username proofs,
then the profile fields that rest on them (username, primary addresses), other profile fields, and everything else. -/
def turn (m : Msg) : Nat :=
  if m.ty = .verificationAdd then 1
  else if m.ty = .usernameProof then 2
  else if m.ty = .userDataAdd ∧ field m ∈ [some 6, some 11, some 12] then 3
  else if m.ty = .userDataAdd then 4
  else 5

/-- The message that a hub event reports as merged or as failed. -/
def reported : ShardHub → Option Msg
  | .store (.merge m _) => some m
  | .failed m => some m
  | _ => none

/-- A message of one of the six message stores. -/
def OfStore (m : Msg) : Prop :=
  m.ty ∈ [.castAdd, .castRemove, .reactionAdd, .reactionRemove, .linkAdd, .linkRemove, .linkCompactState, .verificationAdd,
    .verificationRemove, .userDataAdd, .lendStorage]

instance (m : Msg) : Decidable (OfStore m) := by unfold OfStore; infer_instance

end Spec
end Verif
