import Verif.Model.EventMigration
import Verif.Spec.OnChain
/-! What the migration of on-chain events is for. -/
namespace Verif
namespace EvMig

/-- The database of an on-chain event store after any history, and the events committed in it. -/
def Holds (keccak : Bytes → Bytes) (db : Db OVal) (events : List OEvent) : Prop :=
  ∃ ops, Spec.OpsFit ops ∧ db = (ChainNode.run keccak ops).db ∧ events = (ChainNode.run keccak ops).saved

/-- The event, or another of its type and user at its block and log index, is committed in the database. -/
def Has (keccak : Bytes → Bytes) (db : Db OVal) (e : OEvent) : Prop :=
  ∃ events, Holds keccak db events ∧ ∃ x ∈ events, Spec.SamePlace x e

end EvMig
end Verif
