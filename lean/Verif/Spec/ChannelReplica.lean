import Verif.Model.ChannelReplica
import Verif.Spec.Channel
/-!
Histories of the channels of a data shard.
-/
namespace Verif

/-- The channel message a block event carries. -/
def BEvent.channelMessage (e : BEvent) : Option Msg :=
  match e.data.bind (·.body) with
  | some (.message (some m)) =>
    if m.ty = .channelUpdate ∨ m.ty = .channelMember ∨ m.ty = .channelPin ∨ m.ty = .channelModerate then some m else none
  | _ => none

/-- One step of a data shard. -/
inductive ReplicaOp where
  /-- A block event is replayed. -/
  | event (e : BEvent)
  /-- Another store writes (`some`) or deletes (`none`) a row. -/
  | other (k : Bytes) (v : Option SVal)
  /-- The batch is committed. -/
  | commit
  /-- The batch is dropped, with the events replayed in it. -/
  | drop
  /-- A new block starts. -/
  | block (height : Nat)
  /-- Others draw event numbers. -/
  | numbers (g : IdGen)

/-- The channel stores of a data shard, the events replayed so far, those committed, and the messages refused. -/
structure ChanReplica where
  node : ChanNode := {}
  heard : List BEvent := []
  kept : List BEvent := []
  refused : List Msg := []

namespace ChanReplica

/-- Run one step. -/
def exec (ver : Nat → EngineVersion) (caps : SlotCaps) (r : ChanReplica) : ReplicaOp → ChanReplica
  | .event e =>
    match replayChannelEvent ver caps r.node.st.db e r.node.st.pend with
    | none => { r with heard := r.heard ++ [e] }
    | some (m, .ok x, s) => { r with node := r.node.after m (.ok x, s), heard := r.heard ++ [e] }
    | some (m, .error x, s) => { r with node := r.node.after m (.error x, s), heard := r.heard ++ [e], refused := m :: r.refused }
  | .other k v => { r with node := r.node.exec caps (.other k v) }
  | .commit => { r with node := r.node.exec caps .commit, kept := r.heard }
  | .drop => { r with node := r.node.exec caps .drop, heard := r.kept }
  | .block h => { r with node := r.node.exec caps (.block h) }
  | .numbers g => { r with node := r.node.exec caps (.numbers g) }

/-- Run a history. -/
def run (ver : Nat → EngineVersion) (caps : SlotCaps) (r : ChanReplica) (ops : List ReplicaOp) : ChanReplica := ops.foldl (exec ver caps) r

/-- The data shard follows the events `es`: it replays the one that is next after those replayed so far, which may be again
after a batch was dropped, and has an event number left for it.  Other stores keep to their keys. -/
def Follows (ver : Nat → EngineVersion) (caps : SlotCaps) (es : List BEvent) : ChanReplica → List ReplicaOp → Prop
  | _, [] => True
  | r, .event e :: l => es[r.heard.length]? = some e ∧ (∃ id g, r.node.st.pend.gen.generateId false = (.ok id, g)) ∧
      Follows ver caps es (r.exec ver caps (.event e)) l
  | r, .other k v :: l => ForeignKey k ∧ Follows ver caps es (r.exec ver caps (.other k v)) l
  | r, o :: l => Follows ver caps es (r.exec ver caps o) l

end ChanReplica

/-- Two nodes show the same channels. -/
structure SameChannels (n n' : ChanNode) : Prop where
  slots : ∀ s : ChanSlot, s.WF → n.slot s = n'.slot s
  roles : ∀ ch f, ch.length = 32 → f < 2 ^ 32 → n.role ch f = n'.role ch f
  modes : ∀ ch, ch.length = 32 → n.mode ch = n'.mode ch
  moderators : ∀ ch, ch.length = 32 → n.moderatorCounter ch = n'.moderatorCounter ch
  counters : ∀ K ch, ch.length = 32 → n.slotCounter K ch = n'.slotCounter K ch

end Verif
