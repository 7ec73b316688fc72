import Verif.Model.BlockEvents
/-! The repair of a missed heartbeat when a node starts.  `fix` in citations is /repo/src/utils/block_event_fix.rs. -/
namespace Verif
namespace Reconcile

/-- `BlockEventData::type()` is a heartbeat: 0, and any number that is no type, for prost reads that as the default. -/
def isHeartbeat (ty : Nat) : Bool := ty != 1 && ty != 2

/-- `reconcile_heartbeat_events`, fix 7-50: the database of the data shard after it. A missing part of the event is a panic. -/
def reconcile (source target : Db BEvent) (n : Nat) : Except HubErr (Db BEvent) :=
  match blockEventBySeqnum some source n with
  | .error e => .error e
  | .ok none => .ok target
  | .ok (some e) => match e.data with
    | none => .error .internal
    | some d =>
      if isHeartbeat d.ty then
        match maxSeqnum some target with
        | .error x => .error x
        | .ok m =>
          if (m + 1) % 2 ^ 64 = d.seqnum then
            match putBlockEvent id e OMap.empty with
            | .error x => .error x
            | .ok t => .ok (target.commit t)
          else .ok target
      else .ok target

/-- A start of the node, /repo/src/node/snapchain_node.rs:156-170 and /repo/src/node/snapchain_read_node.rs:117-131: the setting is 0
if nothing is to be repaired, and an error is logged. -/
def start (source target : Db BEvent) (setting : Nat) : Db BEvent :=
  if setting = 0 then target
  else match reconcile source target setting with
    | .error _ => target
    | .ok db => db

end Reconcile
end Verif
