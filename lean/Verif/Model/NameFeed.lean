import Verif.Model.Validate
/-!
Reading the registry of names: `Fetcher` of /repo/src/connectors/fname/mod.rs (below: the file), with the id it
stores in /repo/src/storage/store/node_local_state.rs:157-179.

The server is a function from the asked position to a page; it may change at any time.  One request, one transfer
or one database write is one step.
-/
namespace Verif
namespace NameFeed

/-- `Transfer`, the file 53-77: what the server sends. -/
structure Entry where
  id : Nat
  timestamp : Nat
  username : Bytes
  owner : Bytes
  from_ : Nat
  to : Nat
  serverSignature : Bytes
  deriving DecidableEq, Repr

/-- The checks of a hexadecimal field and its value, the file 98-106. -/
def hexField (s : Bytes) : Option Bytes :=
  if s.take 2 ≠ hexPrefix ∨ s.length ≤ 2 then none else hexDecode (s.drop 2)

/-- `transfer_to_fname_transfer`, the file 94-119.  The error is always `InvalidFormat`. -/
def parse (t : Entry) : Option WTransfer :=
  match hexField t.owner, hexField t.serverSignature with
  | some owner, some signature => some
    { fromFid := t.from_, name := t.username, ts := t.timestamp, owner := owner, signature := signature, fid := t.to, ty := 1 }
  | _, _ => none

/-- `Config`, the file 19-24. -/
structure Config where
  startFrom : Option Nat
  stopAt : Option Nat

/-- Whether the fetcher ends at an id, the file 259. -/
def Config.stops (cfg : Config) (id : Nat) : Bool :=
  match cfg.stopAt with
  | none => false
  | some stop => decide (id ≥ stop)

/-- Where the fetcher is. -/
inductive Pc where
  /-- not running, or stopped at the configured id -/
  | off
  /-- about to set the initial position -/
  | boot
  /-- about to ask for a page -/
  | ask
  /-- going through a page; `last` is the last id of it that was dealt with -/
  | page (todo : List Entry) (last : Nat)
  deriving DecidableEq, Repr

/-- A node with a fetcher.  `stored` is the id in the database (0 when there is none).  `serve` is the server:
`?from_id=` and `/current`. -/
structure Node where
  serve : Nat → List Entry
  current : Nat := 0
  position : Nat := 0
  stored : Nat := 0
  handed : List (Nat × WTransfer) := []
  pc : Pc := .off

/-- `submit_transfer`, the file 280-306: a transfer that cannot be parsed is only logged. -/
def Node.submit (s : Node) (t : Entry) : Node :=
  match parse t with
  | none => s
  | some w => { s with handed := s.handed ++ [(t.id, w)] }

/-- One step; requests are answered. -/
def Node.step (cfg : Config) (s : Node) : Node :=
  match s.pc with
  | .off => s
  -- `set_initial_position`, the file 308-323
  | .boot => { s with
      position := match cfg.startFrom with
        | none => s.current
        | some start => max start s.stored
      pc := .ask }
  -- `fetch`, the file 236-251
  | .ask => if s.serve s.position = [] then s else { s with pc := .page (s.serve s.position) 0 }
  -- the file 252-273
  | .page (t :: todo) _ =>
    if t.id ≤ s.position then { s with pc := .ask }
    else if cfg.stops t.id then { s with pc := .off }
    else { { s with position := t.id }.submit t with pc := .page todo t.id }
  -- the file 274-276
  | .page [] last => if last > 0 then { s with stored := last, pc := .ask } else { s with pc := .ask }

/-- What can happen. -/
inductive Op where
  | step
  /-- the request of the next step fails: the position stays as it is, at the start at 0 (the file 382-391,
  420-439); a configured start needs no request -/
  | requestFails
  /-- the server changes -/
  | server (serve : Nat → List Entry) (current : Nat)
  /-- `retry_fid` or `retry_fname`, the file 325-379; the answer of the server -/
  | retry (ts : List Entry)
  /-- the process stops and starts again -/
  | restart

/-- Run one of them.  Requests to retry are taken between pages. -/
def Node.exec (cfg : Config) (s : Node) : Op → Node
  | .step => s.step cfg
  | .requestFails => if s.pc = .boot ∧ cfg.startFrom = none then { s with pc := .ask } else s
  | .server serve current => { s with serve := serve, current := current }
  | .retry ts => if s.pc = .ask then ts.foldl Node.submit s else s
  | .restart => { s with position := 0, pc := .boot }

/-- Run a history. -/
def Node.run (cfg : Config) (s : Node) (ops : List Op) : Node := ops.foldl (Node.exec cfg) s

end NameFeed
end Verif
