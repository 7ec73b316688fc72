import Verif.Model.Engine
/-! Histories of a data shard node and what it owes its users. -/
namespace Verif.Spec
section
variable {D W E F : Type}

/-- What may happen at a node while a height is being decided, in any order and any number of times. -/
inductive RoundStep (F : Type) where
  | newRound
  | propose (env : NodeEnv) (height ts : Nat) (txns : List (ETxn F))
  | validate (env : NodeEnv) (height : Nat) (p : Proposal F)

/-- One step; `none` if the node panics. -/
def roundStep (ops : EngineOps D W E F) (H : Bytes → Bytes) (ver : Nat → EngineVersion) (st : EngineState D W E F) :
    RoundStep F → Option (EngineState D W E F)
  | .newRound => some (startRound st)
  | .propose env h ts txns => (propose ops H ver env st h ts txns).map (·.2)
  | .validate env h p => some (validateChange ops H ver env st h p).2

/-- Steps one after another. -/
def roundSteps (ops : EngineOps D W E F) (H : Bytes → Bytes) (ver : Nat → EngineVersion) :
    List (RoundStep F) → EngineState D W E F → Option (EngineState D W E F)
  | [], st => some st
  | s :: l, st =>
    match roundStep ops H ver st s with
    | none => none
    | some st => roundSteps ops H ver l st

/-- A height at a node: rounds, in which anything may be proposed to it, and then the chunk that was decided. -/
structure NodeBlock (F : Type) where
  steps : List (RoundStep F)
  env : NodeEnv
  chunk : EChunk F

/-- The transactions a step offers to the node, with the timestamp. -/
def RoundStep.offers : RoundStep F → List (Nat × ETxn F)
  | .newRound => []
  | .propose _ _ ts txns => txns.map (fun t => (ts, t))
  | .validate _ _ p => p.txns.map (fun t => (p.ts, t))

/-- The transactions offered to the node at a height, in proposals and in the chunk, with their timestamps. -/
def NodeBlock.offers (b : NodeBlock F) : List (Nat × ETxn F) :=
  b.steps.flatMap RoundStep.offers ++ b.chunk.txns.map (fun t => (b.chunk.ts, t))

/-- Deciding heights one after another. -/
def nodeRun (ops : EngineOps D W E F) (H : Bytes → Bytes) (ver : Nat → EngineVersion) :
    List (NodeBlock F) → EngineState D W E F → Option (EngineState D W E F)
  | [], st => some st
  | b :: bs, st =>
    match roundSteps ops H ver b.steps (startRound st) with
    | none => none
    | some st =>
      match commit ops H ver b.env st b.chunk with
      | none => none
      | some st => nodeRun ops H ver bs st

/-- A way to observe which block events reach the stores: a record in the committed state and one in the work in
progress.  Only handling a block event adds to it, and a commit appends the work's record to the state's. -/
structure Ledger (ops : EngineOps D W E F) where
  log : D → List BEvent
  wlog : W → List BEvent
  start : ∀ d h, wlog (ops.start d h) = []
  onchain : ∀ v d w e w' r, ops.onchain v d w e = .ok (w', r) → wlog w' = wlog w
  fname : ∀ d w f w' r, ops.fname d w f = .ok (w', r) → wlog w' = wlog w
  blockEvent : ∀ v d w b w' r, ops.blockEvent v d w b = .ok (w', r) → wlog w' = wlog w ++ [b]
  revoke : ∀ d w n k w' r, ops.revoke d w n k = .ok (w', r) → wlog w' = wlog w
  user : ∀ v ts d w m w' r, ops.user v ts d w m = .ok (w', r) → wlog w' = wlog w
  prune : ∀ c v d w n t w' r, ops.prune c v d w n t = .ok (w', r) → wlog w' = wlog w
  sideEffects : ∀ v d w es w' r, ops.sideEffects v d w es = .ok (w', r) → wlog w' = wlog w
  confirm : ∀ d w c es n w', ops.confirm d w c es n = some w' → wlog w' = wlog w
  write : ∀ d w, log (ops.write d w) = log d ++ wlog w

/-- A node that has seen nothing. -/
def Fresh {ops : EngineOps D W E F} (L : Ledger ops) (st : EngineState D W E F) : Prop :=
  L.log st.d = [] ∧ st.ev = OMap.empty ∧ st.pending = none

/-- The block events in a list of transactions, as written. -/
def eventsIn (txns : List (ETxn F)) : List BEvent := (txns.flatMap (·.sys)).filterMap (·.block)

/-- Everything that reaches a node in a block: what is proposed to it and what is decided. -/
def NodeBlock.offered (b : NodeBlock F) : List BEvent :=
  b.steps.flatMap (fun
    | .newRound => []
    | .propose _ _ _ txns => eventsIn txns
    | .validate _ _ p => eventsIn p.txns) ++ eventsIn b.chunk.txns

/-- The number of an event. -/
def BEvent.number (e : BEvent) : Option Nat := e.data.map (·.seqnum)

/-- Of the events `es`, those that continue a sequence whose last number is `n`: the first numbered `n + 1`, the first
after it numbered `n + 2`, and so on. -/
def continuing : Nat → List BEvent → List BEvent
  | _, [] => []
  | n, e :: es => if BEvent.number e = some (n + 1) then e :: continuing (n + 1) es else continuing n es

end
end Verif.Spec
