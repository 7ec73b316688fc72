import Verif.Model.Subscribe
/-! Specification vocabulary for the event stream. -/
namespace Verif

/-- An event without its timestamp. -/
def HEvent.undated (e : HEvent) : HEvent := { e with ts := 0 }

/-- An event as a subscriber should see it, timestamp aside: with shard and block number; a compaction does not list what
it deleted. -/
def HEvent.reported (shard : Nat) (e : HEvent) : HEvent where
  ty := e.ty
  id := e.id
  block := e.id / 2 ^ 14
  shard := shard
  ts := 0
  body := match e.body with
    | some (.mergeMessage ty m deleted) => some (.mergeMessage ty m (if ty = some .linkCompactState then [] else deleted))
    | b => b

/-- What the subscriber got from a shard, in order, timestamps aside. -/
def SubNode.received (n : SubNode) (i : Nat) : List HEvent := (n.out.filter (fun e => decide (e.shard = i))).map HEvent.undated

/-- The events a subscriber to the types asked for should see of a list of events. -/
def SubRequest.view (req : SubRequest) (i : Nat) (es : List HEvent) : List HEvent :=
  (es.filter (fun e => decide (e.ty ∈ req.types))).map (HEvent.reported i)

/-- The blocks of a shard: a block has events, which have its number in their ids; the ids ascend (C18); blocks come in ascending
order; stored events have no timestamp. -/
def SubNode.Orderly (n : SubNode) : SubStep → Prop
  | .node i (.write h _ es) => h < 2 ^ 50 ∧ es ≠ [] ∧ es.Pairwise (fun a b => a.id < b.id) ∧
      (∀ e ∈ es, e.id / 2 ^ 14 = h ∧ e.ts = 0) ∧ ∀ e ∈ (n.shards i).written, e.id / 2 ^ 14 < h
  | _ => True

/-- A history of such blocks. -/
def SubNode.OrderlyRun (req : SubRequest) (cap : Nat) : SubNode → List SubStep → Prop
  | _, [] => True
  | n, s :: steps => n.Orderly s ∧ OrderlyRun req cap (n.exec req cap s) steps

instance (n : SubNode) (s : SubStep) : Decidable (n.Orderly s) := by
  cases s with
  | node i c => cases c <;> unfold SubNode.Orderly <;> infer_instance
  | page => exact inferInstanceAs (Decidable True)
  | begin i => exact inferInstanceAs (Decidable True)
  | recv i => exact inferInstanceAs (Decidable True)

instance orderlyRunDecidable (req : SubRequest) (cap : Nat) : (steps : List SubStep) → (n : SubNode) → Decidable (n.OrderlyRun req cap steps)
  | [], _ => inferInstanceAs (Decidable True)
  | s :: steps, n =>
    have := orderlyRunDecidable req cap steps (n.exec req cap s)
    inferInstanceAs (Decidable (n.Orderly s ∧ SubNode.OrderlyRun req cap (n.exec req cap s) steps))

/-- The node when the subscription is made, the history included in what follows. -/
abbrev SubNode.begins (req : SubRequest) : SubNode := SubNode.start req (fun _ => {})

/-- A position in the channel of a shard: how many of its events the subscriber has gone past. -/
def SubNode.position (n : SubNode) (i : Nat) : Option Nat :=
  match n.phase with
  | .live pos => pos i
  | _ => none

/-- What the event queries of the API return for one shard, following the tokens: the answer to a request with a token. -/
def getEventsOne (i : Nat) (s : EvShard) (start : Nat) (stop : Option Nat) (size : Option Nat) (reverse : Bool) (token : Option Bytes) :
    Except HubErr (MessagesPage HEvent) :=
  match getEventsApi [(i, s)] 1 start stop size reverse (token.map (fun t => [some t])) with
  | .ok (es, [t]) => .ok ⟨es, t⟩
  | .ok _ => .error .panic
  | .error e => .error e

end Verif
