import Verif.Spec.Engine
/-! What applying transactions to a node's state comes to, whatever anybody claims about it. -/
namespace Verif.Spec
section
variable {D W E F : Type}

/-- The result of applying transactions: the root of each account after its transaction, the root of the shard, the
hub events, and everything to be written. -/
structure Outcome (W E : Type) where
  accounts : List Bytes
  root : Bytes
  events : List E
  w : W
  ev : Txn BEvent
  seq : Nat

/-- Apply the transactions one after another; the roots are computed, none is read from the transactions. -/
def applyAll (ops : EngineOps D W E F) (env : NodeEnv) (v : EngineVersion) (ts : Nat) (d : D) :
    List (ETxn F) → Outcome W E → Except HubErr (Outcome W E)
  | [], o => .ok o
  | t :: l, o =>
    match replayTxn ops env v ts d o.w o.ev o.seq { t with root := [] } with
    | .error e => .error e
    | .ok r => applyAll ops env v ts d l ⟨o.accounts ++ [r.root], [], o.events ++ r.events, r.w, r.ev, r.seq⟩

/-- Apply transactions to the stored state of a node. -/
def outcome (ops : EngineOps D W E F) (env : NodeEnv) (v : EngineVersion) (st : EngineState D W E F) (height ts : Nat)
    (txns : List (ETxn F)) : Except HubErr (Outcome W E) :=
  match maxSeqnum some st.ev with
  | .error e => .error e
  | .ok n =>
    match applyAll ops env v ts st.d txns ⟨[], [], [], ops.start st.d height, OMap.empty, n⟩ with
    | .error e => .error e
    | .ok o =>
      match ops.root o.w with
      | .error e => .error e
      | .ok r => .ok { o with root := r }

/-- Two nodes with the same stored state: their memories and chunk archives may differ. -/
def SameStored (a b : EngineState D W E F) : Prop := a.d = b.d ∧ a.ev = b.ev

/-- Two nodes for which the code's own sources of difference do not differ: storage limits give the same answers on
both clocks, and sets are walked in the same order. -/
def SameView (ops : EngineOps D W E F) (a b : NodeEnv) : Prop :=
  ops.prune a.clock = ops.prune b.clock ∧ a.signerOrder = b.signerOrder ∧ a.typeOrder = b.typeOrder

end
end Verif.Spec
