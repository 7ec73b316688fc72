import Verif.Model.Ingest
/-! Words for C81: reading the logs of a chain. -/
namespace Verif
namespace Ingest

/-- What a provider can know: logs in the order of their blocks, none after the latest block. -/
structure ChainOK (c : ChainView) : Prop where
  ordered : c.logs.Pairwise (fun a b => a.block ≤ b.block)
  known : ∀ l ∈ c.logs, l.block ≤ c.latest

/-- A chain grows by logs of new blocks. -/
def Grows (c : ChainView) (latest : Nat) (logs : List Log) : Prop :=
  c.latest ≤ latest ∧ logs.Pairwise (fun a b => a.block ≤ b.block) ∧ ∀ l ∈ logs, c.latest < l.block ∧ l.block ≤ latest

/-- A history in which the chain does nothing else. -/
def GrowingRun (cfg : Config) : Node → List Op → Prop
  | _, [] => True
  | s, o :: ops => (match o with | .grow latest logs => Grows s.chain latest logs | _ => True) ∧
      GrowingRun cfg (s.exec cfg o) ops

/-- Where reading begins. -/
def Config.base (cfg : Config) : Nat := cfg.start.getD cfg.first

/-- The logs the subscriber is there for. -/
def InScope (cfg : Config) (l : Log) : Prop :=
  l.contract ∈ cfg.contracts ∧ cfg.base ≤ l.block ∧ ∀ stop, cfg.stop = some stop → l.block ≤ stop

/-- The log was handed to the mempool, or the error of processing it was reported. -/
def Node.Attempted (s : Node) (l : Log) : Prop := l ∈ s.handed ∨ l ∈ s.failed

end Ingest
end Verif
