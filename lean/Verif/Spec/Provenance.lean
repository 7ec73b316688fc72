import Verif.Model.ShardEngine
import Verif.Spec.Engine
/-! Where the messages of a shard come from: what was offered to its node, and what the rest of the node keeps true. -/
namespace Verif

/-- A block event that brings a message. -/
def BEvent.Brings (b : BEvent) (m : Msg) : Prop := ∃ d, b.data = some d ∧ d.body = some (.message (some m))

namespace Spec
variable {R F : Type}

/-- `m` was offered as a user message of a transaction with timestamp `ts`. -/
def OfferedUser (bs : List (NodeBlock F)) (ts : Nat) (m : Msg) : Prop := ∃ b ∈ bs, ∃ t, (ts, t) ∈ b.offers ∧ m ∈ t.user

/-- `e` was offered as a block event. -/
def OfferedBlockEvent (bs : List (NodeBlock F)) (e : BEvent) : Prop :=
  ∃ b ∈ bs, ∃ ts t, (ts, t) ∈ b.offers ∧ ∃ s ∈ t.sys, s.block = some e

/-- `e` was offered as an on-chain event. -/
def OfferedOnchain (bs : List (NodeBlock F)) (e : OEvent) : Prop :=
  ∃ b ∈ bs, ∃ ts t, (ts, t) ∈ b.offers ∧ ∃ s ∈ t.sys, s.onchain = some e

/-- `m` passes validation at timestamp `ts`, by the version in force then. -/
def PassedAt (rest : Elsewhere R F) (ver : Nat → EngineVersion) (ts : Nat) (st : StoreState) (r : R) (m : Msg) : Prop :=
  (rest.validate (ver ts) ts st r m).2 = none

end Spec

/-- `I` is kept by everything a node does besides the message stores, on user messages with `A` (version, timestamp),
block events with `B` and on-chain events with `C`. -/
structure ShardCfg.RestKeeps {R F : Type} (c : ShardCfg R F) (A : EngineVersion → Nat → Msg → Prop) (B : BEvent → Prop)
    (C : OEvent → Prop) (I : R → Prop) : Prop where
  fresh : ∀ r h, I r → I (c.rest.fresh r h)
  commit : ∀ r, I r → I (c.rest.commit r)
  onchain : ∀ r e, C e → I r → I (c.rest.onchain r e).1
  fname : ∀ r f, I r → I (c.rest.fname r f).1
  validate : ∀ v ts st r m, A v ts m → I r → I (c.rest.validate v ts st r m).1
  merge : ∀ b r m, ((∃ v ts, A v ts m) ∨ ∃ e, B e ∧ e.Brings m) → mergeTarget m.ty = none → I r → I (c.rest.merge b r m).1
  replica : ∀ r e, I r → I (c.rest.replica r e).1
  pruneNames : ∀ r f n l, I r → I (c.rest.pruneNames r f n l).1

end Verif
