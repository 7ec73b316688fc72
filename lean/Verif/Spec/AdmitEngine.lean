import Verif.Model.AdmitEngine
import Verif.Spec.Admission
import Verif.Spec.Provenance
/-! Where the on-chain events and key messages of a node come from. -/
namespace Verif
open Spec

namespace AdmitCfg
variable {X F : Type} (a : AdmitCfg X F)

/-- The stored part of a message says what the message says. -/
def Carries (m : Msg) : Prop :=
  ∃ d, (a.wire m).data = some d ∧ d.fid = m.fid ∧ d.type = m.ty ∧ d.ts = m.ts ∧ (a.wire m).signer = m.signer ∧
    (a.wire m).hash = m.hash

/-- A history of the on-chain and key tables that consists of what was offered to the node. -/
structure Offered (ver : Nat → EngineVersion) (bs : List (NodeBlock F)) (ops : List AdmitOp) : Prop where
  chain : ∀ e, AdmitOp.chain e ∈ ops → OfferedOnchain bs e
  replay : ∀ w, AdmitOp.replay w ∈ ops → ∃ m, w = a.wire m ∧ m.ty.isKey = true ∧
    ((∃ ts, OfferedUser bs ts m) ∨ ∃ e, OfferedBlockEvent bs e ∧ e.Brings m)
  user : ∀ p v now w, AdmitOp.user p v now w ∈ ops → ∃ m, w = a.wire m ∧ OfferedUser bs now m ∧ v = ver now

/-- What is offered fits its fields, and stored parts agree with their messages. -/
structure Sound (bs : List (NodeBlock F)) : Prop where
  chain : ∀ e, OfferedOnchain bs e → Spec.OEvent.Fits e
  user : ∀ ts m, OfferedUser bs ts m → a.Carries m ∧ m.fid < 2 ^ 32
  block : ∀ e m, OfferedBlockEvent bs e → e.Brings m → a.Carries m ∧ m.fid < 2 ^ 32

/-- The on-chain and key tables are what such a history makes. -/
def Known (ver : Nat → EngineVersion) (bs : List (NodeBlock F)) (n : AdmitNode) : Prop :=
  ∃ ops, a.Offered ver bs ops ∧ n = AdmitNode.run a.env a.crypto a.net ops

/-- The message is a user message that was offered at `ts` and authorised then.  Its bytes are signed with the key it
names, and say what it says if `data` was decoded from them; its user had been registered in an on-chain event that was
offered; and, by the on-chain events and key messages offered before, the key may sign for the user. -/
def Authorised (ver : Nat → EngineVersion) (bs : List (NodeBlock F)) (ts : Nat) (m : Msg) : Prop :=
  ∃ n, a.Known ver bs n ∧ a.Carries m ∧
    (∃ said bytes, Contents a.env (a.wire m) said bytes ∧ Sealed a.env (a.wire m) bytes ∧
      (bytesDecode a.env (a.wire m) = a.wire m → (a.wire m).data = some said)) ∧
    (∃ e, OfferedOnchain bs e ∧ Registers m.fid e) ∧
    MayPost a.crypto n ts m.fid m.signer m.ty

end AdmitCfg
end Verif
