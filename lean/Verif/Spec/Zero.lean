import Verif.Model.ZeroEngine
import Verif.Spec.Admission
import Verif.Spec.Provenance
/-!
What shard 0 may hold: histories of calls on its engine, what the committed blocks brought, and who may post.
-/
namespace Verif
open Spec

/-- The calls on the engine of shard 0.  The clock is that of the node, in seconds. -/
inductive ZCall (F : Type) where
  | propose (clock h ts : Nat) (txns : List (ETxn F))
  | validate (clock : Nat) (b : ZBlock F)
  | commit (clock : Nat) (b : ZBlock F)
  | simulate (clock : Nat) (m : Msg)

namespace ZeroCfg
variable {F : Type} (c : ZeroCfg)

/-- The state after a call; `none` is a panic. -/
def step (d : ZWork) : ZCall F → Option ZWork
  | .propose clock h ts txns => (c.propose clock h ts d txns).map (·.2)
  | .validate clock b => (c.validate clock d b).map (·.2)
  | .commit clock b => c.commit clock d b
  | .simulate clock m => (c.simulate clock d m).map (·.2)

/-- The state after a history of calls. -/
def run : List (ZCall F) → ZWork → Option ZWork
  | [], d => some d
  | x :: xs, d => match c.step d x with
    | none => none
    | some d => run xs d

/-- `m` is a user message of a committed block of time `ts`. -/
def PostedIn (calls : List (ZCall F)) (ts : Nat) (m : Msg) : Prop :=
  ∃ clock b, ZCall.commit clock b ∈ calls ∧ b.ts = ts ∧ ∃ t ∈ b.txns, m ∈ t.user

/-- `e` is an on-chain event of a committed block. -/
def OnChainIn (calls : List (ZCall F)) (e : OEvent) : Prop :=
  ∃ clock b, ZCall.commit clock b ∈ calls ∧ ∃ t ∈ b.txns, ∃ s ∈ t.sys, s.onchain = some e

/-- The stored part of a message says what the message says. -/
def Carries (m : Msg) : Prop :=
  ∃ d, (c.wire m).data = some d ∧ d.fid = m.fid ∧ d.type = m.ty ∧ d.ts = m.ts ∧ (c.wire m).signer = m.signer ∧
    (c.wire m).hash = m.hash

/-- What blocks bring fits its fields, and stored parts agree with their messages. -/
structure Sound (calls : List (ZCall F)) : Prop where
  chain : ∀ e, OnChainIn calls e → Spec.OEvent.Fits e
  user : ∀ ts m, PostedIn calls ts m → c.Carries m ∧ m.fid < 2 ^ 32

/-- The protocol has such messages at the time of the block: channel messages (wire numbers from 18 on) and verifications
from version 21 on, key messages from version 16 on.  A verification is also dated in such a time. -/
structure InEra (p : ZPost) : Prop where
  verification : p.msg.ty = .verificationAdd ∨ p.msg.ty = .verificationRemove →
    (∃ a, p.msg.body = .verificationAdd a ∨ p.msg.body = .verificationRemove a) →
    21 ≤ (c.ver p.ts).num ∧ 21 ≤ (c.ver p.msg.ts).num
  channel : 18 ≤ p.msg.ty.num → 21 ≤ (c.ver p.ts).num
  key : p.msg.ty = .keyAdd ∨ p.msg.ty = .keyRemove → 16 ≤ (c.ver p.ts).num

/-- By the on-chain events and key messages accepted before it (those of `p.node`), the message may be posted at `p.ts`.
Its bytes are signed with the key it names, and say what it says if `data` was decoded from them; its user is registered;
and unless it is a key message, the key may sign for the user.  Channel messages (wire numbers from 18 on) take a key that is
on chain. -/
structure Authorised (p : ZPost) : Prop where
  carries : c.Carries p.msg
  signed : ∃ said bytes, Contents c.env (c.wire p.msg) said bytes ∧ Sealed c.env (c.wire p.msg) bytes ∧
    (bytesDecode c.env (c.wire p.msg) = c.wire p.msg → (c.wire p.msg).data = some said)
  registered : ∃ e ∈ p.node.chain.log, Registers p.msg.fid e
  key : p.msg.ty = .keyAdd ∨ p.msg.ty = .keyRemove ∨ MayPost c.crypto p.node p.ts p.msg.fid p.msg.signer p.msg.ty
  channel : 18 ≤ p.msg.ty.num → OnChainKey p.node.chain.log p.msg.fid p.msg.signer
  era : c.InEra p

/-- What the message stores of shard 0 keep, by version and wire number: loans from version 11 on, verifications and
channel messages from version 21 on. -/
def Kept (v ty : Nat) : Prop := (11 ≤ v ∧ ty = 15) ∨ (21 ≤ v ∧ (ty = 7 ∨ ty = 8 ∨ (18 ≤ ty ∧ ty ≤ 21)))

/-- What shard 0 hands on, by version and wire number: what it keeps, and key messages from version 16 on. -/
def HandedOn (v ty : Nat) : Prop := Kept v ty ∨ (16 ≤ v ∧ (ty = 16 ∨ ty = 17))

end ZeroCfg
end Verif
