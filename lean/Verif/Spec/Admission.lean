import Verif.Model.Admission
import Verif.Spec.OnChain
import Verif.Spec.Validate
/-!
Who may post for a user, in terms of what was accepted before: the on-chain events and the notes of key messages.
-/
namespace Verif
open Spec

/-- User ids and event numbers of a history fit their fields. -/
structure AdmitFits (ops : List AdmitOp) : Prop where
  chain : ∀ e, AdmitOp.chain e ∈ ops → Spec.OEvent.Fits e
  replay : ∀ m d, AdmitOp.replay m ∈ ops → m.data = some d → d.fid < 2 ^ 32
  user : ∀ p v now m d, AdmitOp.user p v now m ∈ ops → m.data = some d → d.fid < 2 ^ 32

/-- The note adds or removes this key of this user. -/
def KeyNote.Settles (fid : Nat) (key : Bytes) : KeyNote → Prop
  | .added m _ => m.fid = fid ∧ m.key = key
  | .removed m _ => m.fid = fid ∧ m.key = key
  | .used .. => False

/-- Among the notes, `g` is the last one that adds or removes the key, and it adds it; `events` are the on-chain events
accepted when it was, `since` the notes after it. -/
structure Granted (notes : List KeyNote) (fid : Nat) (key : Bytes) (g : KeyAddMsg) (events : List OEvent)
    (since : List KeyNote) : Prop where
  place : ∃ before, notes = before ++ .added g events :: since
  isFid : g.fid = fid
  isKey : g.key = key
  stands : ∀ x ∈ since, ¬ x.Settles fid key

/-- The user's id belongs to this address after these events: the latest registration or transfer went to it. -/
def CustodyIs (events : List OEvent) (fid : Nat) (address : Bytes) : Prop :=
  ∃ e ty, LatestOf (Registers fid) events e ∧ e.body = .idRegister address ty

/-- The addition is signed by the address that owned the user's id at that time. -/
def Consented (c : KeyCrypto) (g : KeyAddMsg) (events : List OEvent) : Prop :=
  ∃ a, c.recoverAdd g = some a ∧ CustodyIs events g.fid a

/-- A message of time `ts` counts as activity if it is more than five minutes later than the last one. -/
def slide (last ts : Nat) : Nat := if last + 300 < ts then ts else last

/-- The times of the messages signed with a key. -/
def usesOf (fid : Nat) (key : Bytes) (notes : List KeyNote) : List Nat :=
  notes.filterMap (fun x => match x with
    | .used f k ts => if f = fid ∧ k = key then some ts else none
    | _ => none)

/-- The last activity of a key added by `g`. -/
def lastActive (fid : Nat) (key : Bytes) (g : KeyAddMsg) (since : List KeyNote) : Nat :=
  (usesOf fid key since).foldl slide g.timestamp.toNat

/-- The key is a signer of the user on chain: the event on record is among those accepted, adds the key, and is the latest
about it unless the key was reset by an administrator. -/
def OnChainKey (events : List OEvent) (fid : Nat) (key : Bytes) : Prop :=
  ∃ e ∈ events, e.fid = fid ∧ e.body = .signer key 1 .add ∧
    ((∀ x ∈ events, ¬ Resets fid key x) → LatestOf (AboutSigner fid key) events e)

/-- The key was added by the user without a transaction, not removed since, for this type of message, and has been active
within its time to live. -/
def GaslessKey (c : KeyCrypto) (notes : List KeyNote) (now fid : Nat) (key : Bytes) (ty : MessageType) : Prop :=
  ∃ g events since, Granted notes fid key g events since ∧ Consented c g events ∧ (ty.num : Int) ∈ g.scopes ∧
    now ≤ lastActive fid key g since + g.ttl.toNat

/-- The key may sign for the user. -/
def MayPost (c : KeyCrypto) (n : AdmitNode) (now fid : Nat) (key : Bytes) (ty : MessageType) : Prop :=
  OnChainKey n.chain.log fid key ∨ GaslessKey c n.keyLog now fid key ty

/-- The kinds that a data shard never takes directly from a user: loans, everything about channels, and from version 21 on
verifications; by wire number. -/
def NotHere (v : Nat) (ty : Nat) : Prop :=
  ty = 15 ∨ (18 ≤ ty ∧ ty ≤ 21) ∨ (21 ≤ v ∧ (ty = 7 ∨ ty = 8))

end Verif
