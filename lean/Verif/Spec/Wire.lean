import Verif.Model.Wire
/-!
What validators say, and which values the types of the code can hold.
-/
namespace Verif
namespace Wire

/-- A `Height`: a `u32` and a `u64`. -/
def FitsHeight (h : BlockHeight) : Prop := h.shard < 2 ^ 32 ∧ h.block < 2 ^ 64

/-- A `ShardHash`: a `u32` and bytes, less than four gigabytes. -/
def FitsHash (h : ShardHash) : Prop := h.shard < 2 ^ 32 ∧ h.hash.length < 2 ^ 32

/-- A round: -1 for none, or a `u32`. -/
def IsRound (r : Int) : Prop := -1 ≤ r ∧ r < 2 ^ 32

instance (h : BlockHeight) : Decidable (FitsHeight h) := by unfold FitsHeight; infer_instance
instance (h : ShardHash) : Decidable (FitsHash h) := by unfold FitsHash; infer_instance
instance (r : Int) : Decidable (IsRound r) := by unfold IsRound; infer_instance

/-- A vote that the code can hold; an address has 32 bytes. -/
structure CVote.Fits (v : CVote) : Prop where
  height : FitsHeight v.height
  round : IsRound v.round
  value : ∀ h, v.value = some h → FitsHash h
  voter : v.voter.length = 32

structure CProposal.Fits (p : CProposal) : Prop where
  height : FitsHeight p.height
  round : IsRound p.round
  polRound : IsRound p.polRound
  value : FitsHash p.value
  proposer : p.proposer.length = 32

structure Part.Fits (p : Part) : Prop where
  height : ∀ h, p.height = some h → FitsHeight h
  round : -2 ^ 63 ≤ p.round ∧ p.round < 2 ^ 63
  proposer : p.proposer.length < 2 ^ 32
  value : ∀ x, p.value = some x → x.2.length < 2 ^ 63

/-- What a validator signs. -/
inductive Statement where
  | vote (v : CVote)
  | proposal (p : CProposal)
  | part (p : Part)

def Statement.signBytes : Statement → Bytes
  | .vote v => v.signBytes
  | .proposal p => p.signBytes
  | .part p => p.signBytes

def Statement.Fits : Statement → Prop
  | .vote v => v.Fits
  | .proposal p => p.Fits
  | .part p => p.Fits

/-- Certificates checked with the signatures of this code: `verify key bytes signature`. -/
def crypto (roundOf : Int → Int) (verify : Bytes → Bytes → Bytes → Bool) : Crypto :=
  ⟨roundOf, fun key v sig => verify key (CVote.signBytes ⟨true, v.height, v.round, some v.value, v.voter⟩) sig⟩

/-- A validator precommitted to a value. -/
def Precommitted (said : Bytes → Statement → Prop) (key : Bytes) (h : BlockHeight) (round : Int) (value : ShardHash) : Prop :=
  said key (.vote ⟨true, h, round, some value, key⟩)

/-- Messages that the wire format can hold, whether or not the code means them. -/
structure PVote.Fits (v : PVote) : Prop where
  ty : -2 ^ 31 ≤ v.ty ∧ v.ty < 2 ^ 31
  height : ∀ h, v.height = some h → FitsHeight h
  round : -2 ^ 63 ≤ v.round ∧ v.round < 2 ^ 63
  value : ∀ h, v.value = some h → FitsHash h
  voter : v.voter.length < 2 ^ 32

structure PProposal.Fits (p : PProposal) : Prop where
  height : ∀ h, p.height = some h → FitsHeight h
  round : -2 ^ 63 ≤ p.round ∧ p.round < 2 ^ 63
  polRound : -2 ^ 63 ≤ p.polRound ∧ p.polRound < 2 ^ 63
  proposer : p.proposer.length < 2 ^ 32
  value : ∀ h, p.value = some h → FitsHash h

def PBody.Fits : PBody → Prop
  | .vote v => v.Fits
  | .proposal p => p.Fits

/-- A vote with a type and a height and a voter of 32 bytes, or a proposal with a height, a value and a proposer of 32 bytes. -/
def PBody.Complete : PBody → Prop
  | .vote v => (v.ty = 0 ∨ v.ty = 1) ∧ v.height ≠ none ∧ v.voter.length = 32
  | .proposal p => p.height ≠ none ∧ p.value ≠ none ∧ p.proposer.length = 32

def PBody.height : PBody → Option BlockHeight
  | .vote v => v.height
  | .proposal p => p.height

/-- A consensus message as a peer may send it. -/
def gossipBytes (body : PBody) (signature : Bytes) : Bytes := put (msgField 1 (some (consensusFields ⟨some body, signature⟩)))

/-- What becomes of bytes from a peer: through gossip to the network connector of the shard. -/
def arrives (roundOf : Int → Int) (okValue : Bytes → Bool) (okOther : Nat → Bytes → Bool) (b : Bytes) : Heard :=
  match gossipIn okValue okOther b with
  | .panic => .panic
  | .consensus _ b => codecDecode roundOf b
  | _ => .refused

end Wire
end Verif
