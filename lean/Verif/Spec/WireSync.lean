import Verif.Model.WireSync
import Verif.Spec.Wire
/-!
Values that the types of the code can hold, for catching up; what a response is that cannot be converted.
-/
namespace Verif
namespace Wire

/-- A certificate that the code can hold; addresses have 32 bytes. -/
structure FitsCertificate (c : Commits) : Prop where
  height : FitsHeight c.height
  round : IsRound c.round
  value : FitsHash c.value
  signers : ∀ s ∈ c.sigs, s.1.length = 32

/-- A response that the code can hold. -/
def Response.Fits : Response → Prop
  | .value h d => FitsHeight h ∧ ∀ x, d = some x → FitsCertificate x.2
  | .votes h r vs => FitsHeight h ∧ IsRound r ∧ ∀ x ∈ vs, x.1.Fits

def Request.Fits : Request → Prop
  | .value h => FitsHeight h
  | .votes h r => FitsHeight h ∧ IsRound r

/-- A certificate that lacks its height or its value, or has a signer that is not an address. -/
def BadCommits (c : PCommits) : Prop := c.height = none ∨ c.value = none ∨ ∃ s ∈ c.sigs, s.signer.length ≠ 32

/-- The shard of a response. -/
def Response.shard : Response → Nat
  | .value h _ => h.shard
  | .votes h _ _ => h.shard

/-- A set of votes with a signed vote that is not complete. -/
def BadVotes (v : PVotes) : Prop := ∃ x ∈ v.votes.zip v.sigs, ¬ (PBody.vote x.1).Complete

end Wire
end Verif
