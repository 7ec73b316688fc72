import Verif.Model.ChannelUri
import Verif.Spec.Validate
/-! What a channel name looks like, independently of how it is read. -/
namespace Verif

/-- A text is the usual way of writing a number: decimal digits, without leading zeros except for zero itself. -/
structure IsNumeral (t : Bytes) (n : Nat) : Prop where
  nonempty : t ≠ []
  digits : ∀ c ∈ t, 48 ≤ c.toNat ∧ c.toNat ≤ 57
  value : digitsValue t = n
  lead : t.head? = some 48 → t = [48]

/-- A text names a token: `eip155:<chain>/erc721:<contract>/<token>` with the numbers written as usual, a chain of 64
bits, a contract of 20 bytes in its EIP-55 spelling and a token of 256 bits. -/
def NamesAsset (keccak : Bytes → Bytes) (u : Bytes) (chain : Nat) (contract : Bytes) (token : Nat) : Prop :=
  chain < 2 ^ 64 ∧ contract.length = 20 ∧ token < 2 ^ 256 ∧ ∃ s t, IsNumeral s chain ∧ IsNumeral t token ∧
    u = [101, 105, 112, 49, 53, 53, 58] ++ s ++ [47] ++ [101, 114, 99, 55, 50, 49, 58] ++ checksum keccak contract ++ [47] ++ t

end Verif
