import Verif.Model.Bytes
/-!
Numbers and addresses as text: decimal and hexadecimal strings, and the EIP-55 spelling of an Ethereum address.  These are
functions of the libraries std, hex, const-hex and alloy-primitives that the code relies on; keccak-256 is a parameter.
-/
namespace Verif

/-- A lower-case hexadecimal digit, as `hex::encode` of the hex crate writes it. -/
def hexDigit (n : Nat) : UInt8 := if n < 10 then UInt8.ofNat (48 + n) else UInt8.ofNat (87 + n)

/-- `hex::encode` of the hex crate. -/
def hexEncode : Bytes → Bytes
  | [] => []
  | b :: l => hexDigit (b.toNat / 16) :: hexDigit (b.toNat % 16) :: hexEncode l

/-- The decimal digits of a number, most significant first, of at most `fuel + 1` digits. -/
def decimalAux : Nat → Nat → Bytes
  | 0, n => [UInt8.ofNat (48 + n % 10)]
  | fuel + 1, n => if n < 10 then [UInt8.ofNat (48 + n)] else decimalAux fuel (n / 10) ++ [UInt8.ofNat (48 + n % 10)]

/-- `u64::to_string` and `u32::to_string`.  A `u64` has at most 20 digits. -/
def decimal (n : Nat) : Bytes := decimalAux 19 n

/-- `U256::to_string` of the ruint crate.  A 256 bit number has at most 78 digits. -/
def decimal256 (n : Nat) : Bytes := decimalAux 77 n

/-- The value of a hexadecimal digit of either case. -/
def unhex (c : UInt8) : Option Nat :=
  if 48 ≤ c.toNat ∧ c.toNat ≤ 57 then some (c.toNat - 48)
  else if 97 ≤ c.toNat ∧ c.toNat ≤ 102 then some (c.toNat - 87)
  else if 65 ≤ c.toNat ∧ c.toNat ≤ 70 then some (c.toNat - 55)
  else none

/-- `const_hex::decode` without a prefix. -/
def hexDecode : Bytes → Option Bytes
  | [] => some []
  | [_] => none
  | a :: b :: s => match unhex a, unhex b, hexDecode s with
    | some x, some y, some l => some (UInt8.ofNat (16 * x + y) :: l)
    | _, _, _ => none

/-- `0x`. -/
def hexPrefix : Bytes := [48, 120]

/-- `Address::from_hex` and `Address::from_str` on a string that starts with `0x`: 20 bytes in hexadecimal digits of
either case. -/
def parseAddress (s : Bytes) : Option Bytes :=
  match hexDecode (s.drop 2) with
  | none => none
  | some a => if a.length = 20 then some a else none

/-- The half bytes of a hash, high half first. -/
def nibbles : Bytes → List Nat
  | [] => []
  | b :: l => b.toNat / 16 :: b.toNat % 16 :: nibbles l

/-- A letter becomes upper case where the half byte at its place is at least 8. -/
def caseBy : Bytes → List Nat → Bytes
  | c :: s, n :: ns => (if 97 ≤ c.toNat ∧ 8 ≤ n then UInt8.ofNat (c.toNat - 32) else c) :: caseBy s ns
  | s, _ => s

/-- `Address::to_checksum(None)` of alloy-primitives, EIP-55. -/
def checksum (keccak : Bytes → Bytes) (a : Bytes) : Bytes :=
  hexPrefix ++ caseBy (hexEncode a) (nibbles (keccak (hexEncode a)))

end Verif
