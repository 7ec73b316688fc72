import Verif.Model.TrieKey
/-! What the trie holds: entries of users.  -/
namespace Verif

/-- One entry of a user in the state trie. -/
inductive TrieEntry where
  | message (fid : Nat) (ty : Nat) (hash : Bytes)
  | onchain (fid : Nat) (ty : Nat) (txHash : Bytes) (logIndex : Nat)
  | fname (fid : Nat) (name : Bytes)
  deriving DecidableEq, Repr

namespace TrieEntry
/-- Fids below 2^32; messages of a type from 1 to 31 with 20-byte hashes; on-chain events of type 1 to 6 with 32-byte
transaction hashes; names of at most 20 bytes without zero bytes. -/
def Valid : TrieEntry → Prop
  | message fid ty hash => fid < 2 ^ 32 ∧ 1 ≤ ty ∧ ty < 32 ∧ hash.length = 20
  | onchain fid ty tx log => fid < 2 ^ 32 ∧ 1 ≤ ty ∧ ty ≤ 6 ∧ tx.length = 32 ∧ log < 2 ^ 32
  | fname fid name => fid < 2 ^ 32 ∧ name.length ≤ 20 ∧ 0 ∉ name

/-- The user of an entry. -/
def fid : TrieEntry → Nat
  | message f _ _ => f
  | onchain f _ _ _ => f
  | fname f _ => f

/-- The key the code makes for an entry. -/
def key (sha256 : Bytes → Bytes) : TrieEntry → Bytes
  | message f ty hash => trieKeyMessage sha256 f (UInt8.ofNat ty) hash
  | onchain f ty tx log => trieKeyOnchain sha256 f ty tx log
  | fname f name => trieKeyFname sha256 f name
end TrieEntry

end Verif
