import Verif.Model.Gasless
/-! Concrete messages and an environment used by the non-vacuity examples of C29–C33. -/
namespace Verif.GaslessCase
open Verif

/-- Every fid's custody address is its own number; requests come from fid 9; nothing is on chain. -/
def env : KeyEnv where
  metadata := fun _ _ _ _ => some ⟨9, [9]⟩
  recoverAdd := fun m => some [UInt8.ofNat m.fid]
  recoverRemove := fun m => some [UInt8.ofNat m.fid]
  custody := fun f => some [UInt8.ofNat f]
  onchainSigner := fun _ _ => false

/-- The same with every key registered on chain. -/
def envOn : KeyEnv := { env with onchainSigner := fun _ _ => true }

def pk (b : UInt8) : Bytes := List.replicate 32 b

/-- Fid `f` adds key `k` for casts and reactions, one day of time to live. -/
def addMsg (f : Nat) (k : UInt8) (n ts : UInt32) : KeyAddMsg :=
  { fid := f, timestamp := ts, key := pk k, keyType := 1, scopes := [1, 3], ttl := 86400, nonce := n,
    deadline := 1, metadataType := 1, metadata := [1], custodySignature := [] }

/-- Removal of key `k` of fid `f`; type 1 is by custody, type 2 by the key itself. -/
def rmMsg (f : Nat) (k : UInt8) (sigType : Nat) (n : UInt32) : KeyRemoveMsg :=
  { fid := f, timestamp := 0, signer := pk k, key := pk k, signatureType := sigType, signature := [],
    nonce := n, deadline := 1 }

def start : KeyState := { db := OMap.empty, txn := OMap.empty }

end Verif.GaslessCase
