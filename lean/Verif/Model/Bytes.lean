/-!
Byte strings, their bytewise order, big-endian integers and the successor function used for scan
bounds.
-/
namespace Verif

/-- A byte string (Rust `Vec<u8>` / `&[u8]`). -/
abbrev Bytes := List UInt8

/-- `bytes_compare`, /repo/src/storage/util.rs:13-30: compares byte by byte over the common length,
then by length.  Returns -1, 0 or 1. -/
def bytesCompare : Bytes → Bytes → Int
  | [], [] => 0
  | [], _ :: _ => -1
  | _ :: _, [] => 1
  | a :: as, b :: bs =>
    if a.toNat < b.toNat then -1 else if b.toNat < a.toNat then 1 else bytesCompare as bs

/-- Strict bytewise order.  This is RocksDB's default bytewise comparator (trusted base), used for
key order by every iterator in /repo/src/storage/db/rocksdb.rs. -/
def Bytes.blt : Bytes → Bytes → Bool
  | _, [] => false
  | [], _ :: _ => true
  | a :: as, b :: bs =>
    if a.toNat < b.toNat then true else if b.toNat < a.toNat then false else Bytes.blt as bs

/-- `n.to_be_bytes()` for an integer stored in `w` bytes, i.e. `(n as uW).to_be_bytes()`: higher
bits are dropped, as Rust's `as` cast does. -/
def be : Nat → Nat → Bytes
  | 0, _ => []
  | w + 1, n => UInt8.ofNat (n / 256 ^ w % 256) :: be w n

/-- `uW::from_be_bytes`: the value of a big-endian byte string. -/
def fromBe (bs : Bytes) : Nat := bs.foldl (fun acc b => acc * 256 + b.toNat) 0

/-- The carry loop of `increment_vec_u8` run on the reversed bytes.  `none` means every byte was
255, i.e. the loop ran off the end. -/
def incrRev : Bytes → Option Bytes
  | [] => none
  | b :: bs => if b.toNat < 255 then some (UInt8.ofNat (b.toNat + 1) :: bs)
    else (incrRev bs).map (fun r => 0 :: r)

/-- `increment_vec_u8`, /repo/src/storage/util.rs:33-57.  Big-endian increment; a string of 255s
becomes `1` followed by as many zeros. -/
def incrementVec (bs : Bytes) : Bytes :=
  match incrRev bs.reverse with
  | some r => r.reverse
  | none => 1 :: bs.map (fun _ => 0)

end Verif
