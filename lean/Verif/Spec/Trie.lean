import Verif.Model.Trie
/-!
Specification of the trie as a set of keys, for histories of operations.  Nothing here mentions nodes.
-/
namespace Verif

/-- One operation of a client of the trie.  `ord` is the order in which the hash map of groups happens to be
traversed. -/
inductive TrieOp where
  | insert (ord : List UInt8 → List UInt8) (keys : List Bytes)
  | delete (ord : List UInt8 → List UInt8) (keys : List Bytes)
  | commit
  | reload

namespace TrieOp
/-- The keys an operation mentions. -/
def keys : TrieOp → List Bytes
  | insert _ ks => ks
  | delete _ ks => ks
  | commit => []
  | reload => []

/-- The traversal order visits every group once. -/
def FairOrder : TrieOp → Prop
  | insert ord _ => ∀ l, (ord l).Perm l
  | delete ord _ => ∀ l, (ord l).Perm l
  | _ => True

/-- The operation drops the cached nodes. -/
def IsReload : TrieOp → Prop
  | reload => True
  | _ => False
end TrieOp

/-- Run one operation of the model. -/
def TrieState.step (H : Bytes → Bytes) (s : TrieState) : TrieOp → Except TrieErr (TrieState × List Bool)
  | .insert ord ks => s.insert H ord ks
  | .delete ord ks => s.delete H ord ks
  | .commit => .ok (s.commit, [])
  | .reload =>
    match s.reload with
    | .error e => .error e
    | .ok s' => .ok (s', [])

/-- Run a history. -/
def TrieState.run (H : Bytes → Bytes) : List TrieOp → TrieState → Except TrieErr TrieState
  | [], s => .ok s
  | op :: ops, s =>
    match s.step H op with
    | .error e => .error e
    | .ok r => TrieState.run H ops r.1

/-- A newly created trie over an empty database. -/
def TrieState.new : TrieState := TrieState.initialize {}

/-- Add keys to a set kept as a list without repetitions. -/
def addKeys (set keys : List Bytes) : List Bytes := keys.foldl (fun l k => if k ∈ l then l else l ++ [k]) set

/-- Remove keys. -/
def removeKeys (set keys : List Bytes) : List Bytes := set.filter (fun k => decide (k ∉ keys))

/-- The set of keys as seen by clients, and the set that is on disk. -/
structure KeySets where
  current : List Bytes := []
  committed : List Bytes := []

/-- What an operation does to the sets. -/
def KeySets.step (s : KeySets) : TrieOp → KeySets
  | .insert _ ks => { s with current := addKeys s.current ks }
  | .delete _ ks => { s with current := removeKeys s.current ks }
  | .commit => { s with committed := s.current }
  | .reload => { s with current := s.committed }

/-- The sets after a history that starts with an empty trie. -/
def setsAfter (ops : List TrieOp) : KeySets := ops.foldl KeySets.step {}

/-- The keys present after a history. -/
def keysAfter (ops : List TrieOp) : List Bytes := (setsAfter ops).current

/-- Every reload happens when something is committed, starting from the given sets. -/
def ReloadsNonEmpty : KeySets → List TrieOp → Prop
  | _, [] => True
  | s, op :: ops => (op.IsReload → s.committed ≠ []) ∧ ReloadsNonEmpty (s.step op) ops

/-- All keys a history mentions. -/
def historyKeys (ops : List TrieOp) : List Bytes := ops.flatMap TrieOp.keys

/-- Keys the trie is made for: long enough, and none a proper prefix of another. -/
structure WellFormedHistory (ops : List TrieOp) : Prop where
  long : ∀ k ∈ historyKeys ops, 6 ≤ k.length
  prefixFree : ∀ k ∈ historyKeys ops, ∀ k' ∈ historyKeys ops, k <+: k' → k = k'
  order : ∀ op ∈ ops, op.FairOrder

/-- The nibbles of `k` are the nibble 8 followed by the first thirteen nibbles of `k'`. -/
def Shifted (k k' : Bytes) : Prop := 8 :: (expandNibbles k').take 13 <+: expandNibbles k

instance (k k' : Bytes) : Decidable (Shifted k k') := inferInstanceAs (Decidable (_ <+: _))

/-- No key of the history is another one shifted. -/
def NoShift (ops : List TrieOp) : Prop := ∀ k ∈ historyKeys ops, ∀ k' ∈ historyKeys ops, ¬ Shifted k k'

instance (ops : List TrieOp) : Decidable (NoShift ops) := inferInstanceAs (Decidable (∀ k ∈ _, ∀ k' ∈ _, ¬ _))

end Verif
