import Verif.Model.KV
/-!
The Merkle trie: /repo/src/storage/trie/trie_node.rs and /repo/src/storage/trie/merkle_trie.rs.

Simplifications.
* `blake3_20` is a parameter `H`.
* A node row in the database is a record, not its protobuf encoding (trie_node.rs:123-160); item counts
  are unbounded (the code stores them as `u32`).
* `last_accessed` and the read counters of `Context` have no effect on results and are left out.
* When an operation fails the code may leave the tree half updated; here only the error is returned.
* `HashMap` iteration order is a parameter `ord`: any function that lists the same characters.
-/
namespace Verif

/-- `TrieError`, /repo/src/storage/trie/errors.rs: the kinds that occur below; `panic` is a Rust panic
(slice index out of range) and `fuel` marks the recursion bound of the model, never reached on
well-formed keys. -/
inductive TrieErr where
  | noKeys | keyLengthExceeded | keyLengthTooShort | childNotFound | invalidChild | nodeNotFound
  | unableToReload | notInitialized | invalidPageToken | tokenDecode | invalidState | panic | fuel
  deriving DecidableEq, Repr

/-- Characters are ordered as numbers. -/
instance : StrictOrd UInt8 where
  lt a b := a < b
  decLt _ _ := inferInstance
  irrefl _ := UInt8.lt_irrefl _
  trans := UInt8.lt_trans
  tri a b := by
    rcases Nat.lt_trichotomy a.toNat b.toNat with h | h | h
    · exact .inl (UInt8.lt_iff_toNat_lt.2 h)
    · exact .inr (.inl (UInt8.toNat_inj.1 h))
    · exact .inr (.inr (UInt8.lt_iff_toNat_lt.2 h))

/-- `HashMap<u8, Vec<u8>>`: the hashes of the children of a node, kept in ascending order of character (the
order `hash` uses). -/
abbrev Hashes := OMap UInt8 Bytes

/-- `TrieNodeType`, trie_node.rs:59-97: an entry that still has to be read from the database (`Serialized`), or
a loaded node with its `items`, `key`, `child_hashes` and `children`.  The children are rows in ascending order
of character, used through `OMapL.get`, `OMapL.put` and `OMapL.del`. -/
inductive Tree where
  | stored
  | node (items : Nat) (key : Option Bytes) (hashes : Hashes) (kids : List (UInt8 × Tree))

/-- `HashMap<u8, TrieNodeType>`. -/
abbrev Kids := List (UInt8 × Tree)

/-- `DbTrieNode`, trie_node.rs:123-137: the row of a node. -/
structure NodeRow where
  key : Bytes
  chars : List UInt8
  items : Nat
  hashes : Hashes

/-- `UNCOMPACTED_LENGTH`, trie_node.rs:16. -/
def uncompacted : Nat := 12

namespace Tree

/-- `TrieNode::is_leaf`, trie_node.rs:165-167. -/
def isLeaf (kids : Kids) : Bool := kids.isEmpty

/-- `TrieNode::default`, trie_node.rs:68-78. -/
def empty : Tree := node 0 none OMap.empty []

/-- `TrieNode::items`, trie_node.rs:169-171. -/
def items : Tree → Nat
  | node n _ _ _ => n
  | _ => 0

end Tree

/-- The concatenated child hashes in ascending order of character, trie_node.rs:188-202. -/
def concatHashes (h : Hashes) : Bytes := h.rows.flatMap (·.2)

/-- `TrieNode::hash`, trie_node.rs:173-205.  The panic on a leaf with an empty key is not modelled: `insert`
refuses such a key and loading turns it into no key. -/
def nodeHash (H : Bytes → Bytes) : Tree → Bytes
  | .node _ key hashes kids =>
    if Tree.isLeaf kids then
      match key with
      | none => []
      | some k => H k
    else if hashes.rows = [] then []
    else H (concatHashes hashes)
  | _ => []

/-- `TrieNode::make_primary_key`, trie_node.rs:111-121; `RootPrefix::MerkleTrieNode` is 8. -/
def nodeKey (pre : Bytes) (child : Option UInt8) : Bytes := 8 :: pre ++ child.toList

/-- `TrieNode::serialize`, trie_node.rs:123-137. -/
def rowOf : Tree → Option NodeRow
  | .node n key hashes kids => some ⟨key.getD [], kids.map (·.1), n, hashes⟩
  | _ => none

/-- `TrieNode::deserialize`, trie_node.rs:139-160. -/
def ofRow (r : NodeRow) : Tree :=
  .node r.items (if r.key = [] then none else some r.key) r.hashes (r.chars.map (fun c => (c, .stored)))

/-- `TrieNode::update_hash`, trie_node.rs:634-650: refresh the entry of a node in its parent's table. -/
def updateHash (H : Bytes → Bytes) (t : Tree) (parent : Hashes) (pre : Bytes) : Hashes :=
  match pre.getLast? with
  | none => parent
  | some c => if nodeHash H t = [] then parent.del c else parent.put c (nodeHash H t)

/-- `TrieNode::put_to_txn`, trie_node.rs:652-656. -/
def putNode (txn : Txn NodeRow) (t : Tree) (pre : Bytes) : Txn NodeRow :=
  match rowOf t with
  | none => txn
  | some r => Txn.stagePut txn (nodeKey pre none) r

/-- `TrieNode::delete_to_txn`, trie_node.rs:658-661. -/
def dropNode (txn : Txn NodeRow) (pre : Bytes) : Txn NodeRow := Txn.stageDel txn (nodeKey pre none)

/-- `TrieNode::get_or_load_child`, trie_node.rs:591-632: read a stored child from the database, or take the
default node when its row is missing. -/
def loadChild (db : Db NodeRow) (pre : Bytes) (c : UInt8) : Option Tree → Except TrieErr Tree
  | none => .error .childNotFound
  | some .stored =>
    match db.get (nodeKey pre (some c)) with
    | none => .ok .empty
    | some r => .ok (ofRow r)
  | some (.node n k h kids) => .ok (.node n k h kids)

/-- What an update of a node returns: the node, its parent's hash table, the batch and the results. -/
structure Upd where
  tree : Tree
  parent : Hashes
  txn : Txn NodeRow
  results : List Bool

/-- A recursive call: node, parent's hash table, batch, keys and index. -/
abbrev Rec := Tree → Hashes → Txn NodeRow → List Bytes → Nat → Except TrieErr Upd

/-- The running state of the loop over the groups of keys. -/
structure Loop where
  hashes : Hashes
  kids : Kids
  txn : Txn NodeRow
  results : List Bool
  successes : Nat

/-- Characters of the keys at an index, in order of first appearance: the keys of `grouped_keys`. -/
def groupChars (i : Nat) (ks : List (Nat × Bytes)) : List UInt8 :=
  (ks.filterMap (fun k => k.2[i]?)).eraseDups

/-- The keys of one group. -/
def group (i : Nat) (ks : List (Nat × Bytes)) (c : UInt8) : List (Nat × Bytes) :=
  ks.filter (fun k => k.2[i]? == some c)

/-- Copy the results of a group back, trie_node.rs:376-381 and 478-483. -/
def copyResults : List Nat → List Bool → List Bool → List Bool
  | j :: js, r :: rs, out => copyResults js rs (out.set j r)
  | _, _, out => out

/-- One group of an insertion, trie_node.rs:358-382. -/
def insertGroup (rec : Rec) (db : Db NodeRow) (pre : Bytes) (i : Nat) (ks : List (Nat × Bytes)) (s : Loop)
    (c : UInt8) : Except TrieErr Loop :=
  match loadChild db pre c (some ((OMapL.get c s.kids).getD .empty)) with
  | .error e => .error e
  | .ok child =>
    match rec child s.hashes s.txn ((group i ks c).map (·.2)) (i + 1) with
    | .error e => .error e
    | .ok u => .ok ⟨u.parent, OMapL.put c u.tree s.kids, u.txn, copyResults ((group i ks c).map (·.1)) u.results s.results,
        s.successes + u.results.count true⟩

/-- The loop of an update over the groups. -/
def foldGroups (step : Loop → UInt8 → Except TrieErr Loop) : List UInt8 → Loop → Except TrieErr Loop
  | [], s => .ok s
  | c :: cs, s =>
    match step s c with
    | .error e => .error e
    | .ok s' => foldGroups step cs s'

/-- The second half of `TrieNode::insert`, trie_node.rs:339-391: the keys that go into children. -/
def insertBelow (H : Bytes → Bytes) (ord : List UInt8 → List UInt8) (rec : Rec) (db : Db NodeRow) (items : Nat)
    (key : Option Bytes) (hashes : Hashes) (kids : Kids) (parent : Hashes) (txn : Txn NodeRow) (pre : Bytes)
    (i : Nat) (results : List Bool) (ks : List (Nat × Bytes)) : Except TrieErr Upd :=
  if ks.any (fun k => decide (k.2.length ≤ i)) then .error .keyLengthExceeded
  else
    match foldGroups (insertGroup rec db pre i ks) (ord (groupChars i ks)) ⟨hashes, kids, txn, results, 0⟩ with
    | .error e => .error e
    | .ok s =>
      if s.successes = 0 then .ok ⟨.node items key s.hashes s.kids, parent, s.txn, s.results⟩
      else
        let t := Tree.node (items + s.successes) key s.hashes s.kids
        .ok ⟨t, updateHash H t parent pre, putNode s.txn t pre, s.results⟩

/-- `TrieNode::split_leaf_node`, trie_node.rs:548-589, followed by the second half of `insert`.  Indexing a
key that ends at the node panics. -/
def splitInsert (H : Bytes → Bytes) (ord : List UInt8 → List UInt8) (rec : Rec) (db : Db NodeRow) (items : Nat)
    (key : Bytes) (hashes : Hashes) (kids : Kids) (parent : Hashes) (txn : Txn NodeRow) (pre : Bytes)
    (i : Nat) (results : List Bool) (ks : List (Nat × Bytes)) : Except TrieErr Upd :=
  match key[i]? with
  | none => .error .panic
  | some c =>
    match rec .empty hashes txn [key] (i + 1) with
    | .error e => .error e
    | .ok u =>
      let hashes' := u.parent.put c (nodeHash H u.tree)
      let kids' := OMapL.put c u.tree kids
      insertBelow H ord rec db items none hashes' kids' parent
        (putNode u.txn (.node items none hashes' kids') (key.take i)) pre i results ks

/-- The keys different from the leaf's, with their positions, trie_node.rs:315-326. -/
def remaining (off : Nat) (key : Bytes) (keys : List Bytes) : List (Nat × Bytes) :=
  ((keys.zipIdx off).filter (fun k => k.1 != key)).map (fun k => (k.2, k.1))

/-- The rest of `insert` at a leaf with a key, trie_node.rs:310-334. -/
def leafInsert (H : Bytes → Bytes) (ord : List UInt8 → List UInt8) (rec : Rec) (db : Db NodeRow) (items : Nat)
    (key : Bytes) (hashes : Hashes) (kids : Kids) (parent : Hashes) (txn : Txn NodeRow) (pre : Bytes)
    (i : Nat) (results : List Bool) (off : Nat) (keys : List Bytes) : Except TrieErr Upd :=
  if remaining off key keys = [] then .ok ⟨.node items (some key) hashes kids, parent, txn, results⟩
  else splitInsert H ord rec db items key hashes kids parent txn pre i results (remaining off key keys)

/-- `TrieNode::insert`, trie_node.rs:268-392, for one level. -/
def insertLevel (H : Bytes → Bytes) (ord : List UInt8 → List UInt8) (db : Db NodeRow) (rec : Rec) : Rec
  | .node items key hashes kids, parent, txn, keys, i =>
    match keys with
    | [] => .error .noKeys
    | k0 :: rest =>
      let pre := k0.take i
      let results := keys.map (fun _ => false)
      if uncompacted ≤ i ∧ Tree.isLeaf kids = true then
        match key with
        | none =>
          let k := (k0 :: rest).getLast (by simp)
          let t := Tree.node (items + 1) (some k) hashes kids
          leafInsert H ord rec db (items + 1) k hashes kids (updateHash H t parent pre) (putNode txn t pre) pre i
            (results.set 0 true) 1 (k0 :: rest).dropLast
        | some k => leafInsert H ord rec db items k hashes kids parent txn pre i results 0 (k0 :: rest)
      else
        insertBelow H ord rec db items key hashes kids parent txn pre i results
          ((k0 :: rest).zipIdx.map (fun k => (k.2, k.1)))
  | _, _, _, _, _ => .error .invalidChild

/-- `TrieNode::insert`, trie_node.rs:268-392.  The first argument bounds the recursion depth. -/
def nodeInsert (H : Bytes → Bytes) (ord : List UInt8 → List UInt8) (db : Db NodeRow) : Nat → Rec
  | 0 => fun _ _ _ _ _ => .error .fuel
  | n + 1 => insertLevel H ord db (nodeInsert H ord db n)

/-- Position of the first key equal to the leaf's, trie_node.rs:409-421. -/
def findKey (key : Option Bytes) (keys : List Bytes) : Option Nat := keys.findIdx? (fun k => k == key.getD [])

/-- One group of a deletion, trie_node.rs:442-484. -/
def deleteGroup (rec : Rec) (db : Db NodeRow) (pre : Bytes) (i : Nat) (ks : List (Nat × Bytes)) (s : Loop)
    (c : UInt8) : Except TrieErr Loop :=
  if (OMapL.get c s.kids).isNone then
    .ok { s with results := copyResults ((group i ks c).map (·.1)) ((group i ks c).map (fun _ => false)) s.results }
  else
    match loadChild db pre c (OMapL.get c s.kids) with
    | .error e => .error e
    | .ok child =>
      match rec child s.hashes s.txn ((group i ks c).map (·.2)) (i + 1) with
      | .error e => .error e
      | .ok u =>
        .ok ⟨if u.tree.items = 0 then u.parent.del c else u.parent,
          if u.tree.items = 0 then OMapL.del c s.kids else OMapL.put c u.tree s.kids, u.txn,
          copyResults ((group i ks c).map (·.1)) u.results s.results, s.successes + u.results.count true⟩

/-- The compaction step of a deletion, trie_node.rs:494-512: the only child's key moves up.  The row that is
deleted is the one at `delete_to_txn (make_primary_key prefix char)`: the row prefix is added twice. -/
def compactNode (db : Db NodeRow) (items : Nat) (key : Option Bytes) (hashes : Hashes) (kids : Kids)
    (txn : Txn NodeRow) (pre : Bytes) (i : Nat) : Except TrieErr (Tree × Txn NodeRow) :=
  match kids.map (·.1) with
  | [c] =>
    if items = 1 ∧ uncompacted ≤ i then
      match loadChild db pre c (OMapL.get c kids) with
      | .error e => .error e
      | .ok child =>
        match child with
        | .node _ (some k) _ _ => .ok (.node items (some k) hashes (OMapL.del c kids), dropNode txn (nodeKey pre (some c)))
        | _ => .ok (.node items key hashes (OMapL.put c child kids), txn)
    else .ok (.node items key hashes kids, txn)
  | _ => .ok (.node items key hashes kids, txn)

/-- The end of `TrieNode::delete`, trie_node.rs:486-517. -/
def deleteFinish (H : Bytes → Bytes) (db : Db NodeRow) (items : Nat) (key : Option Bytes) (parent : Hashes)
    (pre : Bytes) (i : Nat) (s : Loop) : Except TrieErr Upd :=
  if s.successes = 0 then .ok ⟨.node items key s.hashes s.kids, parent, s.txn, s.results⟩
  else if items - s.successes = 0 then
    let t := Tree.node 0 key s.hashes s.kids
    .ok ⟨t, updateHash H t parent pre, dropNode s.txn pre, s.results⟩
  else
    match compactNode db (items - s.successes) key s.hashes s.kids s.txn pre i with
    | .error e => .error e
    | .ok (t, txn) => .ok ⟨t, updateHash H t parent pre, putNode txn t pre, s.results⟩

/-- `TrieNode::delete`, trie_node.rs:394-518, for one level. -/
def deleteLevel (H : Bytes → Bytes) (ord : List UInt8 → List UInt8) (db : Db NodeRow) (rec : Rec) : Rec
  | .node items key hashes kids, parent, txn, keys, i =>
    match keys with
    | [] => .error .panic
    | k0 :: rest =>
      let pre := k0.take i
      let results := keys.map (fun _ => false)
      let ks := (k0 :: rest).zipIdx.map (fun k => (k.2, k.1))
      if Tree.isLeaf kids = true then
        match findKey key (k0 :: rest) with
        | none => .ok ⟨.node items key hashes kids, parent, txn, results⟩
        | some j =>
          let t := Tree.node (items - 1) none hashes kids
          .ok ⟨t, updateHash H t parent pre, dropNode txn pre, results.set j true⟩
      else if ks.any (fun k => decide (k.2.length ≤ i)) then .error .keyLengthExceeded
      else
        match foldGroups (deleteGroup rec db pre i ks) (ord (groupChars i ks)) ⟨hashes, kids, txn, results, 0⟩ with
        | .error e => .error e
        | .ok s => deleteFinish H db items key parent pre i s
  | _, _, _, _, _ => .error .invalidChild

/-- `TrieNode::delete`, trie_node.rs:394-518.  The first argument bounds the recursion depth. -/
def nodeDelete (H : Bytes → Bytes) (ord : List UInt8 → List UInt8) (db : Db NodeRow) : Nat → Rec
  | 0 => fun _ _ _ _ _ => .error .fuel
  | n + 1 => deleteLevel H ord db (nodeDelete H ord db n)

/-- `TrieNode::exists`, trie_node.rs:520-542.  `pre` is the part of the key already walked and `rest` what is
left; the code's caching of the children it loads is left out (it has no observable effect here). -/
def nodeExists (db : Db NodeRow) (key : Bytes) : Bytes → Bytes → Tree → Except TrieErr Bool
  | pre, rest, .node _ k _ kids =>
    if Tree.isLeaf kids = true then .ok (k.getD [] == key)
    else
      match rest with
      | [] => .ok false
      | c :: rest =>
        if (OMapL.get c kids).isNone then .ok false
        else
          match loadChild db pre c (OMapL.get c kids) with
          | .error e => .error e
          | .ok child => nodeExists db key (pre ++ [c]) rest child
  | _, _, _ => .error .invalidChild

/-- `TrieNode::get_node_from_trie`, trie_node.rs:242-262: walk down a path. -/
def nodeAt (db : Db NodeRow) : Bytes → Bytes → Tree → Option Tree
  | _, [], t => some t
  | pre, c :: rest, .node _ _ _ kids =>
    if (OMapL.get c kids).isNone then none
    else
      match loadChild db pre c (OMapL.get c kids) with
      | .error _ => none
      | .ok child => nodeAt db (pre ++ [c]) rest child
  | _, _ :: _, _ => none

/-- `expand_nibbles`, /repo/src/storage/trie/util.rs:5-12. -/
def expandNibbles (b : Bytes) : Bytes := b.flatMap (fun (x : UInt8) => [x >>> (4 : UInt8), x &&& (15 : UInt8)])

/-- `combine_nibbles`, /repo/src/storage/trie/util.rs:15-22; an odd length panics. -/
def combineNibbles : Bytes → Option Bytes
  | [] => some []
  | [_] => none
  | a :: b :: rest => (combineNibbles rest).map (((a <<< (4 : UInt8)) ||| (b &&& (15 : UInt8))) :: ·)

/-- The in-memory trie and the pending batch: `MerkleTrie` (merkle_trie.rs:217-219) with its caller's
transaction, over a database. -/
structure TrieState where
  root : Option Tree := none
  db : Db NodeRow := OMap.empty
  txn : Txn NodeRow := OMap.empty

/-- A recursion bound large enough for the keys. -/
def depthBound (keys : List Bytes) : Nat := (keys.map List.length).foldr max 0 + 2

/-- `MerkleTrie::create_empty_root` and `initialize`, merkle_trie.rs:248-271. -/
def TrieState.initialize (s : TrieState) : TrieState :=
  match s.db.get (nodeKey [] none) with
  | some r => { s with root := some (ofRow r) }
  | none => { s with root := some .empty, db := Db.commit s.db (putNode OMap.empty .empty []) }

/-- `MerkleTrie::insert`, merkle_trie.rs:299-331. -/
def TrieState.insert (H : Bytes → Bytes) (ord : List UInt8 → List UInt8) (s : TrieState) (keys : List Bytes) :
    Except TrieErr (TrieState × List Bool) :=
  let ks := keys.map expandNibbles
  if ks = [] then .ok (s, [])
  else if ks.any (fun k => decide (k.length < uncompacted)) then .error .keyLengthTooShort
  else
    match s.root with
    | none => .error .notInitialized
    | some root =>
      match nodeInsert H ord s.db (depthBound ks) root OMap.empty OMap.empty ks 0 with
      | .error e => .error e
      | .ok u => .ok ({ s with root := some u.tree, txn := s.txn.merge u.txn }, u.results)

/-- `MerkleTrie::delete`, merkle_trie.rs:333-363. -/
def TrieState.delete (H : Bytes → Bytes) (ord : List UInt8 → List UInt8) (s : TrieState) (keys : List Bytes) :
    Except TrieErr (TrieState × List Bool) :=
  let ks := keys.map expandNibbles
  if ks = [] then .ok (s, [])
  else if ks.any (fun k => decide (k.length < uncompacted)) then .error .keyLengthTooShort
  else
    match s.root with
    | none => .error .notInitialized
    | some root =>
      match nodeDelete H ord s.db (depthBound ks) root OMap.empty OMap.empty ks 0 with
      | .error e => .error e
      | .ok u => .ok ({ s with root := some u.tree, txn := s.txn.merge u.txn }, u.results)

/-- `MerkleTrie::exists`, merkle_trie.rs:365-373. -/
def TrieState.contains (s : TrieState) (key : Bytes) : Except TrieErr Bool :=
  match s.root with
  | none => .error .notInitialized
  | some root => nodeExists s.db (expandNibbles key) [] (expandNibbles key) root

/-- `MerkleTrie::items`, merkle_trie.rs:375-381. -/
def TrieState.items (s : TrieState) : Except TrieErr Nat :=
  match s.root with
  | none => .error .notInitialized
  | some root => .ok root.items

/-- `MerkleTrie::root_hash`, merkle_trie.rs:441-447. -/
def TrieState.rootHash (H : Bytes → Bytes) (s : TrieState) : Except TrieErr Bytes :=
  match s.root with
  | none => .error .notInitialized
  | some root => .ok (nodeHash H root)

/-- The caller commits the batch. -/
def TrieState.commit (s : TrieState) : TrieState := { s with db := s.db.commit s.txn, txn := OMap.empty }

/-- `MerkleTrie::reload`, merkle_trie.rs:285-297, as the engines use it: the pending batch is dropped. -/
def TrieState.reload (s : TrieState) : Except TrieErr TrieState :=
  match s.db.get (nodeKey [] none) with
  | none => .error .unableToReload
  | some r => .ok { s with root := some (ofRow r), txn := OMap.empty }

end Verif
