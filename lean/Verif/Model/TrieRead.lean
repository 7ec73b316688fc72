import Verif.Model.Trie
/-!
Reads of the trie: /repo/src/storage/trie/trie_node.rs:664-693, /repo/src/storage/trie/merkle_trie.rs:383-675
and the page tokens of /repo/src/storage/trie/util.rs:25-91.

Simplifications: nodes that a read loads from the database are not kept in memory (no observable effect);
recursion and the paging loop carry a step bound, and running out of it is the error `fuel`.
-/
namespace Verif

/-- `MAX_VALUES_RETURNED_PER_CALL`, trie_node.rs:19. -/
def maxValues : Nat := 1024

/-- The loop of `get_all_values` over the children, trie_node.rs:678-690. -/
def valuesLoop (rec : Bytes → Tree → Except TrieErr (List Bytes)) (db : Db NodeRow) (pre : Bytes) (kids : Kids) :
    List UInt8 → List Bytes → Except TrieErr (List Bytes)
  | [], acc => .ok acc
  | c :: cs, acc =>
    match loadChild db pre c (OMapL.get c kids) with
    | .error e => .error e
    | .ok child =>
      match rec (pre ++ [c]) child with
      | .error e => .error e
      | .ok vs =>
        if maxValues < (acc ++ vs).length then .ok (acc ++ vs)
        else valuesLoop rec db pre kids cs (acc ++ vs)

/-- `TrieNode::get_all_values`, trie_node.rs:664-693. -/
def allValues (db : Db NodeRow) : Nat → Bytes → Tree → Except TrieErr (List Bytes)
  | 0, _, _ => .error .fuel
  | n + 1, pre, .node _ key _ kids =>
    if Tree.isLeaf kids = true then .ok [key.getD []]
    else valuesLoop (allValues db n) db pre kids (kids.map (·.1)) []
  | _ + 1, _, .stored => .error .invalidChild

/-- `combine_nibbles` on every value; an odd length panics. -/
def combineAll : List Bytes → Except TrieErr (List Bytes)
  | [] => .ok []
  | v :: vs =>
    match combineNibbles v with
    | none => .error .panic
    | some b =>
      match combineAll vs with
      | .error e => .error e
      | .ok bs => .ok (b :: bs)

/-- `MerkleTrie::get_all_values`, merkle_trie.rs:449-473. -/
def TrieState.allValues (s : TrieState) (fuel : Nat) (pre : Bytes) : Except TrieErr (List Bytes) :=
  match s.root with
  | none => .error .notInitialized
  | some root =>
    match nodeAt s.db [] (expandNibbles pre) root with
    | none => .ok []
    | some node =>
      match Verif.allValues s.db fuel (expandNibbles pre) node with
      | .error e => .error e
      | .ok vs => combineAll vs

/-- `MerkleTrie::get_node_from_txn_or_db` and `get_node`, merkle_trie.rs:383-413: a pending row or else the
stored one.  A pending deletion does not count: the stored row is still returned. -/
def TrieState.getNode (s : TrieState) (pre : Bytes) : Option Tree :=
  match s.txn.get (nodeKey (expandNibbles pre) none) with
  | some (some r) => some (ofRow r)
  | _ => (s.db.get (nodeKey (expandNibbles pre) none)).map ofRow

/-- `MerkleTrie::get_hash`, merkle_trie.rs:415-426. -/
def TrieState.getHash (H : Bytes → Bytes) (s : TrieState) (pre : Bytes) : Bytes :=
  ((s.getNode pre).map (nodeHash H)).getD []

/-- `MerkleTrie::get_count`, merkle_trie.rs:428-439. -/
def TrieState.getCount (s : TrieState) (pre : Bytes) : Nat := ((s.getNode pre).map Tree.items).getD 0

/-- The segments of a page token, merkle_trie.rs:587-590: the path below the prefix and then, for every level
from the top of the subtree, the characters not yet visited with the next one last.  The model keeps the
levels innermost first and each level with the next character first. -/
def pageToken (rel : Bytes) (stack : List (List UInt8)) : List Bytes := rel :: (stack.map List.reverse).reverse

/-- The main loop of `get_paged_values_of_subtree`, merkle_trie.rs:582-674.  `path` is always the prefix
followed by `relative_path`. -/
def pageLoop (db : Db NodeRow) (root : Tree) (pre : Bytes) (max : Nat) :
    Nat → Bytes → List (List UInt8) → List Bytes → Except TrieErr (List Bytes × Option (List Bytes))
  | 0, _, _, _ => .error .fuel
  | n + 1, rel, stack, acc =>
    if max ≤ acc.length then .ok (acc, some (pageToken rel stack))
    else
      match stack with
      | [] => .ok (acc, none)
      | [] :: st => pageLoop db root pre max n rel.dropLast st acc
      | (c :: cs) :: st =>
        match nodeAt db [] (pre ++ rel ++ [c]) root with
        | none => .error .nodeNotFound
        | some .stored => .error .nodeNotFound
        | some (.node _ key _ kids) =>
          if Tree.isLeaf kids = true then
            match key with
            | none => pageLoop db root pre max n rel (cs :: st) acc
            | some k =>
              if k = [] then .error .keyLengthTooShort
              else
                match combineNibbles k with
                | none => .error .panic
                | some b => pageLoop db root pre max n rel (cs :: st) (acc ++ [b])
          else pageLoop db root pre max n (rel ++ [c]) (kids.map (·.1) :: cs :: st) acc

/-- `MerkleTrie::get_paged_values_of_subtree`, merkle_trie.rs:478-675, after the token is decoded.  The caller's
vector starts empty (the code counts from its initial length). -/
def TrieState.page (s : TrieState) (fuel : Nat) (pre : Bytes) (max : Nat) (token : Option (List Bytes)) :
    Except TrieErr (List Bytes × Option (List Bytes)) :=
  match s.root with
  | none => .error .notInitialized
  | some root =>
    match nodeAt s.db [] (expandNibbles pre) root with
    | none => .ok ([], none)
    | some .stored => .ok ([], none)
    | some (.node _ key _ kids) =>
      match token with
      | some [] => .error .invalidPageToken
      | some (rel :: segs) =>
        if rel.length ≠ segs.length - 1 then .error .invalidPageToken
        else pageLoop s.db root (expandNibbles pre) max fuel rel (segs.reverse.map List.reverse) []
      | none =>
        if Tree.isLeaf kids = true then
          match key with
          | none => .ok ([], none)
          | some k =>
            if k = [] then .error .keyLengthTooShort
            else
              match combineNibbles k with
              | none => .error .panic
              | some b => .ok ([b], none)
        else pageLoop s.db root (expandNibbles pre) max fuel [] [kids.map (·.1)] []

/-- One length-prefixed segment, util.rs:45-48. -/
def encodeSegment (b : Bytes) : Bytes := be 4 b.length ++ b

/-- `encode_trie_page_token`, util.rs:30-50, before base64.  No token and the empty token give the empty string. -/
def encodePageToken : Option (List Bytes) → Bytes
  | none => []
  | some [] => []
  | some segs => be 4 segs.length ++ segs.flatMap encodeSegment

/-- The loop of `decode_trie_page_token`, util.rs:69-85: segments still to read. -/
def decodeSegments : Nat → Bytes → List Bytes → Except TrieErr (List Bytes)
  | 0, b, acc => if b = [] then .ok acc else .error .tokenDecode
  | n + 1, b, acc =>
    if b.length < 4 then .error .tokenDecode
    else if (b.drop 4).length < fromBe (b.take 4) then .error .tokenDecode
    else decodeSegments n ((b.drop 4).drop (fromBe (b.take 4))) (acc ++ [(b.drop 4).take (fromBe (b.take 4))])

/-- `decode_trie_page_token`, util.rs:54-91, after base64. -/
def decodePageToken (b : Bytes) : Except TrieErr (Option (List Bytes)) :=
  if b = [] then .ok none
  else if b.length < 4 then .error .tokenDecode
  else
    match decodeSegments (fromBe (b.take 4)) (b.drop 4) [] with
    | .error e => .error e
    | .ok segs => if segs = [] then .ok none else .ok (some segs)

/-- The optional token of a request, merkle_trie.rs:528-531. -/
def decodeRequestToken : Option Bytes → Except TrieErr (Option (List Bytes))
  | none => .ok none
  | some b => decodePageToken b

/-- `MerkleTrie::get_paged_values_of_subtree`, merkle_trie.rs:478-675, with encoded tokens.  A missing subtree is
answered before the token is looked at. -/
def TrieState.pageRequest (s : TrieState) (fuel : Nat) (pre : Bytes) (max : Nat) (token : Option Bytes) :
    Except TrieErr (List Bytes × Option Bytes) :=
  match s.root with
  | none => .error .notInitialized
  | some root =>
    if (nodeAt s.db [] (expandNibbles pre) root).isNone then .ok ([], none)
    else
      match decodeRequestToken token with
      | .error e => .error e
      | .ok t =>
        match s.page fuel pre max t with
        | .error e => .error e
        | .ok (l, t') => .ok (l, t'.map (fun x => encodePageToken (some x)))

end Verif
