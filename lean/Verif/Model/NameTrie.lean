import Verif.Model.Fnames
import Verif.Model.StoreTrie
/-!
Name transfers together with the state trie: the engine hands the event of every transfer it merges to the trie
(/repo/src/storage/store/engine.rs:1334-1347).
-/
namespace Verif

/-- The names and the trie of one engine.  They share a database in the code, under different key prefixes; here each
has its own. -/
structure NameTrie where
  names : FState := {}
  trie : TrieState := TrieState.initialize {}

/-- A transfer, commit, dropped proposal or new block, or an event of something else reaching the trie. -/
inductive NameTrieOp where
  | call (o : FnameOp)
  | other (e : TrieEvent)

/-- The event `merge_username_proof` builds, /repo/src/storage/store/account/user_data_store.rs:301-309: the new
proof and the proof it replaced. -/
def fnameEvent (p : FProof) (replaced : Option FProof) : TrieEvent :=
  .username none none (some (p.fid, p.name)) (replaced.map (fun q => (q.fid, q.name)))

/-- One step.  A transfer that fails is logged and skipped (engine.rs:1350-1354). -/
def NameTrie.exec (H : Bytes → Bytes) (ord : List UInt8 → List UInt8) (sha256 : Bytes → Bytes) (s : NameTrie) :
    NameTrieOp → Except TrieErr NameTrie
  | .other e => match s.trie.updateForEvent H ord sha256 e with
    | .error err => .error err
    | .ok t => .ok { s with trie := t }
  | .call (.merge p) => match (mergeFname s.names p).1 with
    | .error _ => .ok { s with names := s.names.exec (.merge p) }
    | .ok replaced => match s.trie.updateForEvent H ord sha256 (fnameEvent p replaced) with
      | .error err => .error err
      | .ok t => .ok { names := s.names.exec (.merge p), trie := t }
  | .call .commit => match s.trie.commit.reload with
    | .error err => .error err
    | .ok t => .ok { names := s.names.exec .commit, trie := t }
  | .call .drop => match s.trie.reload with
    | .error err => .error err
    | .ok t => .ok { names := s.names.exec .drop, trie := t }
  | .call (.block h) => .ok { s with names := s.names.exec (.block h) }

/-- A history. -/
def NameTrie.run (H : Bytes → Bytes) (ord : List UInt8 → List UInt8) (sha256 : Bytes → Bytes) :
    List NameTrieOp → NameTrie → Except TrieErr NameTrie
  | [], s => .ok s
  | o :: ops, s => match s.exec H ord sha256 o with
    | .error e => .error e
    | .ok s' => NameTrie.run H ord sha256 ops s'

end Verif
