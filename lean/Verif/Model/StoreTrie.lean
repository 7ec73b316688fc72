import Verif.Model.StoreRun
import Verif.Model.TrieKey
/-!
A message store together with the state trie: the engine hands every event a store call returns to the trie
(`update_trie`, /repo/src/storage/store/engine.rs:2017-2033, called at 1512, 1579, 1631 and 1653).
-/
namespace Verif

/-- The events a store call returns.  A failed call returns none: the engine logs the error and goes on
(engine.rs:1516-1525, 1585-1604, 1635-1645, 1657-1661). -/
def StoreState.returned (D : StoreDef) (ctx : Nat → MergeCtx) (st : StoreState) : StoreOp → Except HubErr (List StoreEvent)
  | .merge m => match (D.merge st.db (ctx m.ts) m st.pend).1 with
    | .ok e => .ok [e]
    | .error err => .error err
  | .force m => match (D.mergeForce st.db (ctx m.ts) m st.pend).1 with
    | .ok e => .ok [e]
    | .error err => .error err
  | .revokeAdd item =>
    match D.getAdd st.db st.pend.txn item with
    | .ok (some m) => match (D.revoke m st.pend).1 with
      | .ok e => .ok [e]
      | .error err => .error err
    | _ => .ok []
  | .prune fid cur max => (D.pruneMessages st.db fid cur max st.pend).1
  | .revokeSigner fid signer => (D.revokeBySigner st.db fid signer st.pend).1
  | .commit => .ok []
  | .drop => .ok []
  | .block _ => .ok []

/-- The events that reach the trie: those of a call that succeeded. -/
def eventsOf : Except HubErr (List StoreEvent) → List StoreEvent
  | .ok es => es
  | .error _ => []

/-- The hub event of a store event: `MergeMessageBody`, `PruneMessageBody` and `RevokeMessageBody` as built in
/repo/src/storage/store/account/store.rs:382-411.  The username proof store builds its own (username_proof_store.rs:273-335)
and is not one of the stores here. -/
def StoreEvent.hub : StoreEvent → TrieEvent
  | .merge m deleted => .merge (some m) deleted
  | .prune m => .prune (some m)
  | .revoke m => .revoke (some m)

namespace TrieState
variable (H : Bytes → Bytes) (ord : List UInt8 → List UInt8) (sha256 : Bytes → Bytes)

/-- The first loop of `update_for_event`, /repo/src/storage/trie/merkle_trie.rs:238-240. -/
def insertEach : List Bytes → TrieState → Except TrieErr TrieState
  | [], s => .ok s
  | k :: ks, s => match s.insert H ord [k] with
    | .error e => .error e
    | .ok r => insertEach ks r.1

/-- The second loop, merkle_trie.rs:241-243. -/
def deleteEach : List Bytes → TrieState → Except TrieErr TrieState
  | [], s => .ok s
  | k :: ks, s => match s.delete H ord [k] with
    | .error e => .error e
    | .ok r => deleteEach ks r.1

/-- `MerkleTrie::update_for_event`, merkle_trie.rs:229-246. -/
def updateForEvent (s : TrieState) (e : TrieEvent) : Except TrieErr TrieState :=
  match s.insertEach H ord (trieKeysForEvent sha256 e).1 with
  | .error err => .error err
  | .ok s' => s'.deleteEach H ord (trieKeysForEvent sha256 e).2

/-- The engine's loops over the events of a call, engine.rs:1510-1514, 1577-1581, 1629-1633 and 1651-1655. -/
def updateForEvents : List TrieEvent → TrieState → Except TrieErr TrieState
  | [], s => .ok s
  | e :: es, s => match s.updateForEvent H ord sha256 e with
    | .error err => .error err
    | .ok s' => updateForEvents es s'

end TrieState

/-- One message store and the trie of its engine.  They share a database in the code, under different key
prefixes; here each has its own. -/
structure StoreTrie where
  store : StoreState := {}
  trie : TrieState := TrieState.initialize {}

/-- What happens to the pair: a store call, or an event of something else (another store, an on-chain event, a name
transfer) reaching the trie. -/
inductive StoreTrieOp where
  | call (o : StoreOp)
  | other (e : TrieEvent)

/-- One step.  Commits reload the trie (`commit_and_emit_events`, engine.rs:2421-2470), and so does dropping a
proposal (engine.rs:438, 2397). -/
def StoreTrie.exec (H : Bytes → Bytes) (ord : List UInt8 → List UInt8) (sha256 : Bytes → Bytes) (D : StoreDef)
    (ctx : Nat → MergeCtx) (s : StoreTrie) : StoreTrieOp → Except TrieErr StoreTrie
  | .other e => match s.trie.updateForEvent H ord sha256 e with
    | .error err => .error err
    | .ok t => .ok { s with trie := t }
  | .call .commit => match s.trie.commit.reload with
    | .error err => .error err
    | .ok t => .ok { store := s.store.exec D ctx .commit, trie := t }
  | .call .drop => match s.trie.reload with
    | .error err => .error err
    | .ok t => .ok { store := s.store.exec D ctx .drop, trie := t }
  | .call o =>
    match s.trie.updateForEvents H ord sha256 ((eventsOf (s.store.returned D ctx o)).map StoreEvent.hub) with
    | .error err => .error err
    | .ok t => .ok { store := s.store.exec D ctx o, trie := t }

/-- A history. -/
def StoreTrie.run (H : Bytes → Bytes) (ord : List UInt8 → List UInt8) (sha256 : Bytes → Bytes) (D : StoreDef)
    (ctx : Nat → MergeCtx) : List StoreTrieOp → StoreTrie → Except TrieErr StoreTrie
  | [], s => .ok s
  | o :: ops, s => match s.exec H ord sha256 D ctx o with
    | .error e => .error e
    | .ok s' => StoreTrie.run H ord sha256 D ctx ops s'

end Verif
