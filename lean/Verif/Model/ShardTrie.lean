import Verif.Model.Shard
import Verif.Model.StoreTrie
/-!
The message stores of a shard in one database, with the state trie of the shard: every event a call to a store returns
reaches the one trie (`update_trie`, /repo/src/storage/store/engine.rs:2017-2033).
-/
namespace Verif

/-- A step of a shard with its trie: a step of the stores, or an event of something else (an on-chain event, a name
transfer, a username proof) reaching the trie, or the removal of one message that the engine has at hand: `Store::revoke`
(/repo/src/storage/store/engine.rs:1363-1375 and 1730-1737) or, for a withdrawn loan, `Store::prune_message`
(/repo/src/storage/store/account/storage_lend_store.rs:373-384). -/
inductive ShardTrieOp where
  | step (o : ShardOp)
  | other (e : TrieEvent)
  | remove (kind : StoreKind) (prune : Bool) (m : Msg)
  deriving DecidableEq

/-- `Store::prune_message`, /repo/src/storage/store/account/store.rs:1169-1200, or `Store::revoke`, 1092-1128, with the
events as a list. -/
def StoreDef.removeOne (D : StoreDef) (prune : Bool) (m : Msg) (s : SSt) : Except HubErr (List StoreEvent) × SSt :=
  if prune then
    match D.pruneMessage m s with
    | (.ok e, s') => (.ok e.toList, s')
    | (.error err, s') => (.error err, s')
  else
    match D.revoke m s with
    | (.ok e, s') => (.ok [e], s')
    | (.error err, s') => (.error err, s')

/-- One step. -/
def StoreTrie.shardExec (H : Bytes → Bytes) (ord : List UInt8 → List UInt8) (sha256 : Bytes → Bytes)
    (channelOf : Bytes → Option Bytes) (ctx : Nat → MergeCtx) (s : StoreTrie) : ShardTrieOp → Except TrieErr StoreTrie
  | .other e => match s.trie.updateForEvent H ord sha256 e with
    | .error err => .error err
    | .ok t => .ok { s with trie := t }
  | .remove kind prune m =>
    match s.trie.updateForEvents H ord sha256
        ((eventsOf ((kind.store channelOf).removeOne prune m s.store.pend).1).map StoreEvent.hub) with
    | .error err => .error err
    | .ok t => .ok { store := s.store.after ((kind.store channelOf).removeOne prune m s.store.pend), trie := t }
  | .step (.call kind o) => s.exec H ord sha256 (kind.store channelOf) ctx (.call o)
  | .step o => .ok { s with store := s.store.shardExec channelOf ctx o }

/-- A history. -/
def StoreTrie.shardRun (H : Bytes → Bytes) (ord : List UInt8 → List UInt8) (sha256 : Bytes → Bytes)
    (channelOf : Bytes → Option Bytes) (ctx : Nat → MergeCtx) : List ShardTrieOp → StoreTrie → Except TrieErr StoreTrie
  | [], s => .ok s
  | o :: ops, s => match s.shardExec H ord sha256 channelOf ctx o with
    | .error e => .error e
    | .ok s' => StoreTrie.shardRun H ord sha256 channelOf ctx ops s'

end Verif
