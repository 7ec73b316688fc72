import Verif.Spec.Store
/-!
The message stores of one shard in one database.  `Stores::new_with_opts`, /repo/src/storage/store/stores.rs:278-382,
hands the same database and the same event handler to every store, and the engine hands them one write batch per
block (`replay_proposal`, /repo/src/storage/store/engine.rs:511-730).
-/
namespace Verif

/-- A step of a shard: a call to one of the stores, or a write of some other part of the node (on-chain events, names,
trie nodes, blocks) to the same batch.  `commit`, `drop` and `block` concern the one batch and the one event handler,
whichever store is named. -/
inductive ShardOp where
  | call (kind : StoreKind) (o : StoreOp)
  /-- `txn.put`, /repo/src/storage/db/rocksdb.rs:44-46. -/
  | put (k : Bytes) (v : SVal)
  /-- `txn.delete`, rocksdb.rs:48-50. -/
  | del (k : Bytes)
  deriving DecidableEq, Repr

namespace StoreState

/-- Run one step. -/
def shardExec (channelOf : Bytes → Option Bytes) (ctx : Nat → MergeCtx) (st : StoreState) : ShardOp → StoreState
  | .call kind o => st.exec (kind.store channelOf) ctx o
  | .put k v => { st with pend := { st.pend with txn := st.pend.txn.stagePut k v } }
  | .del k => { st with pend := { st.pend with txn := st.pend.txn.stageDel k } }

/-- Run a history. -/
def shardRun (channelOf : Bytes → Option Bytes) (ctx : Nat → MergeCtx) (st : StoreState) (ops : List ShardOp) : StoreState :=
  ops.foldl (shardExec channelOf ctx) st

end StoreState
end Verif
