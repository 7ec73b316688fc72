import Verif.Model.Shard
import Verif.Spec.StoreTrie
/-!
The tables of a shard's database and who owns them.  A table is named by the first byte of its keys
(/repo/src/storage/constants.rs:4-70); the rows of users are divided further by the byte after the user's fid
(constants.rs:72-190).
-/
namespace Verif

/-- A table: the first byte and, for user rows (first byte 3), the byte after the four bytes of the fid. -/
def tableOf : Bytes → Option (UInt8 × Option UInt8)
  | [] => none
  | b :: k => some (b, if b = 3 then k[4]? else none)

/-- The tables of a store: messages, adds, removes and indexes. -/
def StoreKind.tables : StoreKind → List (UInt8 × Option UInt8)
  | .casts => [(3, some 1), (3, some 87), (3, some 88), (4, none), (5, none)]
  | .reactions => [(3, some 3), (3, some 91), (3, some 92), (7, none), (25, none)]
  | .links => [(3, some 2), (3, some 89), (3, some 90), (3, some 100), (6, none)]
  | .verifications => [(3, some 4), (3, some 93), (3, some 94), (14, none)]
  | .userData => [(3, some 6), (3, some 97)]
  | .lends => [(3, some 8), (3, some 101), (22, none)]

/-- A key of one of the store's tables. -/
def StoreKind.Owns (kind : StoreKind) (k : Bytes) : Prop := ∃ t ∈ kind.tables, tableOf k = some t

instance (kind : StoreKind) (k : Bytes) : Decidable (kind.Owns k) := by unfold StoreKind.Owns; infer_instance

/-- The steps covered: calls C11 covers (each store's own messages from `U`, prunes and revocations of what the pending
batch has not touched), and writes outside the tables of the message stores. -/
def StoreState.ShardProper (channelOf : Bytes → Option Bytes) (U : Msg → Prop) (st : StoreState) : ShardOp → Prop
  | .call kind o => kind.Proper channelOf U st o
  | .put k _ => ∀ kind : StoreKind, ¬ kind.Owns k
  | .del k => ∀ kind : StoreKind, ¬ kind.Owns k

/-- A history of such steps. -/
def StoreState.ShardProperRun (channelOf : Bytes → Option Bytes) (ctx : Nat → MergeCtx) (U : Msg → Prop) :
    StoreState → List ShardOp → Prop
  | _, [] => True
  | st, o :: ops => st.ShardProper channelOf U o ∧ (st.shardExec channelOf ctx o).ShardProperRun channelOf ctx U ops

/-- What a step means to one store by itself: its own calls, and everyone's commits, dropped batches and new blocks. -/
def ShardOp.toward (kind : StoreKind) : ShardOp → Option StoreOp
  | .call _ .commit => some .commit
  | .call _ .drop => some .drop
  | .call _ (.block h) => some (.block h)
  | .call k o => if k = kind then some o else none
  | _ => none

/-- No prune of a run fails.  (A prune fails when a block's event numbers run out; it stops half way then.) -/
def StoreState.PrunesSucceed (D : StoreDef) (ctx : Nat → MergeCtx) : StoreState → List StoreOp → Prop
  | _, [] => True
  | st, o :: ops => (∀ f c m, o = .prune f c m → ∃ es, st.returned D ctx o = .ok es) ∧ (st.exec D ctx o).PrunesSucceed D ctx ops

def StoreState.ShardPrunesSucceed (channelOf : Bytes → Option Bytes) (ctx : Nat → MergeCtx) : StoreState → List ShardOp → Prop
  | _, [] => True
  | st, o :: ops => (∀ kind f c m, o = .call kind (.prune f c m) → ∃ es, st.returned (kind.store channelOf) ctx (.prune f c m) = .ok es) ∧
      (st.shardExec channelOf ctx o).ShardPrunesSucceed channelOf ctx ops

end Verif
