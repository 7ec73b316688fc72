import Verif.Model.Stores
/-!
Histories of a message store: the calls the engines make, and batch commits.
-/
namespace Verif

/-- A committed database, the pending batch and the event id generator of one engine. -/
structure StoreState where
  db : Db SVal := OMap.empty
  pend : SSt := ⟨OMap.empty, {}⟩

/-- One call. -/
inductive StoreOp where
  /-- `Store::merge`, called by `merge_message`, /repo/src/storage/store/engine.rs:1787-1938. -/
  | merge (m : Msg)
  /-- `Store::merge_force_override`, store.rs:843-892. -/
  | force (m : Msg)
  /-- Read the live add of an item and revoke it, as in `handle_delete_side_effects`, engine.rs:1749-1785. -/
  | revokeAdd (item : Msg)
  /-- `Store::prune_messages`, called by `prune_messages`, engine.rs:1940-2015. -/
  | prune (fid currentCount maxCount : Nat)
  /-- `Store::revoke_messages_by_signer`, called by `Stores::revoke_messages`, stores.rs:612-634. -/
  | revokeSigner (fid : Nat) (signer : Bytes)
  /-- `db.commit(txn)` and a fresh batch, engine.rs:2421-2470. -/
  | commit
  /-- Drop the batch (a proposal that is not decided), engine.rs:306-397. -/
  | drop
  /-- `set_current_height`, engine.rs:403-408. -/
  | block (height : Nat)
  deriving DecidableEq, Repr

namespace StoreState

/-- What readers of the database and the batch see. -/
def view (st : StoreState) (k : Bytes) : Option SVal := getFromDbOrTxn st.db st.pend.txn k

/-- Keep the batch a call leaves behind, whatever it returns. -/
def after {α : Type} (st : StoreState) (r : Except HubErr α × SSt) : StoreState := { st with pend := r.2 }

/-- Run one call. -/
def exec (D : StoreDef) (ctx : Nat → MergeCtx) (st : StoreState) : StoreOp → StoreState
  | .merge m => st.after (D.merge st.db (ctx m.ts) m st.pend)
  | .force m => st.after (D.mergeForce st.db (ctx m.ts) m st.pend)
  | .revokeAdd item =>
    match D.getAdd st.db st.pend.txn item with
    | .ok (some m) => st.after (D.revoke m st.pend)
    | _ => st
  | .prune fid cur max => st.after (D.pruneMessages st.db fid cur max st.pend)
  | .revokeSigner fid signer => st.after (D.revokeBySigner st.db fid signer st.pend)
  | .commit => { db := Db.commit st.db st.pend.txn, pend := { st.pend with txn := OMap.empty } }
  | .drop => { st with pend := { st.pend with txn := OMap.empty } }
  | .block h => { st with pend := { st.pend with gen := st.pend.gen.setHeight h } }

/-- Run a history. -/
def run (D : StoreDef) (ctx : Nat → MergeCtx) (st : StoreState) (ops : List StoreOp) : StoreState :=
  ops.foldl (exec D ctx) st

end StoreState

/-- The messages handed to `merge` in a history. -/
def StoreOp.merged : List StoreOp → List Msg
  | [] => []
  | .merge m :: ops => m :: merged ops
  | _ :: ops => merged ops

/-- A history of merges, commits and new blocks. -/
def MergesOnly (ops : List StoreOp) : Prop :=
  ∀ o ∈ ops, (∃ m, o = .merge m) ∨ o = .commit ∨ ∃ h, o = .block h

end Verif
