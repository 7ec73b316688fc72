import Verif.Model.StoreRun
import Verif.Spec.Store
/-!
Admission of verifications on shard 0: /repo/src/storage/store/block_engine.rs.
-/
namespace Verif

/-- `verification_tombstone_cap`, block_engine.rs:274-280, with `VERIFICATION_TOMBSTONE_CAP_FLOOR` = 256. -/
def tombstoneCap (max : Nat) : Nat := if max = 0 then 0 else Nat.max max 256

/-- `verification_row_cap`, block_engine.rs:286-288: `u32::saturating_add`. -/
def rowCap (max : Nat) : Nat := Nat.min (max + tombstoneCap max) (2 ^ 32 - 1)

/-- `VerificationMessageCounts`, block_engine.rs:290-294. -/
structure VCounts where
  live : Nat := 0
  tombs : Nat := 0
  deriving DecidableEq, Repr

/-- `verification_message_counts`, block_engine.rs:641-676.  The trie counts by message type are modelled by
counting the user's message rows (database and batch): the trie holds one key per stored message. -/
def verificationCounts (db : Db SVal) (t : Txn SVal) (fid : Nat) : VCounts :=
  let ms := storedMessages verificationStore (Db.commit db t) fid
  ⟨ms.countP (·.ty = .verificationAdd), ms.countP (·.ty = .verificationRemove)⟩

/-- `verification_logical_key_type`, block_engine.rs:681-704: `some true` an add, `some false` a remove. -/
def logicalKeyType (db : Db SVal) (t : Txn SVal) (m : Msg) : Except HubErr (Option Bool) :=
  match verificationStore.getAdd db t m with
  | .error e => .error e
  | .ok (some _) => .ok (some true)
  | .ok none => match verificationStore.getRemove db t m with
    | .error e => .error e
    | .ok (some _) => .ok (some false)
    | .ok none => .ok none

/-- The admission `match`, block_engine.rs:1123-1175: does the message fit?  The total is a
`saturating_add`. -/
def fits (max : Nat) (c : VCounts) (isAdd : Bool) (existing : Option Bool) : Bool :=
  let total := Nat.min (c.live + c.tombs) (2 ^ 32 - 1)
  if max = 0 && isAdd then false
  else match isAdd, existing with
    | true, some true => true
    | true, some false => !(decide (c.live ≥ max))
    | true, none => !(decide (c.live ≥ max) || decide (total ≥ rowCap max))
    | false, some _ => true
    | false, none => !(decide (c.tombs ≥ tombstoneCap max) || decide (total ≥ rowCap max))

/-- The verification arm of `validate_user_message_with_verification_counts`, block_engine.rs:1070-1176.  The
version floor on the embedded time is left out. -/
def admitVerification (db : Db SVal) (t : Txn SVal) (max : Nat) (c : VCounts) (m : Msg) : Except HubErr Unit :=
  match m.ty, m.body with
  | .verificationAdd, .verificationAdd _ => match logicalKeyType db t m with
    | .error e => .error e
    | .ok ex => if fits max c true ex then .ok () else .error .validation
  | .verificationRemove, .verificationRemove _ => match logicalKeyType db t m with
    | .error e => .error e
    | .ok ex => if fits max c false ex then .ok () else .error .validation
  | _, _ => .error .validation

/-- One deleted row, block_engine.rs:1345-1356: `checked_sub`. -/
def VCounts.minus (c : VCounts) (ty : MessageType) : Option VCounts :=
  match ty with
  | .verificationAdd => if c.live = 0 then none else some { c with live := c.live - 1 }
  | .verificationRemove => if c.tombs = 0 then none else some { c with tombs := c.tombs - 1 }
  | _ => none

/-- The merged row, block_engine.rs:1358-1369: `checked_add`. -/
def VCounts.plus (c : VCounts) (ty : MessageType) : Option VCounts :=
  match ty with
  | .verificationAdd => if c.live + 1 ≥ 2 ^ 32 then none else some { c with live := c.live + 1 }
  | .verificationRemove => if c.tombs + 1 ≥ 2 ^ 32 then none else some { c with tombs := c.tombs + 1 }
  | _ => none

/-- `apply_verification_count_delta`, block_engine.rs:1341-1372. -/
def applyDelta (c : VCounts) : StoreEvent → Option VCounts
  | .merge m deleted => match deleted.foldlM (fun c d => c.minus d.ty) c with
    | none => none
    | some c' => c'.plus m.ty
  | _ => some c

/-- The state of the message loop of `replay_snapchain_txn`: batch, counts, what became of each message. -/
structure VLoop where
  s : SSt
  c : VCounts
  out : List (Except HubErr StoreEvent) := []

/-- One round of the loop, block_engine.rs:1507-1614, for a verification.  The event written for a failed merge
is left out. -/
def vStep (ctx : Nat → MergeCtx) (db : Db SVal) (max : Nat) (x : VLoop) (m : Msg) : Except HubErr VLoop :=
  match admitVerification db x.s.txn max x.c m with
  | .error e => .ok { x with out := x.out ++ [.error e] }
  | .ok () => match verificationStore.merge db (ctx m.ts) m x.s with
    | (.error e, s') => .ok { x with s := s', out := x.out ++ [.error e] }
    | (.ok ev, s') => match applyDelta x.c ev with
      | none => .error .internal
      | some c' => .ok ⟨s', c', x.out ++ [.ok ev]⟩

/-- `replay_snapchain_txn`, block_engine.rs:1424-1701, for a transaction of user `fid` with verifications and
allowance `max` (`StoreLimits::max_messages` of the user's storage).  As in the code, nothing compares the
authors of the messages with the user of the transaction. -/
def vTxn (ctx : Nat → MergeCtx) (st : StoreState) (fid max : Nat) (ms : List Msg) : Except HubErr VLoop :=
  ms.foldlM (vStep ctx st.db max) ⟨st.pend, verificationCounts st.db st.pend.txn fid, []⟩

/-- One step of shard 0. -/
inductive VOp where
  /-- Replay a transaction. -/
  | txn (fid max : Nat) (ms : List Msg)
  | commit | drop
  | block (height : Nat)
  deriving DecidableEq, Repr

/-- Run one step; a transaction that aborts leaves the batch as it was (the block fails). -/
def vExec (ctx : Nat → MergeCtx) (st : StoreState) : VOp → StoreState
  | .txn fid max ms => match vTxn ctx st fid max ms with
    | .ok x => { st with pend := x.s }
    | .error _ => st
  | .commit => st.exec verificationStore ctx .commit
  | .drop => st.exec verificationStore ctx .drop
  | .block h => st.exec verificationStore ctx (.block h)

/-- Run a history. -/
def vRun (ctx : Nat → MergeCtx) (st : StoreState) (ops : List VOp) : StoreState := ops.foldl (vExec ctx) st

/-- The histories covered: the messages of a transaction are valid verifications of its user, taken from `U`,
the allowance of each user stays below `M`, and no merge runs out of event numbers. -/
def VFair (ctx : Nat → MergeCtx) (U : Msg → Prop) (M : Nat → Nat) : StoreState → List VOp → Prop
  | _, [] => True
  | st, op :: ops =>
    (match op with
      | .txn f max ms => (∀ m ∈ ms, StoreKind.verifications.Valid m ∧ U m ∧ m.fid = f) ∧ f < 2 ^ 32 ∧ max ≤ M f ∧
          ∀ x, vTxn ctx st f max ms = .ok x → .error .invalidParameter ∉ x.out
      | _ => True) ∧ VFair ctx U M (vExec ctx st op) ops

end Verif
