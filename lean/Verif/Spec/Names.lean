import Verif.Model.Names
import Verif.Spec.Store
/-! Specification vocabulary for proven names. -/
namespace Verif

/-- The name a proof is about. -/
def Msg.provenName (m : Msg) : Option Bytes :=
  match m.body with
  | .usernameProof n => some n
  | _ => none

/-- A username proof that passed validation. -/
def NameValid (m : Msg) : Prop :=
  0 < m.fid ∧ m.fid < 2 ^ 32 ∧ m.ts < 2 ^ 32 ∧ m.hash.length = 20 ∧ m.ty = .usernameProof ∧
    ∃ n, m.body = .usernameProof n ∧ n ≠ []

/-- No two different proofs of the universe share timestamp and hash (hashes cover the author). -/
def HashesUnique (U : Msg → Prop) : Prop := ∀ a b, U a → U b → a.ts = b.ts → a.hash = b.hash → a = b

/-- The calls considered, in a given state: merges of valid proofs of `U`, by any users, and removals of
stored proofs. -/
def NameProper (U : Msg → Prop) (st : StoreState) : NameOp → Prop
  | .merge m => NameValid m ∧ U m
  | .revoke m | .prune m => st.Has nameStore m
  | .commit | .drop | .block _ => True

/-- A history of such calls. -/
def NameProperRun (ctx : Nat → MergeCtx) (U : Msg → Prop) : StoreState → List NameOp → Prop
  | _, [] => True
  | st, o :: ops => NameProper U st o ∧ NameProperRun ctx U (st.nameExec ctx o) ops

/-- The proofs submitted in a history. -/
def NameOp.merged : List NameOp → List Msg
  | [] => []
  | .merge m :: ops => m :: merged ops
  | _ :: ops => merged ops

/-- A history of merges, commits and new blocks. -/
def NameMergesOnly (ops : List NameOp) : Prop :=
  ∀ o ∈ ops, (∃ m, o = .merge m) ∨ o = .commit ∨ ∃ h, o = .block h

end Verif
