import Verif.Model.Fnames
/-! Specification vocabulary for fnames. -/
namespace Verif

/-- `a` is a later transfer than `b`: later timestamp, then greater signature. -/
def FProof.later (a b : FProof) : Prop := b.ts < a.ts ∨ (b.ts = a.ts ∧ Bytes.blt b.sig a.sig = true)

/-- The transfers submitted in a history. -/
def FnameOp.merged : List FnameOp → List FProof
  | [] => []
  | .merge p :: ops => p :: merged ops
  | _ :: ops => merged ops

/-- A history without dropped proposals. -/
def FnameOp.NoDrops (ops : List FnameOp) : Prop := .drop ∉ ops

/-- All users have 32-bit fids. -/
def FnameOp.Sized (ops : List FnameOp) : Prop := ∀ p, .merge p ∈ ops → p.fid < 2 ^ 32

/-- The transfers of one name that count: releases (fid 0) before the first registration are refused. -/
def countingTransfers (name : Bytes) (ps : List FProof) : List FProof :=
  (ps.filter (fun p => p.name = name)).dropWhile (fun p => p.fid = 0)

/-- The outcome for one name: the latest transfer that counts; the first submitted one among equally late. -/
def LatestOf (S : List FProof) (p : FProof) : Prop :=
  ∃ before after, S = before ++ p :: after ∧ (∀ x ∈ before, p.later x) ∧ (∀ x ∈ after, ¬ x.later p)

/-- Every user holds at most one name and moves go to somebody else: each submitted transfer, at the time
it is submitted, is to nobody (a release) or to a user who holds no name then. -/
def OneNameEach : FState → List FnameOp → Prop
  | _, [] => True
  | st, o :: ops => (match o with
      | .merge p => p.fid = 0 ∨ ∀ n q, getFname st.db st.txn n = .ok (some q) → q.fid ≠ p.fid
      | _ => True) ∧ OneNameEach (st.exec o) ops

end Verif
