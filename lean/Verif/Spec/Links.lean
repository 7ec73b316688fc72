import Verif.Spec.Store
/-! Specification vocabulary for link compaction. -/
namespace Verif

/-- The type of a link or of a link compaction. -/
def Msg.linkType (m : Msg) : Bytes :=
  match m.body with
  | .link ty _ => ty
  | .linkCompact ty _ => ty
  | _ => []

/-- The target of a link. -/
def Msg.linkTo (m : Msg) : Option Nat :=
  match m.body with
  | .link _ t => t
  | _ => none

/-- The targets a compaction lists. -/
def Msg.listed (m : Msg) : List Nat :=
  match m.body with
  | .linkCompact _ ts => ts
  | _ => []

/-- A compaction message that passed validation. -/
def Msg.IsCompaction (c : Msg) : Prop :=
  0 < c.fid ∧ c.fid < 2 ^ 32 ∧ c.ts < 2 ^ 32 ∧ c.hash.length = 20 ∧ c.ty = .linkCompactState ∧
    ∃ ty ts, c.body = .linkCompact ty ts ∧ ty ≠ [] ∧ ty.length ≤ 8

/-- A link the compaction does not keep: an unlink, or a link to a user it does not list. -/
def Msg.Unlisted (c m : Msg) : Prop := m.isRemoval ∨ ∃ t, m.linkTo = some t ∧ t ∉ c.listed

/-- The links a compaction supersedes: the author's links of its type, dated no later than it, that it
does not keep.  Before the feature `BlockLinks` (`typed = false`) links of other types are included. -/
def Msg.Supersedes (typed : Bool) (c m : Msg) : Prop :=
  m.fid = c.fid ∧ (typed = true → m.linkType = c.linkType) ∧ m.ts ≤ c.ts ∧ c.Unlisted m

/-- A compaction is in force: it is the stored one of its user and type. -/
def StoreState.InForce (st : StoreState) (c : Msg) : Prop :=
  c.IsCompaction ∧ st.view (RowKey.linkCompact c.fid (padLinkType c.linkType)).bytes = some (.msg c)

/-- Nothing is pending for a user: the visible messages are the committed ones. -/
def StoreState.Quiet (st : StoreState) (D : StoreDef) (fid : Nat) : Prop :=
  ∀ m, m.fid = fid → (st.Has D m ↔ m ∈ storedMessages D st.db fid)

/-- The calls on the link store: those of C11, and merges of compactions while nothing is pending for
their user. -/
def LinkProper (U : Msg → Prop) (st : StoreState) : StoreOp → Prop
  | .merge m => (StoreKind.links.Valid m ∧ U m) ∨ (m.IsCompaction ∧ st.Quiet linkStore m.fid)
  | o => StoreKind.links.Proper (fun _ => none) U st o

/-- A history of such calls. -/
def LinkProperRun (ctx : Nat → MergeCtx) (U : Msg → Prop) : StoreState → List StoreOp → Prop
  | _, [] => True
  | st, o :: ops => LinkProper U st o ∧ LinkProperRun ctx U (st.exec linkStore ctx o) ops

end Verif
