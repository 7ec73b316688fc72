import Verif.Model.KV
/-! Specification vocabulary for scans and pages, independent of the iterator model. -/
namespace Verif

/-- The stored rows whose key starts with `p`, ascending. -/
def rowsStartingWith {V : Type} (db : Db V) (p : Bytes) : List (Bytes × V) :=
  db.rows.filter (fun r => p.isPrefixOf r.1)

/-- A list in scan direction. -/
def inDirection {α : Type} (rev : Bool) (l : List α) : List α := if rev then l.reverse else l

/-- No stored key is a proper prefix of the scan's upper bound: then the upper bound separates the
prefix from everything above it.  Holds in particular if the last byte of `p` is below 255, or if
all stored keys are at least as long as `p`. -/
def NoShortKey {V : Type} (db : Db V) (p : Bytes) : Prop :=
  ∀ r ∈ db.rows, Bytes.blt p r.1 = true → r.1 <+: incrementVec p → r.1 = incrementVec p

/-- Following next-page tokens of a page function: from token `t`, the pages concatenate to `ms`. -/
inductive FollowTokens {M : Type} (page : Option Bytes → Except HubErr (MessagesPage M)) :
    Option Bytes → List M → Prop
  | last {t ms} : page t = .ok ⟨ms, none⟩ → FollowTokens page t ms
  | next {t t' ms rest} : page t = .ok ⟨ms, some t'⟩ → FollowTokens page (some t') rest →
      FollowTokens page t (ms ++ rest)

end Verif
