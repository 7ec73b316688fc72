import Verif.Model.Storage
/-!
What storage allowances and subscriptions should be, in plain arithmetic on natural numbers.
-/
namespace Verif.Spec

/-- Units bought before 29 August 2024 are legacy units, those bought before 16 July 2025 (mainnet, 17:00 UTC; three
days earlier on the test networks) are 2024 units, later ones are 2025 units. -/
def unitType (mainnet : Bool) (boughtAt : Nat) : UnitType :=
  if boughtAt < 1724889600 then .legacy
  else if boughtAt < (if mainnet then 1752685200 else 1752426000) then .y2024
  else .y2025

/-- Units last one year, plus two years for legacy and one for 2024 units, plus one more year for everything
bought before the 2026 extension once that is in force. -/
def expiry (mainnet extended : Bool) (boughtAt : Nat) : Nat :=
  let extra := match unitType mainnet boughtAt with
    | .legacy => 2
    | .y2024 => 1
    | .y2025 => 0
  let bonus := if extended ∧ boughtAt < (if mainnet then 1782147600 else 1781283600) then 1 else 0
  boughtAt + (1 + extra + bonus) * (365 * 24 * 60 * 60)

/-- Units of a type a rental contributes at time `now`. -/
def rentUnits (mainnet extended : Bool) (now : Nat) (ty : UnitType) (e : OEvent) : Nat :=
  match e.body with
  | .storageRent u => if unitType mainnet e.ts = ty ∧ now < expiry mainnet extended e.ts then u.toNat else 0
  | _ => 0

/-- All unexpired units of a type in a list of rentals. -/
def purchased (mainnet extended : Bool) (now : Nat) (ty : UnitType) (es : List OEvent) : Nat :=
  (es.map (rentUnits mainnet extended now ty)).sum

/-- All units of a type in a list of lends. -/
def lendTotal (ty : UnitType) (lends : List (UnitType × Nat)) : Nat :=
  (lends.map (fun l => if l.1 = ty then l.2 else 0)).sum

/-- Proper rentals: the body is a rental, and the expiry fits in 32 bits (until the year 2102). -/
def Rental (mainnet extended : Bool) (e : OEvent) : Prop :=
  (∃ u, e.body = .storageRent u) ∧ expiry mainnet extended e.ts < 2 ^ 32

/-- The rentals a computation of the allowance counts: the stored ones and the pending ones of the user. -/
def countedRents (rents pending : List OEvent) (fid : Nat) : List OEvent :=
  rents ++ pending.filter (fun e => e.fid = fid && e.ty = 4)

/-- Messages of a kind one unit allows. -/
def perUnit : UnitType → LimitKind → Nat
  | .legacy, k => match k with
    | .casts => 5000 | .links => 2500 | .reactions => 2500 | .userData => 50 | .usernameProofs => 5
    | .verifications => 25 | .lends => 1 | .none => 0
  | .y2024, k => match k with
    | .casts => 2000 | .links => 1000 | .reactions => 1000 | .userData => 50 | .usernameProofs => 5
    | .verifications => 25 | .lends => 1 | .none => 0
  | .y2025, k => match k with
    | .casts => 100 | .links => 200 | .reactions => 200 | .userData => 25 | .usernameProofs => 2
    | .verifications => 5 | .lends => 1 | .none => 0

/-- Messages of a kind a number of units of each type allows. -/
def allowance (k : LimitKind) (units : UnitType → Nat) : Nat :=
  perUnit .legacy k * units .legacy + perUnit .y2024 k * units .y2024 + perUnit .y2025 k * units .y2025

end Verif.Spec

namespace Verif.Spec

/-- Seconds of a list of subscription purchases, given as time and days. -/
def totalSeconds (ps : List (Nat × Nat)) : Nat := (ps.map (fun p => p.2 * 86400)).sum

/-- When a list of purchases, in time order, runs out: the latest, over the purchases, of that purchase's time plus
the duration bought from then on; zero without purchases. -/
def RunsOutAt (ps : List (Nat × Nat)) (x : Nat) : Prop :=
  (∀ pre t d post, ps = pre ++ (t, d) :: post → t + totalSeconds ((t, d) :: post) ≤ x) ∧
  ((ps = [] ∧ x = 0) ∨ ∃ pre t d post, ps = pre ++ (t, d) :: post ∧ x = t + totalSeconds ((t, d) :: post))

/-- Purchases whose times and total duration stay far below 64 bits. -/
def Sane (ps : List (Nat × Nat)) : Prop := (∀ p ∈ ps, p.1 < 2 ^ 63) ∧ totalSeconds ps < 2 ^ 63

/-- Purchases in time order. -/
def InTimeOrder (ps : List (Nat × Nat)) : Prop := ps.Pairwise (fun a b => a.1 ≤ b.1)

end Verif.Spec
