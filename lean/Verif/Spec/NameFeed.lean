import Verif.Model.NameFeed
/-! Words for C82: reading the registry of names. -/
namespace Verif
namespace NameFeed

/-- Everything the registry will ever publish, in the order of ids. -/
def RegistryOK (reg : List Entry) : Prop := reg.Pairwise (fun a b => a.id < b.id)

/-- An honest server answers with the next entries it has published: a beginning of those after the position. -/
def HonestServer (reg : List Entry) (serve : Nat → List Entry) : Prop :=
  ∀ p, serve p <+: reg.filter (fun t => decide (p < t.id))

/-- It has published everything. -/
def CompleteServer (reg : List Entry) (serve : Nat → List Entry) : Prop :=
  HonestServer reg serve ∧ ∀ p, (∃ t ∈ reg, p < t.id) → serve p ≠ []

/-- A history with honest servers. -/
def HonestRun (reg : List Entry) (ops : List Op) : Prop :=
  ∀ o ∈ ops, match o with
    | .server serve _ => HonestServer reg serve
    | .retry ts => ∀ t ∈ ts, t ∈ reg
    | _ => True

/-- The entry was handed to the mempool, unless it is malformed. -/
def Node.Delivered (s : Node) (t : Entry) : Prop := ∀ w, parse t = some w → (t.id, w) ∈ s.handed

end NameFeed
end Verif
