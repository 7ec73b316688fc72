import Verif.Model.Snapshot
/-!
Histories of snapshot uploads, and what a snapshot is.
-/
namespace Verif
namespace Snap

/-- Uploads one after the other, each with the number of its steps that were done before it ended, by itself, by an error or
by a crash. -/
abbrev History := List (Upload × Nat)

/-- The steps of a history. -/
def History.acts (net : Bytes) (H : History) : List Act := H.flatMap fun x => (x.1.acts net).take x.2

/-- The bucket after some steps. -/
def bucket (acts : List Act) : Bucket := acts.foldl Act.run fun _ => none

/-- The chunks of an upload one after the other, in the order in which the directory listed them. -/
def Upload.content (u : Upload) : Bytes := (u.files.map (·.2)).flatten

/-- The upload got as far as its description. -/
def published (shard : Nat) (x : Upload × Nat) : Bool := x.1.shard == shard && decide (x.1.files.length < x.2)

/-- The last upload of a shard that got as far as its description. -/
def History.latest (H : History) (shard : Nat) : Option Upload := ((H.filter (published shard)).getLast?).map (·.1)

/-- Names of networks, stamps and files have no slash in them; files have different names. -/
structure Proper (net : Bytes) (H : History) : Prop where
  net : 47 ∉ net
  stamp : ∀ x ∈ H, 47 ∉ x.1.stamp
  shard : ∀ x ∈ H, x.1.shard < 2 ^ 32
  file : ∀ x ∈ H, ∀ f ∈ x.1.files, 47 ∉ f.1
  names : ∀ x ∈ H, (x.1.files.map (·.1)).Nodup

/-- No two uploads of a shard begin in the same second. -/
def Distinct (H : History) : Prop := H.Pairwise fun x y => x.1.shard ≠ y.1.shard ∨ x.1.stamp ≠ y.1.stamp

/-- No number of a shard begins with the digits of another one. -/
def Apart (H : History) : Prop := ∀ x ∈ H, ∀ y ∈ H, x.1.shard ≠ y.1.shard → ¬ decimal x.1.shard <+: decimal y.1.shard

end Snap
end Verif
