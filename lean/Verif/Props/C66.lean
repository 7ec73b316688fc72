import Verif.Lemmas.LocalState
/-!
C66: a validator does not propose two values for one height and round, also if it restarts in between.
-/
namespace Verif
open Verif.Spec

section
variable {V : Type}

/-- A step other than the decision of the height leaves a proposal as it is. -/
theorem step_keeps {db : Db V} {s h r : Nat} {x : V} {st : LocalStep V} (hs : s < 2 ^ 32) (hh : h < 2 ^ 64) (hr : r < 2 ^ 63)
    (hx : db.get (proposalKey s h r) = some x) (hfit : st.Fits) (hne : st ≠ .decided s h) :
    (localStep db st).get (proposalKey s h r) = some x := by
  cases st with
  | propose s' h' r' fresh =>
    simp only [LocalStep.Fits] at hfit
    simp only [localStep, proposeOnce]
    cases hg : db.get (proposalKey s' h' r') with
    | some p => exact hx
    | none =>
      simp only
      rw [OMap.get_put]
      split
      · next e => rw [← e, hx] at hg; cases hg
      · exact hx
  | decided s' h' =>
    simp only [LocalStep.Fits] at hfit
    simp only [localStep]
    rw [get_delete_proposal db r hfit.1 hfit.2 hs hh, if_neg]
    · exact hx
    · rintro ⟨rfl, rfl⟩; exact hne rfl
  | note k v =>
    have hk : proposalKey s h r ≠ k := by
      rintro rfl
      simp [LocalStep.Fits, proposalKey, heightPrefix] at hfit
    cases v with
    | none => simp only [localStep]; rw [OMap.get_del, if_neg hk]; exact hx
    | some v => simp only [localStep]; rw [OMap.get_put, if_neg hk]; exact hx
  | restart => exact hx

/-- Asked again for the same shard, height and round, a validator gives the same proposal, whatever happened in between,
restarts included, as long as that height was not decided. -/
theorem C66_same_proposal_again (db : Db V) {s h r : Nat} (a b : V) (between : List (LocalStep V))
    (hs : s < 2 ^ 32) (hh : h < 2 ^ 64) (hr : r < 2 ^ 63)
    (hb : ∀ st ∈ between, st.Fits ∧ st ≠ .decided s h) :
    let first := proposeOnce db s h r a
    (proposeOnce (localRun first.2.2 between) s h r b).2.1 = first.2.1 := by
  intro first
  have h1 : first.2.2.get (proposalKey s h r) = some first.2.1 := by
    simp only [first, proposeOnce]
    cases hg : db.get (proposalKey s h r) with
    | some p => exact hg
    | none => simp
  have key : ∀ (l : List (LocalStep V)) (d : Db V), d.get (proposalKey s h r) = some first.2.1 →
      (∀ st ∈ l, st.Fits ∧ st ≠ .decided s h) → (localRun d l).get (proposalKey s h r) = some first.2.1 := by
    intro l
    induction l with
    | nil => intro d hd _; exact hd
    | cons st l ih =>
      intro d hd hl
      have := hl st (by simp)
      exact ih (localStep d st) (step_keeps hs hh hr hd this.1 this.2) (fun x hx => hl x (by simp [hx]))
  have h2 := key between first.2.2 h1 hb
  rw [proposeOnce, h2]

/-- Deciding a height removes exactly the proposals of that shard and height, for every round, and no other row of the
node's local state. -/
theorem C66_decided_removes_that_height (db : Db V) {s h : Nat} (hs : s < 2 ^ 32) (hh : h < 2 ^ 64) :
    (∀ s' h' r, s' < 2 ^ 32 → h' < 2 ^ 64 → (deleteProposals db s h).get (proposalKey s' h' r) =
      if s' = s ∧ h' = h then none else db.get (proposalKey s' h' r)) ∧
    (∀ k, (k.head? = some 17 ∨ k.head? = some 21) → (deleteProposals db s h).get k = db.get k) :=
  ⟨fun _ _ r h3 h4 => get_delete_proposal db r hs hh h3 h4, fun _ hk => get_delete_other db s h hk⟩

/-- Without a proposal for a height and round the node proposes what it has now and keeps it. -/
theorem C66_fresh_is_kept (db : Db V) (s h r : Nat) (fresh : V) (hn : db.get (proposalKey s h r) = none) :
    (proposeOnce db s h r fresh).2.1 = fresh ∧
    (proposeOnce db s h r fresh).2.2.get (proposalKey s h r) = some fresh := by
  simp [proposeOnce, hn]

end

namespace C66Case

def history : List (LocalStep Nat) :=
  [.propose 1 5 1 11, .restart, .propose 2 5 0 12, .decided 2 5, .note [17, 1] (some 99), .decided 1 4, .restart]

example : ∀ st ∈ history, st.Fits ∧ st ≠ .decided 1 5 := by
  intro st hst
  simp only [history, List.mem_cons, List.not_mem_nil, or_false] at hst
  rcases hst with rfl | rfl | rfl | rfl | rfl | rfl | rfl <;> simp [LocalStep.Fits]

/-- Height 5, round 0: the first proposal is given again after all of this; the height's decision removes it, and only
that height. -/
example :
    let db := localRun (proposeOnce (OMap.empty : Db Nat) 1 5 0 10).2.2 history
    (proposeOnce db 1 5 0 20).2.1 = 10 ∧
    (localRun db [.decided 1 5]).rows = [([17, 1], 99)] ∧ db.rows.length = 3 := by decide +kernel

/-- Heights next to each other at a byte boundary. -/
example :
    let db := localRun (OMap.empty : Db Nat) [.propose 1 255 0 1, .propose 1 256 0 2, .propose 1 254 7 3]
    (localRun db [.decided 1 255]).rows.map (·.2) = [3, 2] := by decide +kernel

end C66Case

/-- A proposal found on disk is not put back into memory: a validator that restarts proposes its stored value again, but
when that value is decided it does not know it and commits nothing. -/
theorem C66_restarted_proposer_does_not_commit {B : Type} (e : ProposerEngine B) (db : Db (FullProposal B))
    (p : FullProposal B) (r : Nat) (fresh : FullProposal B)
    (hp : db.get (proposalKey p.height.shard p.height.block r) = some p) :
    let restarted : ProposerState B := ⟨ProposedValues.empty, p.inner, []⟩
    let asked := proposeOnce db p.height.shard p.height.block r fresh
    let state := if asked.1 then ownProposal restarted asked.2.1 else restarted
    asked.2.1 = p ∧ decideValue e state p.height p.shardHash = some restarted := by
  simp only [proposeOnce, hp, Bool.false_eq_true, if_false]
  exact ⟨trivial, rfl⟩

end Verif
