import Verif.Lemmas.Proposals
/-!
C54: the proposals a node keeps are bounded by height.
-/
namespace Verif
open Verif.Spec

section
variable {B : Type}

/-- If a hash fixes the height, then after any history of proposals and decisions exactly this is found under a hash:
the last proposal with it, until its height or a greater one is decided. -/
theorem C54_found_until_decided (ops : List (CacheOp B)) (hf : HashFixesHeight ops) (k : ShardHash) :
    (cacheRun ops).get k = wanted k ops.reverse := by
  have key : ∀ r : List (CacheOp B), HashFixesHeight r.reverse → (cacheRun r.reverse).get k = wanted k r := by
    intro r
    induction r with
    | nil => intro _; rfl
    | cons o l ih =>
      intro hf
      have hl : HashFixesHeight l.reverse := fun p q hp hq => hf p q (by simp_all) (by simp_all)
      rw [List.reverse_cons, cacheRun_snoc]
      have ih := ih hl
      have inv := cache_inv l.reverse
      cases o with
      | add q =>
        simp only [cacheStep, ProposedValues.add_get, wanted, ih]
        by_cases h : k = q.shardHash
        · rw [if_pos h, if_pos h.symm]
        · rw [if_neg h, if_neg (fun e => h e.symm)]
      | decide h =>
        simp only [cacheStep, wanted, ← ih]
        apply Option.ext
        intro p
        rw [ProposedValues.decide_get, Option.filter_eq_some_iff]
        constructor
        · rintro ⟨a, b⟩
          obtain ⟨_, _, c⟩ := inv.found k p a
          refine ⟨a, decide_eq_true ?_⟩
          by_cases hc : h ≺ p.height
          · exact hc
          · exact absurd c (b _ hc)
        · rintro ⟨a, b⟩
          refine ⟨a, fun g hg hlst => ?_⟩
          obtain ⟨q, q1, q2, q3⟩ := inv.listed g k hlst
          obtain ⟨p1, p2, _⟩ := inv.found k p a
          have : q.height = p.height := hl q p q1 p1 (q3.trans p2.symm)
          rw [← q2, this] at hg
          exact hg (of_decide_eq_true b)
  have := key ops.reverse (by rwa [List.reverse_reverse])
  rwa [List.reverse_reverse] at this

/-- Whatever the hashes: right after a height is decided no proposal of that height or below is found, and what is
found under a hash was added and has that hash. -/
theorem C54_nothing_at_or_below (ops : List (CacheOp B)) (h : BlockHeight) (k : ShardHash) (p : FullProposal B)
    (hg : (cacheRun (ops ++ [.decide h])).get k = some p) :
    h ≺ p.height ∧ p.shardHash = k ∧ CacheOp.add p ∈ ops := by
  have inv := cache_inv ops
  rw [cacheRun_snoc] at hg
  obtain ⟨a, b⟩ := ProposedValues.decide_get.1 hg
  obtain ⟨h1, h2, h3⟩ := inv.found k p a
  refine ⟨?_, h2, h1⟩
  by_cases hc : h ≺ p.height
  · exact hc
  · exact absurd h3 (b _ hc)

end

namespace C54Case

def prop (h round : Nat) (hash : UInt8) : FullProposal Nat := ⟨⟨1, h⟩, round, [1], [hash], ⟨1, h⟩, 0⟩

def history : List (CacheOp Nat) :=
  [.add (prop 5 0 50), .add (prop 6 0 60), .add (prop 5 1 51), .add (prop 6 1 60), .decide ⟨1, 5⟩, .add (prop 4 0 40)]

example : HashFixesHeight history := by
  intro p q hp hq
  simp only [history, List.mem_cons, CacheOp.add.injEq, reduceCtorEq, List.not_mem_nil, or_false, false_or] at hp hq
  rcases hp with rfl | rfl | rfl | rfl | rfl <;> rcases hq with rfl | rfl | rfl | rfl | rfl <;> decide

/-- The later of two proposals with one hash is found; the decided height is gone; an old proposal that arrives late
stays until the next decision. -/
example : [50, 51, 60, 40].map (fun k => ((cacheRun history).get ⟨1, [k]⟩).map (fun p => (p.height.block, p.round))) =
    [none, none, some (6, 1), some (4, 0)] := by decide

example : [40, 60].map (fun k => ((cacheRun (history ++ [.decide ⟨1, 5⟩])).get ⟨1, [k]⟩).isSome) = [false, true] := by
  decide

end C54Case

/-- The hash of a proposal is whatever its sender wrote.  If a hash comes again with a lower height, the proposal that
was added later is lost when the lower height is decided, although its own height is greater. -/
theorem C54_hash_at_two_heights_lost :
    ∃ (low high : FullProposal Nat) (h : BlockHeight), h ≺ high.height ∧
      (cacheRun [.add low, .add high]).get high.shardHash = some high ∧
      (cacheRun [.add low, .add high, .decide h]).get high.shardHash = none := by
  refine ⟨C54Case.prop 5 0 50, C54Case.prop 6 0 50, ⟨1, 5⟩, ?_⟩
  decide

end Verif
