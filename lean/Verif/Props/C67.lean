import Verif.Lemmas.Proposals
import Verif.Case.Engine
/-!
C67: what a validator commits it has validated or proposed itself: true on shard 0, false on data shards.
-/
namespace Verif
open Verif.Spec

section
variable {B : Type}

/-- What is kept and what is committed was the node's own or passed after some prefix of the log. -/
structure KeptInv (e : ProposerEngine B) (own : List (FullProposal B)) (s : ProposerState B) : Prop where
  kept : ∀ k p, s.pv.get k = some p → p ∈ own ∨ ∃ n, e.valid (s.log.take n) p = true
  log : ∀ i p, s.log[i]? = some p → p ∈ own ∨ ∃ n, n ≤ i ∧ e.valid (s.log.take n) p = true

theorem take_of_le {α : Type} {l : List α} {n : Nat} (h : l.length ≤ n) : l.take n = l.take l.length := by
  rw [List.take_of_length_le h, List.take_of_length_le (Nat.le_refl _)]

/-- On shard 0, whatever a node receives and whatever is decided: every block it commits is one it proposed itself or
one that passed validation, with the header checks, after some prefix of what it had committed before. -/
theorem C67_blocks_were_validated (e : ProposerEngine B) (start : BlockHeight) (steps : List (ValidatorStep B))
    (s : ProposerState B) (hrun : validatorRun blockAdd e (startedAt start) steps = some s) (i : Nat)
    (p : FullProposal B) (hp : s.log[i]? = some p) :
    ValidatorStep.own p ∈ steps ∨ ∃ n, n ≤ i ∧ e.valid (s.log.take n) p = true := by
  have key : ∀ (steps : List (ValidatorStep B)) (own : List (FullProposal B)) (a s : ProposerState B),
      KeptInv e own a → validatorRun blockAdd e a steps = some s →
      KeptInv e (own ++ steps.filterMap (fun st => match st with | .own p => some p | _ => none)) s := by
    intro steps
    induction steps with
    | nil => intro own a s ha h; simp only [validatorRun, Option.some.injEq] at h; subst h; simpa using ha
    | cons st l ih =>
      intro own a s ha h
      simp only [validatorRun] at h
      cases st with
      | receive q =>
        simp only [validatorStep, Option.bind_some] at h
        have hn : KeptInv e own (blockAdd e a q).2 := by
          unfold blockAdd
          split
          · exact ha
          · split
            · exact ha
            · next hv =>
              refine ⟨fun k p hg => ?_, ha.log⟩
              simp only [ProposedValues.add_get] at hg
              split at hg
              · cases hg
                refine .inr ⟨a.log.length, ?_⟩
                simp only [List.take_length]
                simpa using hv
              · exact ha.kept k p hg
        have := ih own _ s hn h
        simpa using this
      | own q =>
        simp only [validatorStep, Option.bind_some] at h
        have hn : KeptInv e (own ++ [q]) (ownProposal a q) := by
          refine ⟨fun k p hg => ?_, fun i p hi => ?_⟩
          · simp only [ownProposal, ProposedValues.add_get] at hg
            split at hg
            · cases hg; exact .inl (by simp)
            · rcases ha.kept k p hg with x | x
              · exact .inl (by simp [x])
              · exact .inr x
          · rcases ha.log i p hi with x | x
            · exact .inl (by simp [x])
            · exact .inr x
        have := ih _ _ s hn h
        simpa using this
      | decided hh v =>
        simp only [validatorStep] at h
        unfold decideValue at h
        cases hg : a.pv.get v with
        | none =>
          rw [hg] at h
          simp only [Option.bind_some] at h
          simpa using ih own _ s ha h
        | some q =>
          rw [hg] at h
          simp only at h
          by_cases hok : e.ok a.log q = true
          · rw [if_pos hok] at h
            simp only [Option.bind_some] at h
            have hn : KeptInv e own (⟨a.pv.decide hh, q.inner, a.log ++ [q]⟩ : ProposerState B) := by
              have lift : ∀ p, (∃ n, e.valid (a.log.take n) p = true) →
                  ∃ n, n ≤ a.log.length ∧ e.valid ((a.log ++ [q]).take n) p = true := by
                rintro p ⟨n, hv⟩
                by_cases hl : n ≤ a.log.length
                · exact ⟨n, hl, by rw [List.take_append_of_le_length hl]; exact hv⟩
                · refine ⟨a.log.length, Nat.le_refl _, ?_⟩
                  rw [List.take_append_of_le_length (Nat.le_refl _), ← take_of_le (n := n) (by omega)]
                  exact hv
              refine ⟨fun k p hk => ?_, fun i p hi => ?_⟩
              · rcases ha.kept k p (ProposedValues.decide_get.1 hk).1 with x | x
                · exact .inl x
                · obtain ⟨n, _, hv⟩ := lift p x
                  exact .inr ⟨n, hv⟩
              · simp only at hi
                by_cases hl : i < a.log.length
                · rw [List.getElem?_append_left hl] at hi
                  rcases ha.log i p hi with x | ⟨n, h1, h2⟩
                  · exact .inl x
                  · exact .inr ⟨n, h1, by rw [List.take_append_of_le_length (by omega)]; exact h2⟩
                · have hi' : i = a.log.length ∧ q = p := by
                    rw [List.getElem?_append_right (by omega)] at hi
                    have : i - a.log.length = 0 := by
                      cases hc : i - a.log.length with
                      | zero => rfl
                      | succ j => rw [hc] at hi; simp at hi
                    rw [this] at hi
                    simp at hi
                    exact ⟨by omega, hi⟩
                  obtain ⟨rfl, rfl⟩ := hi'
                  rcases ha.kept v _ hg with x | x
                  · exact .inl x
                  · exact .inr (lift _ x)
            simpa using ih own _ s hn h
          · rw [if_neg hok] at h
            cases h
  have hinit : KeptInv e [] (startedAt start : ProposerState B) := by
    refine ⟨fun k p hg => ?_, fun i p hi => ?_⟩
    · simp [startedAt, ProposedValues.get, ProposedValues.empty] at hg
    · simp [startedAt] at hi
  rcases (key steps [] _ s hinit hrun).log i p hp with h | h
  · left
    simp only [List.nil_append, List.mem_filterMap] at h
    obtain ⟨st, h1, h2⟩ := h
    cases st <;> simp at h2
    rw [← h2]; exact h1
  · exact .inr h

/-- What is kept is for the next height and passed after exactly what is committed. -/
structure NextInv (e : ProposerEngine B) (own : List (FullProposal B)) (s : ProposerState B) : Prop where
  kept : ∀ k p, s.pv.get k = some p → p.height = s.confirmed.next ∧ p.inner = p.height ∧ s.pv.Listed p.height k ∧
    (p ∈ own ∨ e.valid s.log p = true)
  log : ∀ i p, s.log[i]? = some p → p ∈ own ∨ e.valid (s.log.take i) p = true

/-- If moreover consensus decides heights in order and proposals name the height of their block, then every committed
block not proposed by the node itself passed validation after exactly the blocks committed before it. -/
theorem C67_blocks_were_validated_in_place (e : ProposerEngine B) (start : BlockHeight) (steps : List (ValidatorStep B))
    (hord : OrderlyRun blockAdd e (startedAt start) steps)
    (s : ProposerState B) (hrun : validatorRun blockAdd e (startedAt start) steps = some s) (i : Nat)
    (p : FullProposal B) (hp : s.log[i]? = some p) :
    ValidatorStep.own p ∈ steps ∨ e.valid (s.log.take i) p = true := by
  have key : ∀ (steps : List (ValidatorStep B)) (own : List (FullProposal B)) (a s : ProposerState B),
      NextInv e own a → OrderlyRun blockAdd e a steps → validatorRun blockAdd e a steps = some s →
      NextInv e (own ++ steps.filterMap (fun st => match st with | .own p => some p | _ => none)) s := by
    intro steps
    induction steps with
    | nil => intro own a s ha _ h; simp only [validatorRun, Option.some.injEq] at h; subst h; simpa using ha
    | cons st l ih =>
      intro own a s ha ho h
      obtain ⟨ho1, ho2⟩ := ho
      simp only [validatorRun] at h
      cases st with
      | receive q =>
        simp only [validatorStep, Option.bind_some] at h
        have hn : NextInv e own (blockAdd e a q).2 := by
          unfold blockAdd
          by_cases h1 : q.inner ≠ a.confirmed.next
          · rw [if_pos h1]; exact ha
          · rw [if_neg h1]
            by_cases h2 : (!e.valid a.log q) = true
            · rw [if_pos h2]; exact ha
            · rw [if_neg h2]
              refine ⟨fun k p hg => ?_, ha.log⟩
              simp only [ProposedValues.add_get] at hg
              simp only [Orderly] at ho1
              split at hg
              · next hk =>
                cases hg
                have h1' : q.inner = a.confirmed.next := Classical.not_not.1 h1
                exact ⟨ho1.trans h1', ho1.symm, ProposedValues.add_listed.2 (.inr ⟨rfl, hk⟩), .inr (by simpa using h2)⟩
              · obtain ⟨x, y, z, w⟩ := ha.kept k p hg
                exact ⟨x, y, ProposedValues.add_listed.2 (.inl z), w⟩
        simpa using ih own _ s hn (by simpa only [validatorStep] using ho2) h
      | own q =>
        simp only [validatorStep, Option.bind_some] at h
        have hn : NextInv e (own ++ [q]) (ownProposal a q) := by
          refine ⟨fun k p hg => ?_, fun i p hi => ?_⟩
          · simp only [ownProposal, ProposedValues.add_get] at hg
            simp only [Orderly] at ho1
            split at hg
            · next hk =>
              cases hg
              exact ⟨ho1.1.trans ho1.2, ho1.1.symm, ProposedValues.add_listed.2 (.inr ⟨rfl, hk⟩), .inl (by simp)⟩
            · obtain ⟨x, y, z, w⟩ := ha.kept k p hg
              refine ⟨x, y, ProposedValues.add_listed.2 (.inl z), ?_⟩
              rcases w with w | w
              · exact .inl (by simp [w])
              · exact .inr w
          · rcases ha.log i p hi with x | x
            · exact .inl (by simp [x])
            · exact .inr x
        simpa using ih _ _ s hn (by simpa only [validatorStep] using ho2) h
      | decided hh v =>
        simp only [validatorStep] at h
        cases hg : a.pv.get v with
        | none =>
          have hd : decideValue e a hh v = some a := by unfold decideValue; rw [hg]
          rw [hd] at h
          simp only [Option.bind_some] at h
          simpa using ih own _ s ha (by simp only [validatorStep, hd] at ho2; exact ho2) h
        | some q =>
          by_cases hok : e.ok a.log q = true
          · have hd : decideValue e a hh v = some ⟨a.pv.decide hh, q.inner, a.log ++ [q]⟩ := by
              unfold decideValue; rw [hg]; simp only; rw [if_pos hok]
            rw [hd] at h
            simp only [Option.bind_some] at h
            simp only [Orderly] at ho1
            have hn : NextInv e own (⟨a.pv.decide hh, q.inner, a.log ++ [q]⟩ : ProposerState B) := by
              refine ⟨fun k p hk => ?_, fun i p hi => ?_⟩
              · obtain ⟨x, y⟩ := ProposedValues.decide_get.1 hk
                obtain ⟨z, _, w, _⟩ := ha.kept k p x
                refine absurd w (y _ ?_)
                rw [z, ho1]
                exact StrictOrd.irrefl _
              · simp only at hi
                by_cases hl : i < a.log.length
                · rw [List.getElem?_append_left hl] at hi
                  rcases ha.log i p hi with x | x
                  · exact .inl x
                  · exact .inr (by rw [List.take_append_of_le_length (by omega)]; exact x)
                · have hi' : i = a.log.length ∧ q = p := by
                    rw [List.getElem?_append_right (by omega)] at hi
                    have : i - a.log.length = 0 := by
                      cases hc : i - a.log.length with
                      | zero => rfl
                      | succ j => rw [hc] at hi; simp at hi
                    rw [this] at hi
                    simp at hi
                    exact ⟨by omega, hi⟩
                  obtain ⟨rfl, rfl⟩ := hi'
                  rcases (ha.kept v _ hg).2.2.2 with x | x
                  · exact .inl x
                  · refine .inr ?_
                    rw [List.take_append_of_le_length (Nat.le_refl _), List.take_length]
                    exact x
            simpa using ih own _ s hn (by simp only [validatorStep, hd] at ho2; exact ho2) h
          · have hd : decideValue e a hh v = none := by
              unfold decideValue; rw [hg]; simp only; rw [if_neg hok]
            rw [hd] at h
            cases h
  have hinit : NextInv e [] (startedAt start : ProposerState B) := by
    refine ⟨fun k p hg => ?_, fun i p hi => ?_⟩
    · simp [startedAt, ProposedValues.get, ProposedValues.empty] at hg
    · simp [startedAt] at hi
  rcases (key steps [] _ s hinit hord hrun).log i p hp with h | h
  · left
    simp only [List.nil_append, List.mem_filterMap] at h
    obtain ⟨st, h1, h2⟩ := h
    cases st <;> simp at h2
    rw [← h2]; exact h1
  · exact .inr h

end

namespace C67Case

/-- Bodies are numbers; valid is the successor of what was committed before; commits always return. -/
def engine : ProposerEngine Nat where
  valid log p := decide (p.body = log.length + 1)
  ok _ _ := true

def prop (h : Nat) (hash : UInt8) (body : Nat) : FullProposal Nat := ⟨⟨0, h⟩, 0, [1], [hash], ⟨0, h⟩, body⟩

def steps : List (ValidatorStep Nat) :=
  [.receive (prop 1 5 1), .receive (prop 1 5 9), .receive (prop 3 6 1), .decided ⟨0, 1⟩ ⟨0, [5]⟩, .own (prop 2 7 70),
   .decided ⟨0, 2⟩ ⟨0, [7]⟩, .receive (prop 3 8 3), .decided ⟨0, 3⟩ ⟨0, [9]⟩, .decided ⟨0, 3⟩ ⟨0, [8]⟩]

/-- Shard 0: the second proposal with hash 5 is not valid and not kept. -/
example : (validatorRun blockAdd engine (startedAt ⟨0, 0⟩) steps).map (fun s => s.log.map (·.body)) =
    some [1, 70, 3] := by decide

example : OrderlyRun blockAdd engine (startedAt ⟨0, 0⟩) steps := by
  decide

end C67Case

/-- On a data shard a proposal is kept before it is checked and under a hash nobody recomputes: after a valid proposal
another one with the same hash arrives, is found invalid, and is what the node commits when that hash is decided. -/
theorem C67_data_shard_commits_invalid :
    ∃ (e : ProposerEngine Nat) (good bad : FullProposal Nat) (s : ProposerState Nat),
      let s1 := shardAdd e s good
      let s2 := shardAdd e s1.2 bad
      good.shardHash = bad.shardHash ∧ good.body ≠ bad.body ∧ s1.1 = true ∧ s2.1 = false ∧
      (decideValue e s2.2 good.height good.shardHash).map (·.log) = some [bad] := by
  refine ⟨C67Case.engine, C67Case.prop 1 5 1, C67Case.prop 1 5 9, startedAt ⟨0, 0⟩, ?_⟩
  decide

/-- The engine of a data shard does not notice: with the result of a valid proposal in memory, it rejects another
proposal with the same root and no block events, and then commits that one: the stored chunk has transactions that
failed validation. -/
theorem C67_engine_commits_rejected_transactions :
    ∃ (good bad : Proposal Unit) (c : EChunk Unit) (st : EngineState EngineCase.Db0 EngineCase.Work EngineCase.Hub Unit),
      let v1 := validateChange EngineCase.ops EngineCase.hash0 EngineCase.ver EngineCase.env st c.height good
      let v2 := validateChange EngineCase.ops EngineCase.hash0 EngineCase.ver EngineCase.env v1.2 c.height bad
      v1.1 = true ∧ v2.1 = false ∧ c.txns = bad.txns ∧ c.root = bad.root ∧ c.ts = bad.ts ∧
      ((commit EngineCase.ops EngineCase.hash0 EngineCase.ver EngineCase.env v2.2 c).map
        (fun s => (s.chunks.get (chunkKey c.height)).map (fun c => c.txns.flatMap (·.user)))) =
          some (some (bad.txns.flatMap (·.user))) ∧
      good.txns.flatMap (·.user) ≠ bad.txns.flatMap (·.user) ∧
      (commit EngineCase.ops EngineCase.hash0 EngineCase.ver EngineCase.env (startRound st) c).isNone = true := by
  refine ⟨⟨102, [40, 41], [EngineCase.txn [] [EngineCase.msg 41] [40, 41]]⟩,
    ⟨102, [40, 41], [EngineCase.txn [] [EngineCase.msg 77] [40, 77]]⟩,
    ⟨2, 102, [40, 41], [EngineCase.txn [] [EngineCase.msg 77] [40, 77]], [2]⟩,
    ⟨⟨[], [EngineCase.msg 40], []⟩, OMap.empty, OMap.empty, none⟩, ?_⟩
  exact ⟨by decide +kernel, by decide +kernel, rfl, rfl, rfl, by decide +kernel, by decide +kernel, by decide +kernel⟩

end Verif
