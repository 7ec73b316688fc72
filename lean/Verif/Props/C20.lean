import Verif.Lemmas.TrieReads
import Verif.Case.Trie
/-!
C20: the state root depends only on the set of entries.  Two histories of inserts, deletes and commits that start
with an empty trie and leave the same set of keys both succeed and leave the same root hash, and the same hash and
item count at every path.
-/
namespace Verif

/-- The hash and the number of items found by walking down a path of nibbles from the root of the cached tree. -/
def TrieState.summaryAt (H : Bytes → Bytes) (s : TrieState) (path : Bytes) : Option (Bytes × Nat) :=
  match s.root with
  | none => none
  | some root => (nodeAt s.db [] path root).map (fun n => (nodeHash H n, n.items))

theorem C20_root_depends_only_on_set (H : Bytes → Bytes) (hH : ∀ x, H x ≠ []) (ops ops' : List TrieOp)
    (wf : WellFormedHistory ops) (wf' : WellFormedHistory ops') (hr : ∀ op ∈ ops, ¬ op.IsReload)
    (hr' : ∀ op ∈ ops', ¬ op.IsReload) (same : ∀ k, k ∈ keysAfter ops ↔ k ∈ keysAfter ops') :
    ∃ s s' root, TrieState.new.run H ops = .ok s ∧ TrieState.new.run H ops' = .ok s' ∧
      s.rootHash H = .ok root ∧ s'.rootHash H = .ok root ∧
      (∀ path, s.summaryAt H path = s'.summaryAt H path) := by
  obtain ⟨s, h1, ⟨t, hr1, hf1, hh1⟩, _⟩ := full_history hH wf hr
  obtain ⟨s', h2, ⟨t', hr2, hf2, hh2⟩, _⟩ := full_history hH wf' hr'
  have hm : ∀ x, x ∈ t.toList ↔ x ∈ t'.toList := by
    intro x
    rw [hh1.2, hh2.2]
    simp only [same]
  refine ⟨s, s', nodeHash H t, h1, h2, by simp only [TrieState.rootHash, hr1], ?_, ?_⟩
  · simp only [TrieState.rootHash, hr2]
    congr 1
    rcases hf1 with rfl | g1
    · rcases hf2 with rfl | g2
      · rfl
      · obtain ⟨x, hx⟩ := g2.exists_mem
        exact absurd ((hm x).2 hx) (by simp)
    · rcases hf2 with rfl | g2
      · obtain ⟨x, hx⟩ := g1.exists_mem
        exact absurd ((hm x).1 hx) (by simp)
      · exact (g1.unique g2 hm).symm
  · intro path
    simp only [TrieState.summaryAt, hr1, hr2]
    rcases hf1 with rfl | g1
    · rcases hf2 with rfl | g2
      · cases path with
        | nil => rfl
        | cons a l => rfl
      · obtain ⟨x, hx⟩ := g2.exists_mem
        exact absurd ((hm x).2 hx) (by simp)
    · rcases hf2 with rfl | g2
      · obtain ⟨x, hx⟩ := g1.exists_mem
        exact absurd ((hm x).1 hx) (by simp)
      · obtain ⟨e1, e2⟩ := nodeAt_same s.db s'.db path g1 g2 hm
        cases ha : nodeAt s.db [] path t with
        | none =>
          rw [ha] at e1
          cases hb : nodeAt s'.db [] path t' with
          | none => rfl
          | some b => rw [hb] at e1; simp at e1
        | some a =>
          rw [ha] at e1 e2
          cases hb : nodeAt s'.db [] path t' with
          | none => rw [hb] at e1; simp at e1
          | some b =>
            rw [hb] at e1 e2
            simp only [Option.map_some, Option.some.injEq] at e1 e2
            simp only [Option.map_some, e1, e2]

-- a history with a delete and a compaction, and a shorter way to the same set
example : ∃ s s' root, TrieState.new.run toyHash caseHistory = .ok s ∧ TrieState.new.run toyHash caseHistory' = .ok s' ∧
    s.rootHash toyHash = .ok root ∧ s'.rootHash toyHash = .ok root ∧
    (∀ path, s.summaryAt toyHash path = s'.summaryAt toyHash path) :=
  C20_root_depends_only_on_set toyHash toyHash_ne caseHistory caseHistory' caseHistory_wf caseHistory'_wf
    caseHistory_noReload caseHistory'_noReload (by
      have e : keysAfter caseHistory = [caseKey1, caseKey3] := by decide
      have e' : keysAfter caseHistory' = [caseKey3, caseKey1] := by decide
      intro k; rw [e, e']; simp [or_comm])

end Verif
