import Verif.Spec.Trie
import Verif.Model.TrieRead
/-! A toy hash and small histories used to show that the hypotheses of the trie theorems can be met. -/
namespace Verif

/-- A hash with 20-byte results. -/
def toyHash (b : Bytes) : Bytes := be 20 (b.foldl (fun a x => a * 257 + x.toNat + 1) 7)

theorem toyHash_ne (b : Bytes) : toyHash b ≠ [] := by
  intro h
  have : (toyHash b).length = 0 := by rw [h]; rfl
  simp [toyHash, be] at this

/-- Keys of the cases: two with a common start of six bytes, and one elsewhere. -/
def caseKey1 : Bytes := [0, 0, 0, 0, 0, 0, 16]
def caseKey2 : Bytes := [0, 0, 0, 0, 0, 0, 32]
def caseKey3 : Bytes := [112, 0, 0, 0, 0, 0, 1]

/-- Insert three keys and delete one. -/
def caseHistory : List TrieOp :=
  [.insert id [caseKey1, caseKey2], .commit, .insert List.reverse [caseKey3], .delete id [caseKey2]]
/-- Another way to the same set. -/
def caseHistory' : List TrieOp := [.insert id [caseKey3], .insert id [caseKey1]]
/-- The first history with reloads. -/
def caseReloads : List TrieOp :=
  [.insert id [caseKey1, caseKey2], .commit, .reload, .insert List.reverse [caseKey3], .commit, .delete id [caseKey2],
    .commit, .reload]

theorem fair_id (l : List UInt8) : (id l).Perm l := List.Perm.refl l
theorem fair_reverse (l : List UInt8) : (List.reverse l).Perm l := List.reverse_perm l

theorem caseHistory_wf : WellFormedHistory caseHistory := by
  refine ⟨by decide, by decide, ?_⟩
  intro op h
  simp only [caseHistory, List.mem_cons, List.not_mem_nil, or_false] at h
  rcases h with rfl | rfl | rfl | rfl
  · exact fair_id
  · trivial
  · exact fair_reverse
  · exact fair_id

theorem caseHistory'_wf : WellFormedHistory caseHistory' := by
  refine ⟨by decide, by decide, ?_⟩
  intro op h
  simp only [caseHistory', List.mem_cons, List.not_mem_nil, or_false] at h
  rcases h with rfl | rfl
  · exact fair_id
  · exact fair_id

theorem caseReloads_wf : WellFormedHistory caseReloads := by
  refine ⟨by decide, by decide, ?_⟩
  intro op h
  simp only [caseReloads, List.mem_cons, List.not_mem_nil, or_false] at h
  rcases h with rfl | rfl | rfl | rfl | rfl | rfl | rfl | rfl
  · exact fair_id
  · trivial
  · trivial
  · exact fair_reverse
  · trivial
  · exact fair_id
  · trivial
  · trivial

theorem caseHistory_noReload : ∀ op ∈ caseHistory, ¬ op.IsReload := by
  intro op h
  simp only [caseHistory, List.mem_cons, List.not_mem_nil, or_false] at h
  rcases h with rfl | rfl | rfl | rfl <;> exact id

theorem caseHistory'_noReload : ∀ op ∈ caseHistory', ¬ op.IsReload := by
  intro op h
  simp only [caseHistory', List.mem_cons, List.not_mem_nil, or_false] at h
  rcases h with rfl | rfl <;> exact id

theorem caseReloads_nonEmpty : ReloadsNonEmpty {} caseReloads := by
  simp only [caseReloads, ReloadsNonEmpty, TrieOp.IsReload]
  decide

end Verif
