import Verif.Lemmas.TriePages
import Verif.Case.Trie
/-!
C24: dropping cached nodes and loading them from the database again.  It is false as stated: compaction on delete
erases the row of an unrelated live node whose path starts with the nibble 8, and a trie whose last key has been
deleted cannot be loaded.  It is true when no key is another one shifted by the nibble 8, as long as something is committed
when a reload happens: every read then answers as if nothing had been dropped.
-/
namespace Verif

/-- After any history with commits and reloads, membership, count and root hash are those of the current set: the root
is the one that any history without reloads gives for the same set. -/
theorem C24_reload_invisible (H : Bytes → Bytes) (hH : ∀ x, H x ≠ []) (ops ops' : List TrieOp) (wf : WellFormedHistory ops)
    (noShift : NoShift ops) (hr : ReloadsNonEmpty {} ops)
    (wf' : WellFormedHistory ops') (hr' : ∀ op ∈ ops', ¬ op.IsReload) (same : ∀ k, k ∈ keysAfter ops ↔ k ∈ keysAfter ops') :
    ∃ s s' root, TrieState.new.run H ops = .ok s ∧ TrieState.new.run H ops' = .ok s' ∧
      s.rootHash H = .ok root ∧ s'.rootHash H = .ok root ∧ s.items = .ok (keysAfter ops).length ∧
      ∀ k, k ≠ [] → s.contains k = .ok (decide (k ∈ keysAfter ops)) := by
  obtain ⟨s, h1, h2, _⟩ := cache_run hH wf.fit (clear_of_noShift noShift) ops (ks := {}) (cacheInv_new (H := H)) (by simp) (by simp)
    (fun _ h => h) wf.order hr
  obtain ⟨s', h3, ⟨t', hr2, hf2, hh2⟩, _⟩ := full_history hH wf' hr'
  obtain ⟨t, hf1, hh1, e1, e2, e3⟩ := cache_reads h2
  have hh1' : Holds t (keysAfter ops) := hh1
  have hm : ∀ x, x ∈ t.toList ↔ x ∈ t'.toList := by
    intro x
    rw [hh1'.2, hh2.2]
    simp only [same]
  refine ⟨s, s', nodeHash H t, h1, h3, e1, ?_, e2, e3⟩
  simp only [TrieState.rootHash, hr2]
  congr 1
  rcases hf1 with rfl | g1
  · rcases hf2 with rfl | g2
    · rfl
    · obtain ⟨x, hx⟩ := g2.exists_mem
      exact absurd ((hm x).2 hx) (by simp)
  · rcases hf2 with rfl | g2
    · obtain ⟨x, hx⟩ := g1.exists_mem
      exact absurd ((hm x).1 hx) (by simp)
    · exact (g1.unique g2 hm).symm

/-- In particular a reload right after a commit changes nothing that can be read. -/
theorem C24_commit_reload (H : Bytes → Bytes) (hH : ∀ x, H x ≠ []) (ops : List TrieOp) (wf : WellFormedHistory ops)
    (noShift : NoShift ops) (hr : ReloadsNonEmpty {} ops)
    (ne : keysAfter ops ≠ []) :
    ∃ s s', TrieState.new.run H ops = .ok s ∧ s.commit.reload = .ok s' ∧ s'.rootHash H = s.rootHash H ∧
      s'.items = s.items ∧ ∀ k, k ≠ [] → s'.contains k = s.contains k := by
  obtain ⟨s, h1, h2, _⟩ := cache_run hH wf.fit (clear_of_noShift noShift) ops (ks := {}) (cacheInv_new (H := H)) (by simp) (by simp)
    (fun _ h => h) wf.order hr
  obtain ⟨s', h3, h4⟩ := cache_reload (cache_commit h2) ne
  obtain ⟨t, hf1, hh1, e1, e2, e3⟩ := cache_reads h2
  obtain ⟨t', hf2, hh2, e1', e2', e3'⟩ := cache_reads h4
  refine ⟨s, s', h1, h3, ?_, by rw [e2, e2'], fun k hk => by rw [e3 k hk, e3' k hk]⟩
  have hm : ∀ x, x ∈ t.toList ↔ x ∈ t'.toList := by
    intro x
    rw [hh1.2, hh2.2]
  rw [e1, e1']
  congr 1
  rcases hf1 with rfl | g1
  · rcases hf2 with rfl | g2
    · rfl
    · obtain ⟨x, hx⟩ := g2.exists_mem
      exact absurd ((hm x).2 hx) (by simp)
  · rcases hf2 with rfl | g2
    · obtain ⟨x, hx⟩ := g1.exists_mem
      exact absurd ((hm x).1 hx) (by simp)
    · exact (g1.unique g2 hm).symm

/-- Keys that start with the nibble 8, and a pair that compacts elsewhere. -/
def case8Key1 : Bytes := [0x80, 0, 0, 0, 0, 0, 0x01]
def case8Key2 : Bytes := [0x80, 0, 0, 0, 0, 0, 0x02]
def case8History : List TrieOp :=
  [.insert id [caseKey1, caseKey2, case8Key1, case8Key2], .commit, .delete id [caseKey2], .commit]

/-- The full claim is false: a key that is present disappears with a commit and a reload. -/
theorem C24_nibble8_false :
    ∃ s s', TrieState.new.run toyHash case8History = .ok s ∧ s.reload = .ok s' ∧
      WellFormedHistory case8History ∧ case8Key1 ∈ keysAfter case8History ∧
      s.contains case8Key1 = .ok true ∧ s'.contains case8Key1 ≠ .ok true := by
  have h : (match TrieState.new.run toyHash case8History with
      | .ok s => (match s.reload with
        | .ok s' => (match s.contains case8Key1 with | .ok b => b | _ => false) &&
            (match s'.contains case8Key1 with | .ok b => !b | _ => true)
        | .error _ => false)
      | .error _ => false) = true := by decide +kernel
  cases hs : TrieState.new.run toyHash case8History with
  | error e => rw [hs] at h; cases h
  | ok s =>
    rw [hs] at h
    simp only at h
    cases hs' : s.reload with
    | error e => rw [hs'] at h; cases h
    | ok s' =>
      rw [hs'] at h
      simp only [Bool.and_eq_true] at h
      refine ⟨s, s', rfl, hs', ⟨by decide, by decide, ?_⟩, by decide, ?_, ?_⟩
      · intro op ho
        simp only [case8History, List.mem_cons, List.not_mem_nil, or_false] at ho
        rcases ho with rfl | rfl | rfl | rfl
        · exact fair_id
        · trivial
        · exact fair_id
        · trivial
      · cases hc : s.contains case8Key1 with
        | error e => rw [hc] at h; simp at h
        | ok b => rw [hc] at h; simp only at h; rw [h.1]
      · intro hc
        rw [hc] at h
        simp at h

/-- A trie whose last key was deleted cannot be loaded after the commit. -/
theorem C24_emptied_false :
    ∃ s, TrieState.new.run toyHash [.insert id [caseKey1], .commit, .delete id [caseKey1], .commit] = .ok s ∧
      s.contains caseKey1 = .ok false ∧ ∃ e, s.reload = .error e := by
  have h : (match TrieState.new.run toyHash [.insert id [caseKey1], .commit, .delete id [caseKey1], .commit] with
      | .ok s => (match s.reload with | .ok _ => false | .error _ => true) &&
          (match s.contains caseKey1 with | .ok b => !b | _ => false)
      | .error _ => false) = true := by decide +kernel
  cases hs : TrieState.new.run toyHash [.insert id [caseKey1], .commit, .delete id [caseKey1], .commit] with
  | error e => rw [hs] at h; cases h
  | ok s =>
    rw [hs] at h
    simp only [Bool.and_eq_true] at h
    refine ⟨s, rfl, ?_, ?_⟩
    · cases hc : s.contains caseKey1 with
      | error e => rw [hc] at h; simp at h
      | ok b => rw [hc] at h; simp at h; rw [h.2]
    · cases hc : s.reload with
      | error e => exact ⟨e, rfl⟩
      | ok b => rw [hc] at h; simp at h

-- a history with two reloads, compared with one without
example : ∃ s s' root, TrieState.new.run toyHash caseReloads = .ok s ∧ TrieState.new.run toyHash caseHistory' = .ok s' ∧
    s.rootHash toyHash = .ok root ∧ s'.rootHash toyHash = .ok root ∧ s.items = .ok 2 := by
  obtain ⟨s, s', root, h1, h2, h3, h4, h5, _⟩ := C24_reload_invisible toyHash toyHash_ne caseReloads caseHistory' caseReloads_wf
    (by decide) caseReloads_nonEmpty caseHistory'_wf caseHistory'_noReload (by
      have e : keysAfter caseReloads = [caseKey1, caseKey3] := by decide
      have e' : keysAfter caseHistory' = [caseKey3, caseKey1] := by decide
      intro k; rw [e, e']; simp [or_comm])
  exact ⟨s, s', root, h1, h2, h3, h4, by rw [h5]; rfl⟩

example : ∃ s s', TrieState.new.run toyHash caseReloads = .ok s ∧ s.commit.reload = .ok s' ∧ s'.items = s.items := by
  obtain ⟨s, s', h1, h2, _, h3, _⟩ := C24_commit_reload toyHash toyHash_ne caseReloads caseReloads_wf
    (by decide) caseReloads_nonEmpty (by decide)
  exact ⟨s, s', h1, h2, h3⟩

end Verif
