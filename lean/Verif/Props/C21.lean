import Verif.Lemmas.TrieReads
import Verif.Case.Trie
/-!
C21: the trie is a set.  After any history without reloads, an insert reports as many successes as it adds new keys
and a delete as many as it removes, a single key is reported exactly when it was absent (present), membership and
the item count agree with the set of keys inserted and not deleted, and enumeration returns exactly those keys
(`get_all_values` stops after 1024 values, so this is stated for tries up to that size).
-/
namespace Verif

theorem C21_insert (H : Bytes → Bytes) (hH : ∀ x, H x ≠ []) (ops : List TrieOp) (ord : List UInt8 → List UInt8)
    (keys : List Bytes) (wf : WellFormedHistory (ops ++ [.insert ord keys])) (hr : ∀ op ∈ ops, ¬ op.IsReload) :
    ∃ s s' res, TrieState.new.run H ops = .ok s ∧ s.insert H ord keys = .ok (s', res) ∧
      res.length = keys.length ∧
      (keysAfter ops).length + res.count true = (keysAfter (ops ++ [.insert ord keys])).length ∧
      (∀ k, keys = [k] → res = [decide (k ∉ keysAfter ops)]) := by
  have hk : historyKeys (ops ++ [.insert ord keys]) = historyKeys ops ++ keys := by simp [historyKeys, TrieOp.keys]
  obtain ⟨s, h1, h2, h3, _⟩ := full_run hH wf.fit ops (ks := {}) (fullState_new (H := H)) (by simp) (by simp)
    (fun k h => by rw [hk]; exact List.mem_append_left _ h) (fun o ho => wf.order o (by simp [ho])) hr
  obtain ⟨s', res, h4, h5, h6, h7⟩ := full_insert hH (ord := ord) (wf.order (.insert ord keys) (by simp)) wf.fit h2 h3
    (fun k h => by rw [hk]; exact List.mem_append_right _ h)
  refine ⟨s, s', res, h1, h4, h6, ?_, ?_⟩
  · rw [show keysAfter (ops ++ [.insert ord keys]) = addKeys (keysAfter ops) keys by
      simp [keysAfter, setsAfter_snoc, KeySets.step]]
    exact h7
  · rintro k rfl
    have h7' : (keysAfter ops).length + res.count true = (addKeys (keysAfter ops) [k]).length := h7
    have hlen : (addKeys (keysAfter ops) [k]).length = (keysAfter ops).length + if k ∈ keysAfter ops then 0 else 1 := by
      simp only [addKeys, List.foldl_cons, List.foldl_nil]
      split <;> simp
    obtain ⟨b, rfl⟩ := List.length_eq_one_iff.1 h6
    rw [hlen] at h7'
    by_cases hm : k ∈ keysAfter ops
    · rw [if_pos hm] at h7'
      cases b <;> simp [hm] at h7' ⊢
    · rw [if_neg hm] at h7'
      cases b <;> simp [hm] at h7' ⊢

theorem C21_delete (H : Bytes → Bytes) (hH : ∀ x, H x ≠ []) (ops : List TrieOp) (ord : List UInt8 → List UInt8)
    (keys : List Bytes) (wf : WellFormedHistory (ops ++ [.delete ord keys])) (hr : ∀ op ∈ ops, ¬ op.IsReload) :
    ∃ s s' res, TrieState.new.run H ops = .ok s ∧ s.delete H ord keys = .ok (s', res) ∧
      res.length = keys.length ∧
      (keysAfter (ops ++ [.delete ord keys])).length + res.count true = (keysAfter ops).length ∧
      (∀ k, keys = [k] → res = [decide (k ∈ keysAfter ops)]) := by
  have hk : historyKeys (ops ++ [.delete ord keys]) = historyKeys ops ++ keys := by simp [historyKeys, TrieOp.keys]
  obtain ⟨s, h1, h2, h3, _⟩ := full_run hH wf.fit ops (ks := {}) (fullState_new (H := H)) (by simp) (by simp)
    (fun k h => by rw [hk]; exact List.mem_append_left _ h) (fun o ho => wf.order o (by simp [ho])) hr
  obtain ⟨s', res, h4, h5, h6, h7⟩ := full_delete hH (ord := ord) (wf.order (.delete ord keys) (by simp)) wf.fit h2 h3
    (fun k h => by rw [hk]; exact List.mem_append_right _ h)
  have hnd : (keysAfter ops).Nodup := by obtain ⟨t, _, _, hh⟩ := h2; exact hh.1
  refine ⟨s, s', res, h1, h4, h6, ?_, ?_⟩
  · rw [show keysAfter (ops ++ [.delete ord keys]) = removeKeys (keysAfter ops) keys by
      simp [keysAfter, setsAfter_snoc, KeySets.step]]
    exact h7
  · rintro k rfl
    have h7' : (removeKeys (keysAfter ops) [k]).length + res.count true = (keysAfter ops).length := h7
    have hlen : (removeKeys (keysAfter ops) [k]).length + (if k ∈ keysAfter ops then 1 else 0) = (keysAfter ops).length := by
      have e : removeKeys (keysAfter ops) [k] = (keysAfter ops).filter (fun x => x != k) := by
        unfold removeKeys
        apply List.filter_congr
        intro x _
        by_cases h : x = k <;> simp [h]
      rw [e, ← hnd.erase_eq_filter, List.length_erase]
      split
      · rename_i h
        have := List.length_pos_of_mem h
        omega
      · rfl
    obtain ⟨b, rfl⟩ := List.length_eq_one_iff.1 h6
    by_cases hm : k ∈ keysAfter ops
    · rw [if_pos hm] at hlen
      cases b <;> simp [hm] at h7' ⊢ ; omega
    · rw [if_neg hm] at hlen
      cases b <;> simp [hm] at h7' ⊢ ; omega

/-- Membership, count and enumeration. -/
theorem C21_reads (H : Bytes → Bytes) (hH : ∀ x, H x ≠ []) (ops : List TrieOp) (wf : WellFormedHistory ops)
    (hr : ∀ op ∈ ops, ¬ op.IsReload) :
    ∃ s, TrieState.new.run H ops = .ok s ∧
      (∀ k, k ≠ [] → s.contains k = .ok (decide (k ∈ keysAfter ops))) ∧
      s.items = .ok (keysAfter ops).length ∧ (keysAfter ops).Nodup ∧
      ((keysAfter ops).length ≤ 1024 → keysAfter ops ≠ [] →
        ∃ N, ∀ fuel, N ≤ fuel → ∀ pre : Bytes, pre.length ≤ 6 →
          ∃ l, s.allValues fuel pre = .ok l ∧ l.Nodup ∧ ∀ k, k ∈ l ↔ k ∈ keysAfter ops ∧ pre <+: k) := by
  obtain ⟨s, h1, ⟨t, hrt, hf, hh⟩, _⟩ := full_history hH wf hr
  refine ⟨s, h1, ?_, ?_, hh.1, ?_⟩
  · intro k hk
    simp only [TrieState.contains, hrt]
    rw [exists_fresh s.db _ hf]
    · congr 1
      rw [decide_eq_decide, hh.2]
      constructor
      · rintro ⟨k', h1, h2⟩; rw [← expandNibbles_inj h2]; exact h1
      · intro h; exact ⟨k, h, rfl⟩
    · intro e
      have := expandNibbles_length k
      rw [e] at this
      cases k with
      | nil => exact hk rfl
      | cons => simp at this
  · simp only [TrieState.items, hrt, hh.items hf]
  · intro hmax hne
    have hg : t.Good H [] := by
      rcases hf with rfl | h
      · exfalso
        obtain ⟨k, hk⟩ := List.exists_mem_of_ne_nil _ hne
        have := (hh.2 (expandNibbles k)).2 ⟨k, hk, rfl⟩
        simp at this
      · exact h
    obtain ⟨N, hN⟩ := allValues_bound s.db hg (by rw [hh.items hf]; exact hmax)
    refine ⟨N, fun fuel hfuel pre hpre => ?_⟩
    simp only [TrieState.allValues, hrt]
    rcases nodeAt_good s.db (expandNibbles pre) hg with ⟨n, e1, e2, e3⟩ | ⟨e1, e2⟩
    · rw [e1]
      simp only [List.nil_append] at e2 e3
      have := hN fuel hfuel (expandNibbles pre) n (by simpa using e1)
      rw [List.nil_append] at this
      simp only
      rw [this]
      obtain ⟨m, hm1, hm2⟩ := exists_map_expand (l := n.toList) (set := keysAfter ops) (by
        intro x hx; exact (hh.2 x).1 ((e3 x).1 hx).1)
      simp only
      rw [hm1, combineAll_map]
      refine ⟨m, rfl, nodup_of_map (hm1 ▸ e2.counts.1), ?_⟩
      intro k
      constructor
      · intro hk
        refine ⟨hm2 k hk, ?_⟩
        have : expandNibbles k ∈ n.toList := by rw [hm1]; exact List.mem_map.2 ⟨k, hk, rfl⟩
        exact expandNibbles_prefix.1 ((e3 _).1 this).2
      · rintro ⟨h1, h2⟩
        have : expandNibbles k ∈ n.toList := (e3 _).2 ⟨(hh.2 _).2 ⟨k, h1, rfl⟩, expandNibbles_prefix.2 h2⟩
        rw [hm1] at this
        obtain ⟨k', h3, h4⟩ := List.mem_map.1 this
        rw [← expandNibbles_inj h4]; exact h3
    · rw [e1]
      refine ⟨[], rfl, by simp, ?_⟩
      intro k
      constructor
      · intro h; cases h
      · rintro ⟨h1, h2⟩
        exfalso
        refine e2 ?_ (expandNibbles k) ((hh.2 _).2 ⟨k, h1, rfl⟩) ?_
        · simp [expandNibbles_length, uncompacted]; omega
        · simpa using expandNibbles_prefix.2 h2

example : ∃ s s' res, TrieState.new.run toyHash caseHistory = .ok s ∧ s.insert toyHash id [caseKey1] = .ok (s', res) ∧
    res = [false] := by
  have wf : WellFormedHistory (caseHistory ++ [.insert id [caseKey1]]) := by
    refine ⟨by decide, by decide, ?_⟩
    intro op h
    rcases List.mem_append.1 h with h | h
    · exact caseHistory_wf.order op h
    · simp at h; subst h; exact fair_id
  obtain ⟨s, s', res, h1, h2, _, _, h3⟩ := C21_insert toyHash toyHash_ne caseHistory id [caseKey1] wf caseHistory_noReload
  exact ⟨s, s', res, h1, h2, by rw [h3 _ rfl]; decide⟩

example : ∃ s s' res, TrieState.new.run toyHash caseHistory = .ok s ∧ s.delete toyHash id [caseKey3] = .ok (s', res) ∧
    res = [true] := by
  have wf : WellFormedHistory (caseHistory ++ [.delete id [caseKey3]]) := by
    refine ⟨by decide, by decide, ?_⟩
    intro op h
    rcases List.mem_append.1 h with h | h
    · exact caseHistory_wf.order op h
    · simp at h; subst h; exact fair_id
  obtain ⟨s, s', res, h1, h2, _, _, h3⟩ := C21_delete toyHash toyHash_ne caseHistory id [caseKey3] wf caseHistory_noReload
  exact ⟨s, s', res, h1, h2, by rw [h3 _ rfl]; decide⟩

example : ∃ s, TrieState.new.run toyHash caseHistory = .ok s ∧ s.contains caseKey3 = .ok true ∧ s.contains caseKey2 = .ok false ∧
    s.items = .ok 2 := by
  obtain ⟨s, h1, h2, h3, _⟩ := C21_reads toyHash toyHash_ne caseHistory caseHistory_wf caseHistory_noReload
  refine ⟨s, h1, ?_, ?_, ?_⟩
  · rw [h2 _ (by decide)]; decide
  · rw [h2 _ (by decide)]; decide
  · rw [h3]; rfl

end Verif
