import Verif.Lemmas.TriePages
import Verif.Case.Trie
/-!
C23: paging through a subtree with the returned tokens yields every key under the prefix exactly once and in ascending
order, for every page size of at least one, and no page is larger than asked for.  Tokens pass through their wire form (except
base64).  The prefix has at most six bytes (a fid or a fid and a message type are five and six): the code finds
nothing below a longer prefix when the only key there has been compacted into a shorter path.
-/
namespace Verif

theorem C23_tokens_round_trip (segs : List Bytes) (hne : segs ≠ []) (hc : segs.length < 2 ^ 32)
    (h : ∀ s ∈ segs, s.length < 2 ^ 32) : decodePageToken (encodePageToken (some segs)) = .ok (some segs) :=
  decode_encode_token segs hne hc h

/-- For every history of inserts, deletes and commits. -/
theorem C23_pages_complete (H : Bytes → Bytes) (hH : ∀ x, H x ≠ []) (ops : List TrieOp) (wf : WellFormedHistory ops)
    (hr : ∀ op ∈ ops, ¬ op.IsReload) (short : ∀ k ∈ historyKeys ops, k.length < 2 ^ 30) :
    ∃ s, TrieState.new.run H ops = .ok s ∧
      ∀ (pre : Bytes) (max : Nat), pre.length ≤ 6 → 1 ≤ max →
        ∃ N, ∀ fuel, N ≤ fuel → ∀ rounds, N ≤ rounds →
          ∃ pages, s.collectPages fuel pre max rounds none = .ok pages ∧ (∀ p ∈ pages, p.length ≤ max) ∧
            pages.flatten.Pairwise (fun a b => Bytes.blt a b = true) ∧ ∀ k, k ∈ pages.flatten ↔ k ∈ keysAfter ops ∧ pre <+: k := by
  obtain ⟨s, h1, ⟨t, hrt, hf, hh⟩, hin⟩ := full_history hH wf hr
  refine ⟨s, h1, fun pre max hpre hmax => ?_⟩
  refine collect_all hrt hf hh hpre hmax (fun k hk => ⟨?_, short k (hin k hk)⟩)
  intro e
  have := wf.long k (hin k hk)
  rw [e] at this; simp at this

/-- Also with reloads, when no key is another one shifted by the nibble 8 (see C24 for those) and reloads find something
committed. -/
theorem C23_pages_complete_reloads (H : Bytes → Bytes) (hH : ∀ x, H x ≠ []) (ops : List TrieOp) (wf : WellFormedHistory ops)
    (noShift : NoShift ops) (hr : ReloadsNonEmpty {} ops)
    (short : ∀ k ∈ historyKeys ops, k.length < 2 ^ 30) :
    ∃ s, TrieState.new.run H ops = .ok s ∧
      ∀ (pre : Bytes) (max : Nat), pre.length ≤ 6 → 1 ≤ max →
        ∃ N, ∀ fuel, N ≤ fuel → ∀ rounds, N ≤ rounds →
          ∃ pages, s.collectPages fuel pre max rounds none = .ok pages ∧ (∀ p ∈ pages, p.length ≤ max) ∧
            pages.flatten.Pairwise (fun a b => Bytes.blt a b = true) ∧ ∀ k, k ∈ pages.flatten ↔ k ∈ keysAfter ops ∧ pre <+: k := by
  obtain ⟨s, h1, h2, hU⟩ := cache_run hH wf.fit (clear_of_noShift noShift) ops (ks := {}) (cacheInv_new (H := H)) (by simp) (by simp)
    (fun _ h => h) wf.order hr
  refine ⟨s, h1, fun pre max hpre hmax => ?_⟩
  obtain ⟨⟨t, t', hrt, hn, hp, hf, hh, _⟩, _⟩ := h2
  obtain ⟨N, hN⟩ := collect_all (s := { s with root := some t' }) rfl hf hh hpre hmax (fun k hk => ⟨by
    intro e
    have := wf.long k (hU k hk)
    rw [e] at this; simp at this, short k (hU k hk)⟩)
  refine ⟨N, fun fuel hfuel rounds hrounds => ?_⟩
  obtain ⟨pages, h3, h4⟩ := hN fuel hfuel rounds hrounds
  refine ⟨pages, ?_, h4⟩
  rw [collectPages_part hrt (s' := { s with root := some t' }) rfl hn hp]
  exact h3

/-- Not for longer prefixes: a key is present, and paging below itself finds nothing. -/
theorem C23_long_prefix_false :
    ∃ s, TrieState.new.run toyHash caseHistory = .ok s ∧ caseKey3 ∈ keysAfter caseHistory ∧
      s.contains caseKey3 = .ok true ∧ ∀ fuel, s.pageRequest fuel caseKey3 10 none = .ok ([], none) := by
  have h : (match TrieState.new.run toyHash caseHistory with
      | .ok s => (match s.contains caseKey3 with | .ok b => b | _ => false) &&
          (match s.root with | some r => (nodeAt s.db [] (expandNibbles caseKey3) r).isNone | none => false)
      | .error _ => false) = true := by decide +kernel
  cases hs : TrieState.new.run toyHash caseHistory with
  | error e => rw [hs] at h; cases h
  | ok s =>
    rw [hs] at h
    simp only [Bool.and_eq_true] at h
    refine ⟨s, rfl, by decide, ?_, ?_⟩
    · cases hc : s.contains caseKey3 with
      | error e => rw [hc] at h; simp at h
      | ok b => rw [hc] at h; simp only at h; rw [h.1]
    · intro fuel
      unfold TrieState.pageRequest
      cases hr : s.root with
      | none => rw [hr] at h; simp at h
      | some r => rw [hr] at h; simp only at h ⊢; rw [if_pos h.2]

-- the hypotheses hold of a history with a compaction, and of one with reloads
example : ∃ s, TrieState.new.run toyHash caseHistory = .ok s ∧
    ∃ N, ∀ fuel, N ≤ fuel → ∀ rounds, N ≤ rounds →
      ∃ pages, s.collectPages fuel [0, 0] 1 rounds none = .ok pages ∧ caseKey1 ∈ pages.flatten := by
  obtain ⟨s, h1, h2⟩ := C23_pages_complete toyHash toyHash_ne caseHistory caseHistory_wf caseHistory_noReload (by decide)
  obtain ⟨N, hN⟩ := h2 [0, 0] 1 (by decide) (by decide)
  refine ⟨s, h1, N, fun fuel hf rounds hr => ?_⟩
  obtain ⟨pages, h3, _, _, h4⟩ := hN fuel hf rounds hr
  exact ⟨pages, h3, (h4 _).2 ⟨by decide, by decide⟩⟩

example : ∃ s, TrieState.new.run toyHash caseReloads = .ok s ∧
    ∃ N, ∀ fuel, N ≤ fuel → ∀ rounds, N ≤ rounds →
      ∃ pages, s.collectPages fuel [] 1 rounds none = .ok pages ∧ caseKey3 ∈ pages.flatten := by
  obtain ⟨s, h1, h2⟩ := C23_pages_complete_reloads toyHash toyHash_ne caseReloads caseReloads_wf (by decide)
    caseReloads_nonEmpty (by decide)
  obtain ⟨N, hN⟩ := h2 [] 1 (by decide) (by decide)
  refine ⟨s, h1, N, fun fuel hf rounds hr => ?_⟩
  obtain ⟨pages, h3, _, _, h4⟩ := hN fuel hf rounds hr
  exact ⟨pages, h3, (h4 _).2 ⟨by decide, by decide⟩⟩

-- three pages of one key each
example : (match TrieState.new.run toyHash caseReloads with
    | .ok s => (match s.collectPages 100 [] 1 10 none with | .ok p => p | _ => [])
    | .error _ => []) = [[caseKey1], [caseKey3], []] := by decide +kernel

end Verif
