import Verif.Lemmas.TrieCounts
/-! Reads of the trie while inserts are pending, restarts, and pages one at a time. -/
namespace Verif
open OMapL
variable {H : Bytes → Bytes}

/-- The hash read for a prefix, pending inserts included. -/
theorem prefix_hash {s : TrieState} {ks : KeySets} (h : CacheInv H s ks) (p : Bytes) (hp : p.length ≤ 6)
    (hlong : ∀ k ∈ ks.current, k ≠ []) (hex : ∃ k ∈ ks.current, p <+: k) :
    ∃ n, n.Good H (expandNibbles p) ∧ (∀ x, x ∈ n.toList ↔ ∃ k ∈ ks.current, expandNibbles k = x ∧ p <+: k) ∧
      s.getHash H p = nodeHash H n := by
  have hl : (expandNibbles p).length ≤ uncompacted := by rw [expandNibbles_length]; unfold uncompacted; omega
  obtain ⟨⟨t, tc, _, _, _, hf, hh, hrows⟩, _⟩ := h
  obtain ⟨k, hk, hpk⟩ := hex
  have hg : tc.Good H [] := by
    rcases hf with rfl | h
    · have := (hh.2 (expandNibbles k)).2 ⟨k, hk, rfl⟩; simp at this
    · exact h
  rcases nodeAt_good s.db (expandNibbles p) hg with ⟨n, hn, gn, mn⟩ | ⟨_, hno⟩
  · rw [List.nil_append] at gn
    have hr := rows_nodeAt s.db _ hg (hrows hg) hn
    rw [List.nil_append] at hr
    have hm : ∀ x, x ∈ n.toList ↔ ∃ k ∈ ks.current, expandNibbles k = x ∧ p <+: k := by
      intro x
      rw [mn, hh.2]
      simp only [List.nil_append]
      constructor
      · rintro ⟨⟨k', h1, rfl⟩, h2⟩; exact ⟨k', h1, rfl, expandNibbles_prefix.1 h2⟩
      · rintro ⟨k', h1, rfl, h2⟩; exact ⟨⟨k', h1, rfl⟩, expandNibbles_prefix.2 h2⟩
    refine ⟨n, gn, hm, ?_⟩
    obtain ⟨r, e1, _, e3⟩ := ofRow_rowOf hl gn (by
      intro x hx
      obtain ⟨k, hk, rfl, _⟩ := (hm x).1 hx
      have h6 := hlong k hk
      intro e
      have := expandNibbles_length k
      rw [e] at this
      cases k with
      | nil => exact h6 rfl
      | cons => simp at this)
    have hv : rowView s.db s.txn (nodeKey (expandNibbles p) none) = some r := by
      cases hr with
      | node _ items key hashes kids hrow _ => rw [hrow]; exact e1
    have hgn : s.getNode p = some (ofRow r) := by
      unfold TrieState.getNode
      simp only [rowView, getFromDbOrTxn] at hv
      cases hx : s.txn.get (nodeKey (expandNibbles p) none) with
      | none => rw [hx] at hv; simp only at hv ⊢; rw [hv]; rfl
      | some v => rw [hx] at hv; simp only at hv ⊢; subst hv; rfl
    rw [TrieState.getHash, hgn, Option.map_some, Option.getD_some, e3]
  · have := hno (by simpa using hl) (expandNibbles k) ((hh.2 _).2 ⟨k, hk, rfl⟩)
    exact absurd (expandNibbles_prefix.2 hpk) (by simpa using this)

/-- Two tries with the same keys under a prefix read the same hash for it. -/
theorem prefix_hash_same {s s' : TrieState} {ks ks' : KeySets} (h : CacheInv H s ks) (h' : CacheInv H s' ks') (p : Bytes)
    (hp : p.length ≤ 6) (hlong : ∀ k ∈ ks.current, k ≠ []) (hlong' : ∀ k ∈ ks'.current, k ≠ [])
    (hex : ∃ k ∈ ks.current, p <+: k) (same : ∀ k, p <+: k → (k ∈ ks.current ↔ k ∈ ks'.current)) :
    s.getHash H p = s'.getHash H p := by
  obtain ⟨n, g, m, e⟩ := prefix_hash h p hp hlong hex
  obtain ⟨k, hk, hpk⟩ := hex
  obtain ⟨n', g', m', e'⟩ := prefix_hash h' p hp hlong' ⟨k, (same k hpk).1 hk, hpk⟩
  rw [e, e']
  refine g.unique g' (fun x => ?_)
  rw [m, m']
  constructor
  · rintro ⟨k, h, e, hpk⟩; exact ⟨k, (same k hpk).1 h, e, hpk⟩
  · rintro ⟨k, h, e, hpk⟩; exact ⟨k, (same k hpk).2 h, e, hpk⟩

/-- Two tries with the same keys have the same root hash. -/
theorem root_hash_same {s s' : TrieState} {ks ks' : KeySets} (h : CacheInv H s ks) (h' : CacheInv H s' ks')
    (same : ∀ k, k ∈ ks.current ↔ k ∈ ks'.current) : s.rootHash H = s'.rootHash H := by
  obtain ⟨t, hf, hh, e, _⟩ := cache_reads h
  obtain ⟨t', hf', hh', e', _⟩ := cache_reads h'
  rw [e, e']
  congr 1
  have hm : ∀ x, x ∈ t.toList ↔ x ∈ t'.toList := by
    intro x
    rw [hh.2, hh'.2]
    constructor
    · rintro ⟨k, hk, e⟩; exact ⟨k, (same k).1 hk, e⟩
    · rintro ⟨k, hk, e⟩; exact ⟨k, (same k).2 hk, e⟩
  rcases hf with rfl | g <;> rcases hf' with rfl | g'
  · rfl
  · obtain ⟨x, hx⟩ := g'.exists_mem
    have := (hm x).2 hx; simp at this
  · obtain ⟨x, hx⟩ := g.exists_mem
    have := (hm x).1 hx; simp at this
  · exact g.unique g' hm

/-- Starting again from the database. -/
theorem cache_restart {s : TrieState} {ks : KeySets} (h : CacheInv H s ks) :
    CacheInv H (TrieState.initialize { s with root := none, txn := OMap.empty }) { ks with current := ks.committed } := by
  by_cases hne : ks.committed = []
  · obtain ⟨_, ⟨tc, hf, hh, _⟩, _, hdc⟩ := h
    have hte : Holds .empty ks.committed := by rw [hne]; exact ⟨by simp, by intro x; simp⟩
    have done : ∀ (db : Db NodeRow), CleanRows db.get ks.committed →
        CacheInv H { root := some .empty, db := db, txn := OMap.empty } { ks with current := ks.committed } := by
      intro db hc
      exact ⟨⟨.empty, .empty, rfl, ⟨_, _, _, _, rfl⟩, empty_part, .inl rfl, hte, fun h => absurd h not_good_empty⟩,
        ⟨.empty, .inl rfl, hte, fun h => absurd h not_good_empty⟩, by simp only; rw [rowView_empty]; exact hc, hc⟩
    unfold TrieState.initialize
    cases hd : s.db.get (nodeKey [] none) with
    | some r =>
      simp only [hd]
      rcases hdc [] (by simp) (by rw [hd]; simp) with ⟨_, he⟩ | ⟨k, hk, _⟩
      · rw [hd] at he
        have he : some r = some _ := he
        injection he with he
        subst he
        exact done s.db hdc
      · rw [hne] at hk; cases hk
    | none =>
      simp only [hd]
      refine done _ ?_
      intro q hq hrow
      by_cases e : q = []
      · subst e
        left
        refine ⟨rfl, ?_⟩
        simp only [putNode, Tree.empty, rowOf, Db.get_commit]
        rw [getFromDbOrTxn_stagePut, if_pos rfl]
      · have hne' : nodeKey q none ≠ nodeKey [] none := by simp [nodeKey, e]
        simp only [putNode, Tree.empty, rowOf, Db.get_commit] at hrow
        rw [getFromDbOrTxn_stagePut, if_neg hne'] at hrow
        rcases hdc q hq hrow with ⟨e', _⟩ | ⟨k, hk, _⟩
        · exact absurd e' e
        · rw [hne] at hk; cases hk
  · obtain ⟨s', h1, h2⟩ := cache_reload h hne
    have : TrieState.initialize { s with root := none, txn := OMap.empty } = s' := by
      unfold TrieState.reload at h1
      unfold TrieState.initialize
      cases hd : s.db.get (nodeKey [] none) with
      | none => rw [hd] at h1; cases h1
      | some r =>
        rw [hd] at h1
        simp only [hd]
        injection h1
    rw [this]; exact h2

/-- Pages from a token on, one at a time. -/
theorem collect_next {s : TrieState} {fuel : Nat} {pre : Bytes} {max n : Nat} {token : Option Bytes} {pages : List (List Bytes)}
    (h : s.collectPages fuel pre max n token = .ok pages) :
    ∃ l, (s.pageRequest fuel pre max token = .ok (l, none) ∧ pages = [l]) ∨
      ∃ t n' rest, n = n' + 1 ∧ s.pageRequest fuel pre max token = .ok (l, some t) ∧ s.collectPages fuel pre max n' (some t) = .ok rest ∧
        pages = l :: rest := by
  cases n with
  | zero => cases h
  | succ n =>
    simp only [TrieState.collectPages] at h
    split at h
    · cases h
    · rename_i l e
      cases h
      exact ⟨l, .inl ⟨e, rfl⟩⟩
    · rename_i l t e
      split at h
      · cases h
      · rename_i rest e'
        cases h
        exact ⟨l, .inr ⟨t, n, rest, rfl, e, e', rfl⟩⟩

/-- All pages of a trie in its cached form. -/
theorem cache_pages {s : TrieState} {ks : KeySets} (h : CacheInv H s ks) {pre : Bytes} (hpre : pre.length ≤ 6) {max : Nat}
    (hmax : 1 ≤ max) (hlen : ∀ k ∈ ks.current, k ≠ [] ∧ k.length < 2 ^ 30) :
    ∃ N, ∀ fuel, N ≤ fuel → ∀ rounds, N ≤ rounds → ∃ pages, s.collectPages fuel pre max rounds none = .ok pages ∧
      (∀ p ∈ pages, p.length ≤ max) ∧ pages.flatten.Pairwise (fun a b => Bytes.blt a b = true) ∧
      ∀ k, k ∈ pages.flatten ↔ k ∈ ks.current ∧ pre <+: k := by
  obtain ⟨⟨t, t', hrt, hn, hp, hf, hh, _⟩, _⟩ := h
  obtain ⟨N, hN⟩ := collect_all (s := { s with root := some t' }) rfl hf hh hpre hmax hlen
  refine ⟨N, fun fuel hfuel rounds hrounds => ?_⟩
  obtain ⟨pages, h3, h4⟩ := hN fuel hfuel rounds hrounds
  refine ⟨pages, ?_, h4⟩
  rw [collectPages_part hrt (s' := { s with root := some t' }) rfl hn hp]
  exact h3

/-- One bound for the pages of all virtual shards. -/
theorem uniform_bound {P : UInt8 → Nat → Prop} (h : ∀ v, ∃ N, ∀ fuel, N ≤ fuel → P v fuel) :
    ∃ N, ∀ fuel, N ≤ fuel → ∀ v, P v fuel := by
  have gen : ∀ n, ∃ N, ∀ fuel, N ≤ fuel → ∀ v : UInt8, v.toNat < n → P v fuel := by
    intro n
    induction n with
    | zero => exact ⟨0, fun _ _ v hv => by omega⟩
    | succ n ih =>
      obtain ⟨N, hN⟩ := ih
      obtain ⟨M, hM⟩ := h (UInt8.ofNat n)
      refine ⟨N + M, fun fuel hf v hv => ?_⟩
      by_cases e : v.toNat = n
      · have : v = UInt8.ofNat n := by rw [← e]; simp
        rw [this]; exact hM fuel (by omega)
      · exact hN fuel (by omega) v (by omega)
  obtain ⟨N, hN⟩ := gen 256
  exact ⟨N, fun fuel hf v => hN fuel hf v (UInt8.toNat_lt v)⟩

end Verif
