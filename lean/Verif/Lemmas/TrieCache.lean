import Verif.Lemmas.TriePart
/-! Histories with reloads, when no key is another one shifted by the nibble 8. -/
namespace Verif
open OMapL
variable {H : Bytes → Bytes}

/-- The rows of paths of up to twelve characters are those of prefixes of the keys, except that an empty root may have a
row. -/
def CleanRows (V : Bytes → Option NodeRow) (set : List Bytes) : Prop :=
  ∀ q, q.length ≤ uncompacted → V (nodeKey q none) ≠ none →
    (q = [] ∧ V (nodeKey q none) = rowOf .empty) ∨ ∃ k ∈ set, q <+: expandNibbles k

/-- The cached tree stands for the current set and the database for the committed one. -/
structure CacheInv (H : Bytes → Bytes) (s : TrieState) (ks : KeySets) : Prop where
  cached : ∃ t t', s.root = some t ∧ (∃ n k hs kids, t = .node n k hs kids) ∧ Part s.db [] t t' ∧ t'.Fresh H [] ∧
    Holds t' ks.current ∧ (t'.Good H [] → t'.RowsOK (rowView s.db s.txn) [])
  disk : ∃ tc, tc.Fresh H [] ∧ Holds tc ks.committed ∧ (tc.Good H [] → tc.RowsOK s.db.get [])
  clean : CleanRows (rowView s.db s.txn) ks.current
  diskClean : CleanRows s.db.get ks.committed

theorem rowView_merge (db : Db NodeRow) (txn u : Txn NodeRow) : rowView db (txn.merge u) = rowView (db.commit txn) u := by
  funext k
  simp only [rowView, getFromDbOrTxn, Txn.get_merge, Db.get_commit]
  cases u.get k with
  | none => rfl
  | some v => rfl

theorem rowView_empty (db : Db NodeRow) : rowView db OMap.empty = db.get := by
  funext k; rfl

theorem rowView_commit (db : Db NodeRow) (txn : Txn NodeRow) : rowView db txn = (db.commit txn).get := by
  rw [← rowView_empty, ← rowView_merge]
  funext k
  simp only [rowView, getFromDbOrTxn, Txn.get_merge]
  rfl

theorem part_of_empty {db db' : Db NodeRow} {t : Tree} (hn : ∃ n k hs kids, t = .node n k hs kids) (h : Part db [] t .empty) :
    Part db' [] t .empty := by
  obtain ⟨n, k, hs, kids, rfl⟩ := hn
  cases h with
  | node _ _ _ _ _ _ h1 h2 h3 =>
    have : kids = [] := by cases kids with | nil => rfl | cons => simp at h1
    subst this
    exact empty_part

theorem cache_insert (hH : ∀ x, H x ≠ []) {ord : List UInt8 → List UInt8} (hord : ∀ l, (ord l).Perm l)
    {U : Bytes → Prop} (hU : KeysFit U) {Z : Bytes → Prop} (h8 : ∀ k, U k → Clear Z (expandNibbles k)) {s : TrieState} {ks : KeySets}
    {keys : List Bytes} (h : CacheInv H s ks) (hs : ∀ k ∈ ks.current, U k) (hk : ∀ k ∈ keys, U k) :
    ∃ s' res, s.insert H ord keys = .ok (s', res) ∧ CacheInv H s' { ks with current := addKeys ks.current keys } ∧
      res.length = keys.length := by
  unfold TrieState.insert
  by_cases hne : keys = []
  · subst hne
    exact ⟨s, [], by simp, by simpa [addKeys] using h, rfl⟩
  · obtain ⟨⟨t, t', hr, hn, hp, hf, hh, hrows⟩, hdisk, hcl, hdc⟩ := h
    obtain ⟨u, hu, post, hh'⟩ := insert_full hH hord (s.db.commit s.txn) hU hf hh hs hk hne OMap.empty
    have hsim := nodeInsert_part H ord s.db (s.db.commit s.txn) (depthBound (keys.map expandNibbles)) [] t t' OMap.empty OMap.empty
      (keys.map expandNibbles) hn hp (fun k _ => List.nil_prefix)
    simp only [List.length_nil] at hsim
    rw [hu] at hsim
    simp only
    rw [if_neg (by simpa using hne), not_short hU hk]
    simp only [Bool.false_eq_true, if_false, hr]
    generalize nodeInsert H ord s.db (depthBound (keys.map expandNibbles)) t OMap.empty OMap.empty (keys.map expandNibbles) 0 = x at hsim
    cases hsim with
    | ok a a' ph txn res hna hpa =>
      simp only
      refine ⟨_, _, rfl, ⟨⟨a, a', rfl, hna, hpa, .inr post.good, hh', ?_⟩, hdisk, ?_, hdc⟩, by simpa using post.len⟩
      rotate_left
      · simp only
        rw [rowView_merge]
        intro q hq hrow
        have hmem : ∀ x, x ∈ a'.toList → ∃ k ∈ addKeys ks.current keys, expandNibbles k = x := fun x hx => (hh'.2 x).1 hx
        rcases post.puts q hrow with h1 | ⟨x, hx, e⟩
        · rw [rowView_empty, ← rowView_commit] at h1
          rcases hcl q hq h1 with ⟨rfl, _⟩ | ⟨k, hk', e⟩
          · obtain ⟨x, hx⟩ := post.good.exists_mem
            obtain ⟨k, hk', _⟩ := hmem x hx
            exact .inr ⟨k, hk', List.nil_prefix⟩
          · exact .inr ⟨k, mem_addKeys.2 (.inl hk'), e⟩
        · obtain ⟨k, hk', rfl⟩ := hmem x hx
          exact .inr ⟨k, hk', e⟩
      intro _
      have := (post.rows Z (by
        rintro x (hx | hx)
        · obtain ⟨k, hk', rfl⟩ := (hh.2 x).1 hx
          exact h8 k (hs k hk')
        · obtain ⟨k, hk', rfl⟩ := List.mem_map.1 hx
          exact h8 k (hk k hk')) (by
        intro hg
        rw [rowView_empty, ← rowView_commit]
        exact hrows hg)).1
      simp only at this ⊢
      rw [rowView_merge]
      exact this

theorem cache_delete (hH : ∀ x, H x ≠ []) {ord : List UInt8 → List UInt8} (hord : ∀ l, (ord l).Perm l)
    {U : Bytes → Prop} (hU : KeysFit U) {Z : Bytes → Prop} (h8 : ∀ k, U k → Clear Z (expandNibbles k)) {s : TrieState} {ks : KeySets}
    {keys : List Bytes} (h : CacheInv H s ks) (hs : ∀ k ∈ ks.current, U k) (hk : ∀ k ∈ keys, U k) :
    ∃ s' res, s.delete H ord keys = .ok (s', res) ∧ CacheInv H s' { ks with current := removeKeys ks.current keys } ∧
      res.length = keys.length := by
  unfold TrieState.delete
  by_cases hne : keys = []
  · subst hne
    refine ⟨s, [], by simp, ?_, rfl⟩
    rw [show removeKeys ks.current [] = ks.current from List.filter_eq_self.2 (by simp)]
    exact h
  · obtain ⟨⟨t, t', hr, hn, hp, hf, hh, hrows⟩, hdisk, hcl, hdc⟩ := h
    obtain ⟨u, hu, hf', hh', hi, hl, hpost, hempty⟩ := delete_full hH hord (s.db.commit s.txn) hU hf hh hs hk hne OMap.empty
    have hsim := nodeDelete_part H ord s.db (s.db.commit s.txn) (depthBound (keys.map expandNibbles)) [] t t' OMap.empty OMap.empty
      (keys.map expandNibbles) hn hp (fun k _ => List.nil_prefix)
    simp only [List.length_nil] at hsim
    rw [hu] at hsim
    simp only
    rw [if_neg (by simpa using hne), not_short hU hk]
    simp only [Bool.false_eq_true, if_false, hr]
    generalize nodeDelete H ord s.db (depthBound (keys.map expandNibbles)) t OMap.empty OMap.empty (keys.map expandNibbles) 0 = x at hsim
    cases hsim with
    | ok a a' ph txn res hna hpa =>
      simp only
      refine ⟨_, _, rfl, ⟨⟨a, a', rfl, hna, hpa, hf', hh', ?_⟩, hdisk, ?_, hdc⟩, hl⟩
      rotate_left
      · simp only
        rw [rowView_merge]
        rcases hf with rfl | hg
        · obtain ⟨_, e⟩ := hempty rfl
          have hs0 : ks.current = [] := by
            cases hc : ks.current with
            | nil => rfl
            | cons k l => have := (hh.2 (expandNibbles k)).2 ⟨k, by rw [hc]; simp, rfl⟩; simp at this
          simp only at e
          rw [e, rowView_empty, ← rowView_commit, hs0]
          rw [hs0] at hcl
          exact hcl
        · have hst := (hpost hg).stray (by
            intro q _ hq hrow
            rw [rowView_empty, ← rowView_commit] at hrow
            rcases hcl q hq hrow with ⟨rfl, _⟩ | ⟨k, hk', e⟩
            · obtain ⟨x, hx⟩ := hg.exists_mem
              exact ⟨x, hx, List.nil_prefix⟩
            · exact ⟨_, (hh.2 _).2 ⟨k, hk', rfl⟩, e⟩)
          intro q hq hrow
          obtain ⟨x, hx, e⟩ := hst q List.nil_prefix hq hrow
          obtain ⟨k, hk', rfl⟩ := (hh'.2 x).1 hx
          exact .inr ⟨k, hk', e⟩
      intro hg
      simp only at hg hh' ⊢
      have htg : t'.Good H [] := by
        rcases hf with rfl | h
        · exfalso
          obtain ⟨x, hx⟩ := hg.exists_mem
          obtain ⟨k, hk', _⟩ := (hh'.2 x).1 hx
          have := (hh.2 (expandNibbles k)).2 ⟨k, (mem_removeKeys.1 hk').1, rfl⟩
          simp at this
        · exact h
      have := ((hpost htg).rows Z (by
        rintro x (hx | hx)
        · obtain ⟨k, hk', rfl⟩ := (hh.2 x).1 hx
          exact h8 k (hs k hk')
        · obtain ⟨k, hk', rfl⟩ := List.mem_map.1 hx
          exact h8 k (hk k hk')) (by
        rw [rowView_empty, ← rowView_commit]
        exact hrows htg)).1 hg
      rw [rowView_merge]
      exact this

theorem cache_commit {s : TrieState} {ks : KeySets} (h : CacheInv H s ks) :
    CacheInv H s.commit { ks with committed := ks.current } := by
  obtain ⟨⟨t, t', hr, hn, hp, hf, hh, hrows⟩, _, hcl, _⟩ := h
  have hcl' : CleanRows (s.db.commit s.txn).get ks.current := by rw [← rowView_commit]; exact hcl
  have hrows' : t'.Good H [] → t'.RowsOK (s.db.commit s.txn).get [] := by
    intro hg; rw [← rowView_commit]; exact hrows hg
  refine ⟨⟨t, t', hr, hn, ?_, hf, hh, ?_⟩, ⟨t', hf, hh, hrows'⟩, by rw [TrieState.commit, rowView_empty]; exact hcl', hcl'⟩
  · rcases hf with rfl | hg
    · exact part_of_empty hn hp
    · exact hp.rebase (stored_of_rows hg (hrows' hg))
  · intro hg
    simp only [TrieState.commit]
    rw [rowView_empty]
    exact hrows' hg

theorem cache_reload {s : TrieState} {ks : KeySets} (h : CacheInv H s ks) (hne : ks.committed ≠ []) :
    ∃ s', s.reload = .ok s' ∧ CacheInv H s' { ks with current := ks.committed } := by
  obtain ⟨_, ⟨tc, hf, hh, hrows⟩, _, hdc⟩ := h
  have hg : tc.Good H [] := by
    rcases hf with rfl | h
    · exfalso
      obtain ⟨k, hk⟩ := List.exists_mem_of_ne_nil _ hne
      have := (hh.2 (expandNibbles k)).2 ⟨k, hk, rfl⟩
      simp at this
    · exact h
  have hst := stored_of_rows hg (hrows hg)
  obtain ⟨r, hr, hp⟩ := ofRow_part hst
  refine ⟨{ s with root := some (ofRow r), txn := OMap.empty }, ?_, ⟨ofRow r, tc, rfl, ⟨_, _, _, _, rfl⟩, hp, hf, hh, ?_⟩, ⟨tc, hf, hh, hrows⟩,
    by simp only; rw [rowView_empty]; exact hdc, hdc⟩
  · simp only [TrieState.reload, hr]
  · intro hg
    simp only
    rw [rowView_empty]
    exact hrows hg

theorem cleanRows_new : CleanRows (TrieState.new.db.get) [] := by
  intro q _ hq
  by_cases e : q = []
  · subst e; exact .inl ⟨rfl, rfl⟩
  · exfalso
    apply hq
    have hne : nodeKey q none ≠ nodeKey [] none := by simp [nodeKey, e]
    show (Db.commit OMap.empty (putNode OMap.empty .empty [])).get (nodeKey q none) = none
    simp only [putNode, Tree.empty, rowOf, Db.get_commit]
    rw [getFromDbOrTxn_stagePut, if_neg hne]
    rfl

theorem cacheInv_new : CacheInv H TrieState.new {} := by
  refine ⟨⟨.empty, .empty, rfl, ⟨_, _, _, _, rfl⟩, empty_part, .inl rfl, ⟨by simp, by intro x; simp⟩, fun h => absurd h not_good_empty⟩,
    ⟨.empty, .inl rfl, ⟨by simp, by intro x; simp⟩, fun h => absurd h not_good_empty⟩, cleanRows_new, cleanRows_new⟩

theorem cache_run (hH : ∀ x, H x ≠ []) {U : Bytes → Prop} (hU : KeysFit U) {Z : Bytes → Prop} (h8 : ∀ k, U k → Clear Z (expandNibbles k))
    (ops : List TrieOp) {s : TrieState} {ks : KeySets} (h : CacheInv H s ks) (hs : ∀ k ∈ ks.current, U k)
    (hd : ∀ k ∈ ks.committed, U k) (ho : ∀ k ∈ historyKeys ops, U k) (hfair : ∀ op ∈ ops, op.FairOrder)
    (hr : ReloadsNonEmpty ks ops) :
    ∃ s', s.run H ops = .ok s' ∧ CacheInv H s' (ops.foldl KeySets.step ks) ∧
      (∀ k ∈ (ops.foldl KeySets.step ks).current, U k) := by
  induction ops generalizing s ks with
  | nil => exact ⟨s, rfl, h, hs⟩
  | cons op ops ih =>
    rw [historyKeys_cons] at ho
    have ho1 : ∀ k ∈ op.keys, U k := fun k hk => ho k (List.mem_append_left _ hk)
    obtain ⟨hc', hd'⟩ := KeySets.step_sub hs hd ho1
    have hstep : ∃ s' res, s.step H op = .ok (s', res) ∧ CacheInv H s' (ks.step op) := by
      cases op with
      | insert ord keys =>
        have hf1 := hfair _ List.mem_cons_self
        obtain ⟨s', res, h1, h2, _⟩ := cache_insert hH hf1 hU h8 h hs ho1
        exact ⟨s', res, h1, h2⟩
      | delete ord keys =>
        have hf1 := hfair _ List.mem_cons_self
        obtain ⟨s', res, h1, h2, _⟩ := cache_delete hH hf1 hU h8 h hs ho1
        exact ⟨s', res, h1, h2⟩
      | commit => exact ⟨s.commit, [], rfl, cache_commit h⟩
      | reload =>
        obtain ⟨s', h1, h2⟩ := cache_reload h (hr.1 trivial)
        exact ⟨s', [], by simp [TrieState.step, h1], h2⟩
    obtain ⟨s1, res, h1, h2⟩ := hstep
    obtain ⟨s', h3, h4⟩ := ih h2 hc' hd' (fun k hk => ho k (List.mem_append_right _ hk))
      (fun o ho => hfair o (by simp [ho])) hr.2
    refine ⟨s', ?_, h4⟩
    simp only [TrieState.run, h1]; exact h3

/-- Reads of a partially loaded state are reads of the canonical tree of its set. -/
theorem cache_reads {s : TrieState} {ks : KeySets} (h : CacheInv H s ks) :
    ∃ t', t'.Fresh H [] ∧ Holds t' ks.current ∧ s.rootHash H = .ok (nodeHash H t') ∧ s.items = .ok ks.current.length ∧
      ∀ k, k ≠ [] → s.contains k = .ok (decide (k ∈ ks.current)) := by
  obtain ⟨⟨t, t', hr, hn, hp, hf, hh, hrows⟩, _⟩ := h
  refine ⟨t', hf, hh, ?_, ?_, ?_⟩
  · simp only [TrieState.rootHash, hr, part_hash H hp hn]
  · simp only [TrieState.items, hr, part_items hp hn, hh.items hf]
  · intro k hk
    simp only [TrieState.contains, hr]
    rw [nodeExists_part s.db s.db _ _ hn hp, exists_fresh s.db _ hf]
    · congr 1
      rw [decide_eq_decide, hh.2]
      constructor
      · rintro ⟨k', h1, h2⟩; rw [← expandNibbles_inj h2]; exact h1
      · intro h; exact ⟨k, h, rfl⟩
    · intro e
      have := expandNibbles_length k
      rw [e] at this
      cases k with
      | nil => exact hk rfl
      | cons => simp at this

end Verif
