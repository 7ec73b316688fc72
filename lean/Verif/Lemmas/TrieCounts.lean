import Verif.Lemmas.TriePages
/-! Counts and hashes by prefix on committed state. -/
namespace Verif
open OMapL
variable {H : Bytes → Bytes}

/-- The row of a node on a path. -/
theorem rows_nodeAt {V : Bytes → Option NodeRow} (db : Db NodeRow) (path : Bytes) {p : Bytes} {t n : Tree}
    (hg : t.Good H p) (h : t.RowsOK V p) (hn : nodeAt db p path t = some n) : n.RowsOK V (p ++ path) := by
  induction path generalizing p t with
  | nil =>
    have : n = t := by cases t <;> simpa [nodeAt] using hn.symm
    subst this; simpa using h
  | cons c path ih =>
    cases h with
    | node _ items key hashes kids _ hk =>
      simp only [nodeAt] at hn
      cases hc : OMapL.get c kids with
      | none => rw [hc] at hn; simp at hn
      | some a =>
        have hga : a.Good H (p ++ [c]) := by
          cases hg with
          | leaf => cases hc
          | inner _ _ _ _ _ hk' _ _ => exact hk' c a hc
        rw [hc, loadChild_node (.inr hga)] at hn
        simp only [Option.isNone_some, Bool.false_eq_true, if_false] at hn
        have := ih hga (hk c a hc) hn
        simpa using this

theorem ofRow_rowOf {p : Bytes} {t : Tree} (hH : p.length ≤ uncompacted) (h : t.Good H p) (hne : ∀ x ∈ t.toList, x ≠ []) :
    ∃ r, rowOf t = some r ∧ (ofRow r).items = t.items ∧ nodeHash H (ofRow r) = nodeHash H t := by
  cases h with
  | leaf _ k hashes hp hk _ =>
    refine ⟨_, rfl, rfl, ?_⟩
    have : k ≠ [] := hne k (by simp [Tree.toList, Tree.listKids])
    simp [ofRow, nodeHash, Tree.isLeaf, this]
  | inner _ hashes kids hne' _ _ _ _ =>
    refine ⟨_, rfl, rfl, ?_⟩
    simp [ofRow, nodeHash, Tree.isLeaf, hne']

/-- The number of keys of a set under a prefix. -/
theorem count_under {p : Bytes} {t : Tree} (h : t.Good H (expandNibbles p)) {set : List Bytes} (hs : set.Nodup)
    (hm : ∀ x, x ∈ t.toList ↔ ∃ k ∈ set, expandNibbles k = x ∧ p <+: k) :
    t.items = (set.filter (fun k => p.isPrefixOf k)).length := by
  obtain ⟨h1, h2⟩ := h.counts
  rw [← h2]
  have hn : ((set.filter (fun k => p.isPrefixOf k)).map expandNibbles).Nodup := by
    rw [List.nodup_iff_pairwise_ne, List.pairwise_map]
    exact (List.nodup_iff_pairwise_ne.1 (hs.filter _)).imp (fun a b => a (expandNibbles_inj b))
  have e : ∀ x, x ∈ t.toList ↔ x ∈ (set.filter (fun k => p.isPrefixOf k)).map expandNibbles := by
    intro x
    rw [hm]
    simp only [List.mem_map, List.mem_filter, List.isPrefixOf_iff_prefix]
    constructor
    · rintro ⟨k, h1, h2, h3⟩; exact ⟨k, ⟨h1, h3⟩, h2⟩
    · rintro ⟨k, ⟨h1, h3⟩, h2⟩; exact ⟨k, h1, h2, h3⟩
  have e1 := Tree.Good.length_le_of_subset hn (fun x hx => (e x).2 hx)
  have e2 := Tree.Good.length_le_of_subset h1 (fun x hx => (e x).1 hx)
  simp only [List.length_map] at e1 e2
  omega

/-- What the rows of a tree say about a prefix. -/
theorem rows_read {V : Bytes → Option NodeRow} {set : List Bytes} {tc : Tree} (db : Db NodeRow) (hf : tc.Fresh H []) (hh : Holds tc set)
    (hrows : tc.Good H [] → tc.RowsOK V []) (hclean : CleanRows V set) (p : Bytes) (hp : p.length ≤ 6) :
    (∃ n r, n.Good H (expandNibbles p) ∧ (∀ x, x ∈ n.toList ↔ ∃ k ∈ set, expandNibbles k = x ∧ p <+: k) ∧
      rowOf n = some r ∧ V (nodeKey (expandNibbles p) none) = some r) ∨
    ((∀ k ∈ set, ¬ p <+: k) ∧ (V (nodeKey (expandNibbles p) none) = none ∨ V (nodeKey (expandNibbles p) none) = rowOf .empty)) := by
  have hl : (expandNibbles p).length ≤ uncompacted := by rw [expandNibbles_length]; unfold uncompacted; omega
  by_cases hex : ∃ k ∈ set, p <+: k
  · left
    obtain ⟨k, hk, hpk⟩ := hex
    have hg : tc.Good H [] := by
      rcases hf with rfl | h
      · have := (hh.2 (expandNibbles k)).2 ⟨k, hk, rfl⟩; simp at this
      · exact h
    rcases nodeAt_good db (expandNibbles p) hg with ⟨n, hn, gn, mn⟩ | ⟨_, hno⟩
    · rw [List.nil_append] at gn
      have hr := rows_nodeAt db _ hg (hrows hg) hn
      rw [List.nil_append] at hr
      cases hr with
      | node _ items key hashes kids hrow _ =>
        refine ⟨_, _, gn, ?_, rfl, hrow⟩
        intro x
        rw [mn, hh.2]
        simp only [List.nil_append]
        constructor
        · rintro ⟨⟨k', h1, rfl⟩, h2⟩; exact ⟨k', h1, rfl, expandNibbles_prefix.1 h2⟩
        · rintro ⟨k', h1, rfl, h2⟩; exact ⟨⟨k', h1, rfl⟩, expandNibbles_prefix.2 h2⟩
    · have := hno (by simpa using hl) (expandNibbles k) ((hh.2 _).2 ⟨k, hk, rfl⟩)
      exact absurd (expandNibbles_prefix.2 hpk) (by simpa using this)
  · right
    have hno : ∀ k ∈ set, ¬ p <+: k := fun k hk hpk => hex ⟨k, hk, hpk⟩
    refine ⟨hno, ?_⟩
    cases hd : V (nodeKey (expandNibbles p) none) with
    | none => exact .inl rfl
    | some r =>
      right
      rcases hclean _ hl (by rw [hd]; simp) with ⟨e, he⟩ | ⟨k, hk, e⟩
      · rw [hd] at he; exact he
      · exact absurd (expandNibbles_prefix.1 e) (hno k hk)

/-- What is read for a prefix on a state without pending changes. -/
theorem prefix_read {s : TrieState} {ks : KeySets} (h : CacheInv H s ks) (htx : s.txn = OMap.empty) (p : Bytes)
    (hp : p.length ≤ 6) :
    (∃ n r, n.Good H (expandNibbles p) ∧ (∀ x, x ∈ n.toList ↔ ∃ k ∈ ks.committed, expandNibbles k = x ∧ p <+: k) ∧
      rowOf n = some r ∧ s.getNode p = some (ofRow r)) ∨
    ((∀ k ∈ ks.committed, ¬ p <+: k) ∧ (s.getNode p = none ∨ s.getNode p = some .empty)) := by
  have hgn : s.getNode p = (s.db.get (nodeKey (expandNibbles p) none)).map ofRow := by
    unfold TrieState.getNode; rw [htx]; rfl
  obtain ⟨tc, hf, hh, hrows⟩ := h.disk
  rcases rows_read s.db hf hh hrows h.diskClean p hp with ⟨n, r, a, b, c, d⟩ | ⟨a, b⟩
  · exact .inl ⟨n, r, a, b, c, by rw [hgn, d]; rfl⟩
  · refine .inr ⟨a, b.imp (fun b => by rw [hgn, b]; rfl) (fun b => by rw [hgn, b]; rfl)⟩

theorem ofRow_items {n : Tree} {r : NodeRow} {p : Bytes} (g : n.Good H p) (e : rowOf n = some r) : (ofRow r).items = n.items := by
  cases g <;> (simp only [rowOf, Option.some.injEq] at e; subst e; rfl)

/-- The count for a prefix while changes are pending: right if any key has the prefix; otherwise it may be the number of
keys that were committed. -/
theorem count_pending {s : TrieState} {ks : KeySets} (h : CacheInv H s ks) (p : Bytes) (hp : p.length ≤ 6) :
    ((∃ k ∈ ks.current, p <+: k) → s.getCount p = (ks.current.filter (fun k => p.isPrefixOf k)).length) ∧
    ((∀ k ∈ ks.current, ¬ p <+: k) → s.getCount p = 0 ∨ s.getCount p = (ks.committed.filter (fun k => p.isPrefixOf k)).length) := by
  have view : ∀ k, rowView s.db s.txn k = match s.txn.get k with
      | some v => v
      | none => s.db.get k := by
    intro k; simp only [rowView, getFromDbOrTxn]; cases s.txn.get k <;> rfl
  obtain ⟨t, t', _, _, _, hf, hh, hrows⟩ := h.cached
  have disk : ((s.db.get (nodeKey (expandNibbles p) none)).map (fun r => (ofRow r).items)).getD 0 =
      (ks.committed.filter (fun k => p.isPrefixOf k)).length := by
    obtain ⟨tc, hf, hh, hrows⟩ := h.disk
    rcases rows_read s.db hf hh hrows h.diskClean p hp with ⟨n, r, a, b, c, d⟩ | ⟨a, b⟩
    · rw [d, Option.map_some, Option.getD_some, ofRow_items a c, count_under a hh.1 b]
    · have h0 : (ks.committed.filter (fun k => p.isPrefixOf k)) = [] := by
        rw [List.filter_eq_nil_iff]
        intro k hk
        have := a k hk
        simpa [List.isPrefixOf_iff_prefix] using this
      rw [h0]
      rcases b with b | b <;> (rw [b]; rfl)
  have hcount : s.getCount p = match s.txn.get (nodeKey (expandNibbles p) none) with
      | some (some r) => (ofRow r).items
      | _ => (ks.committed.filter (fun k => p.isPrefixOf k)).length := by
    rw [← disk]
    simp only [TrieState.getCount, TrieState.getNode]
    rcases s.txn.get (nodeKey (expandNibbles p) none) with _ | _ | r
    · rw [Option.map_map]; rfl
    · rw [Option.map_map]; rfl
    · rfl
  rcases rows_read s.db hf hh hrows h.clean p hp with ⟨n, r, a, b, c, d⟩ | ⟨a, b⟩
  · refine ⟨fun _ => ?_, fun hno => ?_⟩
    · rw [← count_under a hh.1 b, ← ofRow_items a c]
      rw [view] at d
      rw [hcount]
      cases ht : s.txn.get (nodeKey (expandNibbles p) none) with
      | none =>
        rw [ht] at d
        have d : s.db.get (nodeKey (expandNibbles p) none) = some r := d
        simp only
        rw [← disk, d]; rfl
      | some v =>
        rw [ht] at d
        have d : v = some r := d
        subst d; rfl
    · obtain ⟨x, hx⟩ := a.exists_mem
      obtain ⟨k, hk, _, hpk⟩ := (b x).1 hx
      exact absurd hpk (hno k hk)
  · refine ⟨fun ⟨k, hk, hpk⟩ => absurd hpk (a k hk), fun _ => ?_⟩
    rw [hcount]
    split
    · rename_i r hr
      left
      rw [view, hr] at b
      rcases b with b | b
      · cases b
      · have b : some r = rowOf .empty := b
        cases b
        rfl
    · exact .inr rfl

end Verif
