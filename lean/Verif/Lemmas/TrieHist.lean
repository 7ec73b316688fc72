import Verif.Lemmas.TrieDelete
import Verif.Spec.Trie
/-! Histories of trie operations. -/
namespace Verif
open OMapL

theorem expandNibbles_cons (b : UInt8) (l : Bytes) :
    expandNibbles (b :: l) = (b >>> (4 : UInt8)) :: (b &&& (15 : UInt8)) :: expandNibbles l := rfl

theorem expandNibbles_length (b : Bytes) : (expandNibbles b).length = 2 * b.length := by
  induction b with
  | nil => rfl
  | cons a l ih => rw [expandNibbles_cons]; simp [ih]; omega

theorem combine_byte (a : UInt8) :
    ((a >>> (4 : UInt8)) <<< (4 : UInt8)) ||| ((a &&& (15 : UInt8)) &&& (15 : UInt8)) = a := by
  have h : ∀ n, n < 256 → (((UInt8.ofNat n) >>> (4 : UInt8)) <<< (4 : UInt8)) |||
      (((UInt8.ofNat n) &&& (15 : UInt8)) &&& (15 : UInt8)) = UInt8.ofNat n := by decide +kernel
  have := h a.toNat (UInt8.toNat_lt a)
  simpa using this

theorem combine_expand (b : Bytes) : combineNibbles (expandNibbles b) = some b := by
  induction b with
  | nil => rfl
  | cons a l ih => rw [expandNibbles_cons, combineNibbles, ih, Option.map_some, combine_byte]

theorem expandNibbles_inj {a b : Bytes} (h : expandNibbles a = expandNibbles b) : a = b := by
  have := combine_expand a
  rw [h, combine_expand] at this
  injection this with this
  exact this.symm

theorem expandNibbles_append (a b : Bytes) : expandNibbles (a ++ b) = expandNibbles a ++ expandNibbles b := by
  simp [expandNibbles]

theorem expandNibbles_prefix {a b : Bytes} : expandNibbles a <+: expandNibbles b ↔ a <+: b := by
  constructor
  · intro h
    induction a generalizing b with
    | nil => exact List.nil_prefix
    | cons x l ih =>
      cases b with
      | nil => exact absurd h.length_le (by simp [expandNibbles_cons, expandNibbles_length]; )
      | cons y m =>
        rw [expandNibbles_cons, expandNibbles_cons, List.cons_prefix_cons, List.cons_prefix_cons] at h
        obtain ⟨h1, h2, h3⟩ := h
        have : x = y := by rw [← combine_byte x, ← combine_byte y, h1, h2]
        subst this
        exact (List.cons_prefix_cons).2 ⟨rfl, ih h3⟩
  · rintro ⟨c, rfl⟩
    rw [expandNibbles_append]; exact List.prefix_append _ _

theorem mem_addKeys {set keys : List Bytes} {k : Bytes} : k ∈ addKeys set keys ↔ k ∈ set ∨ k ∈ keys := by
  induction keys generalizing set with
  | nil => simp [addKeys]
  | cons a l ih =>
    have : addKeys set (a :: l) = addKeys (if a ∈ set then set else set ++ [a]) l := rfl
    rw [this, ih]
    split
    · rename_i h
      constructor
      · rintro (h' | h')
        · exact .inl h'
        · exact .inr (by simp [h'])
      · rintro (h' | h')
        · exact .inl h'
        · rcases List.mem_cons.1 h' with rfl | h'
          · exact .inl h
          · exact .inr h'
    · simp [or_assoc]

theorem nodup_addKeys {set : List Bytes} (keys : List Bytes) (h : set.Nodup) : (addKeys set keys).Nodup := by
  induction keys generalizing set with
  | nil => exact h
  | cons a l ih =>
    have : addKeys set (a :: l) = addKeys (if a ∈ set then set else set ++ [a]) l := rfl
    rw [this]
    apply ih
    split
    · exact h
    · rename_i hn
      rw [List.nodup_append]
      refine ⟨h, by simp, ?_⟩
      intro x hx y hy e
      simp at hy
      subst hy; subst e; exact hn hx

theorem mem_removeKeys {set keys : List Bytes} {k : Bytes} : k ∈ removeKeys set keys ↔ k ∈ set ∧ k ∉ keys := by
  simp [removeKeys, List.mem_filter]

theorem nodup_removeKeys {set : List Bytes} (keys : List Bytes) (h : set.Nodup) : (removeKeys set keys).Nodup :=
  h.filter _

/-- The keys of a set of nibbles. -/
def Holds (t : Tree) (set : List Bytes) : Prop := set.Nodup ∧ ∀ x, x ∈ t.toList ↔ ∃ k ∈ set, expandNibbles k = x

theorem depthBound_lt {ks : List Bytes} {k : Bytes} (h : k ∈ ks) : k.length < depthBound ks := by
  unfold depthBound
  induction ks with
  | nil => cases h
  | cons a l ih =>
    simp only [List.map_cons, List.foldr_cons]
    rcases List.mem_cons.1 h with rfl | h
    · omega
    · have := ih h; omega

variable {H : Bytes → Bytes}

theorem fresh_counts {t : Tree} (h : t.Fresh H []) : t.toList.Nodup ∧ t.toList.length = t.items := by
  rcases h with rfl | h
  · simp
  · exact h.counts

theorem Holds.items {t : Tree} {set : List Bytes} (hf : t.Fresh H []) (h : Holds t set) : t.items = set.length := by
  obtain ⟨h1, h2⟩ := fresh_counts hf
  have hn : (set.map expandNibbles).Nodup := by
    rw [List.nodup_iff_pairwise_ne, List.pairwise_map]
    exact (List.nodup_iff_pairwise_ne.1 h.1).imp (fun a b => a (expandNibbles_inj b))
  have e1 := Tree.Good.length_le_of_subset (l := set.map expandNibbles) (m := t.toList) hn (by
    intro x hx
    obtain ⟨k, hk, rfl⟩ := List.mem_map.1 hx
    exact (h.2 _).2 ⟨k, hk, rfl⟩)
  have e2 := Tree.Good.length_le_of_subset (l := t.toList) (m := set.map expandNibbles) h1 (by
    intro x hx
    obtain ⟨k, hk, rfl⟩ := (h.2 x).1 hx
    exact List.mem_map.2 ⟨k, hk, rfl⟩)
  simp at e1 e2
  omega

/-- A universe of keys fit for the trie. -/
structure KeysFit (U : Bytes → Prop) : Prop where
  long : ∀ k, U k → 6 ≤ k.length
  pf : ∀ k k', U k → U k' → k <+: k' → k = k'

theorem KeysFit.prefixFree {U : Bytes → Prop} (h : KeysFit U) {t : Tree} {set keys : List Bytes} (hh : Holds t set)
    (hs : ∀ k ∈ set, U k) (hk : ∀ k ∈ keys, U k) :
    PrefixFree (fun x => x ∈ t.toList ∨ x ∈ keys.map expandNibbles) := by
  have key : ∀ x, (x ∈ t.toList ∨ x ∈ keys.map expandNibbles) → ∃ k, U k ∧ x = expandNibbles k := by
    rintro x (hx | hx)
    · obtain ⟨k, hk, rfl⟩ := (hh.2 x).1 hx; exact ⟨k, hs k hk, rfl⟩
    · obtain ⟨k, hk', rfl⟩ := List.mem_map.1 hx; exact ⟨k, hk k hk', rfl⟩
  intro a b ha hb hab
  obtain ⟨k, hk, rfl⟩ := key a ha
  obtain ⟨k', hk', rfl⟩ := key b hb
  rw [h.pf k k' hk hk' (expandNibbles_prefix.1 hab)]

theorem not_short {U : Bytes → Prop} (h : KeysFit U) {keys : List Bytes} (hk : ∀ k ∈ keys, U k) :
    (keys.map expandNibbles).any (fun k => decide (k.length < uncompacted)) = false := by
  rw [List.any_eq_false]
  intro x hx
  obtain ⟨k, hk', rfl⟩ := List.mem_map.1 hx
  have := h.long k (hk k hk')
  rw [expandNibbles_length]
  have : ¬ 2 * k.length < uncompacted := by unfold uncompacted; omega
  simpa using this

/-- The root node of a non-failing deletion is fit again. -/
theorem fresh_of_shape {t : Tree} (h : t.Good H [] ∨ ∃ h, t = .node 0 none h [] ∧ (([] : Bytes).length < uncompacted → h = OMap.empty)) :
    t.Fresh H [] := by
  rcases h with h | ⟨h, rfl, e⟩
  · exact .inr h
  · left; rw [e (by decide)]; rfl

theorem insert_full (hH : ∀ x, H x ≠ []) {ord : List UInt8 → List UInt8} (hord : ∀ l, (ord l).Perm l) (db : Db NodeRow)
    {U : Bytes → Prop} (hU : KeysFit U) {t : Tree} (hf : t.Fresh H []) {set keys : List Bytes} (hh : Holds t set)
    (hs : ∀ k ∈ set, U k) (hk : ∀ k ∈ keys, U k) (hne : keys ≠ []) (txn : Txn NodeRow) :
    ∃ u, nodeInsert H ord db (depthBound (keys.map expandNibbles)) t OMap.empty txn (keys.map expandNibbles) 0 = .ok u ∧
      InsPost H db [] t OMap.empty txn (keys.map expandNibbles) u ∧ Holds u.tree (addKeys set keys) := by
  obtain ⟨u, hu, post⟩ := insert_ok hH ord hord db (depthBound (keys.map expandNibbles)) [] t OMap.empty txn
    (keys.map expandNibbles) hf
    ⟨by simpa using hne, by
      intro x hx
      refine ⟨List.nil_prefix, by simpa using depthBound_lt hx, ?_⟩
      obtain ⟨k, hk', rfl⟩ := List.mem_map.1 hx
      have := hU.long k (hk k hk')
      rw [expandNibbles_length]; simp [uncompacted]; omega, hU.prefixFree hh hs hk⟩
  refine ⟨u, hu, post, nodup_addKeys _ hh.1, ?_⟩
  intro x
  rw [post.mem, hh.2]
  simp only [mem_addKeys, List.mem_map]
  constructor
  · rintro (⟨k, h, e⟩ | ⟨k, h, e⟩)
    · exact ⟨k, .inl h, e⟩
    · exact ⟨k, .inr h, e⟩
  · rintro ⟨k, h | h, e⟩
    · exact .inl ⟨k, h, e⟩
    · exact .inr ⟨k, h, e⟩

theorem delete_empty {ord : List UInt8 → List UInt8} (db : Db NodeRow) (ph : Hashes) (txn : Txn NodeRow) (ks : List Bytes)
    (hne : ks ≠ []) (hks : ∀ k ∈ ks, k ≠ []) (n : Nat) :
    nodeDelete H ord db (n + 1) .empty ph txn ks 0 = .ok ⟨.empty, ph, txn, ks.map (fun _ => false)⟩ := by
  obtain ⟨a, l, rfl⟩ : ∃ a l, ks = a :: l := by cases ks with | nil => exact absurd rfl hne | cons a l => exact ⟨a, l, rfl⟩
  simp only [nodeDelete, deleteLevel, Tree.empty, Tree.isLeaf, List.isEmpty_nil, if_true]
  have : findKey none (a :: l) = none := by
    unfold findKey
    rw [List.findIdx?_eq_none_iff]
    intro x hx
    have := hks x hx
    simpa using this
  rw [this]

theorem delete_full (hH : ∀ x, H x ≠ []) {ord : List UInt8 → List UInt8} (hord : ∀ l, (ord l).Perm l) (db : Db NodeRow)
    {U : Bytes → Prop} (hU : KeysFit U) {t : Tree} (hf : t.Fresh H []) {set keys : List Bytes} (hh : Holds t set)
    (hs : ∀ k ∈ set, U k) (hk : ∀ k ∈ keys, U k) (hne : keys ≠ []) (txn : Txn NodeRow) :
    ∃ u, nodeDelete H ord db (depthBound (keys.map expandNibbles)) t OMap.empty txn (keys.map expandNibbles) 0 = .ok u ∧
      u.tree.Fresh H [] ∧ Holds u.tree (removeKeys set keys) ∧ u.tree.items + u.results.count true = t.items ∧
      u.results.length = keys.length ∧
      (t.Good H [] → DelPost H db [] t OMap.empty txn (keys.map expandNibbles) u) ∧
      (t = .empty → u.tree = .empty ∧ u.txn = txn) := by
  rcases hf with rfl | hg
  · have hset : set = [] := by
      cases set with
      | nil => rfl
      | cons a l => have := (hh.2 (expandNibbles a)).2 ⟨a, by simp, rfl⟩; simp at this
    subst hset
    have e := delete_empty (H := H) (ord := ord) db OMap.empty txn (keys.map expandNibbles) (by simpa using hne)
      (by
        intro x hx hx0
        obtain ⟨k, hk', rfl⟩ := List.mem_map.1 hx
        have := hU.long k (hk k hk')
        have h2 := expandNibbles_length k
        rw [hx0] at h2
        simp at h2; omega) (((keys.map expandNibbles).map List.length).foldr max 0 + 1)
    refine ⟨_, e, .inl rfl, ?_, ?_, by simp, fun h => absurd h not_good_empty, fun _ => ⟨rfl, rfl⟩⟩
    · simpa [removeKeys] using hh
    · simp only [items_empty, Nat.zero_add]
      rw [List.count_eq_zero]; simp
  · obtain ⟨u, hu, post⟩ := delete_ok hH ord hord db (depthBound (keys.map expandNibbles)) [] t OMap.empty txn
      (keys.map expandNibbles) hg
      ⟨by simpa using hne, fun x hx => ⟨List.nil_prefix, by simpa using depthBound_lt hx⟩, hU.prefixFree hh hs hk⟩
    refine ⟨u, hu, fresh_of_shape post.shape, ⟨nodup_removeKeys _ hh.1, ?_⟩, post.items, by simpa using post.len,
      fun _ => post, fun e => absurd (e ▸ hg) not_good_empty⟩
    intro x
    rw [post.mem, hh.2]
    simp only [mem_removeKeys, List.mem_map]
    constructor
    · rintro ⟨⟨k, h, e⟩, h2⟩
      exact ⟨k, ⟨h, fun h3 => h2 ⟨k, h3, e⟩⟩, e⟩
    · rintro ⟨k, ⟨h1, h2⟩, e⟩
      refine ⟨⟨k, h1, e⟩, ?_⟩
      rintro ⟨k', h3, e'⟩
      rw [expandNibbles_inj (e'.trans e.symm)] at h3
      exact h2 h3

/-- A state whose root is a full canonical tree holding a set. -/
def FullState (H : Bytes → Bytes) (s : TrieState) (set : List Bytes) : Prop :=
  ∃ t, s.root = some t ∧ t.Fresh H [] ∧ Holds t set

theorem full_insert (hH : ∀ x, H x ≠ []) {ord : List UInt8 → List UInt8} (hord : ∀ l, (ord l).Perm l)
    {U : Bytes → Prop} (hU : KeysFit U) {s : TrieState} {set keys : List Bytes} (h : FullState H s set)
    (hs : ∀ k ∈ set, U k) (hk : ∀ k ∈ keys, U k) :
    ∃ s' res, s.insert H ord keys = .ok (s', res) ∧ FullState H s' (addKeys set keys) ∧
      res.length = keys.length ∧ set.length + res.count true = (addKeys set keys).length := by
  unfold TrieState.insert
  by_cases hne : keys = []
  · subst hne
    exact ⟨s, [], by simp, h, rfl, by simp [addKeys]⟩
  · obtain ⟨t, hr, hf, hh⟩ := h
    obtain ⟨u, hu, post, hh'⟩ := insert_full hH hord s.db hU hf hh hs hk hne OMap.empty
    simp only
    rw [if_neg (by simpa using hne), not_short hU hk]
    simp only [Bool.false_eq_true, if_false, hr, hu]
    refine ⟨_, _, rfl, ⟨u.tree, rfl, .inr post.good, hh'⟩, by simpa using post.len, ?_⟩
    rw [← hh'.items (.inr post.good), ← hh.items hf, post.items]

theorem full_delete (hH : ∀ x, H x ≠ []) {ord : List UInt8 → List UInt8} (hord : ∀ l, (ord l).Perm l)
    {U : Bytes → Prop} (hU : KeysFit U) {s : TrieState} {set keys : List Bytes} (h : FullState H s set)
    (hs : ∀ k ∈ set, U k) (hk : ∀ k ∈ keys, U k) :
    ∃ s' res, s.delete H ord keys = .ok (s', res) ∧ FullState H s' (removeKeys set keys) ∧
      res.length = keys.length ∧ (removeKeys set keys).length + res.count true = set.length := by
  unfold TrieState.delete
  by_cases hne : keys = []
  · subst hne
    exact ⟨s, [], by simp, by rw [show removeKeys set [] = set from List.filter_eq_self.2 (by simp)]; exact h, rfl, by simp [removeKeys]⟩
  · obtain ⟨t, hr, hf, hh⟩ := h
    obtain ⟨u, hu, hf', hh', hi, hl, _⟩ := delete_full hH hord s.db hU hf hh hs hk hne OMap.empty
    simp only
    rw [if_neg (by simpa using hne), not_short hU hk]
    simp only [Bool.false_eq_true, if_false, hr, hu]
    refine ⟨_, _, rfl, ⟨u.tree, rfl, hf', hh'⟩, hl, ?_⟩
    rw [← hh'.items hf', ← hh.items hf, hi]

theorem historyKeys_cons (op : TrieOp) (ops : List TrieOp) : historyKeys (op :: ops) = op.keys ++ historyKeys ops := by
  simp [historyKeys]

theorem setsAfter_snoc (ops : List TrieOp) (op : TrieOp) : setsAfter (ops ++ [op]) = (setsAfter ops).step op := by
  simp [setsAfter]

theorem fullState_new : FullState H TrieState.new [] := by
  refine ⟨.empty, rfl, .inl rfl, by simp, ?_⟩
  intro x; simp

theorem KeySets.step_sub {U : Bytes → Prop} {s : KeySets} {op : TrieOp} (hc : ∀ k ∈ s.current, U k)
    (hd : ∀ k ∈ s.committed, U k) (ho : ∀ k ∈ op.keys, U k) :
    (∀ k ∈ (s.step op).current, U k) ∧ ∀ k ∈ (s.step op).committed, U k := by
  cases op with
  | insert ord ks =>
    refine ⟨fun k hk => ?_, hd⟩
    rcases mem_addKeys.1 hk with h | h
    · exact hc k h
    · exact ho k h
  | delete ord ks => exact ⟨fun k hk => hc k (mem_removeKeys.1 hk).1, hd⟩
  | commit => exact ⟨hc, hc⟩
  | reload => exact ⟨hd, hd⟩

/-- One step of a history without reloads. -/
theorem full_step (hH : ∀ x, H x ≠ []) {U : Bytes → Prop} (hU : KeysFit U) {s : TrieState} {ks : KeySets} {op : TrieOp}
    (h : FullState H s ks.current) (hs : ∀ k ∈ ks.current, U k) (ho : ∀ k ∈ op.keys, U k) (hfair : op.FairOrder)
    (hr : ¬ op.IsReload) : ∃ s' res, s.step H op = .ok (s', res) ∧ FullState H s' (ks.step op).current ∧
      res.length = op.keys.length := by
  cases op with
  | insert ord keys =>
    obtain ⟨s', res, h1, h2, h3, _⟩ := full_insert hH hfair hU h hs ho
    exact ⟨s', res, h1, h2, h3⟩
  | delete ord keys =>
    obtain ⟨s', res, h1, h2, h3, _⟩ := full_delete hH hfair hU h hs ho
    exact ⟨s', res, h1, h2, h3⟩
  | commit => exact ⟨s.commit, [], rfl, h, rfl⟩
  | reload => exact absurd trivial hr

theorem full_run (hH : ∀ x, H x ≠ []) {U : Bytes → Prop} (hU : KeysFit U) (ops : List TrieOp) {s : TrieState} {ks : KeySets}
    (h : FullState H s ks.current) (hs : ∀ k ∈ ks.current, U k) (hd : ∀ k ∈ ks.committed, U k)
    (ho : ∀ k ∈ historyKeys ops, U k) (hfair : ∀ op ∈ ops, op.FairOrder) (hr : ∀ op ∈ ops, ¬ op.IsReload) :
    ∃ s', s.run H ops = .ok s' ∧ FullState H s' (ops.foldl KeySets.step ks).current ∧
      (∀ k ∈ (ops.foldl KeySets.step ks).current, U k) ∧ (∀ k ∈ (ops.foldl KeySets.step ks).committed, U k) := by
  induction ops generalizing s ks with
  | nil => exact ⟨s, rfl, h, hs, hd⟩
  | cons op ops ih =>
    rw [historyKeys_cons] at ho
    have ho1 : ∀ k ∈ op.keys, U k := fun k hk => ho k (List.mem_append_left _ hk)
    obtain ⟨s1, res, h1, h2, _⟩ := full_step hH hU h hs ho1 (hfair op (by simp)) (hr op (by simp))
    obtain ⟨hc', hd'⟩ := KeySets.step_sub hs hd ho1
    obtain ⟨s', h3, h4⟩ := ih h2 hc' hd' (fun k hk => ho k (List.mem_append_right _ hk))
      (fun o ho => hfair o (by simp [ho])) (fun o ho => hr o (by simp [ho]))
    refine ⟨s', ?_, h4⟩
    simp only [TrieState.run, h1]; exact h3

theorem WellFormedHistory.fit {ops : List TrieOp} (h : WellFormedHistory ops) : KeysFit (· ∈ historyKeys ops) :=
  ⟨h.long, fun k k' hk hk' => h.prefixFree k hk k' hk'⟩

theorem full_history (hH : ∀ x, H x ≠ []) {ops : List TrieOp} (h : WellFormedHistory ops) (hr : ∀ op ∈ ops, ¬ op.IsReload) :
    ∃ s, TrieState.new.run H ops = .ok s ∧ FullState H s (keysAfter ops) ∧ ∀ k ∈ keysAfter ops, k ∈ historyKeys ops := by
  obtain ⟨s, h1, h2, h3, _⟩ := full_run hH h.fit ops (ks := {}) (fullState_new (H := H)) (by simp) (by simp) (fun _ h => h)
    h.order hr
  exact ⟨s, h1, h2, h3⟩

end Verif
