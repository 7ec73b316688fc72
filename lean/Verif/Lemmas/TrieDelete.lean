import Verif.Lemmas.TrieInsert
/-! Deletion from a canonical trie. -/
namespace Verif
open OMapL
variable {H : Bytes → Bytes}

/-- No row of a path of up to twelve characters below `p` that is not the path of a key in `L`. -/
def NoStray (db : Db NodeRow) (txn : Txn NodeRow) (p : Bytes) (L : List Bytes) : Prop :=
  ∀ q, p <+: q → q.length ≤ uncompacted → rowView db txn (nodeKey q none) ≠ none → ∃ x ∈ L, q <+: x

/-- No row appears outside the paths in `P`. -/
def NoNew (db : Db NodeRow) (txn txn' : Txn NodeRow) (P : Bytes → Prop) : Prop :=
  ∀ q, ¬ P q → rowView db txn' (nodeKey q none) ≠ none → rowView db txn (nodeKey q none) ≠ none

theorem drop_row {db : Db NodeRow} {txn : Txn NodeRow} {p k : Bytes} (h : rowView db (dropNode txn p) k ≠ none) :
    rowView db txn k ≠ none ∧ k ≠ nodeKey p none := by
  simp only [rowView, dropNode, getFromDbOrTxn_stageDel] at h
  split at h
  · exact absurd rfl h
  · rename_i e; exact ⟨h, e⟩

theorem snoc_or_eq {p q : Bytes} (h : p <+: q) : q = p ∨ ∃ c, p ++ [c] <+: q := by
  obtain ⟨r, rfl⟩ := h
  cases r with
  | nil => left; simp
  | cons c r => right; exact ⟨c, r, by simp⟩

/-- What a deletion of `ks` below the path `p` does. -/
structure DelPost (H : Bytes → Bytes) (db : Db NodeRow) (p : Bytes) (t : Tree) (ph : Hashes) (txn : Txn NodeRow)
    (ks : List Bytes) (u : Upd) : Prop where
  shape : u.tree.Good H p ∨ ∃ h, u.tree = .node 0 none h [] ∧ (p.length < uncompacted → h = OMap.empty)
  mem : ∀ x, x ∈ u.tree.toList ↔ x ∈ t.toList ∧ x ∉ ks
  items : u.tree.items + u.results.count true = t.items
  len : u.results.length = ks.length
  parent : ∀ p0 c, p = p0 ++ [c] → ph.get c = some (nodeHash H t) →
    u.parent = if u.tree.items = 0 then ph.del c else ph.put c (nodeHash H u.tree)
  rows : ∀ Z : Bytes → Prop, (∀ x, x ∈ t.toList ∨ x ∈ ks → Clear Z x) → t.RowsOK (rowView db txn) p →
    (u.tree.Good H p → u.tree.RowsOK (rowView db u.txn) p) ∧ ∀ k, Outside Z p k → rowView db u.txn k = rowView db txn k
  stray : NoStray db txn p t.toList → NoStray db u.txn p u.tree.toList
  noNew : NoNew db txn u.txn (p <+: ·)

/-- The keys may be deleted below `p` with recursion bound `n`. -/
structure DelPre (n : Nat) (p : Bytes) (t : Tree) (ks : List Bytes) : Prop where
  ne : ks ≠ []
  keys : ∀ k ∈ ks, p <+: k ∧ k.length < p.length + n
  pf : PrefixFree (fun x => x ∈ t.toList ∨ x ∈ ks)

/-- A recursive call is correct up to the bound `n`. -/
def DelOK (H : Bytes → Bytes) (db : Db NodeRow) (n : Nat) (rec : Rec) : Prop :=
  ∀ p t ph txn ks, t.Good H p → DelPre n p t ks → ∃ u, rec t ph txn ks p.length = .ok u ∧ DelPost H db p t ph txn ks u

/-- What the loop over the groups does. -/
structure DFoldPost (H : Bytes → Bytes) (db : Db NodeRow) (p : Bytes) (ks : List (Nat × Bytes)) (cs : List UInt8)
    (s s' : Loop) : Prop where
  ok : KidsOK H p s'.hashes s'.kids
  mem : ∀ x, x ∈ Tree.listKids s'.kids ↔ x ∈ Tree.listKids s.kids ∧ ¬ ∃ k ∈ ks, k.2 = x ∧ ∃ c ∈ cs, x[p.length]? = some c
  total : totalItems s'.kids + s'.successes = totalItems s.kids + s.successes
  count : s'.results.count true + s.successes = s.results.count true + s'.successes
  le : s.successes ≤ s'.successes
  len : s'.results.length = s.results.length
  rows : ∀ Z : Bytes → Prop, (∀ x, x ∈ Tree.listKids s.kids ∨ (∃ k ∈ ks, k.2 = x) → Clear Z x) →
    (∀ c t, OMapL.get c s.kids = some t → t.RowsOK (rowView db s.txn) (p ++ [c])) →
    (∀ c t, OMapL.get c s'.kids = some t → t.RowsOK (rowView db s'.txn) (p ++ [c])) ∧
    ∀ k, ¬ Z k → (¬ nodeKey p none <+: k ∨ k = nodeKey p none) →
      rowView db s'.txn k = rowView db s.txn k
  stray : (∀ c, NoStray db s.txn (p ++ [c]) (Tree.listKids s.kids)) →
    ∀ c, NoStray db s'.txn (p ++ [c]) (Tree.listKids s'.kids)
  noNew : NoNew db s.txn s'.txn (fun q => ∃ c, p ++ [c] <+: q)

/-- One group, then the rest. -/
theorem DFoldPost.cons {db : Db NodeRow} {p : Bytes} {ks : List (Nat × Bytes)} {c : UInt8} {cs : List UInt8}
    {s s1 s' : Loop} (a : DFoldPost H db p ks [c] s s1) (b : DFoldPost H db p ks cs s1 s') :
    DFoldPost H db p ks (c :: cs) s s' := by
  refine ⟨b.ok, ?_, ?_, ?_, Nat.le_trans a.le b.le, b.len.trans a.len, ?_, fun h => b.stray (a.stray h),
    fun q hq h => a.noNew q hq (b.noNew q hq h)⟩
  · intro x
    rw [b.mem, a.mem]
    constructor
    · rintro ⟨⟨h1, h2⟩, h3⟩
      refine ⟨h1, ?_⟩
      rintro ⟨k, hk, e, d, hd, hx⟩
      rcases List.mem_cons.1 hd with rfl | hd
      · exact h2 ⟨k, hk, e, d, by simp, hx⟩
      · exact h3 ⟨k, hk, e, d, hd, hx⟩
    · rintro ⟨h1, h2⟩
      refine ⟨⟨h1, ?_⟩, ?_⟩
      · rintro ⟨k, hk, e, d, hd, hx⟩
        simp at hd
        exact h2 ⟨k, hk, e, d, by simp [hd], hx⟩
      · rintro ⟨k, hk, e, d, hd, hx⟩
        exact h2 ⟨k, hk, e, d, by simp [hd], hx⟩
  · have := a.total; have := b.total; omega
  · have := a.count; have := b.count; omega
  · intro Z h8 hr
    obtain ⟨r1, r2⟩ := a.rows Z h8 hr
    obtain ⟨r3, r4⟩ := b.rows Z
      (by
        rintro x (hx | hx)
        · exact h8 x (.inl ((a.mem x).1 hx).1)
        · exact h8 x (.inr hx)) r1
    exact ⟨r3, fun k h1 h2 => (r4 k h1 h2).trans (r2 k h1 h2)⟩

theorem delete_group {db : Db NodeRow} {n : Nat} {rec : Rec} (hrec : DelOK H db n rec) (p : Bytes)
    (ks : List (Nat × Bytes)) (hks : ∀ k ∈ ks, p <+: k.2 ∧ k.2.length < p.length + (n + 1))
    (hnd : (ks.map (·.1)).Nodup) (c : UInt8)
    (hgr : group p.length ks c ≠ []) (s : Loop) (hok : KidsOK H p s.hashes s.kids)
    (hpf : PrefixFree (fun x => x ∈ Tree.listKids s.kids ∨ ∃ k ∈ ks, k.2 = x))
    (hres : ∀ k ∈ group p.length ks c, s.results[k.1]? = some false) :
    ∃ s', deleteGroup rec db p p.length ks s c = .ok s' ∧ DFoldPost H db p ks [c] s s' ∧
      ∀ j, (∀ k ∈ group p.length ks c, k.1 ≠ j) → s'.results[j]? = s.results[j]? := by
  unfold deleteGroup
  cases hg : OMapL.get c s.kids with
  | none =>
    rw [if_pos (by rfl)]
    refine ⟨_, rfl, ⟨hok, ?_, rfl, ?_, Nat.le_refl _, copyResults_length _ _ _, fun _ _ h => ⟨h, fun _ _ _ => rfl⟩, id,
      fun _ _ => id⟩, ?_⟩
    · intro x
      simp only [List.mem_singleton]
      refine ⟨fun h => ⟨h, ?_⟩, fun h => h.1⟩
      rintro ⟨k, hk, e, d, rfl, hx⟩
      obtain ⟨d', t, hg', hx'⟩ := (Tree.mem_listKids_get hok.sorted).1 h
      have := prefix_snoc_char ((hok.good d' t hg').under x hx')
      rw [hx] at this
      injection this with this
      subst this
      rw [hg] at hg'; cases hg'
    · simp only
      rw [copyResults_count _ _ _ (group_nodup hnd) (by simp)]
      · have : ((group p.length ks c).map (fun _ => false)).count true = 0 := by rw [List.count_eq_zero]; simp
        omega
      · intro j hj
        obtain ⟨k, hk, rfl⟩ := List.mem_map.1 hj
        exact hres k hk
    · intro j hj
      apply copyResults_other
      intro h
      obtain ⟨k, hk, e⟩ := List.mem_map.1 h
      exact hj k hk e
  | some t =>
    rw [if_neg (by simp)]
    have ht := hok.good c t hg
    have htl : ∀ x, x ∈ t.toList → x ∈ Tree.listKids s.kids := fun x hx => (Tree.mem_listKids_get hok.sorted).2 ⟨c, t, hg, hx⟩
    have hpre : DelPre n (p ++ [c]) t ((group p.length ks c).map (·.2)) := by
      refine ⟨by simpa using hgr, ?_, ?_⟩
      · intro y hy
        obtain ⟨k, hk, rfl⟩ := List.mem_map.1 hy
        obtain ⟨h1, h2⟩ := mem_group.1 hk
        obtain ⟨h3, h4⟩ := hks k h1
        exact ⟨snoc_prefix h3 h2, by simp; omega⟩
      · intro a b ha hb
        apply hpf a b
        · rcases ha with ha | ha
          · exact .inl (htl a ha)
          · obtain ⟨k, hk, rfl⟩ := List.mem_map.1 ha
            exact .inr ⟨k, (mem_group.1 hk).1, rfl⟩
        · rcases hb with hb | hb
          · exact .inl (htl b hb)
          · obtain ⟨k, hk, rfl⟩ := List.mem_map.1 hb
            exact .inr ⟨k, (mem_group.1 hk).1, rfl⟩
    obtain ⟨u, hu, post⟩ := hrec (p ++ [c]) t s.hashes s.txn _ ht hpre
    rw [show (p ++ [c]).length = p.length + 1 by simp] at hu
    rw [loadChild_node (.inr ht)]
    simp only
    rw [hu]
    simp only
    have hpar := post.parent p c rfl (by rw [hok.hashes c, hg]; rfl)
    have hgoodkid : u.tree.items ≠ 0 → u.tree.Good H (p ++ [c]) := by
      intro h
      rcases post.shape with g | ⟨h', e, _⟩
      · exact g
      · rw [e] at h; exact absurd rfl h
    have hempty : u.tree.items = 0 → u.tree.toList = [] := by
      intro h
      rcases post.shape with g | ⟨h', e, _⟩
      · have := g.one_le; omega
      · rw [e]; rfl
    -- lookup in the new children
    have hget : ∀ d, OMapL.get d (if u.tree.items = 0 then OMapL.del c s.kids else OMapL.put c u.tree s.kids) =
        if d = c then (if u.tree.items = 0 then none else some u.tree) else OMapL.get d s.kids := by
      intro d
      split
      · rw [OMapL.get_del]
      · rw [OMapL.get_put]
    have hsorted : Sorted (if u.tree.items = 0 then OMapL.del c s.kids else OMapL.put c u.tree s.kids) := by
      split
      · exact OMapL.sorted_del hok.sorted
      · exact OMapL.sorted_put hok.sorted
    have hgl : ((group p.length ks c).map (·.1)).length = u.results.length := by
      rw [post.len]; simp
    have hkeys : ∀ x, x ∈ (group p.length ks c).map (·.2) ↔ ∃ k ∈ ks, k.2 = x ∧ x[p.length]? = some c := by
      intro x
      simp only [List.mem_map, mem_group]
      constructor
      · rintro ⟨k, ⟨h1, h2⟩, rfl⟩; exact ⟨k, h1, rfl, h2⟩
      · rintro ⟨k, h1, rfl, h2⟩; exact ⟨k, ⟨h1, h2⟩, rfl⟩
    refine ⟨_, rfl, ⟨⟨hsorted, ?_, ?_⟩, ?_, ?_, ?_, Nat.le_add_right _ _, copyResults_length _ _ _, ?_, ?_, ?_⟩, ?_⟩
    · intro d a ha
      simp only at ha
      rw [hget] at ha
      split at ha
      · rename_i e; subst e
        split at ha
        · cases ha
        · rename_i h; injection ha with ha; subst ha; exact hgoodkid h
      · exact hok.good d a ha
    · intro d
      simp only
      rw [hget, hpar]
      by_cases h0 : u.tree.items = 0
      · simp only [if_pos h0, OMap.get_del]
        by_cases e : d = c
        · simp [e]
        · simp only [if_neg e]; exact hok.hashes d
      · simp only [if_neg h0, OMap.get_put]
        by_cases e : d = c
        · simp [e]
        · simp only [if_neg e]; exact hok.hashes d
    · intro x
      simp only
      rw [Tree.mem_listKids_get hsorted]
      constructor
      · rintro ⟨d, a, ha, hx⟩
        rw [hget] at ha
        split at ha
        · rename_i e; subst e
          split at ha
          · cases ha
          · injection ha with ha; subst ha
            obtain ⟨h1, h2⟩ := (post.mem x).1 hx
            refine ⟨htl x h1, ?_⟩
            rintro ⟨k, hk, e, d', hd', hxc⟩
            simp at hd'; subst hd'
            exact h2 ((hkeys x).2 ⟨k, hk, e, hxc⟩)
        · rename_i e
          refine ⟨(Tree.mem_listKids_get hok.sorted).2 ⟨d, a, ha, hx⟩, ?_⟩
          rintro ⟨k, hk, _, d', hd', hxc⟩
          simp at hd'; subst hd'
          have := prefix_snoc_char ((hok.good d a ha).under x hx)
          rw [hxc] at this
          injection this with this
          exact e this.symm
      · rintro ⟨h1, h2⟩
        obtain ⟨d, a, ha, hx⟩ := (Tree.mem_listKids_get hok.sorted).1 h1
        by_cases e : d = c
        · subst e
          rw [hg] at ha
          injection ha with ha
          subst ha
          have hxu : x ∈ u.tree.toList := by
            refine (post.mem x).2 ⟨hx, ?_⟩
            intro hk
            obtain ⟨k, hk, e, hxc⟩ := (hkeys x).1 hk
            exact h2 ⟨k, hk, e, d, by simp, hxc⟩
          have h0 : u.tree.items ≠ 0 := by intro h; rw [hempty h] at hxu; cases hxu
          exact ⟨d, u.tree, by rw [hget, if_pos rfl, if_neg h0], hxu⟩
        · exact ⟨d, a, by rw [hget, if_neg e]; exact ha, hx⟩
    · simp only
      have h2 := post.items
      split
      · have h1 := totalItems_del hok.sorted c
        rw [hg] at h1
        simp only [Option.map_some, Option.getD_some] at h1
        omega
      · have h1 := totalItems_put hok.sorted c u.tree
        rw [hg] at h1
        simp only [Option.map_some, Option.getD_some] at h1
        omega
    · simp only
      rw [copyResults_count _ _ _ (group_nodup hnd) hgl]
      · omega
      · intro j hj
        obtain ⟨k, hk, rfl⟩ := List.mem_map.1 hj
        exact hres k hk
    · intro Z h8 hrows
      obtain ⟨r1, r2⟩ := post.rows Z
        (by
          rintro x (hx | hx)
          · exact h8 x (.inl (htl x hx))
          · obtain ⟨k, hk, rfl⟩ := List.mem_map.1 hx
            exact h8 _ (.inr ⟨k, (mem_group.1 hk).1, rfl⟩)) (hrows c t hg)
      refine ⟨?_, fun k h1 h2 => r2 k (outside_up h1 h2)⟩
      intro d a ha
      simp only at ha ⊢
      rw [hget] at ha
      split at ha
      · rename_i e; subst e
        split at ha
        · cases ha
        · rename_i h; injection ha with ha; subst ha; exact r1 (hgoodkid h)
      · rename_i e
        refine (hrows d a ha).frame_at (hok.good d a ha) ?_
        intro q x hq hx hqx
        apply r2
        apply outside_sibling e (nodeKey_prefix.2 hq)
        exact (h8 x (.inl ((Tree.mem_listKids_get hok.sorted).2 ⟨d, a, ha, hx⟩))).1 q hqx
    · intro hst d q hq hl hrow
      simp only at hrow ⊢
      by_cases e : d = c
      · subst e
        obtain ⟨x, hx, hqx⟩ := post.stray
          (by
            intro q' hq' hl' hrow'
            obtain ⟨x, hx, hqx⟩ := hst d q' hq' hl' hrow'
            obtain ⟨d', a, ha, hxa⟩ := (Tree.mem_listKids_get hok.sorted).1 hx
            have e1 := prefix_snoc_char ((hok.good d' a ha).under x hxa)
            rw [prefix_snoc_char (hq'.trans hqx)] at e1
            injection e1 with e1
            subst e1
            rw [hg] at ha
            injection ha with ha
            subst ha
            exact ⟨x, hxa, hqx⟩) q hq hl hrow
        refine ⟨x, (Tree.mem_listKids_get hsorted).2 ⟨d, u.tree, ?_, hx⟩, hqx⟩
        have h0 : u.tree.items ≠ 0 := by intro h; rw [hempty h] at hx; cases hx
        rw [hget, if_pos rfl, if_neg h0]
      · have hnc : ¬ p ++ [c] <+: q := by
          intro h
          have := prefix_snoc_char h
          rw [prefix_snoc_char hq] at this
          injection this with this
          exact e this
        obtain ⟨x, hx, hqx⟩ := hst d q hq hl (post.noNew q hnc hrow)
        obtain ⟨d', a, ha, hxa⟩ := (Tree.mem_listKids_get hok.sorted).1 hx
        have e1 := prefix_snoc_char ((hok.good d' a ha).under x hxa)
        rw [prefix_snoc_char (hq.trans hqx)] at e1
        injection e1 with e1
        subst e1
        exact ⟨x, (Tree.mem_listKids_get hsorted).2 ⟨d, a, by rw [hget, if_neg e]; exact ha, hxa⟩, hqx⟩
    · intro q hq hrow
      exact post.noNew q (fun h => hq ⟨c, h⟩) hrow
    · intro j hj
      apply copyResults_other
      intro h
      obtain ⟨k, hk, e⟩ := List.mem_map.1 h
      exact hj k hk e

theorem delete_fold {db : Db NodeRow} {n : Nat} {rec : Rec} (hrec : DelOK H db n rec) (p : Bytes)
    (ks : List (Nat × Bytes)) (hks : ∀ k ∈ ks, p <+: k.2 ∧ k.2.length < p.length + (n + 1))
    (hnd : (ks.map (·.1)).Nodup) (cs : List UInt8) (hcs : cs.Nodup)
    (hgr : ∀ c ∈ cs, group p.length ks c ≠ []) (s : Loop) (hok : KidsOK H p s.hashes s.kids)
    (hpf : PrefixFree (fun x => x ∈ Tree.listKids s.kids ∨ ∃ k ∈ ks, k.2 = x))
    (hres : ∀ c ∈ cs, ∀ k ∈ group p.length ks c, s.results[k.1]? = some false) :
    ∃ s', foldGroups (deleteGroup rec db p p.length ks) cs s = .ok s' ∧ DFoldPost H db p ks cs s s' := by
  induction cs generalizing s with
  | nil => exact ⟨s, rfl, hok, by simp, rfl, rfl, Nat.le_refl _, rfl, fun _ _ h => ⟨h, fun _ _ _ => rfl⟩, id, fun _ _ => id⟩
  | cons c cs ih =>
    obtain ⟨hc1, hc2⟩ := List.nodup_cons.1 hcs
    obtain ⟨s1, h1, post, hother⟩ := delete_group hrec p ks hks hnd c (hgr c (by simp)) s hok hpf (hres c (by simp))
    obtain ⟨s', h2, post'⟩ := ih hc2 (fun d hd => hgr d (by simp [hd])) s1 post.ok
      (by
        intro a b ha hb
        apply hpf a b
        · rcases ha with ha | ha
          · exact .inl ((post.mem a).1 ha).1
          · exact .inr ha
        · rcases hb with hb | hb
          · exact .inl ((post.mem b).1 hb).1
          · exact .inr hb)
      (by
        intro d hd k hk
        rw [hother]
        · exact hres d (by simp [hd]) k hk
        · intro k' hk' e
          have := idx_inj hnd (mem_group.1 hk').1 (mem_group.1 hk).1 e
          subst this
          have := (mem_group.1 hk').2.symm.trans (mem_group.1 hk).2
          injection this with this
          subst this
          exact hc1 hd)
    refine ⟨s', ?_, post.cons post'⟩
    simp only [foldGroups]; rw [h1]; exact h2

theorem length_le_total {kids : Kids} (h : ∀ c t, (c, t) ∈ kids → 1 ≤ t.items) : kids.length ≤ totalItems kids := by
  induction kids with
  | nil => simp
  | cons a m ih =>
    obtain ⟨c, t⟩ := a
    have h1 := ih (fun c t h' => h c t (by simp [h']))
    have h2 := h c t (by simp)
    simp only [totalItems, List.length_cons, List.map_cons, List.sum_cons] at *
    omega

/-- **Deletion is correct.** -/
theorem delete_ok (hH : ∀ x, H x ≠ []) (ord : List UInt8 → List UInt8) (hord : ∀ l, (ord l).Perm l) (db : Db NodeRow)
    (n : Nat) : DelOK H db n (nodeDelete H ord db n) := by
  induction n with
  | zero =>
    intro p t ph txn ks _ pre
    obtain ⟨k, hk⟩ := List.exists_mem_of_ne_nil _ pre.ne
    obtain ⟨h1, h2⟩ := pre.keys k hk
    have := h1.length_le
    omega
  | succ n ih =>
    intro p t ph txn ks hgood pre
    obtain ⟨k0, rest, rfl⟩ : ∃ k0 rest, ks = k0 :: rest := by
      cases ks with
      | nil => exact absurd rfl pre.ne
      | cons a b => exact ⟨a, b, rfl⟩
    have htake : k0.take p.length = p := (List.prefix_iff_eq_take.1 (pre.keys k0 (by simp)).1).symm
    have hcount0 : ((k0 :: rest).map (fun _ => false)).count true = 0 := by
      rw [List.count_eq_zero]; simp
    have hself : ∀ (ph : Hashes) c v, ph.get c = some v → ph.put c v = ph := by
      intro ph c v h
      apply OMap.ext
      intro d
      rw [OMap.get_put]
      split
      · rename_i e; subst e; exact h.symm
      · rfl
    cases hgood with
    | leaf _ k hashes hp hk hst =>
      have hg := Tree.Good.leaf (H := H) p k hashes hp hk hst
      have hkey : ∀ x, x ∈ (Tree.node 1 (some k) hashes []).toList ↔ x = k := by
        intro x; simp [Tree.toList, Tree.listKids]
      simp only [nodeDelete, deleteLevel, Tree.isLeaf, List.isEmpty_nil, if_true]
      cases hf : findKey (some k) (k0 :: rest) with
      | none =>
        have hno : k ∉ k0 :: rest := by
          intro hm
          unfold findKey at hf
          rw [List.findIdx?_eq_none_iff] at hf
          have := hf k hm
          simp at this
        refine ⟨_, rfl, .inl hg, ?_, ?_, by simp, ?_, ?_, id, fun _ _ => id⟩
        · intro x
          simp only
          rw [hkey]
          exact ⟨fun e => ⟨e, e ▸ hno⟩, fun h => h.1⟩
        · simp only [Tree.items, hcount0]
        · intro p0 c _ hph
          exact (hself ph c _ hph).symm
        · intro _ _ hr; exact ⟨fun _ => hr, fun _ _ => rfl⟩
      | some j =>
        have hj : ∃ h : j < (k0 :: rest).length, (k0 :: rest)[j] = k := by
          unfold findKey at hf
          obtain ⟨h1, h2, _⟩ := List.findIdx?_eq_some_iff_getElem.1 hf
          exact ⟨h1, by simpa using h2⟩
        obtain ⟨hjl, hjk⟩ := hj
        refine ⟨_, rfl, .inr ⟨hashes, rfl, fun h => absurd hp (by omega)⟩, ?_, ?_, by simp, ?_, ?_, ?_, fun _ _ h => (drop_row h).1⟩
        · intro x
          simp only
          rw [hkey]
          constructor
          · intro h; simp [Tree.toList, Tree.listKids] at h
          · rintro ⟨rfl, h⟩
            exact absurd (hjk ▸ List.getElem_mem hjl) h
        · simp only [Tree.items]
          rw [List.count_set (h := by simpa using hjl), hcount0]
          simp
        · intro p0 c e hph
          subst e
          simp only [htake]
          simp [Tree.items, updateHash, nodeHash, Tree.isLeaf]
        · intro Z h8 _
          refine ⟨fun h => by have := h.one_le; simp [Tree.items] at this, ?_⟩
          intro q hq
          simp only [rowView, dropNode, getFromDbOrTxn_stageDel]
          rw [if_neg]
          rintro rfl
          rw [htake] at hq
          exact hq.1 (List.prefix_refl _)
        · intro _ q hq hl hrow
          have h1 := hq.length_le
          have : q = p := (hq.eq_of_length (by omega)).symm
          subst this
          rw [htake] at hrow
          exact absurd rfl (drop_row hrow).2
    | inner _ hashes kids hne hs hk hh h2 =>
      have hg := Tree.Good.inner (H := H) p hashes kids hne hs hk hh h2
      have hok : KidsOK H p hashes kids := ⟨hs, hk, hh⟩
      have hl : Tree.isLeaf kids = false := by cases kids; exact absurd rfl hne; rfl
      have htl : (Tree.node (totalItems kids) none hashes kids).toList = Tree.listKids kids := by simp [Tree.toList]
      have hrk : ∀ x, (∃ k ∈ (k0 :: rest).zipIdx.map (fun k => (k.2, k.1)), k.2 = x) ↔ x ∈ k0 :: rest := by
        intro x
        constructor
        · rintro ⟨k, hk, rfl⟩
          obtain ⟨⟨a, j⟩, hz, rfl⟩ := List.mem_map.1 hk
          exact List.mem_of_getElem? (i := j) (List.mem_zipIdx_iff_getElem?.1 hz)
        · intro h
          obtain ⟨j, hj⟩ := List.mem_iff_getElem?.1 h
          exact ⟨(j, x), List.mem_map.2 ⟨(x, j), List.mem_zipIdx_iff_getElem?.2 hj, rfl⟩, rfl⟩
      have hlong : ∀ x ∈ k0 :: rest, p.length < x.length := by
        intro x hx
        have h3 := (pre.keys _ hx).1
        rcases Nat.lt_or_ge p.length x.length with h | h
        · exact h
        · exfalso
          have e : x = p := (h3.eq_of_length (by have := h3.length_le; omega)).symm
          obtain ⟨a, ha⟩ := hg.exists_mem
          have hpa := hg.under a ha
          have hxa := pre.pf x a (.inr hx) (.inl ha) (e ▸ hpa)
          rw [htl] at ha
          obtain ⟨c, s, hgc, hs'⟩ := (Tree.mem_listKids_get hs).1 ha
          have := ((hk c s hgc).under a hs').length_le
          simp at this; rw [← hxa, e] at this; omega
      have hpm := hord (groupChars p.length ((k0 :: rest).zipIdx.map (fun k => (k.2, k.1))))
      obtain ⟨s', hs', fp⟩ := delete_fold ih p ((k0 :: rest).zipIdx.map (fun k => (k.2, k.1)))
        (by
          intro k hk
          exact pre.keys _ ((hrk k.2).1 ⟨k, hk, rfl⟩))
        (by
          rw [List.map_map]
          have : ((k0 :: rest).zipIdx.map ((fun x : Nat × Bytes => x.1) ∘ fun k : Bytes × Nat => (k.2, k.1))) =
            (k0 :: rest).zipIdx.map (·.2) := rfl
          rw [this, List.zipIdx_map_snd]
          exact List.nodup_range')
        (ord (groupChars p.length ((k0 :: rest).zipIdx.map (fun k => (k.2, k.1))))) (hpm.nodup_iff.2 groupChars_nodup)
        (fun c hc => group_ne_nil (hpm.mem_iff.1 hc))
        ⟨hashes, kids, txn, (k0 :: rest).map (fun _ => false), 0⟩ hok
        (by
          intro a b ha hb
          rw [← htl, hrk] at ha
          rw [← htl, hrk] at hb
          exact pre.pf a b ha hb)
        (by
          intro c _ k hk
          obtain ⟨⟨a, j⟩, hz, rfl⟩ := List.mem_map.1 (mem_group.1 hk).1
          have := List.mem_zipIdx_iff_getElem?.1 hz
          simp only [List.getElem?_map, this, Option.map_some])
      have hmem : ∀ x, x ∈ Tree.listKids s'.kids ↔ x ∈ Tree.listKids kids ∧ x ∉ k0 :: rest := by
        intro x
        rw [fp.mem]
        constructor
        · rintro ⟨h1, h2⟩
          refine ⟨h1, fun hx => h2 ?_⟩
          obtain ⟨k, hk, e⟩ := (hrk x).2 hx
          have hlx := hlong x hx
          refine ⟨k, hk, e, x[p.length], ?_, List.getElem?_eq_getElem hlx⟩
          rw [hpm.mem_iff, mem_groupChars]
          exact ⟨k, hk, by rw [e]; exact List.getElem?_eq_getElem hlx⟩
        · rintro ⟨h1, h2⟩
          refine ⟨h1, ?_⟩
          rintro ⟨k, hk, e, _⟩
          exact h2 ((hrk x).1 ⟨k, hk, e⟩)
      have htot : totalItems s'.kids + s'.successes = totalItems kids := by have := fp.total; simpa using this
      have hcnt : s'.results.count true = s'.successes := by
        have := fp.count; simp only [hcount0] at this; omega
      have hlen : s'.results.length = (k0 :: rest).length := by have := fp.len; simpa using this
      have hkid1 : ∀ c t, (c, t) ∈ s'.kids → 1 ≤ t.items := fun c t h =>
        (fp.ok.good c t ((OMapL.get_eq_some_iff fp.ok.sorted).2 h)).one_le
      have hunf : ((k0 :: rest).zipIdx.map (fun k => (k.2, k.1))).any (fun k => decide (k.2.length ≤ p.length)) = false := by
        rw [List.any_eq_false]
        intro k hk
        have := hlong _ ((hrk k.2).1 ⟨k, hk, rfl⟩)
        simp; omega
      have hn8 : ∀ Z : Bytes → Prop, (∀ x, x ∈ Tree.listKids kids ∨
          (∃ k ∈ (k0 :: rest).zipIdx.map (fun k => (k.2, k.1)), k.2 = x) → Clear Z x) → ¬ Z (nodeKey p none) := by
        intro Z h8
        exact (h8 k0 (.inr ((hrk k0).2 (by simp)))).1 p (pre.keys k0 (by simp)).1
      have hstr : NoStray db txn p (Tree.listKids kids) → ∀ c, NoStray db s'.txn (p ++ [c]) (Tree.listKids s'.kids) := by
        intro h
        refine fp.stray ?_
        intro c q hq
        exact h q (prefix_of_snoc hq)
      have hnn : NoNew db txn s'.txn (p <+: ·) := by
        intro q hq
        exact fp.noNew q (fun ⟨c, h⟩ => hq (prefix_of_snoc h))
      simp only [nodeDelete, deleteLevel, hl, Bool.false_eq_true, if_false, htake]
      rw [hunf]
      simp only [Bool.false_eq_true, if_false]
      rw [hs']
      simp only
      unfold deleteFinish
      by_cases h0 : s'.successes = 0
      · -- nothing deleted
        rw [if_pos h0]
        rw [h0, Nat.add_zero] at htot
        have hlist : ∀ x, x ∈ Tree.listKids kids ↔ x ∈ Tree.listKids s'.kids := by
          have hc0 := hg.counts
          rw [htl] at hc0
          have hc1 := Tree.Good.listKids_counts (p := p) fp.ok.sorted
            (fun c t h => (fp.ok.good c t ((OMapL.get_eq_some_iff fp.ok.sorted).2 h)).under)
            (fun c t h => (fp.ok.good c t ((OMapL.get_eq_some_iff fp.ok.sorted).2 h)).counts)
          intro x
          refine ⟨fun h => ?_, fun h => ((hmem x).1 h).1⟩
          refine Classical.byContradiction fun hn => ?_
          have := Tree.Good.length_le_of_subset (l := x :: Tree.listKids s'.kids) (m := Tree.listKids kids)
            (List.nodup_cons.2 ⟨hn, hc1.1⟩)
            (by
              intro y hy
              rcases List.mem_cons.1 hy with rfl | hy
              · exact h
              · exact ((hmem y).1 hy).1)
          simp only [List.length_cons, hc1.2] at this
          have h3 := hc0.2
          simp only [Tree.items] at h3
          omega
        obtain ⟨e1, e2⟩ := chars_same hok fp.ok hlist
        have hkne : s'.kids ≠ [] := by
          intro e
          rw [e] at e2
          cases kids with
          | nil => exact hne rfl
          | cons a b => simp at e2
        rw [← htot]
        have hg' : (Tree.node (totalItems s'.kids) none s'.hashes s'.kids).Good H p :=
          .inner p _ _ hkne fp.ok.sorted fp.ok.good fp.ok.hashes (by rw [htot]; exact h2)
        have htl' : (Tree.node (totalItems s'.kids) none s'.hashes s'.kids).toList = Tree.listKids s'.kids := by simp [Tree.toList]
        rw [htot] at hg' htl' ⊢
        refine ⟨_, rfl, .inl hg', ?_, ?_, hlen, ?_, ?_, ?_, hnn⟩
        · intro x
          simp only [htl, htl']
          exact hmem x
        · simp only [Tree.items]; omega
        · intro p0 c e hph
          have h1 := hg'.one_le
          have heq := hg'.unique hg (fun x => by rw [htl, htl']; exact (hlist x).symm)
          simp only
          rw [if_neg (by omega), heq]
          exact (hself ph c _ hph).symm
        · intro Z h8 hr
          rw [htl] at h8
          have h8' : ∀ x, x ∈ Tree.listKids kids ∨ (∃ k ∈ (k0 :: rest).zipIdx.map (fun k => (k.2, k.1)), k.2 = x) → Clear Z x := by
            intro x hx; rw [hrk] at hx; exact h8 x hx
          cases hr with
          | node _ _ _ _ _ hrow hkids =>
            obtain ⟨r1, r2⟩ := fp.rows Z h8' hkids
            refine ⟨fun _ => .node _ _ _ _ _ ?_ r1, fun k hk => r2 k hk.2 (.inl hk.1)⟩
            simp only
            rw [r2 _ (hn8 Z h8') (.inr rfl), hrow]
            simp only [rowOf, e1, e2]
        · intro h q hq hql hrow
          simp only [htl]
          rw [htl] at h
          simp only [htl']
          rcases snoc_or_eq hq with e | ⟨c, hc⟩
          · obtain ⟨x, hx⟩ := hg'.exists_mem
            have := hg'.under x hx
            rw [htl'] at hx
            exact ⟨x, hx, e ▸ this⟩
          · exact hstr h c q hc hql hrow
      · rw [if_neg h0]
        have hle := fp.le
        by_cases hz : totalItems kids - s'.successes = 0
        · -- nothing left
          rw [if_pos hz]
          have hk0 : s'.kids = [] := by
            have := length_le_total hkid1
            exact List.length_eq_zero_iff.1 (by omega)
          have hhe : s'.hashes = OMap.empty := by
            apply OMap.ext
            intro c
            rw [fp.ok.hashes, hk0]; rfl
          refine ⟨_, rfl, .inr ⟨s'.hashes, by simp only [hk0], fun _ => hhe⟩, ?_, ?_, hlen, ?_, ?_, ?_,
            fun q hq h => hnn q hq (drop_row h).1⟩
          · intro x
            simp only [htl]
            rw [← hmem, hk0]
            simp [Tree.toList]
          · simp only [Tree.items]; omega
          · intro p0 c e hph
            subst e
            simp [Tree.items, updateHash, nodeHash, Tree.isLeaf, hk0]
          · intro Z h8 hr
            rw [htl] at h8
            have h8' : ∀ x, x ∈ Tree.listKids kids ∨ (∃ k ∈ (k0 :: rest).zipIdx.map (fun k => (k.2, k.1)), k.2 = x) → Clear Z x := by
              intro x hx; rw [hrk] at hx; exact h8 x hx
            cases hr with
            | node _ _ _ _ _ hrow hkids =>
              obtain ⟨r1, r2⟩ := fp.rows Z h8' hkids
              refine ⟨fun h => by have := h.one_le; simp [Tree.items] at this, ?_⟩
              intro q hq
              simp only [rowView, dropNode, getFromDbOrTxn_stageDel]
              rw [if_neg]
              · exact r2 q hq.2 (.inl hq.1)
              · rintro rfl; exact hq.1 (List.prefix_refl _)
          · intro h q hq hql hrow
            rw [htl] at h
            obtain ⟨h1, h2⟩ := drop_row hrow
            rcases snoc_or_eq hq with e | ⟨c, hc⟩
            · exact absurd (by rw [e]) h2
            · obtain ⟨x, hx, _⟩ := hstr h c q hc hql h1
              rw [hk0] at hx; cases hx
        · rw [if_neg hz]
          have hti : totalItems kids - s'.successes = totalItems s'.kids := by omega
          rw [hti] at hz ⊢
          have hkne : s'.kids ≠ [] := by intro e; rw [e] at hz; exact hz rfl
          -- the compaction step keeps the trie canonical
          have hcomp : ∃ t txn', compactNode db (totalItems s'.kids) none s'.hashes s'.kids s'.txn p p.length = .ok (t, txn') ∧
              t.Good H p ∧ (∀ x, x ∈ t.toList ↔ x ∈ Tree.listKids s'.kids) ∧ t.items = totalItems s'.kids ∧
              (∀ Z : Bytes → Prop, (∀ x ∈ Tree.listKids s'.kids, Clear Z x) → ∀ k, ¬ Z k → rowView db txn' k = rowView db s'.txn k) ∧
              (∀ k, rowView db txn' k ≠ none → rowView db s'.txn k ≠ none) ∧
              (∀ c a, (∃ m k h ks, t = .node m k h ks ∧ OMapL.get c ks = some a) → OMapL.get c s'.kids = some a) := by
            unfold compactNode
            have hstay : (uncompacted ≤ p.length → 2 ≤ totalItems s'.kids) →
                (Tree.node (totalItems s'.kids) none s'.hashes s'.kids).Good H p ∧
                (∀ x, x ∈ (Tree.node (totalItems s'.kids) none s'.hashes s'.kids).toList ↔ x ∈ Tree.listKids s'.kids) :=
              fun h => ⟨.inner p _ _ hkne fp.ok.sorted fp.ok.good fp.ok.hashes h, fun x => by simp [Tree.toList]⟩
            have hstay2 : ∀ c a, (∃ m k h ks, Tree.node (totalItems s'.kids) none s'.hashes s'.kids = .node m k h ks ∧
                OMapL.get c ks = some a) → OMapL.get c s'.kids = some a := by
              rintro c a ⟨m, k, h, ks, e, ha⟩
              injection e with _ _ _ e
              rw [e]; exact ha
            have hlt := length_le_total hkid1
            cases hks : s'.kids with
            | nil => exact absurd hks hkne
            | cons x xs =>
              obtain ⟨c, a⟩ := x
              rw [← hks]
              cases xs with
              | cons y ys =>
                have hm : s'.kids.map (·.1) = c :: y.1 :: ys.map (·.1) := by rw [hks]; rfl
                rw [hm]
                simp only
                have h2' : 2 ≤ totalItems s'.kids := by rw [hks] at hlt ⊢; simp at hlt; omega
                obtain ⟨g1, g2⟩ := hstay (fun _ => h2')
                exact ⟨_, _, rfl, g1, g2, rfl, fun _ _ _ _ => rfl, fun _ => id, hstay2⟩
              | nil =>
                have hm : s'.kids.map (·.1) = [c] := by rw [hks]; rfl
                rw [hm]
                simp only
                have hga : OMapL.get c s'.kids = some a := by rw [hks, OMapL.get_cons, if_pos rfl]
                have hag := fp.ok.good c a hga
                have hta : totalItems s'.kids = a.items := by rw [hks]; simp [totalItems]
                by_cases hc : totalItems s'.kids = 1 ∧ uncompacted ≤ p.length
                · rw [if_pos hc, hga, loadChild_node (.inr hag)]
                  simp only
                  cases hag with
                  | inner _ h' kids' _ _ _ _ h2' =>
                    have := h2' (by simp; omega)
                    simp only [Tree.items] at hta
                    omega
                  | leaf _ k h' hp' hk' hst' =>
                    simp only
                    have hdel : OMapL.del c s'.kids = [] := by
                      rw [hks]; simp [OMapL.del, StrictOrd.irrefl]
                    rw [hdel]
                    refine ⟨_, _, rfl, ?_, ?_, rfl, ?_, fun _ h => (drop_row h).1, ?_⟩
                    · rw [hc.1]
                      refine .leaf p k s'.hashes hc.2 (prefix_of_snoc hk') ?_
                      intro d hd
                      rw [fp.ok.hashes d, hks, OMapL.get_cons] at hd
                      by_cases e : d = c
                      · rw [e]; exact prefix_snoc_char hk'
                      · rw [if_neg e] at hd; exact absurd rfl hd
                    · intro x
                      rw [hks]
                      simp [Tree.toList, Tree.listKids]
                    · intro Z h8 q hq
                      simp only [rowView, dropNode, getFromDbOrTxn_stageDel]
                      rw [if_neg]
                      rintro rfl
                      exact hq ((h8 k (by rw [hks]; simp [Tree.toList, Tree.listKids])).2 p c hc.2 hk')
                    · rintro d b ⟨m, k', h, ks, e, ha⟩
                      injection e with _ _ _ e
                      subst e; cases ha
                · rw [if_neg hc]
                  obtain ⟨g1, g2⟩ := hstay (by
                    intro h
                    have : totalItems s'.kids ≠ 1 := fun e => hc ⟨e, h⟩
                    omega)
                  exact ⟨_, _, rfl, g1, g2, rfl, fun _ _ _ _ => rfl, fun _ => id, hstay2⟩
          obtain ⟨t', txn', hct, g', hm', hi', hv', hvn', hkid'⟩ := hcomp
          rw [hct]
          simp only
          obtain ⟨m', k', h', ks', rfl⟩ : ∃ m k h ks, t' = .node m k h ks := by
            cases g' <;> exact ⟨_, _, _, _, rfl⟩
          refine ⟨_, rfl, .inl g', ?_, ?_, hlen, ?_, ?_, ?_, ?_⟩
          · intro x
            simp only
            rw [hm', htl]; exact hmem x
          · simp only
            simp only [Tree.items] at *
            omega
          · intro p0 c e hph
            subst e
            have := g'.one_le
            simp only
            rw [if_neg (by omega), updateHash_snoc (g'.hash_ne hH)]
          · intro Z h8 hr
            rw [htl] at h8
            have h8' : ∀ x, x ∈ Tree.listKids kids ∨ (∃ k ∈ (k0 :: rest).zipIdx.map (fun k => (k.2, k.1)), k.2 = x) → Clear Z x := by
              intro x hx; rw [hrk] at hx; exact h8 x hx
            cases hr with
            | node _ _ _ _ _ hrow hkids =>
              obtain ⟨r1, r2⟩ := fp.rows Z h8' hkids
              have h8s : ∀ x ∈ Tree.listKids s'.kids, Clear Z x := fun x hx => h8 x (.inl ((hmem x).1 hx).1)
              refine ⟨fun _ => .node _ _ _ _ _ ?_ ?_, ?_⟩
              · simp only; rw [rowView_putNode, if_pos rfl]
              · intro c a ha
                have hgs := hkid' c a ⟨_, _, _, _, rfl, ha⟩
                refine (r1 c a hgs).frame_at (fp.ok.good c a hgs) ?_
                intro q x hq hx hqx
                simp only
                rw [rowView_putNode, if_neg]
                · exact hv' Z h8s _ ((h8s x ((Tree.mem_listKids_get fp.ok.sorted).2 ⟨c, a, hgs, hx⟩)).1 q hqx)
                · intro e
                  have e : q = p := by simpa [nodeKey] using e
                  rw [e] at hq
                  have := hq.length_le
                  simp at this; omega
              · intro q hq
                simp only
                rw [rowView_putNode, if_neg (by rintro rfl; exact hq.1 (List.prefix_refl _)), hv' Z h8s q hq.2]
                exact r2 q hq.2 (.inl hq.1)
          · intro h q hq hql hrow
            rw [htl] at h
            simp only at hrow ⊢
            rcases snoc_or_eq hq with e | ⟨c, hc⟩
            · obtain ⟨x, hx⟩ := g'.exists_mem
              exact ⟨x, hx, e ▸ g'.under x hx⟩
            · rw [rowView_putNode, if_neg] at hrow
              · obtain ⟨x, hx, hqx⟩ := hstr h c q hc hql (hvn' _ hrow)
                exact ⟨x, (hm' x).2 hx, hqx⟩
              · intro e
                have e : q = p := by simpa [nodeKey] using e
                subst e
                have := hc.length_le
                simp at this; omega
          · intro q hq hrow
            simp only at hrow
            rw [rowView_putNode, if_neg] at hrow
            · exact hnn q hq (hvn' _ hrow)
            · intro e
              have e : q = p := by simpa [nodeKey] using e
              exact hq (e ▸ List.prefix_refl _)

end Verif
