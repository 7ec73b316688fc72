import Verif.Lemmas.TrieGroups
/-! Insertion into a canonical trie. -/
namespace Verif
open OMapL

/-- A row as a reader of the database and the batch sees it. -/
abbrev rowView (db : Db NodeRow) (txn : Txn NodeRow) (k : Bytes) : Option NodeRow := getFromDbOrTxn db txn k

/-- Every node of the trie has its row. -/
inductive Tree.RowsOK (V : Bytes → Option NodeRow) : Bytes → Tree → Prop
  | node (p : Bytes) (items : Nat) (key : Option Bytes) (hashes : Hashes) (kids : Kids) :
      V (nodeKey p none) = rowOf (.node items key hashes kids) →
      (∀ c t, OMapL.get c kids = some t → RowsOK V (p ++ [c]) t) → RowsOK V p (.node items key hashes kids)

theorem nodeKey_prefix {p q : Bytes} : nodeKey p none <+: nodeKey q none ↔ p <+: q := by
  simp [nodeKey]

theorem Tree.RowsOK.frame {V V' : Bytes → Option NodeRow} {p : Bytes} {t : Tree} (h : t.RowsOK V p)
    (hf : ∀ k, nodeKey p none <+: k → V' k = V k) : t.RowsOK V' p := by
  induction h with
  | node p items key hashes kids h1 _ ih =>
    refine .node p items key hashes kids ?_ ?_
    · rw [hf _ (List.prefix_refl _)]; exact h1
    · intro c t hg
      refine ih c t hg ?_
      intro k hk
      exact hf k ((nodeKey_prefix.2 (List.prefix_append p [c])).trans hk)

/-- Only the rows on the paths of the keys matter. -/
theorem Tree.RowsOK.frame_at {H : Bytes → Bytes} {V V' : Bytes → Option NodeRow} {p : Bytes} {t : Tree} (h : t.RowsOK V p)
    (hg : t.Good H p)
    (hf : ∀ q x, p <+: q → x ∈ t.toList → q <+: x → V' (nodeKey q none) = V (nodeKey q none)) : t.RowsOK V' p := by
  induction h with
  | node p items key hashes kids h1 _ ih =>
    refine .node p items key hashes kids ?_ ?_
    · obtain ⟨x, hx⟩ := hg.exists_mem
      rw [hf p x (List.prefix_refl _) hx (hg.under x hx)]; exact h1
    · intro c t hc
      cases hg with
      | leaf => cases hc
      | inner _ _ _ _ hs hk _ _ =>
        refine ih c t hc (hk c t hc) ?_
        intro q x hq hx hqx
        refine hf q x (prefix_of_snoc hq) ?_ hqx
        simp only [Tree.toList, Option.toList_none, List.nil_append]
        exact (Tree.mem_listKids_get hs).2 ⟨c, t, hc, hx⟩

/-- The rows of a key are not in `Z`, and the rows that a compaction on its path erases are. -/
def Clear (Z : Bytes → Prop) (x : Bytes) : Prop :=
  (∀ q, q <+: x → ¬ Z (nodeKey q none)) ∧
    ∀ p c, uncompacted ≤ p.length → p ++ [c] <+: x → Z (nodeKey (nodeKey p (some c)) none)

/-- Rows outside the subtree at `p` and outside the set of erased rows. -/
def Outside (Z : Bytes → Prop) (p k : Bytes) : Prop := ¬ nodeKey p none <+: k ∧ ¬ Z k

theorem outside_sibling {Z : Bytes → Prop} {p : Bytes} {c c' : UInt8} (hne : c' ≠ c) {k : Bytes}
    (hk : nodeKey (p ++ [c']) none <+: k) (h8 : ¬ Z k) : Outside Z (p ++ [c]) k := by
  refine ⟨?_, h8⟩
  intro h
  rcases List.prefix_or_prefix_of_prefix h hk with h | h
  · rw [nodeKey_prefix] at h
    have := prefix_snoc_char h
    simp at this
    exact hne this
  · rw [nodeKey_prefix] at h
    have := prefix_snoc_char h
    simp at this
    exact hne this.symm

theorem outside_up {Z : Bytes → Prop} {p k : Bytes} {c : UInt8} (h8 : ¬ Z k)
    (hk : ¬ nodeKey p none <+: k ∨ k = nodeKey p none) : Outside Z (p ++ [c]) k := by
  refine ⟨?_, h8⟩
  intro h
  rcases hk with hk | rfl
  · exact hk ((nodeKey_prefix.2 (List.prefix_append p [c])).trans h)
  · rw [nodeKey_prefix] at h
    have := h.length_le
    simp at this; omega

/-- Rows appear only on the paths of the keys in `L`. -/
def NewRows (db : Db NodeRow) (txn txn' : Txn NodeRow) (L : List Bytes) : Prop :=
  ∀ q, rowView db txn' (nodeKey q none) ≠ none → rowView db txn (nodeKey q none) ≠ none ∨ ∃ x ∈ L, q <+: x

theorem NewRows.refl {db : Db NodeRow} {txn : Txn NodeRow} {L : List Bytes} : NewRows db txn txn L := fun _ h => .inl h

theorem NewRows.mono {db : Db NodeRow} {txn txn' : Txn NodeRow} {L L' : List Bytes} (h : NewRows db txn txn' L)
    (hs : ∀ x ∈ L, x ∈ L') : NewRows db txn txn' L' := fun q hq =>
  (h q hq).imp id (fun ⟨x, hx, e⟩ => ⟨x, hs x hx, e⟩)

theorem NewRows.trans {db : Db NodeRow} {a b c : Txn NodeRow} {L : List Bytes} (h : NewRows db a b L)
    (h' : NewRows db b c L) : NewRows db a c L := fun q hq => (h' q hq).elim (h q) .inr

theorem NewRows.put {db : Db NodeRow} {txn : Txn NodeRow} {L : List Bytes} {p x : Bytes} (hx : x ∈ L) (hp : p <+: x)
    (n : Nat) (key : Option Bytes) (h : Hashes) (kids : Kids) :
    NewRows db txn (putNode txn (.node n key h kids) p) L := by
  intro q hq
  by_cases e : q = p
  · exact .inr ⟨x, hx, e ▸ hp⟩
  · left
    have hne : nodeKey q none ≠ nodeKey p none := by simp [nodeKey, e]
    simp only [putNode, rowOf, rowView] at hq
    rw [getFromDbOrTxn_stagePut, if_neg hne] at hq
    exact hq

/-- What an insertion of `ks` below the path `p` does. -/
structure InsPost (H : Bytes → Bytes) (db : Db NodeRow) (p : Bytes) (t : Tree) (ph : Hashes) (txn : Txn NodeRow)
    (ks : List Bytes) (u : Upd) : Prop where
  good : u.tree.Good H p
  mem : ∀ x, x ∈ u.tree.toList ↔ x ∈ t.toList ∨ x ∈ ks
  items : u.tree.items = t.items + u.results.count true
  len : u.results.length = ks.length
  parent : ∀ p0 c, p = p0 ++ [c] → (t.Good H p → ph.get c = some (nodeHash H t)) →
    u.parent = ph.put c (nodeHash H u.tree)
  rows : ∀ Z : Bytes → Prop, (∀ x, x ∈ t.toList ∨ x ∈ ks → Clear Z x) → (t.Good H p → t.RowsOK (rowView db txn) p) →
    u.tree.RowsOK (rowView db u.txn) p ∧ ∀ k, Outside Z p k → rowView db u.txn k = rowView db txn k
  puts : NewRows db txn u.txn u.tree.toList

/-- The keys may be inserted below `p` with recursion bound `n`. -/
structure InsPre (n : Nat) (p : Bytes) (t : Tree) (ks : List Bytes) : Prop where
  ne : ks ≠ []
  keys : ∀ k ∈ ks, p <+: k ∧ k.length < p.length + n ∧ uncompacted ≤ k.length
  pf : PrefixFree (fun x => x ∈ t.toList ∨ x ∈ ks)

/-- A recursive call is correct up to the bound `n`. -/
def InsOK (H : Bytes → Bytes) (db : Db NodeRow) (n : Nat) (rec : Rec) : Prop :=
  ∀ p t ph txn ks, t.Fresh H p → InsPre n p t ks → ∃ u, rec t ph txn ks p.length = .ok u ∧ InsPost H db p t ph txn ks u

theorem loadChild_node {db : Db NodeRow} {p : Bytes} {c : UInt8} {t : Tree} {p' : Bytes} (h : t.Fresh H p') :
    loadChild db p c (some t) = .ok t := by
  rcases h with rfl | h
  · rfl
  · cases h <;> rfl

@[simp] theorem toList_empty : Tree.empty.toList = [] := rfl
@[simp] theorem items_empty : Tree.empty.items = 0 := rfl
theorem not_good_empty {p : Bytes} : ¬ Tree.empty.Good H p := by
  intro h; have := h.one_le; simp at this

/-- The state of a node during the loop. -/
structure KidsOK (H : Bytes → Bytes) (p : Bytes) (hashes : Hashes) (kids : Kids) : Prop where
  sorted : Sorted kids
  good : ∀ c t, OMapL.get c kids = some t → t.Good H (p ++ [c])
  hashes : ∀ c, hashes.get c = (OMapL.get c kids).map (nodeHash H)

/-- What the loop over the groups does. -/
structure FoldPost (H : Bytes → Bytes) (db : Db NodeRow) (p : Bytes) (ks : List (Nat × Bytes)) (cs : List UInt8)
    (s s' : Loop) : Prop where
  ok : KidsOK H p s'.hashes s'.kids
  mem : ∀ x, x ∈ Tree.listKids s'.kids ↔ x ∈ Tree.listKids s.kids ∨ ∃ k ∈ ks, k.2 = x ∧ ∃ c ∈ cs, x[p.length]? = some c
  total : totalItems s'.kids + s.successes = totalItems s.kids + s'.successes
  count : s'.results.count true + s.successes = s.results.count true + s'.successes
  le : s.successes ≤ s'.successes
  len : s'.results.length = s.results.length
  rows : ∀ Z : Bytes → Prop, (∀ x, x ∈ Tree.listKids s.kids ∨ (∃ k ∈ ks, k.2 = x) → Clear Z x) →
    (∀ c t, OMapL.get c s.kids = some t → t.RowsOK (rowView db s.txn) (p ++ [c])) →
    (∀ c t, OMapL.get c s'.kids = some t → t.RowsOK (rowView db s'.txn) (p ++ [c])) ∧
    ∀ k, ¬ Z k → (¬ nodeKey p none <+: k ∨ k = nodeKey p none) →
      rowView db s'.txn k = rowView db s.txn k
  puts : NewRows db s.txn s'.txn (Tree.listKids s'.kids)

variable {H : Bytes → Bytes}

theorem insert_fold {db : Db NodeRow} {n : Nat} {rec : Rec} (hrec : InsOK H db n rec) (p : Bytes)
    (ks : List (Nat × Bytes))
    (hks : ∀ k ∈ ks, p <+: k.2 ∧ k.2.length < p.length + (n + 1) ∧ uncompacted ≤ k.2.length)
    (hnd : (ks.map (·.1)).Nodup) (cs : List UInt8) (hcs : cs.Nodup)
    (hgr : ∀ c ∈ cs, group p.length ks c ≠ []) (s : Loop) (hok : KidsOK H p s.hashes s.kids)
    (hpf : PrefixFree (fun x => x ∈ Tree.listKids s.kids ∨ ∃ k ∈ ks, k.2 = x))
    (hres : ∀ c ∈ cs, ∀ k ∈ group p.length ks c, s.results[k.1]? = some false) :
    ∃ s', foldGroups (insertGroup rec db p p.length ks) cs s = .ok s' ∧ FoldPost H db p ks cs s s' := by
  induction cs generalizing s with
  | nil => exact ⟨s, rfl, hok, by simp, rfl, rfl, Nat.le_refl _, rfl, fun _ _ h => ⟨h, fun _ _ _ => rfl⟩, .refl⟩
  | cons c cs ih =>
    obtain ⟨hc1, hc2⟩ := List.nodup_cons.1 hcs
    let t := (OMapL.get c s.kids).getD .empty
    have ht : t.Fresh H (p ++ [c]) := by
      show Tree.Fresh H _ ((OMapL.get c s.kids).getD .empty)
      cases hg : OMapL.get c s.kids with
      | none => exact .inl rfl
      | some t => exact .inr (hok.good c t hg)
    have htl : ∀ x, x ∈ t.toList → x ∈ Tree.listKids s.kids := by
      intro x hx
      have hx : x ∈ ((OMapL.get c s.kids).getD .empty).toList := hx
      cases hg : OMapL.get c s.kids with
      | none => rw [hg] at hx; simp at hx
      | some t => rw [hg] at hx; exact (Tree.mem_listKids_get hok.sorted).2 ⟨c, t, hg, hx⟩
    have hpre : InsPre n (p ++ [c]) t ((group p.length ks c).map (·.2)) := by
      refine ⟨by simpa using hgr c (by simp), ?_, ?_⟩
      · intro y hy
        obtain ⟨k, hk, rfl⟩ := List.mem_map.1 hy
        obtain ⟨h1, h2⟩ := mem_group.1 hk
        obtain ⟨h3, h4, h5⟩ := hks k h1
        refine ⟨snoc_prefix h3 h2, by simp; omega, h5⟩
      · intro a b ha hb
        apply hpf a b
        · rcases ha with ha | ha
          · exact .inl (htl a ha)
          · obtain ⟨k, hk, rfl⟩ := List.mem_map.1 ha
            exact .inr ⟨k, (mem_group.1 hk).1, rfl⟩
        · rcases hb with hb | hb
          · exact .inl (htl b hb)
          · obtain ⟨k, hk, rfl⟩ := List.mem_map.1 hb
            exact .inr ⟨k, (mem_group.1 hk).1, rfl⟩
    obtain ⟨u, hu, post⟩ := hrec (p ++ [c]) t s.hashes s.txn _ ht hpre
    rw [show (p ++ [c]).length = p.length + 1 by simp] at hu
    have hstep : insertGroup rec db p p.length ks s c = .ok ⟨u.parent, OMapL.put c u.tree s.kids, u.txn,
        copyResults ((group p.length ks c).map (·.1)) u.results s.results, s.successes + u.results.count true⟩ := by
      unfold insertGroup
      rw [loadChild_node ht]
      simp only
      rw [hu]
    have hpar : u.parent = s.hashes.put c (nodeHash H u.tree) := by
      apply post.parent p c rfl
      intro hgood
      rw [hok.hashes c]
      have hgood : ((OMapL.get c s.kids).getD .empty).Good H (p ++ [c]) := hgood
      show (OMapL.get c s.kids).map (nodeHash H) = some (nodeHash H ((OMapL.get c s.kids).getD .empty))
      cases hg : OMapL.get c s.kids with
      | none => rw [hg] at hgood; exact absurd hgood not_good_empty
      | some t => rfl
    -- the state after this group
    have hok1 : KidsOK H p u.parent (OMapL.put c u.tree s.kids) := by
      refine ⟨OMapL.sorted_put hok.sorted, ?_, ?_⟩
      · intro d a ha
        rw [OMapL.get_put] at ha
        split at ha
        · rename_i e; subst e; injection ha with ha; subst ha; exact post.good
        · exact hok.good d a ha
      · intro d
        rw [hpar, OMap.get_put, OMapL.get_put]
        split
        · rfl
        · exact hok.hashes d
    have hmem1 : ∀ x, x ∈ Tree.listKids (OMapL.put c u.tree s.kids) ↔
        x ∈ Tree.listKids s.kids ∨ x ∈ (group p.length ks c).map (·.2) := by
      intro x
      rw [Tree.mem_listKids_get hok1.sorted]
      constructor
      · rintro ⟨d, a, ha, hx⟩
        rw [OMapL.get_put] at ha
        split at ha
        · injection ha with ha; subst ha
          rcases (post.mem x).1 hx with h | h
          · exact .inl (htl x h)
          · exact .inr h
        · exact .inl ((Tree.mem_listKids_get hok.sorted).2 ⟨d, a, ha, hx⟩)
      · rintro (h | h)
        · obtain ⟨d, a, ha, hx⟩ := (Tree.mem_listKids_get hok.sorted).1 h
          by_cases e : d = c
          · subst e
            refine ⟨d, u.tree, by rw [OMapL.get_put, if_pos rfl], (post.mem x).2 (.inl ?_)⟩
            show x ∈ ((OMapL.get d s.kids).getD .empty).toList
            rw [ha]; exact hx
          · exact ⟨d, a, by rw [OMapL.get_put, if_neg e]; exact ha, hx⟩
        · exact ⟨c, u.tree, by rw [OMapL.get_put, if_pos rfl], (post.mem x).2 (.inr h)⟩
    have hti : totalItems (OMapL.put c u.tree s.kids) = totalItems s.kids + u.results.count true := by
      have h1 := totalItems_put hok.sorted c u.tree
      have h2 := post.items
      have h3 : t.items = ((OMapL.get c s.kids).map Tree.items).getD 0 := by
        show ((OMapL.get c s.kids).getD .empty).items = _
        cases OMapL.get c s.kids <;> rfl
      omega
    have hgl : ((group p.length ks c).map (·.1)).length = u.results.length := by
      rw [post.len]; simp
    have hcnt : (copyResults ((group p.length ks c).map (·.1)) u.results s.results).count true =
        s.results.count true + u.results.count true := by
      apply copyResults_count _ _ _ (group_nodup hnd) hgl
      intro j hj
      obtain ⟨k, hk, rfl⟩ := List.mem_map.1 hj
      exact hres c (by simp) k hk
    obtain ⟨s', hs', fp⟩ := ih hc2 (fun d hd => hgr d (by simp [hd]))
      ⟨u.parent, OMapL.put c u.tree s.kids, u.txn,
        copyResults ((group p.length ks c).map (·.1)) u.results s.results, s.successes + u.results.count true⟩
      hok1
      (by
        intro a b ha hb
        apply hpf a b
        · rcases ha with ha | ha
          · rcases (hmem1 a).1 ha with ha | ha
            · exact .inl ha
            · obtain ⟨k, hk, rfl⟩ := List.mem_map.1 ha
              exact .inr ⟨k, (mem_group.1 hk).1, rfl⟩
          · exact .inr ha
        · rcases hb with hb | hb
          · rcases (hmem1 b).1 hb with hb | hb
            · exact .inl hb
            · obtain ⟨k, hk, rfl⟩ := List.mem_map.1 hb
              exact .inr ⟨k, (mem_group.1 hk).1, rfl⟩
          · exact .inr hb)
      (by
        intro d hd k hk
        simp only
        rw [copyResults_other]
        · exact hres d (by simp [hd]) k hk
        · intro hj
          obtain ⟨k', hk', e⟩ := List.mem_map.1 hj
          have := idx_inj hnd (mem_group.1 hk').1 (mem_group.1 hk).1 e
          subst this
          have := (mem_group.1 hk').2.symm.trans (mem_group.1 hk).2
          injection this with this
          subst this
          exact hc1 hd)
    refine ⟨s', ?_, fp.ok, ?_, ?_, ?_, ?_, ?_, ?_, ?_⟩
    · simp only [foldGroups]; rw [hstep]; exact hs'
    · intro x
      rw [fp.mem, hmem1]
      constructor
      · rintro ((h | h) | ⟨k, hk, hx, d, hd, e⟩)
        · exact .inl h
        · obtain ⟨k, hk, rfl⟩ := List.mem_map.1 h
          obtain ⟨h1, h2⟩ := mem_group.1 hk
          exact .inr ⟨k, h1, rfl, c, by simp, h2⟩
        · exact .inr ⟨k, hk, hx, d, by simp [hd], e⟩
      · rintro (h | ⟨k, hk, hx, d, hd, e⟩)
        · exact .inl (.inl h)
        · rcases List.mem_cons.1 hd with rfl | hd
          · subst hx
            exact .inl (.inr (List.mem_map.2 ⟨k, mem_group.2 ⟨hk, e⟩, rfl⟩))
          · exact .inr ⟨k, hk, hx, d, hd, e⟩
    · have := fp.total; simp only at this; omega
    · have := fp.count; simp only at this; omega
    · have := fp.le; simp only at this; omega
    · have := fp.len; simp only [copyResults_length] at this; exact this
    · intro Z h8 hrows
      obtain ⟨r1, r2⟩ := post.rows Z
        (by
          rintro x (hx | hx)
          · exact h8 x (.inl (htl x hx))
          · obtain ⟨k, hk, rfl⟩ := List.mem_map.1 hx
            exact h8 _ (.inr ⟨k, (mem_group.1 hk).1, rfl⟩))
        (by
          intro hgood
          have hgood : ((OMapL.get c s.kids).getD .empty).Good H (p ++ [c]) := hgood
          show ((OMapL.get c s.kids).getD .empty).RowsOK _ _
          cases hg : OMapL.get c s.kids with
          | none => rw [hg] at hgood; exact absurd hgood not_good_empty
          | some t => exact hrows c t hg)
      obtain ⟨r3, r4⟩ := fp.rows Z
        (by
          rintro x (hx | hx)
          · rcases (hmem1 x).1 hx with hx | hx
            · exact h8 x (.inl hx)
            · obtain ⟨k, hk, rfl⟩ := List.mem_map.1 hx
              exact h8 _ (.inr ⟨k, (mem_group.1 hk).1, rfl⟩)
          · exact h8 x (.inr hx))
        (by
          intro d a ha
          simp only at ha ⊢
          rw [OMapL.get_put] at ha
          split at ha
          · rename_i e; subst e; injection ha with ha; subst ha; exact r1
          · rename_i e
            refine (hrows d a ha).frame_at (hok.good d a ha) ?_
            intro q x hq hx hqx
            apply r2
            apply outside_sibling e (nodeKey_prefix.2 hq)
            exact (h8 x (.inl ((Tree.mem_listKids_get hok.sorted).2 ⟨d, a, ha, hx⟩))).1 q hqx)
      refine ⟨r3, ?_⟩
      intro k hk1 hk2
      rw [r4 k hk1 hk2]
      exact r2 k (outside_up hk1 hk2)
    · refine (post.puts.mono ?_).trans fp.puts
      intro x hx
      rw [fp.mem]
      left
      exact (Tree.mem_listKids_get hok1.sorted).2 ⟨c, u.tree, by rw [OMapL.get_put, if_pos rfl], hx⟩

theorem chars_same {p : Bytes} {h h' : Hashes} {kids kids' : Kids} (ok : KidsOK H p h kids) (ok' : KidsOK H p h' kids')
    (hm : ∀ x, x ∈ Tree.listKids kids ↔ x ∈ Tree.listKids kids') : h = h' ∧ kids.map (·.1) = kids'.map (·.1) := by
  have hs : ∀ c, (OMapL.get c kids).map (nodeHash H) = (OMapL.get c kids').map (nodeHash H) := by
    intro c
    cases hg : OMapL.get c kids with
    | some a =>
      obtain ⟨a', hg', hm'⟩ := Tree.Good.kids_same ok.sorted ok'.sorted ok.good ok'.good hm c hg
      rw [hg']
      simp only [Option.map_some, Option.some.injEq]
      exact (ok.good c a hg).unique (ok'.good c a' hg') hm'
    | none =>
      cases hg' : OMapL.get c kids' with
      | none => rfl
      | some a' =>
        obtain ⟨a, hg2, _⟩ := Tree.Good.kids_same ok'.sorted ok.sorted ok'.good ok.good (fun x => (hm x).symm) c hg'
        rw [hg] at hg2; cases hg2
  refine ⟨OMap.ext (fun c => by rw [ok.hashes, ok'.hashes, hs]), ?_⟩
  have hget : ∀ (l : Kids) c, OMapL.get c (l.map (fun x => (x.1, ()))) = (OMapL.get c l).map (fun _ => ()) := by
    intro l c
    induction l with
    | nil => rfl
    | cons a l ih =>
      obtain ⟨d, a⟩ := a
      simp only [List.map_cons, OMapL.get]
      split
      · exact ih
      · rfl
  have hsrt : ∀ l : Kids, Sorted l → Sorted (l.map (fun x => (x.1, ()))) := by
    intro l hl
    exact List.pairwise_map.2 hl
  have := OMapL.ext (hsrt _ ok.sorted) (hsrt _ ok'.sorted) (fun c => by
    rw [hget, hget]
    have := congrArg (Option.map (fun _ => ())) (hs c)
    simpa using this)
  have := congrArg (List.map (·.1)) this
  rw [List.map_map, List.map_map] at this
  exact this

/-- A node that the second half of `insert` starts from. -/
theorem below_ok (ord : List UInt8 → List UInt8) (hord : ∀ l, (ord l).Perm l)
    {db : Db NodeRow} {n : Nat} {rec : Rec} (hrec : InsOK H db n rec) (p : Bytes) (hashes : Hashes) (kids : Kids)
    (ph : Hashes) (txn : Txn NodeRow) (results : List Bool) (ks : List (Nat × Bytes)) (hne : ks ≠ [])
    (hks : ∀ k ∈ ks, p <+: k.2 ∧ p.length < k.2.length ∧ k.2.length < p.length + (n + 1) ∧ uncompacted ≤ k.2.length)
    (hnd : (ks.map (·.1)).Nodup) (hok : KidsOK H p hashes kids)
    (hpf : PrefixFree (fun x => x ∈ Tree.listKids kids ∨ ∃ k ∈ ks, k.2 = x))
    (hres : ∀ k ∈ ks, results[k.1]? = some false)
    (htwo : uncompacted ≤ p.length → ∃ x y, x ≠ y ∧ (x ∈ Tree.listKids kids ∨ ∃ k ∈ ks, k.2 = x) ∧
      (y ∈ Tree.listKids kids ∨ ∃ k ∈ ks, k.2 = y)) :
    ∃ u, insertBelow H ord rec db (totalItems kids) none hashes kids ph txn p p.length results ks = .ok u ∧
      u.tree.Good H p ∧ (∀ x, x ∈ u.tree.toList ↔ x ∈ Tree.listKids kids ∨ ∃ k ∈ ks, k.2 = x) ∧
      u.tree.items + results.count true = totalItems kids + u.results.count true ∧ results.count true ≤ u.results.count true ∧
      u.results.length = results.length ∧
      (u.results.count true = results.count true → u.parent = ph ∧ kids ≠ [] ∧
        nodeHash H u.tree = nodeHash H (.node (totalItems kids) none hashes kids)) ∧
      (u.results.count true ≠ results.count true → u.parent = updateHash H u.tree ph p) ∧
      (∀ Z : Bytes → Prop, (∀ x, x ∈ Tree.listKids kids ∨ (∃ k ∈ ks, k.2 = x) → Clear Z x) →
        (kids ≠ [] → rowView db txn (nodeKey p none) = rowOf (.node (totalItems kids) none hashes kids)) →
        (∀ c t, OMapL.get c kids = some t → t.RowsOK (rowView db txn) (p ++ [c])) →
        u.tree.RowsOK (rowView db u.txn) p ∧ ∀ k, Outside Z p k → rowView db u.txn k = rowView db txn k) ∧
      NewRows db txn u.txn u.tree.toList := by
  have hchar : ∀ k ∈ ks, ∃ c, k.2[p.length]? = some c := by
    intro k hk
    have := (hks k hk).2.1
    exact ⟨k.2[p.length], List.getElem?_eq_getElem this⟩
  have hpm := hord (groupChars p.length ks)
  obtain ⟨s', hs', fp⟩ := insert_fold hrec p ks (fun k hk => ⟨(hks k hk).1, (hks k hk).2.2⟩) hnd
    (ord (groupChars p.length ks)) (hpm.nodup_iff.2 groupChars_nodup)
    (fun c hc => group_ne_nil (hpm.mem_iff.1 hc)) ⟨hashes, kids, txn, results, 0⟩ hok hpf
    (fun c _ k hk => hres k (mem_group.1 hk).1)
  have hmem : ∀ x, x ∈ Tree.listKids s'.kids ↔ x ∈ Tree.listKids kids ∨ ∃ k ∈ ks, k.2 = x := by
    intro x
    rw [fp.mem]
    constructor
    · rintro (h | ⟨k, hk, e, _⟩)
      · exact .inl h
      · exact .inr ⟨k, hk, e⟩
    · rintro (h | ⟨k, hk, e⟩)
      · exact .inl h
      · obtain ⟨c, hc⟩ := hchar k hk
        subst e
        exact .inr ⟨k, hk, rfl, c, hpm.mem_iff.2 (mem_groupChars.2 ⟨k, hk, hc⟩), hc⟩
  have hkne : s'.kids ≠ [] := by
    cases ks with
    | nil => exact absurd rfl hne
    | cons k ks =>
      have := (hmem k.2).2 (.inr ⟨k, by simp, rfl⟩)
      intro e; rw [e] at this; cases this
  have htot : totalItems s'.kids = totalItems kids + s'.successes := by
    have := fp.total; simpa using this
  have hcnt : s'.results.count true = results.count true + s'.successes := by
    have := fp.count; simpa using this
  have hlen := fp.len
  have hcounts := Tree.Good.listKids_counts (p := p) fp.ok.sorted
    (fun c t h => (fp.ok.good c t ((OMapL.get_eq_some_iff fp.ok.sorted).2 h)).under)
    (fun c t h => (fp.ok.good c t ((OMapL.get_eq_some_iff fp.ok.sorted).2 h)).counts)
  have hgood : (Tree.node (totalItems s'.kids) none s'.hashes s'.kids).Good H p := by
    refine .inner p s'.hashes s'.kids hkne fp.ok.sorted fp.ok.good fp.ok.hashes ?_
    intro hp
    obtain ⟨x, y, hxy, hx, hy⟩ := htwo hp
    have h2 := Tree.Good.length_le_of_subset (l := [x, y]) (m := Tree.listKids s'.kids) (by simp [hxy])
      (by
        intro z hz
        simp at hz
        rcases hz with rfl | rfl
        · exact (hmem _).2 hx
        · exact (hmem _).2 hy)
    rw [hcounts.2] at h2
    simpa using h2
  have htl : ∀ n h, (Tree.node n none h s'.kids).toList = Tree.listKids s'.kids := by intro n h; simp [Tree.toList]
  have hunf : ks.any (fun k => decide (k.2.length ≤ p.length)) = false := by
    rw [List.any_eq_false]
    intro k hk
    have := (hks k hk).2.1
    simp; omega
  unfold insertBelow
  rw [hunf]
  simp only [Bool.false_eq_true, if_false]
  rw [hs']
  simp only
  by_cases h0 : s'.successes = 0
  · rw [if_pos h0]
    rw [h0] at htot hcnt
    rw [Nat.add_zero] at htot
    have hlist : ∀ x, x ∈ Tree.listKids kids ↔ x ∈ Tree.listKids s'.kids := by
      -- same number of keys
      have hc0 := Tree.Good.listKids_counts (p := p) hok.sorted
        (fun c t h => (hok.good c t ((OMapL.get_eq_some_iff hok.sorted).2 h)).under)
        (fun c t h => (hok.good c t ((OMapL.get_eq_some_iff hok.sorted).2 h)).counts)
      intro x
      refine ⟨fun h => (hmem x).2 (.inl h), fun h => ?_⟩
      refine Classical.byContradiction fun hn => ?_
      have := Tree.Good.length_le_of_subset (l := x :: Tree.listKids kids) (m := Tree.listKids s'.kids)
        (List.nodup_cons.2 ⟨hn, hc0.1⟩)
        (by
          intro y hy
          rcases List.mem_cons.1 hy with rfl | hy
          · exact h
          · exact (hmem y).2 (.inl hy))
      simp only [List.length_cons, hc0.2, hcounts.2] at this
      omega
    obtain ⟨e1, e2⟩ := chars_same hok fp.ok hlist
    have hk0 : kids ≠ [] := by
      intro e
      subst e
      cases hk' : s'.kids with
      | nil => exact hkne hk'
      | cons a b => rw [hk'] at e2; simp at e2
    rw [← htot]
    refine ⟨_, rfl, hgood, ?_, ?_, ?_, hlen, ?_, ?_, ?_, ?_⟩
    · intro x; simp only; rw [htl]; exact hmem x
    · simp only [Tree.items]; omega
    · simp only; omega
    · intro _
      refine ⟨rfl, hk0, ?_⟩
      have hl : Tree.isLeaf kids = false := by cases hk : kids; exact absurd hk hk0; rfl
      have hl' : Tree.isLeaf s'.kids = false := by cases hk : s'.kids; exact absurd hk hkne; rfl
      simp only [nodeHash, hl, hl', e1]
    · intro h; simp only at h; omega
    · intro Z h8 hrow hrows
      obtain ⟨r1, r2⟩ := fp.rows Z h8 hrows
      have hn8 : ¬ Z (nodeKey p none) := by
        obtain ⟨k, hk⟩ := List.exists_mem_of_ne_nil _ hne
        exact (h8 k.2 (.inr ⟨k, hk, rfl⟩)).1 p (hks k hk).1
      refine ⟨.node _ _ _ _ _ ?_ r1, fun k hk => r2 k hk.2 (.inl hk.1)⟩
      simp only
      rw [r2 _ hn8 (.inr rfl), hrow hk0]
      simp only [rowOf, htot, e1, e2]
    · simp only; rw [htl]; exact fp.puts
  · rw [if_neg h0, ← htot]
    refine ⟨_, rfl, hgood, ?_, ?_, ?_, hlen, ?_, ?_, ?_, ?_⟩
    · intro x; simp only; rw [htl]; exact hmem x
    · simp only [Tree.items]; omega
    · simp only; omega
    · intro h; simp only at h; omega
    · intro _; rfl
    · intro Z h8 hrow hrows
      obtain ⟨r1, r2⟩ := fp.rows Z h8 hrows
      have hput : ∀ k, rowView db (putNode s'.txn (.node (totalItems s'.kids) none s'.hashes s'.kids) p) k =
          if k = nodeKey p none then rowOf (.node (totalItems s'.kids) none s'.hashes s'.kids) else rowView db s'.txn k := by
        intro k
        simp only [putNode, rowOf, rowView]
        rw [getFromDbOrTxn_stagePut]
      refine ⟨.node _ _ _ _ _ ?_ ?_, ?_⟩
      · simp only; rw [hput, if_pos rfl]
      · intro c t hg
        refine (r1 c t hg).frame ?_
        intro k hk
        simp only
        rw [hput, if_neg]
        rintro rfl
        rw [nodeKey_prefix] at hk
        have := hk.length_le
        simp at this; omega
      · intro k hk
        simp only
        rw [hput, if_neg]
        · exact r2 k hk.2 (.inl hk.1)
        · rintro rfl; exact hk.1 (List.prefix_refl _)
    · simp only; rw [htl]
      obtain ⟨x, hx⟩ := hgood.exists_mem
      exact fp.puts.trans (.put (by rwa [htl] at hx) (hgood.under x hx) _ _ _ _)

theorem updateHash_snoc {t : Tree} (ht : nodeHash H t ≠ []) (ph : Hashes) (p0 : Bytes) (c : UInt8) :
    updateHash H t ph (p0 ++ [c]) = ph.put c (nodeHash H t) := by
  simp [updateHash, ht]

theorem rowView_putNode (db : Db NodeRow) (txn : Txn NodeRow) (n : Nat) (key : Option Bytes) (h : Hashes) (kids : Kids)
    (p k : Bytes) : rowView db (putNode txn (.node n key h kids) p) k =
      if k = nodeKey p none then rowOf (.node n key h kids) else rowView db txn k := by
  simp only [putNode, rowOf, rowView]
  rw [getFromDbOrTxn_stagePut]

/-- A single key put into a fresh node. -/
theorem fresh_insert (ord : List UInt8 → List UInt8) (db : Db NodeRow) (n : Nat) (ph : Hashes) (txn : Txn NodeRow)
    (key p : Bytes) (hp : uncompacted ≤ p.length) (hk : p <+: key) :
    nodeInsert H ord db (n + 1) .empty ph txn [key] p.length =
      .ok ⟨.node 1 (some key) OMap.empty [], updateHash H (.node 1 (some key) OMap.empty []) ph p,
        putNode txn (.node 1 (some key) OMap.empty []) p, [true]⟩ := by
  have : key.take p.length = p := (List.prefix_iff_eq_take.1 hk).symm
  simp [nodeInsert, insertLevel, Tree.empty, Tree.isLeaf, hp, leafInsert, remaining, this]

/-- Insertion at a leaf that holds a key. -/
theorem leaf_ok (hH : ∀ x, H x ≠ []) (ord : List UInt8 → List UInt8) (hord : ∀ l, (ord l).Perm l)
    {db : Db NodeRow} {n : Nat} (hrec : InsOK H db n (nodeInsert H ord db n)) (p key : Bytes) (hashes : Hashes)
    (hp : uncompacted ≤ p.length) (hkey : p <+: key) (hst : ∀ c, hashes.get c ≠ none → key[p.length]? = some c)
    (ph : Hashes) (txn : Txn NodeRow) (results : List Bool) (off : Nat) (keys : List Bytes)
    (hks : ∀ k ∈ keys, p <+: k ∧ k.length < p.length + (n + 1) ∧ uncompacted ≤ k.length)
    (hpf : PrefixFree (fun x => x = key ∨ x ∈ keys))
    (hres : ∀ j, off ≤ j → j < off + keys.length → results[j]? = some false) :
    ∃ u, leafInsert H ord (nodeInsert H ord db n) db 1 key hashes [] ph txn p p.length results off keys = .ok u ∧
      u.tree.Good H p ∧ (∀ x, x ∈ u.tree.toList ↔ x = key ∨ x ∈ keys) ∧
      u.tree.items + results.count true = 1 + u.results.count true ∧
      u.results.length = results.length ∧
      ((u.parent = ph ∧ u.tree = .node 1 (some key) hashes []) ∨ u.parent = updateHash H u.tree ph p) ∧
      (∀ Z : Bytes → Prop, (∀ x, x = key ∨ x ∈ keys → Clear Z x) →
        rowView db txn (nodeKey p none) = rowOf (.node 1 (some key) hashes []) →
        u.tree.RowsOK (rowView db u.txn) p ∧ ∀ k, Outside Z p k → rowView db u.txn k = rowView db txn k) ∧
      NewRows db txn u.txn u.tree.toList := by
  have hrm : ∀ j k, (j, k) ∈ remaining off key keys ↔ (k, j) ∈ keys.zipIdx off ∧ k ≠ key := by
    intro j k
    simp only [remaining, List.mem_map, List.mem_filter, Prod.mk.injEq]
    constructor
    · rintro ⟨⟨a, b⟩, ⟨h1, h2⟩, rfl, rfl⟩; exact ⟨h1, by simpa using h2⟩
    · rintro ⟨h1, h2⟩; exact ⟨(k, j), ⟨h1, by simpa using h2⟩, rfl, rfl⟩
  have hrk : ∀ x, (∃ k ∈ remaining off key keys, k.2 = x) ↔ x ∈ keys ∧ x ≠ key := by
    intro x
    constructor
    · rintro ⟨⟨j, k⟩, h, rfl⟩
      have := (hrm j k).1 h
      exact ⟨(List.mem_zipIdx_iff_le_and_getElem?_sub.1 this.1).2 |> List.mem_of_getElem?, this.2⟩
    · rintro ⟨h, hne⟩
      obtain ⟨j, hj⟩ := List.mem_iff_getElem?.1 h
      refine ⟨(off + j, x), (hrm _ _).2 ⟨?_, hne⟩, rfl⟩
      rw [List.mem_zipIdx_iff_le_and_getElem?_sub]
      simp [hj]
  unfold leafInsert
  by_cases hrem : remaining off key keys = []
  · rw [if_pos hrem]
    have hall : ∀ x ∈ keys, x = key := by
      intro x hx
      refine Classical.byContradiction fun hne => ?_
      obtain ⟨k, hk, _⟩ := (hrk x).2 ⟨hx, hne⟩
      rw [hrem] at hk; cases hk
    refine ⟨_, rfl, .leaf p key hashes hp hkey hst, ?_, ?_, rfl, .inl ⟨rfl, rfl⟩, ?_, .refl⟩
    · intro x
      simp only [Tree.toList, Tree.listKids, Option.toList_some, List.append_nil, List.mem_singleton]
      exact ⟨.inl, fun h => h.elim id (hall x)⟩
    · simp [Tree.items]
    · intro _ _ hrow
      refine ⟨.node _ _ _ _ _ hrow (by intro c t h; cases h), fun _ _ => rfl⟩
  · rw [if_neg hrem]
    obtain ⟨k1, hk1⟩ := List.exists_mem_of_ne_nil _ hrem
    obtain ⟨hk1k, hk1ne⟩ := (hrk k1.2).1 ⟨k1, hk1, rfl⟩
    have hlong : ∀ x y, (x = key ∨ x ∈ keys) → (y = key ∨ y ∈ keys) → p <+: x → p <+: y → x ≠ y → p.length < x.length := by
      intro x y hx hy hpx hpy hne
      have hl := hpx.length_le
      rcases Nat.lt_or_ge p.length x.length with h | h
      · exact h
      · have : x = p := (hpx.eq_of_length (by omega)).symm
        subst this
        exact absurd (hpf _ y hx hy hpy) hne
    have hkl : p.length < key.length := hlong key k1.2 (.inl rfl) (.inr hk1k) hkey (hks _ hk1k).1 (Ne.symm hk1ne)
    obtain ⟨c, hc⟩ : ∃ c, key[p.length]? = some c := ⟨key[p.length], List.getElem?_eq_getElem hkl⟩
    have hpc : p ++ [c] <+: key := snoc_prefix hkey hc
    obtain ⟨m, rfl⟩ : ∃ m, n = m + 1 := by
      have h1 := hlong k1.2 key (.inr hk1k) (.inl rfl) (hks _ hk1k).1 hkey hk1ne
      have h2 := (hks _ hk1k).2.1
      exact ⟨n - 1, by omega⟩
    have htake : key.take p.length = p := (List.prefix_iff_eq_take.1 hkey).symm
    have hleafhash : nodeHash H (.node 1 (some key) OMap.empty []) = H key := by simp [nodeHash, Tree.isLeaf]
    have hf := fresh_insert (H := H) ord db m hashes txn key (p ++ [c]) (by simp; omega) hpc
    rw [show (p ++ [c]).length = p.length + 1 by simp, updateHash_snoc (by rw [hleafhash]; exact hH _), hleafhash] at hf
    unfold splitInsert
    rw [hc]
    simp only
    rw [hf]
    simp only [OMapL.put, hleafhash, htake]
    let hashes' := (hashes.put c (H key)).put c (H key)
    let kids' : Kids := [(c, Tree.node 1 (some key) OMap.empty [])]
    have hget' : ∀ d, OMapL.get d kids' = if d = c then some (Tree.node 1 (some key) OMap.empty []) else none := by
      intro d; rw [OMapL.get_cons]; rfl
    have hok : KidsOK H p hashes' kids' := by
      refine ⟨by simp [Sorted, kids'], ?_, ?_⟩
      · intro d t hd
        rw [hget'] at hd
        split at hd
        · rename_i e; subst e; injection hd with hd; subst hd
          exact .leaf _ _ _ (by simp; omega) hpc (by intro d hd; simp at hd)
        · cases hd
      · intro d
        rw [hget']
        simp only [hashes', OMap.get_put]
        by_cases e : d = c
        · simp [e, hleafhash]
        · simp only [if_neg e, Option.map_none]
          cases hd : hashes.get d with
          | none => rfl
          | some v =>
            have := hst d (by rw [hd]; simp)
            rw [hc] at this; injection this with this; exact absurd this.symm e
    have hlist : ∀ x, x ∈ Tree.listKids kids' ↔ x = key := by
      intro x; simp [kids', Tree.listKids, Tree.toList]
    have hmem : ∀ x, (x ∈ Tree.listKids kids' ∨ ∃ k ∈ remaining off key keys, k.2 = x) ↔ (x = key ∨ x ∈ keys) := by
      intro x
      rw [hlist, hrk]
      by_cases e : x = key <;> simp [e]
    have hti : totalItems kids' = 1 := by simp [totalItems, kids', Tree.items]
    obtain ⟨u, hu, g, mm, it, _, len, par0, par1, rows, puts⟩ := below_ok ord hord hrec p hashes' kids' ph
      (putNode (putNode txn (.node 1 (some key) OMap.empty []) (p ++ [c])) (.node 1 none hashes' kids') p) results
      (remaining off key keys) hrem
      (by
        intro k hk
        obtain ⟨h1, h2⟩ := (hrk k.2).1 ⟨k, hk, rfl⟩
        obtain ⟨h3, h4, h5⟩ := hks _ h1
        exact ⟨h3, hlong k.2 key (.inr h1) (.inl rfl) h3 hkey h2, h4, h5⟩)
      (by
        have hsub : (remaining off key keys).map (·.1) = ((keys.zipIdx off).filter (fun k => k.1 != key)).map (·.2) := by
          simp [remaining, List.map_map]
        rw [hsub]
        refine List.Sublist.nodup (List.Sublist.map _ List.filter_sublist) ?_
        rw [List.zipIdx_map_snd]
        exact List.nodup_range')
      hok
      (by
        intro a b ha hb
        exact hpf a b ((hmem a).1 ha) ((hmem b).1 hb))
      (by
        rintro ⟨j, k⟩ hk
        have := (List.mem_zipIdx_iff_le_and_getElem?_sub.1 ((hrm j k).1 hk).1)
        have h2 := (List.getElem?_eq_some_iff.1 this.2).1
        exact hres j this.1 (by have := this.1; simp only at *; omega))
      (by
        intro _
        exact ⟨key, k1.2, Ne.symm hk1ne, (hmem _).2 (.inl rfl), (hmem _).2 (.inr hk1k)⟩)
    rw [hti] at hu
    refine ⟨u, hu, g, fun x => (mm x).trans (hmem x), by rw [hti] at it; omega, len, ?_, ?_, ?_⟩
    · right
      apply par1
      intro e
      -- no success is impossible: at least two keys are present
      have hg := Tree.Good.length_le_of_subset (l := [key, k1.2]) (m := u.tree.toList) (by simp [Ne.symm hk1ne])
        (by
          intro z hz
          simp at hz
          rcases hz with rfl | rfl
          · exact (mm _).2 ((hmem _).2 (.inl rfl))
          · exact (mm _).2 ((hmem _).2 (.inr hk1k)))
      rw [g.counts.2] at hg
      simp at hg
      omega
    · intro Z h8 hrow
      obtain ⟨r1, r2⟩ := rows Z (fun x hx => h8 x ((hmem x).1 hx))
        (by intro _; rw [rowView_putNode, if_pos rfl, hti])
        (by
          intro d t hd
          rw [hget'] at hd
          split at hd
          · rename_i e; subst e; injection hd with hd; subst hd
            refine .node _ _ _ _ _ ?_ (by intro c t h; cases h)
            rw [rowView_putNode, if_neg (by simp [nodeKey]), rowView_putNode, if_pos rfl]
          · cases hd)
      refine ⟨r1, ?_⟩
      intro k hk
      rw [r2 k hk, rowView_putNode, if_neg (by rintro rfl; exact hk.1 (List.prefix_refl _)), rowView_putNode, if_neg]
      rintro rfl
      exact hk.1 (nodeKey_prefix.2 (List.prefix_append p [c]))
    · have hkm : key ∈ u.tree.toList := (mm _).2 ((hmem _).2 (.inl rfl))
      exact ((NewRows.put hkm hpc _ _ _ _).trans (.put hkm hkey _ _ _ _)).trans puts

/-- **Insertion is correct.** -/
theorem insert_ok (hH : ∀ x, H x ≠ []) (ord : List UInt8 → List UInt8) (hord : ∀ l, (ord l).Perm l) (db : Db NodeRow)
    (n : Nat) : InsOK H db n (nodeInsert H ord db n) := by
  induction n with
  | zero =>
    intro p t ph txn ks _ pre
    obtain ⟨k, hk⟩ := List.exists_mem_of_ne_nil _ pre.ne
    obtain ⟨h1, h2, _⟩ := pre.keys k hk
    have := h1.length_le
    omega
  | succ n ih =>
    intro p t ph txn ks ht pre
    obtain ⟨k0, rest, rfl⟩ : ∃ k0 rest, ks = k0 :: rest := by
      cases ks with
      | nil => exact absurd rfl pre.ne
      | cons a b => exact ⟨a, b, rfl⟩
    have htake : k0.take p.length = p := (List.prefix_iff_eq_take.1 (pre.keys k0 (by simp)).1).symm
    have hcount0 : ((k0 :: rest).map (fun _ => false)).count true = 0 := by
      rw [List.count_eq_zero]; simp
    -- the loop that goes straight to the children
    have below : ∀ (hashes : Hashes) (kids : Kids), KidsOK H p hashes kids → (uncompacted ≤ p.length → 2 ≤ totalItems kids) →
        (kids = [] → t = .empty) → (kids ≠ [] → t = .node (totalItems kids) none hashes kids) →
        (∀ x, x ∈ t.toList ↔ x ∈ Tree.listKids kids) → t.items = totalItems kids →
        ∃ u, insertBelow H ord (nodeInsert H ord db n) db (totalItems kids) none hashes kids ph txn p p.length
          ((k0 :: rest).map (fun _ => false)) ((k0 :: rest).zipIdx.map (fun k => (k.2, k.1))) = .ok u ∧
          InsPost H db p t ph txn (k0 :: rest) u := by
      intro hashes kids hok htwo ht0 ht1 hml hti
      have hrk : ∀ x, (∃ k ∈ (k0 :: rest).zipIdx.map (fun k => (k.2, k.1)), k.2 = x) ↔ x ∈ k0 :: rest := by
        intro x
        constructor
        · rintro ⟨k, hk, rfl⟩
          obtain ⟨⟨a, j⟩, hz, rfl⟩ := List.mem_map.1 hk
          exact List.mem_of_getElem? (i := j) (List.mem_zipIdx_iff_getElem?.1 hz)
        · intro h
          obtain ⟨j, hj⟩ := List.mem_iff_getElem?.1 h
          exact ⟨(j, x), List.mem_map.2 ⟨(x, j), List.mem_zipIdx_iff_getElem?.2 hj, rfl⟩, rfl⟩
      have hmem : ∀ x, (x ∈ Tree.listKids kids ∨ ∃ k ∈ (k0 :: rest).zipIdx.map (fun k => (k.2, k.1)), k.2 = x) ↔
          (x ∈ t.toList ∨ x ∈ k0 :: rest) := by
        intro x; rw [hrk, hml]
      have hcounts := Tree.Good.listKids_counts (p := p) hok.sorted
        (fun c t h => (hok.good c t ((OMapL.get_eq_some_iff hok.sorted).2 h)).under)
        (fun c t h => (hok.good c t ((OMapL.get_eq_some_iff hok.sorted).2 h)).counts)
      obtain ⟨u, hu, g, mm, it, _, len, par0, par1, rows, puts⟩ := below_ok ord hord ih p hashes kids ph txn
        ((k0 :: rest).map (fun _ => false)) ((k0 :: rest).zipIdx.map (fun k => (k.2, k.1))) (by simp)
        (by
          intro k hk
          have hx := (hrk k.2).1 ⟨k, hk, rfl⟩
          obtain ⟨h3, h4, h5⟩ := pre.keys _ hx
          refine ⟨h3, ?_, h4, h5⟩
          rcases Nat.lt_or_ge p.length k.2.length with h | h
          · exact h
          · exfalso
            have e : k.2 = p := (h3.eq_of_length (by have := h3.length_le; omega)).symm
            rcases Nat.lt_or_ge p.length uncompacted with h' | h'
            · rw [e] at h5; omega
            · have h2 := htwo h'
              rw [← hcounts.2] at h2
              obtain ⟨a, ha⟩ : ∃ a, a ∈ Tree.listKids kids := by
                cases hl : Tree.listKids kids with
                | nil => rw [hl] at h2; simp at h2
                | cons a b => exact ⟨a, by simp⟩
              obtain ⟨c, s, hg, hs⟩ := (Tree.mem_listKids_get hok.sorted).1 ha
              have hpa := (hok.good c s hg).under a hs
              have := pre.pf p a (.inr (e ▸ hx)) (.inl ((hml a).2 ha)) (prefix_of_snoc hpa)
              subst this
              have := hpa.length_le
              simp at this; omega)
        (by
          rw [List.map_map]
          have : ((k0 :: rest).zipIdx.map ((fun x : Nat × Bytes => x.1) ∘ fun k : Bytes × Nat => (k.2, k.1))) =
            (k0 :: rest).zipIdx.map (·.2) := rfl
          rw [this, List.zipIdx_map_snd]
          exact List.nodup_range')
        hok
        (by
          intro a b ha hb
          exact pre.pf a b ((hmem a).1 ha) ((hmem b).1 hb))
        (by
          intro k hk
          obtain ⟨⟨a, j⟩, hz, rfl⟩ := List.mem_map.1 hk
          have := List.mem_zipIdx_iff_getElem?.1 hz
          simp only [List.getElem?_map, this, Option.map_some])
        (by
          intro hp
          have h2 := htwo hp
          rw [← hcounts.2] at h2
          cases hl : Tree.listKids kids with
          | nil => rw [hl] at h2; simp at h2
          | cons a l => cases l with
            | nil => rw [hl] at h2; simp at h2
            | cons b l =>
              refine ⟨a, b, ?_, .inl (by simp), .inl (by simp)⟩
              have := hcounts.1
              rw [hl] at this
              rintro rfl
              simp at this)
      refine ⟨u, hu, g, fun x => (mm x).trans (hmem x), by rw [hcount0] at it; omega, by simpa using len, ?_, ?_, puts⟩
      · intro p0 c e hph
        by_cases h0 : u.results.count true = 0
        · obtain ⟨e1, e2, e3⟩ := par0 (by rw [h0, hcount0])
          rw [e1, e3, ← ht1 e2]
          have hg : t.Good H p := by
            rw [ht1 e2]; exact .inner p hashes kids e2 hok.sorted hok.good hok.hashes htwo
          apply OMap.ext
          intro d
          rw [OMap.get_put]
          split
          · rename_i e; subst e; exact hph hg
          · rfl
        · rw [par1 (by rw [hcount0]; exact h0)]
          subst e
          exact updateHash_snoc (g.hash_ne hH) ph p0 c
      · intro Z h8 hrows
        have hgood : kids ≠ [] → t.Good H p := by
          intro e2
          rw [ht1 e2]; exact .inner p hashes kids e2 hok.sorted hok.good hok.hashes htwo
        refine rows Z (fun x hx => h8 x ((hmem x).1 hx)) ?_ ?_
        · intro e2
          have := hrows (hgood e2)
          rw [ht1 e2] at this
          cases this
          assumption
        · intro c s hg
          have e2 : kids ≠ [] := by rintro rfl; cases hg
          have := hrows (hgood e2)
          rw [ht1 e2] at this
          cases this with
          | node _ _ _ _ _ _ h => exact h c s hg
    rcases ht with rfl | hg
    · by_cases hp : uncompacted ≤ p.length
      · -- a fresh leaf
        have hl : (k0 :: rest).dropLast ++ [(k0 :: rest).getLast (by simp)] = k0 :: rest :=
          List.dropLast_concat_getLast (by simp)
        generalize hk : (k0 :: rest).getLast (by simp) = k at hl
        have hkm : k ∈ k0 :: rest := by rw [← hl]; simp
        have hall : ∀ x, (x = k ∨ x ∈ (k0 :: rest).dropLast) ↔ x ∈ k0 :: rest := by
          intro x
          have : x ∈ k0 :: rest ↔ x ∈ (k0 :: rest).dropLast ++ [k] := by rw [hl]
          rw [this]; simp only [List.mem_append, List.mem_singleton]; exact or_comm
        have hres1 : (((k0 :: rest).map (fun _ => false)).set 0 true).count true = 1 := by
          have : (rest.map (fun _ => false)).count true = 0 := by rw [List.count_eq_zero]; simp
          simp only [List.map_cons, List.set_cons_zero, List.count_cons_self]
          omega
        obtain ⟨u, hu, g, mm, it, len, par, rows, puts⟩ := leaf_ok hH ord hord ih p k OMap.empty hp (pre.keys k hkm).1
          (by intro c h; simp at h) (updateHash H (.node 1 (some k) OMap.empty []) ph p)
          (putNode txn (.node 1 (some k) OMap.empty []) p) (((k0 :: rest).map (fun _ => false)).set 0 true) 1
          (k0 :: rest).dropLast (fun x hx => pre.keys x ((hall x).1 (.inr hx)))
          (by
            intro a b ha hb
            exact pre.pf a b (.inr ((hall a).1 ha)) (.inr ((hall b).1 hb)))
          (by
            intro j h1 h2
            rw [List.length_dropLast] at h2
            rw [List.getElem?_set_ne (by omega), List.getElem?_map, List.getElem?_eq_getElem (by omega)]
            rfl)
        refine ⟨u, ?_, g, ?_, ?_, by simpa using len, ?_, ?_, (NewRows.put ((mm k).2 (.inl rfl)) (pre.keys k hkm).1 _ _ _ _).trans puts⟩
        · simp only [nodeInsert, insertLevel, Tree.empty]
          rw [if_pos ⟨hp, rfl⟩]
          simp only [hk, htake, Nat.zero_add]
          exact hu
        · intro x; rw [mm, hall]; simp
        · simp only [items_empty]; omega
        · intro p0 c e _
          subst e
          have hlh : nodeHash H (.node 1 (some k) OMap.empty []) ≠ [] := by simp [nodeHash, Tree.isLeaf, hH]
          rw [updateHash_snoc hlh] at par
          rcases par with ⟨h1, h2⟩ | h
          · rw [h1, h2]
          · rw [h, updateHash_snoc (g.hash_ne hH)]
            apply OMap.ext
            intro d
            simp only [OMap.get_put]
            split <;> rfl
        · intro Z h8 _
          obtain ⟨r1, r2⟩ := rows Z (fun x hx => h8 x (.inr ((hall x).1 hx)))
            (by rw [rowView_putNode, if_pos rfl])
          refine ⟨r1, ?_⟩
          intro q hq
          rw [r2 q hq, rowView_putNode, if_neg]
          rintro rfl; exact hq.1 (List.prefix_refl _)
      · -- a fresh inner node
        obtain ⟨u, hu, post⟩ := below OMap.empty [] ⟨List.Pairwise.nil, (by intro c t h; cases h), (by intro c; rfl)⟩
          (fun h => absurd h hp) (fun _ => rfl) (fun h => absurd rfl h) (fun _ => Iff.rfl) rfl
        refine ⟨u, ?_, post⟩
        simp only [nodeInsert, insertLevel, Tree.empty]
        rw [if_neg (by rintro ⟨h, _⟩; exact hp h), htake]
        exact hu
    · cases hg with
      | leaf _ k hashes hp hk hst =>
        obtain ⟨u, hu, g, mm, it, len, par, rows, puts⟩ := leaf_ok hH ord hord ih p k hashes hp hk hst ph txn
          ((k0 :: rest).map (fun _ => false)) 0 (k0 :: rest) pre.keys
          (by
            intro a b ha hb
            have hx : ∀ x, (x = k ∨ x ∈ k0 :: rest) → (x ∈ (Tree.node 1 (some k) hashes []).toList ∨ x ∈ k0 :: rest) := by
              intro x; simp only [Tree.toList, Tree.listKids, Option.toList_some, List.append_nil, List.mem_singleton]; exact id
            exact pre.pf a b (hx a ha) (hx b hb))
          (by
            intro j _ h2
            rw [List.getElem?_map, List.getElem?_eq_getElem (by omega)]; rfl)
        have hx : ∀ x, (x ∈ (Tree.node 1 (some k) hashes []).toList ∨ x ∈ k0 :: rest) ↔ (x = k ∨ x ∈ k0 :: rest) := by
          intro x; simp only [Tree.toList, Tree.listKids, Option.toList_some, List.append_nil, List.mem_singleton]
        refine ⟨u, ?_, g, ?_, ?_, by simpa using len, ?_, ?_, puts⟩
        · simp only [nodeInsert, insertLevel]
          rw [if_pos ⟨hp, rfl⟩, htake]
          exact hu
        · intro x; rw [mm, hx]
        · rw [hcount0] at it; simp only [Tree.items] at *; omega
        · intro p0 c e hph
          subst e
          rcases par with ⟨h1, h2⟩ | h
          · rw [h1, h2]
            apply OMap.ext
            intro d
            rw [OMap.get_put]
            split
            · rename_i e; subst e; exact hph (.leaf _ k hashes hp hk hst)
            · rfl
          · rw [h, updateHash_snoc (g.hash_ne hH)]
        · intro Z h8 hrows
          refine rows Z (fun x h => h8 x ((hx x).2 h)) ?_
          have := hrows (.leaf _ k hashes hp hk hst)
          cases this
          assumption
      | inner _ hashes kids hne hs hk hh h2 =>
        obtain ⟨u, hu, post⟩ := below hashes kids ⟨hs, hk, hh⟩ h2 (fun h => absurd h hne) (fun _ => rfl)
          (fun x => by simp [Tree.toList]) rfl
        refine ⟨u, ?_, post⟩
        have hl : Tree.isLeaf kids = false := by cases kids; exact absurd rfl hne; rfl
        simp only [nodeInsert, insertLevel]
        rw [if_neg (by rw [hl]; simp), htake]
        exact hu

end Verif
