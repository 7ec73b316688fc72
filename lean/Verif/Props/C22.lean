import Verif.Lemmas.TrieReads
import Verif.Case.Trie
/-!
C22: different entry sets have different roots, unless the hash function collides on two of the values that were
hashed.  Hashes have 20 bytes (blake3 cut to 20) and no key has a length that is a multiple of ten bytes; the keys
the node makes have 26 or 42 bytes (C25).  (An inner node hashes the concatenation of its children's hashes and a
leaf its nibbles: with a key length that is a multiple of ten bytes the two could be confused.)
-/
namespace Verif
open OMapL

mutual
/-- The values hashed to compute the hash of a node. -/
def Tree.hashed : Tree → List Bytes
  | .stored => []
  | .node _ key hashes kids => if Tree.isLeaf kids then key.toList else concatHashes hashes :: Tree.hashedKids kids
/-- The values hashed below the children. -/
def Tree.hashedKids : List (UInt8 × Tree) → List Bytes
  | [] => []
  | (_, t) :: rest => t.hashed ++ Tree.hashedKids rest
end

/-- The values hashed to compute the root hash of a state. -/
def TrieState.hashed (s : TrieState) : List Bytes := (s.root.map Tree.hashed).getD []

variable {H : Bytes → Bytes}

theorem sorted_rows_eq {h : Hashes} {kids : Kids} (hs : Sorted kids) (hh : ∀ c, h.get c = (OMapL.get c kids).map (nodeHash H)) :
    h.rows = kids.map (fun x => (x.1, nodeHash H x.2)) := by
  have key : ∀ (l : Kids) (c : UInt8), OMapL.get c (l.map (fun x => (x.1, nodeHash H x.2))) = (OMapL.get c l).map (nodeHash H) := by
    intro l c
    induction l with
    | nil => rfl
    | cons a l ih =>
      obtain ⟨k, t⟩ := a
      simp only [List.map_cons, OMapL.get]
      split
      · exact ih
      · rfl
  have hs' : Sorted (kids.map (fun x => (x.1, nodeHash H x.2))) := by
    unfold Sorted at *
    rw [List.pairwise_map]
    exact hs.imp (fun h => h)
  have := OMap.ext (m := h) (n := ⟨_, hs'⟩) (fun c => by
    rw [hh c]
    exact (key kids c).symm)
  rw [this]

theorem mem_hashedKids {kids : Kids} {c : UInt8} {t : Tree} (h : (c, t) ∈ kids) : ∀ x ∈ t.hashed, x ∈ Tree.hashedKids kids := by
  induction kids with
  | nil => cases h
  | cons a l ih =>
    intro x hx
    rcases List.mem_cons.1 h with rfl | h1
    · simp [Tree.hashedKids, hx]
    · obtain ⟨c', t'⟩ := a
      simp only [Tree.hashedKids, List.mem_append]
      exact .inr (ih h1 x hx)

/-- Splitting a concatenation of blocks of equal length. -/
theorem flatMap_inj {α β : Type} {f : α → Bytes} {g : β → Bytes} {l : List α} {m : List β} {n : Nat} (hn : 0 < n)
    (hf : ∀ a ∈ l, (f a).length = n) (hg : ∀ b ∈ m, (g b).length = n) (h : l.flatMap f = m.flatMap g) :
    l.map f = m.map g := by
  induction l generalizing m with
  | nil =>
    cases m with
    | nil => rfl
    | cons b m =>
      have := congrArg List.length h
      have hb := hg b (by simp)
      simp [hb] at this; omega
  | cons a l ih =>
    cases m with
    | nil =>
      have := congrArg List.length h
      have ha := hf a (by simp)
      simp [ha] at this; omega
    | cons b m =>
      simp only [List.flatMap_cons] at h
      have ha := hf a (by simp); have hb := hg b (by simp)
      obtain ⟨h1, h2⟩ := List.append_inj h (by rw [ha, hb])
      simp only [List.map_cons, h1, ih (fun x hx => hf x (by simp [hx])) (fun x hx => hg x (by simp [hx])) h2]

/-- Equal hashes, equal keys. -/
theorem good_injective (hlen : ∀ x, (H x).length = 20) {p p' : Bytes} {t t' : Tree} (h : t.Good H p) (h' : t'.Good H p')
    (hk : ∀ x ∈ t.toList, x.length % 20 ≠ 0) (hk' : ∀ x ∈ t'.toList, x.length % 20 ≠ 0)
    (hinj : ∀ x ∈ t.hashed, ∀ y ∈ t'.hashed, H x = H y → x = y)
    (he : nodeHash H t = nodeHash H t') : t.toList = t'.toList := by
  have hne : ∀ x, H x ≠ [] := fun x e => by have := hlen x; rw [e] at this; cases this
  have hlen' : ∀ {p t}, Tree.Good H p t → (nodeHash H t).length = 20 := by
    intro p t h
    have := h.hash_ne hne
    obtain ⟨n, k, hs, kids, rfl⟩ := h.is_node
    simp only [nodeHash] at this ⊢
    split
    · rename_i hl; rw [if_pos hl] at this
      cases k with
      | none => exact absurd rfl this
      | some k => exact hlen k
    · rename_i hl; rw [if_neg hl] at this
      split
      · rename_i hr; rw [if_pos hr] at this; exact absurd rfl this
      · exact hlen _
  induction h generalizing p' t' with
  | leaf p k hashes hp hkp hh =>
    have e1 : nodeHash H (.node 1 (some k) hashes []) = H k := by simp [nodeHash, Tree.isLeaf]
    rw [e1] at he
    have hks : k ∈ (Tree.node 1 (some k) hashes []).hashed := by simp [Tree.hashed, Tree.isLeaf]
    have hk20 := hk k (by simp [Tree.toList])
    cases h' with
    | leaf _ k' hashes' _ _ _ =>
      have e2 : nodeHash H (.node 1 (some k') hashes' []) = H k' := by simp [nodeHash, Tree.isLeaf]
      rw [e2] at he
      have := hinj k hks k' (by simp [Tree.hashed, Tree.isLeaf]) he
      subst this
      simp [Tree.toList, Tree.listKids]
    | inner _ hashes' kids' hne' hs' hkk' hh' h2' =>
      exfalso
      have hg' := Tree.Good.inner (H := H) p' hashes' kids' hne' hs' hkk' hh' h2'
      have hrows := sorted_rows_eq hs' hh'
      have hr : hashes'.rows ≠ [] := by rw [hrows]; simpa using hne'
      have e2 : nodeHash H (.node (totalItems kids') none hashes' kids') = H (concatHashes hashes') := by
        simp [nodeHash, isLeaf_false hne', hr]
      rw [e2] at he
      have := hinj k hks _ (by simp [Tree.hashed, isLeaf_false hne']) he
      rw [this] at hk20
      apply hk20
      unfold concatHashes
      rw [hrows]
      have : ∀ l : Kids, (∀ x ∈ l, (nodeHash H x.2).length = 20) →
          ((l.map (fun x => (x.1, nodeHash H x.2))).flatMap (·.2)).length % 20 = 0 := by
        intro l hl
        induction l with
        | nil => rfl
        | cons a l ih =>
          have h1 := hl a (by simp)
          have h2 := ih (fun x hx => hl x (by simp [hx]))
          simp only [List.map_cons, List.flatMap_cons, List.length_append, h1]
          omega
      exact this kids' (fun x hx => hlen' (hkk' x.1 x.2 ((OMapL.get_eq_some_iff hs').2 hx)))
  | inner p hashes kids hne' hs hkk hh h2 ih =>
    have hrows := sorted_rows_eq hs hh
    have hr : hashes.rows ≠ [] := by rw [hrows]; simpa using hne'
    have e1 : nodeHash H (.node (totalItems kids) none hashes kids) = H (concatHashes hashes) := by
      simp [nodeHash, isLeaf_false hne', hr]
    rw [e1] at he
    have hin : concatHashes hashes ∈ (Tree.node (totalItems kids) none hashes kids).hashed := by
      simp [Tree.hashed, isLeaf_false hne']
    cases h' with
    | leaf _ k hashes' _ _ _ =>
      exfalso
      have e2 : nodeHash H (.node 1 (some k) hashes' []) = H k := by simp [nodeHash, Tree.isLeaf]
      rw [e2] at he
      have := hinj _ hin k (by simp [Tree.hashed, Tree.isLeaf]) he
      have hk20 := hk' k (by simp [Tree.toList])
      rw [← this] at hk20
      apply hk20
      unfold concatHashes
      rw [hrows]
      have : ∀ l : Kids, (∀ x ∈ l, (nodeHash H x.2).length = 20) →
          ((l.map (fun x => (x.1, nodeHash H x.2))).flatMap (·.2)).length % 20 = 0 := by
        intro l hl
        induction l with
        | nil => rfl
        | cons a l ih =>
          have h1 := hl a (by simp)
          have h2 := ih (fun x hx => hl x (by simp [hx]))
          simp only [List.map_cons, List.flatMap_cons, List.length_append, h1]
          omega
      exact this kids (fun x hx => hlen' (hkk x.1 x.2 ((OMapL.get_eq_some_iff hs).2 hx)))
    | inner _ hashes' kids' hne'' hs' hkk' hh' h2' =>
      have hrows' := sorted_rows_eq hs' hh'
      have hr' : hashes'.rows ≠ [] := by rw [hrows']; simpa using hne''
      have e2 : nodeHash H (.node (totalItems kids') none hashes' kids') = H (concatHashes hashes') := by
        simp [nodeHash, isLeaf_false hne'', hr']
      rw [e2] at he
      have hc := hinj _ hin _ (by simp [Tree.hashed, isLeaf_false hne'']) he
      unfold concatHashes at hc
      rw [hrows, hrows', List.flatMap_map, List.flatMap_map] at hc
      have hmap := flatMap_inj (n := 20) (by decide)
        (fun x hx => hlen' (hkk x.1 x.2 ((OMapL.get_eq_some_iff hs).2 hx)))
        (fun x hx => hlen' (hkk' x.1 x.2 ((OMapL.get_eq_some_iff hs').2 hx))) hc
      simp only [Tree.toList, Option.toList_none, List.nil_append] at hk hk' ⊢
      have hz : ∀ (l l' : Kids), (∀ x, x ∈ l → x ∈ kids) → (∀ x, x ∈ l' → x ∈ kids') →
          l.map (fun x => nodeHash H x.2) = l'.map (fun x => nodeHash H x.2) → Tree.listKids l = Tree.listKids l' := by
        intro l
        induction l with
        | nil =>
          intro l' _ _ e
          cases l' with
          | nil => rfl
          | cons => simp at e
        | cons a l ihl =>
          intro l' hsub hsub' e
          cases l' with
          | nil => simp at e
          | cons b l' =>
            obtain ⟨c, t⟩ := a
            obtain ⟨c', t'⟩ := b
            simp only [List.map_cons, List.cons.injEq] at e
            have hm := hsub (c, t) (by simp)
            have hm' := hsub' (c', t') (by simp)
            have hg := (OMapL.get_eq_some_iff hs).2 hm
            have hg' := (OMapL.get_eq_some_iff hs').2 hm'
            have := ih c t hg (hkk' c' t' hg')
              (fun x hx => hk x ((Tree.mem_listKids_get hs).2 ⟨c, t, hg, hx⟩))
              (fun x hx => hk' x ((Tree.mem_listKids_get hs').2 ⟨c', t', hg', hx⟩))
              (fun x hx y hy => hinj x (by
                  simp only [Tree.hashed, isLeaf_false hne', Bool.false_eq_true, if_false]
                  exact List.mem_cons_of_mem _ (mem_hashedKids hm x hx)) y (by
                  simp only [Tree.hashed, isLeaf_false hne'', Bool.false_eq_true, if_false]
                  exact List.mem_cons_of_mem _ (mem_hashedKids hm' y hy))) e.1
            simp only [Tree.listKids, this]
            rw [ihl l' (fun x hx => hsub x (by simp [hx])) (fun x hx => hsub' x (by simp [hx])) e.2]
      exact hz kids kids' (fun _ h => h) (fun _ h => h) hmap

theorem C22_different_sets_different_roots (H : Bytes → Bytes) (hlen : ∀ x, (H x).length = 20) (ops ops' : List TrieOp)
    (wf : WellFormedHistory ops) (wf' : WellFormedHistory ops') (hr : ∀ op ∈ ops, ¬ op.IsReload)
    (hr' : ∀ op ∈ ops', ¬ op.IsReload) (ten : ∀ k ∈ historyKeys ops ++ historyKeys ops', k.length % 10 ≠ 0)
    (different : ¬ ∀ k, k ∈ keysAfter ops ↔ k ∈ keysAfter ops') :
    ∃ s s' root root', TrieState.new.run H ops = .ok s ∧ TrieState.new.run H ops' = .ok s' ∧
      s.rootHash H = .ok root ∧ s'.rootHash H = .ok root' ∧
      (root ≠ root' ∨ ∃ x ∈ s.hashed, ∃ y ∈ s'.hashed, x ≠ y ∧ H x = H y) := by
  have hH : ∀ x, H x ≠ [] := fun x e => by have := hlen x; rw [e] at this; cases this
  obtain ⟨s, h1, ⟨t, hr1, hf1, hh1⟩, hin1⟩ := full_history hH wf hr
  obtain ⟨s', h2, ⟨t', hr2, hf2, hh2⟩, hin2⟩ := full_history hH wf' hr'
  refine ⟨s, s', nodeHash H t, nodeHash H t', h1, h2, by simp only [TrieState.rootHash, hr1],
    by simp only [TrieState.rootHash, hr2], ?_⟩
  refine Classical.byContradiction fun hcon => ?_
  have he : nodeHash H t = nodeHash H t' := Classical.byContradiction fun h => hcon (.inl h)
  have hinj : ∀ x ∈ t.hashed, ∀ y ∈ t'.hashed, H x = H y → x = y := by
    intro x hx y hy e
    refine Classical.byContradiction fun hne => hcon (.inr ⟨x, ?_, y, ?_, hne, e⟩)
    · simpa [TrieState.hashed, hr1] using hx
    · simpa [TrieState.hashed, hr2] using hy
  apply different
  have hempty : nodeHash H Tree.empty = [] := rfl
  have hlist : t.toList = t'.toList := by
    rcases hf1 with rfl | g1
    · rcases hf2 with rfl | g2
      · rfl
      · exact absurd he.symm (g2.hash_ne hH)
    · rcases hf2 with rfl | g2
      · exact absurd he (g1.hash_ne hH)
      · refine good_injective hlen g1 g2 ?_ ?_ hinj he
        · intro x hx
          obtain ⟨k, hk, rfl⟩ := (hh1.2 x).1 hx
          have := ten k (List.mem_append_left _ (hin1 k hk))
          rw [expandNibbles_length]; omega
        · intro x hx
          obtain ⟨k, hk, rfl⟩ := (hh2.2 x).1 hx
          have := ten k (List.mem_append_right _ (hin2 k hk))
          rw [expandNibbles_length]; omega
  intro k
  constructor
  · intro hk
    have := (hh1.2 (expandNibbles k)).2 ⟨k, hk, rfl⟩
    rw [hlist] at this
    obtain ⟨k', h3, h4⟩ := (hh2.2 _).1 this
    rw [← expandNibbles_inj h4]; exact h3
  · intro hk
    have := (hh2.2 (expandNibbles k)).2 ⟨k, hk, rfl⟩
    rw [← hlist] at this
    obtain ⟨k', h3, h4⟩ := (hh1.2 _).1 this
    rw [← expandNibbles_inj h4]; exact h3

-- two small tries, with a hash that does not collide on what they hash: their roots differ
example : ∃ s s' root root', TrieState.new.run toyHash caseHistory = .ok s ∧
    TrieState.new.run toyHash [.insert id [caseKey1, caseKey2]] = .ok s' ∧
    s.rootHash toyHash = .ok root ∧ s'.rootHash toyHash = .ok root' ∧
    (root ≠ root' ∨ ∃ x ∈ s.hashed, ∃ y ∈ s'.hashed, x ≠ y ∧ toyHash x = toyHash y) := by
  refine C22_different_sets_different_roots toyHash (by intro x; simp [toyHash]) caseHistory _ caseHistory_wf
    ⟨by decide, by decide, ?_⟩ caseHistory_noReload ?_ (by decide) ?_
  · intro op h; simp at h; subst h; exact fair_id
  · intro op h; simp at h; subst h; exact id
  · intro h
    have := (h caseKey2).2 (by decide)
    revert this
    decide

end Verif
