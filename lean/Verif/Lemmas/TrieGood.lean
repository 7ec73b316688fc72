import Verif.Model.Trie
import Verif.Lemmas.KV
/-! Canonical tries: their keys, their counts and the uniqueness of their hashes. -/
namespace Verif
open OMapL

theorem OMapL.get_put {K V : Type} [StrictOrd K] [DecidableEq K] {k j : K} {v : V} {l : List (K × V)} :
    OMapL.get j (OMapL.put k v l) = if j = k then some v else OMapL.get j l := by
  by_cases h : j = k
  · subst h; simp [OMapL.get_put_self]
  · simp [h, OMapL.get_put_ne h]

theorem OMapL.get_del {K V : Type} [StrictOrd K] [DecidableEq K] {k j : K} {l : List (K × V)} :
    OMapL.get j (OMapL.del k l) = if j = k then none else OMapL.get j l := by
  by_cases h : j = k
  · subst h; simp [OMapL.get_del_self]
  · simp [h, OMapL.get_del_ne h]

theorem OMapL.eq_nil_iff {K V : Type} [StrictOrd K] {l : List (K × V)} : l = [] ↔ ∀ k, OMapL.get k l = none := by
  constructor
  · rintro rfl _; rfl
  · intro h
    cases l with
    | nil => rfl
    | cons a m => obtain ⟨k, v⟩ := a; have := h k; simp [OMapL.get, StrictOrd.irrefl] at this

mutual
/-- The keys held below a node, in ascending order of path. -/
def Tree.toList : Tree → List Bytes
  | .stored => []
  | .node _ key _ kids => key.toList ++ Tree.listKids kids
/-- The keys held below the children. -/
def Tree.listKids : List (UInt8 × Tree) → List Bytes
  | [] => []
  | (_, t) :: rest => t.toList ++ Tree.listKids rest
end

theorem Tree.mem_listKids {kids : Kids} {x : Bytes} : x ∈ Tree.listKids kids ↔ ∃ c t, (c, t) ∈ kids ∧ x ∈ t.toList := by
  induction kids with
  | nil => simp [Tree.listKids]
  | cons a m ih =>
    obtain ⟨c, t⟩ := a
    simp only [Tree.listKids, List.mem_append, ih, List.mem_cons, Prod.mk.injEq]
    constructor
    · rintro (h | ⟨c', t', h, h'⟩)
      · exact ⟨c, t, .inl ⟨rfl, rfl⟩, h⟩
      · exact ⟨c', t', .inr h, h'⟩
    · rintro ⟨c', t', ⟨rfl, rfl⟩ | h, h'⟩
      · exact .inl h'
      · exact .inr ⟨c', t', h, h'⟩

theorem Tree.mem_listKids_get {kids : Kids} (hs : Sorted kids) {x : Bytes} :
    x ∈ Tree.listKids kids ↔ ∃ c t, OMapL.get c kids = some t ∧ x ∈ t.toList := by
  simp only [mem_listKids, OMapL.get_eq_some_iff hs]

/-- Total number of items of the children. -/
def totalItems (kids : Kids) : Nat := (kids.map (fun x => x.2.items)).sum

/-- A canonical non-empty trie below the path `p`: leaves hold one key; an inner node has at least one child, has
the hashes of its children, counts their items, and holds two or more keys once past the uncompacted levels.
A leaf may keep an old hash entry for the next character of its own key. -/
inductive Tree.Good (H : Bytes → Bytes) : Bytes → Tree → Prop
  | leaf (p k : Bytes) (hashes : Hashes) : uncompacted ≤ p.length → p <+: k →
      (∀ c, hashes.get c ≠ none → k[p.length]? = some c) → Good H p (.node 1 (some k) hashes [])
  | inner (p : Bytes) (hashes : Hashes) (kids : Kids) : kids ≠ [] → Sorted kids →
      (∀ c t, OMapL.get c kids = some t → Good H (p ++ [c]) t) →
      (∀ c, hashes.get c = (OMapL.get c kids).map (nodeHash H)) →
      (uncompacted ≤ p.length → 2 ≤ totalItems kids) → Good H p (.node (totalItems kids) none hashes kids)

variable {H : Bytes → Bytes}

theorem prefix_snoc_char {p x : Bytes} {c : UInt8} (h : p ++ [c] <+: x) : x[p.length]? = some c := by
  obtain ⟨r, rfl⟩ := h
  simp

theorem prefix_of_snoc {p x : Bytes} {c : UInt8} (h : p ++ [c] <+: x) : p <+: x :=
  (List.prefix_append p [c]).trans h

theorem snoc_prefix {p x : Bytes} {c : UInt8} (h : p <+: x) (hc : x[p.length]? = some c) : p ++ [c] <+: x := by
  obtain ⟨r, rfl⟩ := h
  cases r with
  | nil => simp at hc
  | cons a r =>
    simp at hc
    subst hc
    exact ⟨r, by simp⟩

namespace Tree.Good

theorem under {p : Bytes} {t : Tree} (h : t.Good H p) : ∀ x ∈ t.toList, p <+: x := by
  induction h with
  | leaf p k hashes _ hk _ => intro x hx; simp [Tree.toList, Tree.listKids] at hx; subst hx; exact hk
  | inner p hashes kids _ hs _ _ _ ih =>
    intro x hx
    simp only [Tree.toList, Option.toList_none, List.nil_append] at hx
    obtain ⟨c, t, hg, hx⟩ := (Tree.mem_listKids_get hs).1 hx
    exact prefix_of_snoc (ih c t hg x hx)

theorem listKids_counts {p : Bytes} {kids : Kids} (hs : Sorted kids)
    (hu : ∀ c t, (c, t) ∈ kids → ∀ x ∈ t.toList, p ++ [c] <+: x)
    (hn : ∀ c t, (c, t) ∈ kids → t.toList.Nodup ∧ t.toList.length = t.items) :
    (Tree.listKids kids).Nodup ∧ (Tree.listKids kids).length = totalItems kids := by
  induction kids with
  | nil => simp [Tree.listKids, totalItems]
  | cons a m ih =>
    obtain ⟨c, t⟩ := a
    obtain ⟨h1, h2⟩ := List.pairwise_cons.1 hs
    obtain ⟨i1, i2⟩ := ih h2 (fun c t h => hu c t (by simp [h])) (fun c t h => hn c t (by simp [h]))
    obtain ⟨n1, n2⟩ := hn c t (by simp)
    simp only [Tree.listKids]
    refine ⟨List.nodup_append.2 ⟨n1, i1, ?_⟩, ?_⟩
    · intro x hx y hy e
      subst e
      obtain ⟨c', t', hm, hy⟩ := Tree.mem_listKids.1 hy
      have e1 := prefix_snoc_char (hu c t (by simp) x hx)
      have e2 := prefix_snoc_char (hu c' t' (by simp [hm]) x hy)
      rw [e1] at e2
      injection e2 with e2
      subst e2
      exact StrictOrd.irrefl c (h1 (_, t') hm)
    · simp [totalItems, i2, n2]

theorem counts {p : Bytes} {t : Tree} (h : t.Good H p) : t.toList.Nodup ∧ t.toList.length = t.items := by
  induction h with
  | leaf p k hashes _ hk _ => simp [Tree.toList, Tree.listKids, Tree.items]
  | inner p hashes kids _ hs hk _ _ ih =>
    simp only [Tree.toList, Option.toList_none, List.nil_append, Tree.items]
    exact listKids_counts (p := p) hs (fun c t h => (hk c t ((OMapL.get_eq_some_iff hs).2 h)).under)
      (fun c t h => ih c t ((OMapL.get_eq_some_iff hs).2 h))

theorem one_le {p : Bytes} {t : Tree} (h : t.Good H p) : 1 ≤ t.items := by
  induction h with
  | leaf => simp [Tree.items]
  | inner p hashes kids hne hs hk _ _ ih =>
    cases kids with
    | nil => exact absurd rfl hne
    | cons a m =>
      obtain ⟨c, t⟩ := a
      have := ih c t (by simp [OMapL.get, StrictOrd.irrefl])
      simp only [Tree.items, totalItems, List.map_cons, List.sum_cons] at *
      omega

theorem exists_mem {p : Bytes} {t : Tree} (h : t.Good H p) : ∃ x, x ∈ t.toList := by
  have h1 := h.one_le
  have h2 := h.counts.2
  cases hl : t.toList with
  | nil => rw [hl] at h2; simp at h2; omega
  | cons a m => exact ⟨a, by simp⟩

theorem hash_ne (hH : ∀ x, H x ≠ []) {p : Bytes} {t : Tree} (h : t.Good H p) : nodeHash H t ≠ [] := by
  cases h with
  | leaf _ k hashes _ hk _ => simp [nodeHash, Tree.isLeaf, hH]
  | inner _ hashes kids hne hs hk hh _ =>
    have hl : Tree.isLeaf kids = false := by cases kids; exact absurd rfl hne; rfl
    have hr : hashes.rows ≠ [] := by
      intro e
      apply hne
      rw [OMapL.eq_nil_iff] at e ⊢
      intro c
      have := hh c
      rw [show hashes.get c = none from e c] at this
      cases hc : OMapL.get c kids with
      | none => rfl
      | some t => rw [hc] at this; cases this
    simp [nodeHash, hl, hr, hH]

/-- A kid's keys are the node's keys with that next character. -/
theorem kid_mem {p : Bytes} {kids : Kids} (hs : Sorted kids)
    (hk : ∀ c t, OMapL.get c kids = some t → t.Good H (p ++ [c])) {c : UInt8} {t : Tree}
    (hg : OMapL.get c kids = some t) (x : Bytes) :
    x ∈ t.toList ↔ x ∈ Tree.listKids kids ∧ x[p.length]? = some c := by
  rw [Tree.mem_listKids_get hs]
  constructor
  · intro hx; exact ⟨⟨c, t, hg, hx⟩, prefix_snoc_char ((hk c t hg).under x hx)⟩
  · rintro ⟨⟨c', t', hg', hx⟩, e⟩
    have := prefix_snoc_char ((hk c' t' hg').under x hx)
    rw [e] at this
    injection this with this
    subst this
    rw [hg] at hg'
    injection hg' with hg'
    subst hg'
    exact hx

/-- Same keys, same children. -/
theorem kids_same {p : Bytes} {kids kids' : Kids} (hs : Sorted kids) (hs' : Sorted kids')
    (hk : ∀ c t, OMapL.get c kids = some t → t.Good H (p ++ [c]))
    (hk' : ∀ c t, OMapL.get c kids' = some t → t.Good H (p ++ [c]))
    (hm : ∀ x, x ∈ Tree.listKids kids ↔ x ∈ Tree.listKids kids') (c : UInt8) {t : Tree}
    (hg : OMapL.get c kids = some t) :
    ∃ t', OMapL.get c kids' = some t' ∧ ∀ x, x ∈ t.toList ↔ x ∈ t'.toList := by
  obtain ⟨x, hx⟩ := (hk c t hg).exists_mem
  have h1 := (kid_mem hs hk hg x).1 hx
  obtain ⟨c', t', hg', hx'⟩ := (Tree.mem_listKids_get hs').1 ((hm x).1 h1.1)
  have h2 := (kid_mem hs' hk' hg' x).1 hx'
  have : c' = c := by have := h1.2.symm.trans h2.2; injection this with this; exact this.symm
  subst this
  refine ⟨t', hg', fun y => ?_⟩
  rw [kid_mem hs hk hg, kid_mem hs' hk' hg', hm]

theorem length_le_of_subset {α : Type} [DecidableEq α] {l m : List α} (hn : l.Nodup) (h : ∀ x ∈ l, x ∈ m) :
    l.length ≤ m.length := by
  induction l generalizing m with
  | nil => simp
  | cons a l ih =>
    obtain ⟨h1, h2⟩ := List.nodup_cons.1 hn
    have := ih (m := m.erase a) h2 (fun x hx => by
      have hxa : x ≠ a := by rintro rfl; exact h1 hx
      exact (List.mem_erase_of_ne hxa).2 (h x (by simp [hx])))
    have hl := List.length_erase_of_mem (h a (by simp))
    have : 0 < m.length := List.length_pos_of_mem (h a (by simp))
    simp; omega

theorem items_same {p p' : Bytes} {t t' : Tree} (h : t.Good H p) (h' : t'.Good H p')
    (hm : ∀ x, x ∈ t.toList ↔ x ∈ t'.toList) : t.items = t'.items := by
  have a := length_le_of_subset h.counts.1 (fun x hx => (hm x).1 hx)
  have b := length_le_of_subset h'.counts.1 (fun x hx => (hm x).2 hx)
  rw [h.counts.2, h'.counts.2] at a
  rw [h.counts.2, h'.counts.2] at b
  omega

/-- **Canonicity.** The keys determine the hash. -/
theorem unique {p : Bytes} {t t' : Tree} (h : t.Good H p) (h' : t'.Good H p)
    (hm : ∀ x, x ∈ t.toList ↔ x ∈ t'.toList) : nodeHash H t = nodeHash H t' := by
  induction h generalizing t' with
  | leaf p k hashes hp hk hh =>
    have hi := items_same (.leaf p k hashes hp hk hh) h' hm
    cases h' with
    | leaf _ k' hashes' _ hk' _ =>
      have := (hm k).1 (by simp [Tree.toList, Tree.listKids])
      simp [Tree.toList, Tree.listKids] at this
      subst this
      simp [nodeHash, Tree.isLeaf]
    | inner _ hashes' kids' _ _ _ _ h2 =>
      have := h2 hp
      simp only [Tree.items] at hi
      omega
  | inner p hashes kids hne hs hk hh h2 ih =>
    have hi := items_same (.inner p hashes kids hne hs hk hh h2) h' hm
    cases h' with
    | leaf _ k' hashes' hp _ _ =>
      have := h2 hp
      simp only [Tree.items] at hi
      omega
    | inner _ hashes' kids' hne' hs' hk' hh' h2' =>
      simp only [Tree.toList, Option.toList_none, List.nil_append] at hm
      have : hashes = hashes' := by
        apply OMap.ext
        intro c
        rw [hh, hh']
        cases hg : OMapL.get c kids with
        | some a =>
          obtain ⟨a', hg', hm'⟩ := kids_same hs hs' hk hk' hm c hg
          rw [hg']
          simp only [Option.map_some, Option.some.injEq]
          exact ih c a hg (hk' c a' hg') hm'
        | none =>
          cases hg' : OMapL.get c kids' with
          | none => rfl
          | some a' =>
            obtain ⟨a, hg2, _⟩ := kids_same hs' hs hk' hk (fun x => (hm x).symm) c hg'
            rw [hg] at hg2; cases hg2
      subst this
      have hl : Tree.isLeaf kids = false := by cases kids; exact absurd rfl hne; rfl
      have hl' : Tree.isLeaf kids' = false := by cases kids'; exact absurd rfl hne'; rfl
      simp [nodeHash, hl, hl']

end Tree.Good

/-- A fresh node or a canonical trie. -/
def Tree.Fresh (H : Bytes → Bytes) (p : Bytes) (t : Tree) : Prop := t = .empty ∨ t.Good H p

theorem totalItems_put {kids : Kids} (hs : Sorted kids) (c : UInt8) (t : Tree) :
    totalItems (OMapL.put c t kids) + ((OMapL.get c kids).map Tree.items).getD 0 = totalItems kids + t.items := by
  induction kids with
  | nil => simp [OMapL.put, OMapL.get, totalItems]
  | cons a m ih =>
    obtain ⟨c', t'⟩ := a
    obtain ⟨h1, h2⟩ := List.pairwise_cons.1 hs
    have ih := ih h2
    simp only [OMapL.put]
    split
    · rename_i hlt
      have : OMapL.get c m = none := OMapL.get_none_of_lt (fun x hx => StrictOrd.trans hlt (h1 x hx))
      simp [OMapL.get, hlt, this, totalItems]; omega
    · split
      · rename_i h1 h2
        simp only [OMapL.get, h2, or_true, if_true]
        simp only [totalItems, List.map_cons, List.sum_cons] at *
        omega
      · rename_i h1 h2
        simp only [OMapL.get, h1, h2, or_self, if_false]
        simp [totalItems]; omega

theorem totalItems_del {kids : Kids} (hs : Sorted kids) (c : UInt8) :
    totalItems (OMapL.del c kids) + ((OMapL.get c kids).map Tree.items).getD 0 = totalItems kids := by
  induction kids with
  | nil => simp [OMapL.del, OMapL.get, totalItems]
  | cons a m ih =>
    obtain ⟨c', t'⟩ := a
    obtain ⟨h1, h2⟩ := List.pairwise_cons.1 hs
    have ih := ih h2
    simp only [OMapL.del, OMapL.get]
    split
    · simp only [totalItems, List.map_cons, List.sum_cons] at *; omega
    · rename_i h3
      have : c = c' := by
        rcases StrictOrd.tri c c' with h | h | h
        · exact absurd (.inl h) h3
        · exact h
        · exact absurd (.inr h) h3
      subst this
      rw [OMapL.get_none_of_lt h1] at ih
      simp only [Option.map_none, Option.getD_none, Option.map_some, Option.getD_some, totalItems, List.map_cons, List.sum_cons] at *
      omega

end Verif
