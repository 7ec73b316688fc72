import Verif.Lemmas.TrieHist
import Verif.Model.TrieRead
import Verif.Lemmas.Keys
/-! Reads of a canonical trie. -/
namespace Verif
open OMapL
variable {H : Bytes → Bytes}

theorem isLeaf_false {kids : Kids} (h : kids ≠ []) : Tree.isLeaf kids = false := by
  cases kids
  · exact absurd rfl h
  · rfl

theorem Tree.Good.is_node {p : Bytes} {t : Tree} (h : t.Good H p) : ∃ n k hs kids, t = .node n k hs kids := by
  cases h <;> exact ⟨_, _, _, _, rfl⟩

theorem Tree.Good.longer {p : Bytes} {hashes : Hashes} {kids : Kids} {n : Nat}
    (h : (Tree.node n none hashes kids).Good H p) : ∀ x ∈ (Tree.node n none hashes kids).toList, p.length < x.length := by
  cases h with
  | inner _ _ _ _ hs hk _ _ =>
    intro x hx
    simp only [Tree.toList, Option.toList_none, List.nil_append] at hx
    obtain ⟨c, t, hg, hx⟩ := (Tree.mem_listKids_get hs).1 hx
    have := ((hk c t hg).under x hx).length_le
    simp at this; omega

/-- Membership test. -/
theorem exists_good (db : Db NodeRow) (key : Bytes) (rest : Bytes) {p : Bytes} {t : Tree} (h : t.Good H p)
    (hkey : key = p ++ rest) : nodeExists db key p rest t = .ok (decide (key ∈ t.toList)) := by
  induction rest generalizing p t with
  | nil =>
    cases h with
    | leaf _ k hashes _ hk _ =>
      simp only [nodeExists, Tree.isLeaf, List.isEmpty_nil, if_true, Tree.toList, Tree.listKids]
      by_cases e : k = key
      · simp [e]
      · simp [e, Ne.symm e]
    | inner _ hashes kids hne hs hk hh h2 =>
      have hb := (Tree.Good.inner (H := H) p hashes kids hne hs hk hh h2).longer
      simp only [nodeExists, isLeaf_false hne, Bool.false_eq_true, if_false]
      congr 1
      symm
      rw [decide_eq_false_iff_not]
      intro hx
      have := hb key hx
      rw [hkey] at this; simp at this
  | cons c rest ih =>
    cases h with
    | leaf _ k hashes _ hk _ =>
      simp only [nodeExists, Tree.isLeaf, List.isEmpty_nil, if_true, Tree.toList, Tree.listKids]
      by_cases e : k = key
      · simp [e]
      · simp [e, Ne.symm e]
    | inner _ hashes kids hne hs hk hh h2 =>
      have hchar : key[p.length]? = some c := by rw [hkey]; simp
      have htl : (Tree.node (totalItems kids) none hashes kids).toList = Tree.listKids kids := by simp [Tree.toList]
      simp only [nodeExists, isLeaf_false hne, Bool.false_eq_true, if_false]
      cases hg : OMapL.get c kids with
      | none =>
        simp only [Option.isNone_none, if_true]
        congr 1
        symm
        rw [decide_eq_false_iff_not]
        intro hx
        rw [htl] at hx
        obtain ⟨d, t, hd, hx⟩ := (Tree.mem_listKids_get hs).1 hx
        have := prefix_snoc_char ((hk d t hd).under key hx)
        rw [hchar] at this
        injection this with this
        subst this
        rw [hg] at hd; cases hd
      | some t =>
        have ht := hk c t hg
        simp only [Option.isNone_some, Bool.false_eq_true, if_false]
        rw [loadChild_node (.inr ht)]
        simp only
        rw [ih ht (by rw [hkey]; simp)]
        congr 1
        rw [decide_eq_decide, htl, Tree.Good.kid_mem hs hk hg]
        exact ⟨fun h => h.1, fun h => ⟨h, hchar⟩⟩

theorem exists_fresh (db : Db NodeRow) (key : Bytes) {t : Tree} (h : t.Fresh H []) (hkey : key ≠ []) :
    nodeExists db key [] key t = .ok (decide (key ∈ t.toList)) := by
  rcases h with rfl | h
  · cases key with
    | nil => exact absurd rfl hkey
    | cons a l => simp [nodeExists, Tree.empty, Tree.isLeaf, Tree.toList, Tree.listKids]
  · exact exists_good db key key h rfl

/-- Walking down a path. -/
theorem nodeAt_good (db : Db NodeRow) (path : Bytes) {p : Bytes} {t : Tree} (h : t.Good H p) :
    (∃ n, nodeAt db p path t = some n ∧ n.Good H (p ++ path) ∧
      ∀ x, x ∈ n.toList ↔ x ∈ t.toList ∧ p ++ path <+: x) ∨
    (nodeAt db p path t = none ∧ ((p ++ path).length ≤ uncompacted → ∀ x ∈ t.toList, ¬ p ++ path <+: x)) := by
  induction path generalizing p t with
  | nil =>
    left
    refine ⟨t, by cases t <;> rfl, by simpa using h, fun x => ?_⟩
    rw [List.append_nil]
    exact ⟨fun hx => ⟨hx, h.under x hx⟩, fun hx => hx.1⟩
  | cons c path ih =>
    cases h with
    | leaf _ k hashes hp hk _ =>
      right
      refine ⟨by simp [nodeAt, OMapL.get], ?_⟩
      intro hl
      simp at hl; omega
    | inner _ hashes kids hne hs hk hh h2 =>
      cases hg : OMapL.get c kids with
      | none =>
        right
        refine ⟨by simp [nodeAt, hg], ?_⟩
        intro _ x hx hpx
        simp only [Tree.toList, Option.toList_none, List.nil_append] at hx
        obtain ⟨d, t, hd, hx⟩ := (Tree.mem_listKids_get hs).1 hx
        have h1 := prefix_snoc_char ((hk d t hd).under x hx)
        have h3 : x[p.length]? = some c := by
          obtain ⟨r, rfl⟩ := hpx
          simp
        rw [h3] at h1
        injection h1 with h1
        subst h1
        rw [hg] at hd; cases hd
      | some t =>
        have ht := hk c t hg
        have he : nodeAt db p (c :: path) (.node (totalItems kids) none hashes kids) = nodeAt db (p ++ [c]) path t := by
          simp only [nodeAt, hg, Option.isNone_some, Bool.false_eq_true, if_false]
          rw [loadChild_node (.inr ht)]
        rw [he]
        have happ : p ++ c :: path = p ++ [c] ++ path := by simp
        have hmem : ∀ x, x ∈ (Tree.node (totalItems kids) none hashes kids).toList ∧ p ++ c :: path <+: x ↔
            x ∈ t.toList ∧ p ++ [c] ++ path <+: x := by
          intro x
          simp only [Tree.toList, Option.toList_none, List.nil_append]
          rw [Tree.Good.kid_mem hs hk hg, happ]
          constructor
          · rintro ⟨h1, h2⟩
            exact ⟨⟨h1, prefix_snoc_char ((List.prefix_append _ _).trans h2)⟩, h2⟩
          · rintro ⟨⟨h1, _⟩, h2⟩; exact ⟨h1, h2⟩
        rcases ih ht with ⟨n, h1, h2, h3⟩ | ⟨h1, h2⟩
        · left
          refine ⟨n, h1, happ ▸ h2, fun x => ?_⟩
          rw [h3, hmem]
        · right
          refine ⟨h1, fun hl x hx hpx => ?_⟩
          have := (hmem x).1 ⟨hx, hpx⟩
          exact h2 (by rw [← happ]; exact hl) x this.1 this.2

/-- The same keys give the same nodes. -/
theorem nodeAt_same (db db' : Db NodeRow) (path : Bytes) {p : Bytes} {t t' : Tree} (h : t.Good H p) (h' : t'.Good H p)
    (hm : ∀ x, x ∈ t.toList ↔ x ∈ t'.toList) :
    (nodeAt db p path t).map (nodeHash H) = (nodeAt db' p path t').map (nodeHash H) ∧
    (nodeAt db p path t).map Tree.items = (nodeAt db' p path t').map Tree.items := by
  induction path generalizing p t t' with
  | nil =>
    have e : ∀ (db : Db NodeRow) (t : Tree), nodeAt db p [] t = some t := by intro db t; cases t <;> rfl
    rw [e, e]
    simp only [Option.map_some]
    exact ⟨by rw [h.unique h' hm], by rw [h.items_same h' hm]⟩
  | cons c path ih =>
    have hi := h.items_same h' hm
    cases h with
    | leaf _ k hashes hp hk _ =>
      cases h' with
      | leaf _ k' hashes' _ _ _ => simp [nodeAt, OMapL.get]
      | inner _ hashes kids hne hs hk hh h2 =>
        have := h2 hp
        simp only [Tree.items] at hi; omega
    | inner _ hashes kids hne hs hk hh h2 =>
      cases h' with
      | leaf _ k' hashes' hp _ _ =>
        have := h2 hp
        simp only [Tree.items] at hi; omega
      | inner _ hashes' kids' hne' hs' hk' hh' h2' =>
        have hm' : ∀ x, x ∈ Tree.listKids kids ↔ x ∈ Tree.listKids kids' := by
          intro x; simpa [Tree.toList] using hm x
        cases hg : OMapL.get c kids with
        | none =>
          have hg' : OMapL.get c kids' = none := by
            cases hg' : OMapL.get c kids' with
            | none => rfl
            | some t' =>
              obtain ⟨t, e, _⟩ := Tree.Good.kids_same hs' hs hk' hk (fun x => (hm' x).symm) c hg'
              rw [hg] at e; cases e
          simp [nodeAt, hg, hg']
        | some t =>
          obtain ⟨t', hg', hmt⟩ := Tree.Good.kids_same hs hs' hk hk' hm' c hg
          have e1 : nodeAt db p (c :: path) (.node (totalItems kids) none hashes kids) = nodeAt db (p ++ [c]) path t := by
            simp only [nodeAt, hg, Option.isNone_some, Bool.false_eq_true, if_false]
            rw [loadChild_node (.inr (hk c t hg))]
          have e2 : nodeAt db' p (c :: path) (.node (totalItems kids') none hashes' kids') = nodeAt db' (p ++ [c]) path t' := by
            simp only [nodeAt, hg', Option.isNone_some, Bool.false_eq_true, if_false]
            rw [loadChild_node (.inr (hk' c t' hg'))]
          rw [e1, e2]
          exact ih (hk c t hg) (hk' c t' hg') hmt

theorem get_of_split {done rest : Kids} {c : UInt8} {t : Tree} (hs : Sorted (done ++ (c, t) :: rest)) :
    OMapL.get c (done ++ (c, t) :: rest) = some t :=
  (OMapL.get_eq_some_iff hs).2 (by simp)

/-- Enumeration below a node. -/
theorem allValues_good (db : Db NodeRow) {p : Bytes} {t : Tree} (h : t.Good H p) (hmax : t.items ≤ maxValues) :
    ∃ N, ∀ n, N ≤ n → allValues db n p t = .ok t.toList := by
  induction h with
  | leaf p k hashes _ _ _ =>
    refine ⟨1, fun n hn => ?_⟩
    obtain ⟨m, rfl⟩ : ∃ m, n = m + 1 := ⟨n - 1, by omega⟩
    simp [allValues, Tree.isLeaf, Tree.toList, Tree.listKids]
  | inner p hashes kids hne hs hk hh _ ih =>
    simp only [Tree.items] at hmax
    have hloop : ∀ (rest done : Kids), kids = done ++ rest → ∃ N, ∀ n, N ≤ n →
        valuesLoop (allValues db n) db p kids (rest.map (·.1)) (Tree.listKids done) = .ok (Tree.listKids kids) := by
      intro rest
      induction rest with
      | nil => intro done e; exact ⟨0, fun n _ => by simp [valuesLoop, e]⟩
      | cons a rest ihr =>
        intro done e
        obtain ⟨c, t⟩ := a
        have hg : OMapL.get c kids = some t := by rw [e]; exact get_of_split (e ▸ hs)
        have htot : ∀ (a b : Kids), totalItems (a ++ b) = totalItems a + totalItems b := by
          intro a b; simp [totalItems]
        have hcons : totalItems ((c, t) :: rest) = t.items + totalItems rest := by simp [totalItems]
        have hle : t.items ≤ maxValues := by rw [e, htot, hcons] at hmax; omega
        obtain ⟨N1, h1⟩ := ih c t hg hle
        obtain ⟨N2, h2⟩ := ihr (done ++ [(c, t)]) (by rw [e]; simp)
        refine ⟨max N1 N2, fun n hn => ?_⟩
        have happ : ∀ (a b : Kids), Tree.listKids (a ++ b) = Tree.listKids a ++ Tree.listKids b := by
          intro a b
          induction a with
          | nil => simp [Tree.listKids]
          | cons x a iha => obtain ⟨d, s⟩ := x; simp [Tree.listKids, iha]
        have hlen : (Tree.listKids kids).length = totalItems kids :=
          (Tree.Good.listKids_counts (p := p) hs (fun c t h => (hk c t ((OMapL.get_eq_some_iff hs).2 h)).under)
            (fun c t h => (hk c t ((OMapL.get_eq_some_iff hs).2 h)).counts)).2
        have hl : (Tree.listKids done ++ t.toList).length ≤ maxValues := by
          have : (Tree.listKids kids).length = (Tree.listKids done ++ t.toList).length + (Tree.listKids rest).length := by
            rw [e, happ]; simp [Tree.listKids]; omega
          omega
        simp only [List.map_cons, valuesLoop, hg]
        rw [loadChild_node (.inr (hk c t hg))]
        simp only
        rw [h1 n (by omega)]
        simp only
        rw [if_neg (by omega)]
        have := h2 n (by omega)
        rwa [happ, show Tree.listKids [(c, t)] = t.toList by simp [Tree.listKids]] at this
    obtain ⟨N, hN⟩ := hloop kids [] rfl
    refine ⟨N + 1, fun n hn => ?_⟩
    obtain ⟨m, rfl⟩ : ∃ m, n = m + 1 := ⟨n - 1, by omega⟩
    simp only [allValues, isLeaf_false hne, Bool.false_eq_true, if_false, Tree.toList, Option.toList_none, List.nil_append]
    exact hN m (by omega)

theorem items_le_total {kids : Kids} {c : UInt8} {t : Tree} (h : (c, t) ∈ kids) : t.items ≤ totalItems kids := by
  induction kids with
  | nil => cases h
  | cons a l ih =>
    simp only [totalItems, List.map_cons, List.sum_cons] at ih ⊢
    rcases List.mem_cons.1 h with rfl | h
    · simp
    · have := ih h; omega

/-- One bound for all nodes of a tree. -/
theorem allValues_bound (db : Db NodeRow) {p : Bytes} {t : Tree} (h : t.Good H p) (hmax : t.items ≤ maxValues) :
    ∃ N, ∀ n, N ≤ n → ∀ path node, nodeAt db p path t = some node → allValues db n (p ++ path) node = .ok node.toList := by
  induction h with
  | leaf p k hashes h1 h2 h3 =>
    obtain ⟨N, hN⟩ := allValues_good db (.leaf (H := H) p k hashes h1 h2 h3) hmax
    refine ⟨N, fun n hn path node he => ?_⟩
    cases path with
    | nil =>
      simp only [nodeAt, Option.some.injEq] at he
      subst he
      simpa using hN n hn
    | cons c path => simp [nodeAt, OMapL.get] at he
  | inner p hashes kids hne hs hk hh h2 ih =>
    obtain ⟨N, hN⟩ := allValues_good db (.inner (H := H) p hashes kids hne hs hk hh h2) hmax
    simp only [Tree.items] at hmax
    have hle : ∀ c t, (c, t) ∈ kids → t.items ≤ maxValues := by
      intro c t hm
      refine Nat.le_trans ?_ hmax
      exact items_le_total hm
    have hall : ∀ (l : Kids), (∀ c t, (c, t) ∈ l → (c, t) ∈ kids) → ∃ M, ∀ n, M ≤ n → ∀ c t, (c, t) ∈ l → ∀ path node,
        nodeAt db (p ++ [c]) path t = some node → allValues db n (p ++ [c] ++ path) node = .ok node.toList := by
      intro l
      induction l with
      | nil => intro _; exact ⟨0, fun _ _ _ _ h => by cases h⟩
      | cons a l ihl =>
        intro hsub
        obtain ⟨c, t⟩ := a
        obtain ⟨M1, hM1⟩ := ihl (fun c t h => hsub c t (by simp [h]))
        have hm := hsub c t (by simp)
        obtain ⟨M2, hM2⟩ := ih c t ((OMapL.get_eq_some_iff hs).2 hm) (hle c t hm)
        refine ⟨max M1 M2, fun n hn d s h => ?_⟩
        rcases List.mem_cons.1 h with h | h
        · injection h with e1 e2
          subst e1; subst e2
          exact hM2 n (by omega)
        · exact hM1 n (by omega) d s h
    obtain ⟨M, hM⟩ := hall kids (fun _ _ h => h)
    refine ⟨max N M, fun n hn path node he => ?_⟩
    cases path with
    | nil =>
      simp only [nodeAt, Option.some.injEq] at he
      subst he
      simpa using hN n (by omega)
    | cons c path =>
      simp only [nodeAt] at he
      split at he
      · cases he
      · rename_i hsome
        cases hg : OMapL.get c kids with
        | none => rw [hg] at hsome; simp at hsome
        | some t =>
          rw [hg, loadChild_node (.inr (hk c t hg))] at he
          have := hM n (by omega) c t ((OMapL.get_eq_some_iff hs).1 hg) path node he
          simpa using this

theorem combineAll_map (l : List Bytes) : combineAll (l.map expandNibbles) = .ok l := by
  induction l with
  | nil => rfl
  | cons a l ih => simp [combineAll, combine_expand, ih]

/-- Every list of nibble keys from a set is the expansion of a list of keys. -/
theorem exists_map_expand {l set : List Bytes} (h : ∀ x ∈ l, ∃ k ∈ set, expandNibbles k = x) :
    ∃ m : List Bytes, l = m.map expandNibbles ∧ ∀ k ∈ m, k ∈ set := by
  induction l with
  | nil => exact ⟨[], rfl, by simp⟩
  | cons a l ih =>
    obtain ⟨k, hk, rfl⟩ := h a (by simp)
    obtain ⟨m, rfl, hm⟩ := ih (fun x hx => h x (by simp [hx]))
    exact ⟨k :: m, rfl, by intro k' hk'; rcases List.mem_cons.1 hk' with rfl | h'; exact hk; exact hm _ h'⟩

theorem nodup_of_map {l : List Bytes} (h : (l.map expandNibbles).Nodup) : l.Nodup := by
  rw [List.nodup_iff_pairwise_ne, List.pairwise_map] at h
  rw [List.nodup_iff_pairwise_ne]
  exact h.imp (fun a e => a (by rw [e]))

end Verif
