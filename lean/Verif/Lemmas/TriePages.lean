import Verif.Lemmas.TriePaging
import Verif.Lemmas.TrieCache
/-! Page tokens, paging of partially loaded tries, and whole enumerations. -/
namespace Verif
open OMapL
variable {H : Bytes → Bytes}

theorem decode_encode_token (segs : List Bytes) (hne : segs ≠ []) (hc : segs.length < 2 ^ 32)
    (h : ∀ s ∈ segs, s.length < 2 ^ 32) : decodePageToken (encodePageToken (some segs)) = .ok (some segs) := by
  obtain ⟨a, l, rfl⟩ := List.exists_cons_of_ne_nil hne
  have htake : (be 4 (a :: l).length ++ (a :: l).flatMap encodeSegment).take 4 = be 4 (a :: l).length := by
    rw [List.take_append_of_le_length (by simp), List.take_of_length_le (by simp)]
  have hdrop : (be 4 (a :: l).length ++ (a :: l).flatMap encodeSegment).drop 4 = (a :: l).flatMap encodeSegment := by
    rw [List.drop_append_of_le_length (by simp), List.drop_of_length_le (by simp)]
    rfl
  have hlen : 4 ≤ (be 4 (a :: l).length ++ (a :: l).flatMap encodeSegment).length := by
    rw [List.length_append, be_length]; omega
  have he : encodePageToken (some (a :: l)) = be 4 (a :: l).length ++ (a :: l).flatMap encodeSegment := rfl
  rw [he]
  unfold decodePageToken
  rw [if_neg (by intro e; rw [e] at hlen; simp at hlen), if_neg (by omega), htake, hdrop, fromBe_be_of_lt hc,
    decodeSegments_ok _ _ h]
  simp

theorem sorted_length {b : Nat} {l : List UInt8} (h : l.Pairwise (fun x y => x.toNat < y.toNat)) (hb : ∀ x ∈ l, b ≤ x.toNat)
    (hle : b ≤ 256) : l.length ≤ 256 - b := by
  induction l generalizing b with
  | nil => simp
  | cons a l ih =>
    rw [List.pairwise_cons] at h
    have ha := hb a (by simp)
    have h256 : a.toNat < 256 := a.toNat_lt
    have := ih (b := a.toNat + 1) h.2 (fun x hx => h.1 x hx) (by omega)
    simp; omega

theorem sorted_kids_length {kids : Kids} (h : Sorted kids) : kids.length ≤ 256 := by
  have := sorted_length (b := 0) (l := kids.map (·.1)) (by
    rw [List.pairwise_map]
    refine List.Pairwise.imp ?_ h
    intro a b hab
    exact hab) (by simp) (by omega)
  simpa using this

theorem Tree.Good.kids_length {p : Bytes} {n : Nat} {k : Option Bytes} {h : Hashes} {kids : Kids}
    (hg : (Tree.node n k h kids).Good H p) : kids.length ≤ 256 := by
  cases hg with
  | leaf => simp
  | inner _ _ _ _ hs _ _ _ => exact sorted_kids_length hs

theorem Frames.width {db : Db NodeRow} {root : Tree} {pre rel : Bytes} {fs : List Kids}
    (h : Frames H db root pre rel fs) : ∀ f ∈ fs, f.length ≤ 256 := by
  induction h with
  | nil => simp
  | base n k h done rest h1 h2 =>
    intro f hf
    simp at hf; subst hf
    have := h2.kids_length
    simp at this; omega
  | push rel c f fs n k h done rest hf h1 h2 ih =>
    intro g hg
    rcases List.mem_cons.1 hg with rfl | hg
    · have := h2.kids_length
      simp at this; omega
    · exact ih g hg

theorem Frames.depth {db : Db NodeRow} {root : Tree} {pre rel : Bytes} {fs : List Kids} (hroot : root.Good H []) {B : Nat}
    (hB : ∀ x ∈ root.toList, x.length ≤ B) (h : Frames H db root pre rel fs) : rel.length ≤ B := by
  cases fs with
  | nil => cases h; simp
  | cons f fs =>
    obtain ⟨n, k, hs, done, h1, h2⟩ := h.top
    rcases nodeAt_good db (pre ++ rel) hroot with ⟨m, e1, e2, e3⟩ | ⟨e1, _⟩
    · obtain ⟨x, hx⟩ := e2.exists_mem
      have := (e3 x).1 hx
      have h5 := this.2.length_le
      have h6 := hB x this.1
      simp at h5; omega
    · rw [e1] at h1; cases h1

theorem nodeAt_part (db db' : Db NodeRow) (path : Bytes) {p : Bytes} {t t' : Tree}
    (hn : ∃ n k hs kids, t = .node n k hs kids) (h : Part db p t t') :
    (nodeAt db p path t = none ∧ nodeAt db' p path t' = none) ∨
    ∃ n k hs kids kids', nodeAt db p path t = some (.node n k hs kids) ∧ nodeAt db' p path t' = some (.node n k hs kids') ∧
      KidsPart db (p ++ path) kids kids' := by
  induction path generalizing p t t' with
  | nil =>
    right
    obtain ⟨items, k, hashes, kids, rfl⟩ := hn
    cases h with
    | node _ _ _ _ _ kids' h1 h2 h3 =>
      exact ⟨_, _, _, _, _, rfl, rfl, by simpa using ⟨h1, h3⟩⟩
  | cons c rest ih =>
    obtain ⟨items, k, hashes, kids, rfl⟩ := hn
    cases h with
    | node _ _ _ _ _ kids' h1 h2 h3 =>
      have hk : KidsPart db p kids kids' := ⟨h1, h3⟩
      simp only [nodeAt]
      rcases hk.get c with ⟨g1, g2⟩ | ⟨a, b, g1, g2, g3⟩
      · left; rw [g1, g2]; exact ⟨rfl, rfl⟩
      · rw [g1, g2]
        simp only [Option.isNone_some, Bool.false_eq_true, if_false]
        obtain ⟨a', e1, e2, e3, e4⟩ := loadChild_part (db' := db') g3
        rw [e1, e4]
        simpa using ih e3 e2

theorem pageLoop_part (db db' : Db NodeRow) {t t' : Tree} (hn : ∃ n k hs kids, t = .node n k hs kids) (h : Part db [] t t')
    (pre : Bytes) (max n : Nat) : ∀ rel stack acc,
      pageLoop db t pre max n rel stack acc = pageLoop db' t' pre max n rel stack acc := by
  induction n with
  | zero => intro _ _ _; rfl
  | succ n ih =>
    intro rel stack acc
    simp only [pageLoop]
    split
    · rfl
    · match stack with
      | [] => rfl
      | [] :: st => exact ih _ _ _
      | (c :: cs) :: st =>
        simp only
        rcases nodeAt_part db db' (pre ++ rel ++ [c]) hn h with ⟨e1, e2⟩ | ⟨m, k, hs, kids, kids', e1, e2, hk⟩
        · rw [e1, e2]
        · rw [e1, e2]
          simp only [hk.leaf, hk.1, ih]

theorem pageRequest_part {s s' : TrieState} {t t' : Tree} (hs : s.root = some t) (hs' : s'.root = some t')
    (hn : ∃ n k hs kids, t = .node n k hs kids) (h : Part s.db [] t t') (fuel : Nat) (pre : Bytes) (max : Nat) (token : Option Bytes) :
    s.pageRequest fuel pre max token = s'.pageRequest fuel pre max token := by
  simp only [TrieState.pageRequest, TrieState.page, hs, hs']
  rcases nodeAt_part s.db s'.db (expandNibbles pre) hn h with ⟨e1, e2⟩ | ⟨m, k, hs, kids, kids', e1, e2, hk⟩
  · rw [e1, e2]
  · rw [e1, e2]
    simp only [Option.isNone_some, hk.leaf, hk.1, pageLoop_part s.db s'.db hn h]

/-- Ask for pages until there is no token. -/
def TrieState.collectPages (s : TrieState) (fuel : Nat) (pre : Bytes) (max : Nat) : Nat → Option Bytes → Except TrieErr (List (List Bytes))
  | 0, _ => .error .fuel
  | n + 1, token =>
    match s.pageRequest fuel pre max token with
    | .error e => .error e
    | .ok (l, none) => .ok [l]
    | .ok (l, some t) =>
      match s.collectPages fuel pre max n (some t) with
      | .error e => .error e
      | .ok ls => .ok (l :: ls)

theorem collectPages_part {s s' : TrieState} {t t' : Tree} (hs : s.root = some t) (hs' : s'.root = some t')
    (hn : ∃ n k hs kids, t = .node n k hs kids) (h : Part s.db [] t t') (fuel : Nat) (pre : Bytes) (max n : Nat) :
    ∀ token, s.collectPages fuel pre max n token = s'.collectPages fuel pre max n token := by
  induction n with
  | zero => intro _; rfl
  | succ n ih => intro token; simp only [TrieState.collectPages, pageRequest_part hs hs' hn h, ih]

/-- Paging on from a token. -/
theorem collect_token {s : TrieState} {root : Tree} (hs : s.root = some root) (hroot : root.Good H []) {pre : Bytes} {max : Nat}
    (hmax : 1 ≤ max) {B fuel : Nat} (hfuel : B < fuel) (hlen : ∀ x ∈ root.toList, x.length < 2 ^ 31)
    (hpre : (nodeAt s.db [] (expandNibbles pre) root).isSome) (n : Nat) : ∀ (rel : Bytes) (fs : List Kids) (ks : List Bytes),
      Frames H s.db root (expandNibbles pre) rel fs → pendingWork fs ≤ B → pendingKeys fs = ks.map expandNibbles →
      (∀ k ∈ ks, k ≠ []) → ks.length < n →
      ∃ pages, s.collectPages fuel pre max n (some (encodePageToken (some (pageToken rel (fs.map (·.map (·.1))))))) = .ok pages ∧
        pages.flatten = ks ∧ ∀ p ∈ pages, p.length ≤ max := by
  induction n with
  | zero => intro _ _ _ _ _ _ _ h; omega
  | succ n ih =>
    intro rel fs ks hf hw hk hne hn
    have hrel : rel.length < 2 ^ 31 := by
      have := hf.depth hroot (B := 2 ^ 31 - 1) (fun x hx => by have := hlen x hx; omega)
      omega
    have hfl := hf.length
    have hfs : fs.length < 2 ^ 32 - 1 := by omega
    have hdec : decodePageToken (encodePageToken (some (pageToken rel (fs.map (·.map (·.1)))))) =
        .ok (some (pageToken rel (fs.map (·.map (·.1))))) := by
      apply decode_encode_token
      · simp [pageToken]
      · simp [pageToken]; omega
      · intro x hx
        simp only [pageToken, List.mem_cons, List.mem_reverse, List.mem_map] at hx
        rcases hx with rfl | ⟨y, ⟨f, hf1, rfl⟩, rfl⟩
        · omega
        · have := hf.width f hf1
          simp; omega
    simp only [TrieState.collectPages, TrieState.pageRequest, hs, decodeRequestToken]
    rw [if_neg (by cases hnode : nodeAt s.db [] (expandNibbles pre) root <;> simp_all)]
    rw [hdec]
    simp only [TrieState.page, hs]
    obtain ⟨node, hnode⟩ := Option.isSome_iff_exists.1 hpre
    rcases nodeAt_good s.db (expandNibbles pre) hroot with ⟨m, e1, e2, e3⟩ | ⟨e1, _⟩
    · obtain ⟨i, k, hh, kids, rfl⟩ := e2.is_node
      rw [e1]
      simp only [pageToken]
      rw [if_neg (by simp; omega)]
      have hst : (List.map List.reverse (List.map (fun x => List.map (fun x => x.fst) x) fs)).reverse.reverse.map List.reverse =
          fs.map (·.map (·.1)) := by
        simp [List.map_map, Function.comp_def]
      rw [hst]
      rcases pageLoop_ok s.db root (expandNibbles pre) max hroot B fuel rel fs [] ks hf hk hne ⟨by omega, hw⟩ (by simp) with
        ⟨_, h2⟩ | ⟨h1, rel', fs', h2, h3, h4, h5⟩
      · rename_i h1
        rw [h2]
        simp only [List.nil_append, Option.map_none]
        exact ⟨[ks], rfl, by simp, by simp at h1 ⊢; omega⟩
      · rw [h5]
        simp only [List.nil_append, Option.map_some, List.length_nil, Nat.sub_zero] at h4 h1 ⊢
        obtain ⟨pages, h6, h7, h8⟩ := ih rel' fs' (ks.drop max) h2 h3 h4 (fun k hk => hne k (List.mem_of_mem_drop hk))
          (by simp; omega)
        rw [h6]
        refine ⟨ks.take max :: pages, rfl, by simp [h7], ?_⟩
        intro p hp
        rcases List.mem_cons.1 hp with rfl | hp
        · simp; omega
        · exact h8 p hp
    · rw [e1] at hnode; cases hnode

/-- The keys below a node come in ascending order. -/
theorem Tree.Good.ascending {p : Bytes} {t : Tree} (h : t.Good H p) : t.toList.Pairwise (fun x y => Bytes.blt x y = true) := by
  induction h with
  | leaf => simp [Tree.toList, Tree.listKids]
  | inner p hashes kids _ hs hk _ _ ih =>
    simp only [Tree.toList, Option.toList_none, List.nil_append]
    have gen : ∀ l : Kids, Sorted l → (∀ c t, (c, t) ∈ l → t.Good H (p ++ [c]) ∧ t.toList.Pairwise (fun x y => Bytes.blt x y = true)) →
        (Tree.listKids l).Pairwise (fun x y => Bytes.blt x y = true) := by
      intro l
      induction l with
      | nil => intro _ _; simp [Tree.listKids]
      | cons a l ih =>
        obtain ⟨c, t⟩ := a
        intro hs hm
        simp only [Tree.listKids]
        rw [List.pairwise_append]
        refine ⟨(hm c t (by simp)).2, ih (List.pairwise_cons.1 hs).2 (fun c t h => hm c t (by simp [h])), ?_⟩
        intro x hx y hy
        obtain ⟨c', t', hc, hy⟩ := Tree.mem_listKids.1 hy
        obtain ⟨u, rfl⟩ := (hm c t (by simp)).1.under x hx
        obtain ⟨v, rfl⟩ := (hm c' t' (by simp [hc])).1.under y hy
        have hlt : c.toNat < c'.toNat := (List.pairwise_cons.1 hs).1 _ hc
        rw [List.append_assoc, List.append_assoc, Bytes.blt_append_left]
        simp [Bytes.blt, hlt]
    exact gen kids hs (fun c t h => by
      have := (OMapL.get_eq_some_iff hs).2 h
      exact ⟨hk c t this, ih c t this⟩)

theorem expandNibbles_blt {a b : Bytes} (h : Bytes.blt (expandNibbles a) (expandNibbles b) = true) : Bytes.blt a b = true := by
  induction a generalizing b with
  | nil =>
    cases b with
    | nil => simp [expandNibbles, Bytes.blt] at h
    | cons => rfl
  | cons x a ih =>
    cases b with
    | nil => rw [expandNibbles_cons] at h; simp [expandNibbles, Bytes.blt] at h
    | cons y b =>
      rw [expandNibbles_cons, expandNibbles_cons] at h
      have byte : ∀ n, n < 256 → n = 16 * (UInt8.ofNat n >>> (4 : UInt8)).toNat + (UInt8.ofNat n &&& (15 : UInt8)).toNat ∧
          (UInt8.ofNat n &&& (15 : UInt8)).toNat < 16 := by decide +kernel
      obtain ⟨x1, x2⟩ := byte x.toNat (UInt8.toNat_lt x)
      obtain ⟨y1, y2⟩ := byte y.toNat (UInt8.toNat_lt y)
      simp only [UInt8.ofNat_toNat] at x1 x2 y1 y2
      simp only [Bytes.blt] at h ⊢
      generalize (x >>> (4 : UInt8)).toNat = xa at *
      generalize (x &&& (15 : UInt8)).toNat = xb at *
      generalize (y >>> (4 : UInt8)).toNat = ya at *
      generalize (y &&& (15 : UInt8)).toNat = yb at *
      rw [x1, y1]
      split at h
      · rw [if_pos (by omega)]
      · split at h
        · cases h
        · split at h
          · rw [if_pos (by omega)]
          · split at h
            · cases h
            · rw [if_neg (by omega), if_neg (by omega)]
              exact ih h

/-- Paging from the start. -/
theorem collect_all {s : TrieState} {root : Tree} {set : List Bytes} (hs : s.root = some root) (hroot : root.Fresh H [])
    (hh : Holds root set) {pre : Bytes} (hpre : pre.length ≤ 6) {max : Nat} (hmax : 1 ≤ max)
    (hlen : ∀ k ∈ set, k ≠ [] ∧ k.length < 2 ^ 30) :
    ∃ N, ∀ fuel, N ≤ fuel → ∀ rounds, N ≤ rounds → ∃ pages, s.collectPages fuel pre max rounds none = .ok pages ∧
      (∀ p ∈ pages, p.length ≤ max) ∧ pages.flatten.Pairwise (fun a b => Bytes.blt a b = true) ∧
      ∀ k, k ∈ pages.flatten ↔ k ∈ set ∧ pre <+: k := by
  rcases hroot with rfl | hg
  · refine ⟨1, fun fuel _ rounds hr => ⟨[[]], ?_, by simp, by simp, ?_⟩⟩
    · obtain ⟨r, rfl⟩ : ∃ r, rounds = r + 1 := ⟨rounds - 1, by omega⟩
      simp only [TrieState.collectPages, TrieState.pageRequest, hs]
      cases he : expandNibbles pre with
      | nil =>
        have : nodeAt s.db [] [] Tree.empty = some Tree.empty := rfl
        rw [this]
        simp only [decodeRequestToken, TrieState.page, hs, he, this]
        rfl
      | cons a l =>
        have : nodeAt s.db [] (a :: l) Tree.empty = none := rfl
        rw [this]; rfl
    · intro k
      constructor
      · intro h; simp at h
      · rintro ⟨h, _⟩
        have := (hh.2 (expandNibbles k)).2 ⟨k, h, rfl⟩
        simp at this
  · have hlen' : ∀ x ∈ root.toList, x.length < 2 ^ 31 := by
      intro x hx
      obtain ⟨k, hk, rfl⟩ := (hh.2 x).1 hx
      have := (hlen k hk).2
      rw [expandNibbles_length]; omega
    rcases nodeAt_good s.db (expandNibbles pre) hg with ⟨n, e1, e2, e3⟩ | ⟨e1, e2⟩
    · simp only [List.nil_append] at e2 e3
      obtain ⟨m, hm1, hm2⟩ := exists_map_expand (l := n.toList) (set := set) (by
        intro x hx; exact (hh.2 x).1 ((e3 x).1 hx).1)
      have hnd : m.Pairwise (fun a b => Bytes.blt a b = true) := by
        have := e2.ascending
        rw [hm1, List.pairwise_map] at this
        exact this.imp expandNibbles_blt
      have hmem : ∀ k, k ∈ m ↔ k ∈ set ∧ pre <+: k := by
        intro k
        constructor
        · intro hk
          refine ⟨hm2 k hk, ?_⟩
          have : expandNibbles k ∈ n.toList := by rw [hm1]; exact List.mem_map.2 ⟨k, hk, rfl⟩
          exact expandNibbles_prefix.1 ((e3 _).1 this).2
        · rintro ⟨h1, h2⟩
          have : expandNibbles k ∈ n.toList := (e3 _).2 ⟨(hh.2 _).2 ⟨k, h1, rfl⟩, expandNibbles_prefix.2 h2⟩
          rw [hm1] at this
          obtain ⟨k', h3, h4⟩ := List.mem_map.1 this
          rw [← expandNibbles_inj h4]; exact h3
      have hmne : ∀ k ∈ m, k ≠ [] := fun k hk => (hlen k (hm2 k hk)).1
      suffices hp : ∃ N, ∀ fuel, N ≤ fuel → ∀ rounds, N ≤ rounds → ∃ pages, s.collectPages fuel pre max rounds none = .ok pages ∧
          pages.flatten = m ∧ ∀ p ∈ pages, p.length ≤ max by
        obtain ⟨N, hN⟩ := hp
        refine ⟨N, fun fuel hf rounds hr => ?_⟩
        obtain ⟨pages, h1, h2, h3⟩ := hN fuel hf rounds hr
        exact ⟨pages, h1, h3, by rw [h2]; exact hnd, by rw [h2]; exact hmem⟩
      cases e2 with
      | leaf _ k hashes h1 h2 h3 =>
        refine ⟨1, fun fuel _ rounds hr => ?_⟩
        obtain ⟨r, rfl⟩ : ∃ r, rounds = r + 1 := ⟨rounds - 1, by omega⟩
        simp only [Tree.toList, Tree.listKids, Option.toList_some, List.append_nil] at hm1
        obtain ⟨b, rfl⟩ : ∃ b, m = [b] := by
          cases m with
          | nil => simp at hm1
          | cons b l => cases l with
            | nil => exact ⟨b, rfl⟩
            | cons => simp at hm1
        simp only [List.map_cons, List.map_nil, List.cons.injEq, and_true] at hm1
        subst hm1
        have hne' : expandNibbles b ≠ [] := by
          intro e
          have := expandNibbles_length b
          rw [e] at this
          cases b with
          | nil => exact hmne [] (by simp) rfl
          | cons => simp at this
        refine ⟨[[b]], ?_, by simp, by simpa using hmax⟩
        simp only [TrieState.collectPages, TrieState.pageRequest, hs, e1, decodeRequestToken, TrieState.page, Option.isNone_some, Bool.false_eq_true,
          if_false, Tree.isLeaf, List.isEmpty_nil, if_true]
        rw [if_neg hne', combine_expand]
        rfl
      | inner _ hashes kids hne hsorted hk hhash h2 =>
        have hgn := Tree.Good.inner (H := H) _ hashes kids hne hsorted hk hhash h2
        have hf : Frames H s.db root (expandNibbles pre) [] [kids] :=
          .base _ _ _ [] kids (by simpa using e1) (by simpa using hgn)
        have hpk : pendingKeys [kids] = m.map expandNibbles := by
          rw [← hm1]; simp [pendingKeys, Tree.toList]
        refine ⟨pendingWork [kids] + m.length + 2, fun fuel hfuel rounds hr => ?_⟩
        obtain ⟨r, rfl⟩ : ∃ r, rounds = r + 1 := ⟨rounds - 1, by omega⟩
        simp only [TrieState.collectPages, TrieState.pageRequest, hs, e1, decodeRequestToken, TrieState.page, Option.isNone_some, Bool.false_eq_true,
          if_false, isLeaf_false hne]
        rcases pageLoop_ok s.db root (expandNibbles pre) max hg (pendingWork [kids]) fuel [] [kids] [] m hf hpk hmne
            ⟨by omega, Nat.le_refl _⟩ (by simp) with ⟨h1, h2⟩ | ⟨h1, rel', fs', h2, h3, h4, h5⟩
        · simp only [List.map_cons, List.map_nil] at h2
          rw [h2]
          simp only [List.nil_append, Option.map_none]
          exact ⟨[m], rfl, by simp, by simp at h1 ⊢; omega⟩
        · simp only [List.map_cons, List.map_nil] at h5
          rw [h5]
          simp only [List.nil_append, Option.map_some, List.length_nil, Nat.sub_zero] at h4 h1 ⊢
          obtain ⟨pages, h6, h7, h8⟩ := collect_token hs hg hmax (B := pendingWork [kids]) (fuel := fuel) (by omega) hlen'
            (by rw [e1]; rfl) r rel' fs' (m.drop max) h2 h3 h4 (fun k hk => hmne k (List.mem_of_mem_drop hk)) (by simp; omega)
          rw [h6]
          refine ⟨m.take max :: pages, rfl, by simp [h7], ?_⟩
          intro p hp
          rcases List.mem_cons.1 hp with rfl | hp
          · simp; omega
          · exact h8 p hp
    · refine ⟨1, fun fuel _ rounds hr => ⟨[[]], ?_, by simp, by simp, ?_⟩⟩
      · obtain ⟨r, rfl⟩ : ∃ r, rounds = r + 1 := ⟨rounds - 1, by omega⟩
        simp only [TrieState.collectPages, TrieState.pageRequest, hs, e1]
        rfl
      · intro k
        constructor
        · intro h; simp at h
        · rintro ⟨h1, h2⟩
          exfalso
          refine e2 ?_ (expandNibbles k) ((hh.2 _).2 ⟨k, h1, rfl⟩) ?_
          · simp [expandNibbles_length, uncompacted]; omega
          · simpa using expandNibbles_prefix.2 h2

/-- The rows that deletions in a history may erase. -/
def erased (U : Bytes → Prop) (r : Bytes) : Prop :=
  ∃ k p c, U k ∧ uncompacted ≤ p.length ∧ p ++ [c] <+: expandNibbles k ∧ r = nodeKey (nodeKey p (some c)) none

theorem clear_of_noShift {U : Bytes → Prop} (h : ∀ k, U k → ∀ k', U k' → ¬ Shifted k k') :
    ∀ k, U k → Clear (erased U) (expandNibbles k) := by
  intro k hk
  refine ⟨?_, fun p c hp hq => ⟨k, p, c, hk, hp, hq, rfl⟩⟩
  rintro q hq ⟨k', p, c, hk', hp, hpc, e⟩
  have e : q = 8 :: (p ++ [c]) := by simpa [nodeKey] using e
  refine h k hk k' hk' ?_
  unfold Shifted
  refine List.IsPrefix.trans ?_ (e ▸ hq)
  rw [List.prefix_cons_inj]
  have h13 : (expandNibbles k').take 13 = (p ++ [c]).take 13 := by
    obtain ⟨r, hr⟩ := hpc
    rw [← hr, List.take_append_of_le_length (by simp only [uncompacted] at hp; simp; omega)]
  rw [h13]
  exact List.take_prefix _ _

end Verif
