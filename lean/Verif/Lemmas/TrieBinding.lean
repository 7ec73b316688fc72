import Verif.Props.C22
import Verif.Lemmas.TrieImport
/-! A root hash fixes the keys, for states that were reloaded too. -/
namespace Verif

/-- The values hashed to compute the root over a list of keys, inserted in a new trie. -/
def hashedFor (H : Bytes → Bytes) (keys : List Bytes) : List Bytes :=
  match TrieState.new.run H [.insert id keys] with
  | .ok s => s.hashed
  | .error _ => []

/-- The trie holds the keys of the list. -/
def TrieState.HoldsKeys (t : TrieState) (keys : List Bytes) : Prop := ∀ k, k ≠ [] → t.contains k = .ok (decide (k ∈ keys))

/-- Two values hashed for the roots over the two lists of keys have the same hash. -/
def Collision (H : Bytes → Bytes) (keys keys' : List Bytes) : Prop :=
  ∃ x ∈ hashedFor H keys, ∃ y ∈ hashedFor H keys', x ≠ y ∧ H x = H y

variable {H : Bytes → Bytes}

theorem mem_hashedKids_iff {kids : Kids} {x : Bytes} (h : x ∈ Tree.hashedKids kids) : ∃ c t, (c, t) ∈ kids ∧ x ∈ t.hashed := by
  induction kids with
  | nil => cases h
  | cons a l ih =>
    obtain ⟨c, t⟩ := a
    simp only [Tree.hashedKids, List.mem_append] at h
    rcases h with h | h
    · exact ⟨c, t, by simp, h⟩
    · obtain ⟨c', t', h1, h2⟩ := ih h
      exact ⟨c', t', List.mem_cons_of_mem _ h1, h2⟩

/-- The keys determine what is hashed. -/
theorem Tree.Good.hashed_same {p : Bytes} {t t' : Tree} (h : t.Good H p) (h' : t'.Good H p)
    (hm : ∀ x, x ∈ t.toList ↔ x ∈ t'.toList) : ∀ x ∈ t.hashed, x ∈ t'.hashed := by
  have hu := h.unique h' hm
  induction h generalizing t' with
  | leaf p k hashes hp hk hh =>
    have hi := items_same (.leaf p k hashes hp hk hh) h' hm
    cases h' with
    | leaf _ k' hashes' _ hk' _ =>
      have := (hm k).1 (by simp [Tree.toList, Tree.listKids])
      simp [Tree.toList, Tree.listKids] at this
      subst this
      simp [Tree.hashed, Tree.isLeaf]
    | inner _ hashes' kids' _ _ _ _ h2 =>
      have := h2 hp
      simp only [Tree.items] at hi
      omega
  | inner p hashes kids hne hs hk hh h2 ih =>
    have hi := items_same (.inner p hashes kids hne hs hk hh h2) h' hm
    cases h' with
    | leaf _ k' hashes' hp _ _ =>
      have := h2 hp
      simp only [Tree.items] at hi
      omega
    | inner _ hashes' kids' hne' hs' hk' hh' h2' =>
      simp only [Tree.toList, Option.toList_none, List.nil_append] at hm
      have : hashes = hashes' := by
        apply OMap.ext
        intro c
        rw [hh, hh']
        cases hg : OMapL.get c kids with
        | some a =>
          obtain ⟨a', hg', hm'⟩ := kids_same hs hs' hk hk' hm c hg
          rw [hg']
          simp only [Option.map_some, Option.some.injEq]
          exact (hk c a hg).unique (hk' c a' hg') hm'
        | none =>
          cases hg' : OMapL.get c kids' with
          | none => rfl
          | some a' =>
            obtain ⟨a, hg2, _⟩ := kids_same hs' hs hk' hk (fun x => (hm x).symm) c hg'
            rw [hg] at hg2; cases hg2
      subst this
      simp only [Tree.hashed, isLeaf_false hne, isLeaf_false hne', Bool.false_eq_true, if_false]
      intro x hx
      rcases List.mem_cons.1 hx with rfl | hx
      · exact List.mem_cons_self
      · obtain ⟨c, a, hc, hxa⟩ := mem_hashedKids_iff hx
        have hg := (OMapL.get_eq_some_iff hs).2 hc
        obtain ⟨a', hg', hm'⟩ := kids_same hs hs' hk hk' hm c hg
        exact List.mem_cons_of_mem _ (mem_hashedKids ((OMapL.get_eq_some_iff hs').1 hg') x
          (ih c a hg (hk' c a' hg') hm' ((hk c a hg).unique (hk' c a' hg') hm') x hxa))

theorem hashedFor_spec (hH : ∀ x, H x ≠ []) {U : Bytes → Prop} (hU : KeysFit U) {keys : List Bytes} (hk : ∀ k ∈ keys, U k)
    {t : Tree} (hf : t.Fresh H []) (hh : Holds t keys) : ∀ x ∈ t.hashed, x ∈ hashedFor H keys := by
  obtain ⟨s, h1, ⟨t', h2, h3, h4⟩, _⟩ := full_run hH hU [.insert id keys] (ks := {}) (fullState_new (H := H)) (by simp)
    (by simp) (by simpa [historyKeys, TrieOp.keys] using hk) (by simp [TrieOp.FairOrder]) (by simp [TrieOp.IsReload])
  have hm : ∀ x, x ∈ t.toList ↔ x ∈ t'.toList := by
    intro x
    rw [hh.2, h4.2]
    simp only [List.foldl_cons, List.foldl_nil, KeySets.step, mem_addKeys]
    simp
  simp only [hashedFor, h1, TrieState.hashed, h2, Option.map_some, Option.getD_some]
  rcases hf with rfl | g <;> rcases h3 with rfl | g'
  · exact fun x h => h
  · obtain ⟨x, hx⟩ := g'.exists_mem
    have := (hm x).2 hx; simp at this
  · obtain ⟨x, hx⟩ := g.exists_mem
    have := (hm x).1 hx; simp at this
  · exact g.hashed_same g' hm

/-- Two states with one root hash hold the same keys, or the hash function collides on values hashed for them. -/
theorem root_fixes_keys (hlen : ∀ x, (H x).length = 20) {U : Bytes → Prop} (hU : KeysFit U) (ten : ∀ k, U k → k.length % 10 ≠ 0)
    {s s' : TrieState} {ks ks' : KeySets} (h : CacheInv H s ks) (h' : CacheInv H s' ks') (hk : ∀ k ∈ ks.current, U k)
    (hk' : ∀ k ∈ ks'.current, U k) (same : s.rootHash H = s'.rootHash H) :
    (∀ k, k ∈ ks.current ↔ k ∈ ks'.current) ∨
      ∃ x ∈ hashedFor H ks.current, ∃ y ∈ hashedFor H ks'.current, x ≠ y ∧ H x = H y := by
  have hH : ∀ x, H x ≠ [] := fun x e => by have := hlen x; rw [e] at this; cases this
  obtain ⟨t, hf, hh, e, _⟩ := cache_reads h
  obtain ⟨t', hf', hh', e', _⟩ := cache_reads h'
  have hx1 := hashedFor_spec hH hU hk hf hh
  have hx2 := hashedFor_spec hH hU hk' hf' hh'
  refine Classical.byContradiction fun hcon => ?_
  rw [not_or] at hcon
  have hinj : ∀ x ∈ t.hashed, ∀ y ∈ t'.hashed, H x = H y → x = y := by
    intro x hx y hy e
    exact Classical.byContradiction fun hne => hcon.2 ⟨x, hx1 x hx, y, hx2 y hy, hne, e⟩
  have he : nodeHash H t = nodeHash H t' := by
    rw [e, e'] at same; injection same
  have hlist : t.toList = t'.toList := by
    rcases hf with rfl | g1
    · rcases hf' with rfl | g2
      · rfl
      · exact absurd he.symm (g2.hash_ne hH)
    · rcases hf' with rfl | g2
      · exact absurd he (g1.hash_ne hH)
      · refine good_injective hlen g1 g2 ?_ ?_ hinj he
        · intro x hx
          obtain ⟨k, hkm, rfl⟩ := (hh.2 x).1 hx
          have := ten k (hk k hkm)
          rw [expandNibbles_length]; omega
        · intro x hx
          obtain ⟨k, hkm, rfl⟩ := (hh'.2 x).1 hx
          have := ten k (hk' k hkm)
          rw [expandNibbles_length]; omega
  apply hcon.1
  intro k
  constructor
  · intro hk
    have := (hh.2 (expandNibbles k)).2 ⟨k, hk, rfl⟩
    rw [hlist] at this
    obtain ⟨k', h3, h4⟩ := (hh'.2 _).1 this
    rw [← expandNibbles_inj h4]; exact h3
  · intro hk
    have := (hh'.2 (expandNibbles k)).2 ⟨k, hk, rfl⟩
    rw [← hlist] at this
    obtain ⟨k', h3, h4⟩ := (hh.2 _).1 this
    rw [← expandNibbles_inj h4]; exact h3

end Verif
