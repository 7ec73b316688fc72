import Verif.Spec.Consensus
import Verif.Lemmas.TrieGood
/-!
Validator sets and certificates.
-/
namespace Verif
open Spec

theorem takeAfter_some {k : Bytes} {l r : List Bytes} (h : takeAfter k l = some r) : ∃ p, l = p ++ k :: r := by
  induction l with
  | nil => simp [takeAfter] at h
  | cons x l ih =>
    simp only [takeAfter] at h
    split at h
    · rename_i e; simp only [Option.some.injEq] at h; subst h e; exact ⟨[], rfl⟩
    · obtain ⟨p, hp⟩ := ih h; exact ⟨x :: p, by rw [hp]; rfl⟩

theorem takeAfter_sublist {k : Bytes} {l : List Bytes} {m : List Bytes} (h : (k :: m).Sublist l) :
    ∃ r, takeAfter k l = some r ∧ m.Sublist r := by
  induction l with
  | nil => exact absurd h (by simp)
  | cons x l ih =>
    by_cases e : x = k
    · subst e
      refine ⟨l, by simp [takeAfter], ?_⟩
      exact List.cons_sublist_cons.1 h
    · obtain ⟨r, h1, h2⟩ := ih (by
        cases h with
        | cons _ h => exact h
        | cons_cons _ _ => exact absurd rfl e)
      exact ⟨r, by simp only [takeAfter, if_neg e, h1], h2⟩

theorem checkSignatures_iff {ok : Bytes × Bytes → Bool} {keys : List Bytes} {sigs : List (Bytes × Bytes)} :
    checkSignatures ok keys sigs = true ↔ (sigs.map (·.1)).Sublist keys ∧ ∀ s ∈ sigs, ok s = true := by
  induction sigs generalizing keys with
  | nil => simp [checkSignatures]
  | cons s l ih =>
    simp only [checkSignatures, List.map_cons, List.mem_cons, forall_eq_or_imp]
    constructor
    · intro h
      split at h
      · exact absurd h (by simp)
      · rename_i rest hr
        simp only [Bool.and_eq_true] at h
        obtain ⟨p, hp⟩ := takeAfter_some hr
        obtain ⟨h1, h2⟩ := ih.1 h.2
        refine ⟨?_, h.1, h2⟩
        rw [hp]
        exact (List.cons_sublist_cons.2 h1).trans (List.sublist_append_right _ _)
    · rintro ⟨h1, h2, h3⟩
      obtain ⟨r, hr, hs⟩ := takeAfter_sublist h1
      simp only [hr, h2, Bool.true_and]
      exact ih.2 ⟨hs, h3⟩

theorem mem_insertValidator {v x : Validator} {l : List Validator} :
    x ∈ insertValidator v l ↔ x = v ∨ x ∈ l := by
  induction l with
  | nil => simp [insertValidator]
  | cons y l ih =>
    simp only [insertValidator]
    split
    · simp
    · simp only [List.mem_cons, ih]; grind

/-- Members of a set: one shard, keys strictly ascending. -/
def SetOk (shard : Nat) (l : List Validator) : Prop :=
  (∀ v ∈ l, v.shard = shard) ∧ l.Pairwise (fun a b => a.key ≺ b.key)

theorem insertValidator_sorted {v : Validator} {l : List Validator} (h : l.Pairwise (fun a b => a.key ≺ b.key))
    (hn : ∀ x ∈ l, x.key ≠ v.key) : (insertValidator v l).Pairwise (fun a b => a.key ≺ b.key) := by
  induction l with
  | nil => simp [insertValidator]
  | cons y l ih =>
    simp only [insertValidator]
    rw [List.pairwise_cons] at h
    split
    · rename_i hlt
      refine List.pairwise_cons.2 ⟨?_, List.pairwise_cons.2 h⟩
      intro z hz
      rcases List.mem_cons.1 hz with e | e
      · subst e; exact hlt
      · exact StrictOrd.trans hlt (h.1 z e)
    · rename_i hlt
      refine List.pairwise_cons.2 ⟨?_, ih h.2 (fun x hx => hn x (List.mem_cons_of_mem _ hx))⟩
      intro z hz
      rcases mem_insertValidator.1 hz with e | e
      · subst e
        rcases StrictOrd.tri y.key z.key with g | g | g
        · exact g
        · exact absurd g (hn y List.mem_cons_self)
        · exact absurd g hlt
      · exact h.1 z e

theorem addValidator_ok {shard : Nat} {l : List Validator} {v : Validator} (h : SetOk shard l) (hv : v.shard = shard) :
    SetOk shard (addValidator l v) ∧ ∀ k, k ∈ (addValidator l v).map (·.key) ↔ k = v.key ∨ k ∈ l.map (·.key) := by
  unfold addValidator
  split
  · rename_i ha
    refine ⟨h, fun k => ?_⟩
    simp only [List.any_eq_true, beq_iff_eq] at ha
    obtain ⟨x, hx, e⟩ := ha
    constructor
    · exact .inr
    · rintro (e' | hk)
      · rw [e', ← e]; exact List.mem_map_of_mem hx
      · exact hk
  · rename_i ha
    have hn : ∀ x ∈ l, x.key ≠ v.key := by
      intro x hx e
      exact ha (List.any_eq_true.2 ⟨x, hx, by simp [e]⟩)
    cases l with
    | nil => exact ⟨⟨by simp [hv], by simp⟩, by simp⟩
    | cons x l =>
      simp only [h.1 x List.mem_cons_self, hv, if_true]
      refine ⟨⟨?_, insertValidator_sorted h.2 hn⟩, ?_⟩
      · intro y hy
        rcases mem_insertValidator.1 hy with e | e
        · rw [e, hv]
        · exact h.1 y e
      · intro k
        simp only [List.mem_map, mem_insertValidator]
        grind

theorem foldl_addValidator_ok {shard : Nat} {keys : List Bytes} {l : List Validator} (h : SetOk shard l) :
    SetOk shard ((keys.map (Validator.mk shard)).foldl addValidator l) ∧
    ∀ k, k ∈ ((keys.map (Validator.mk shard)).foldl addValidator l).map (·.key) ↔ k ∈ keys ∨ k ∈ l.map (·.key) := by
  induction keys generalizing l with
  | nil => exact ⟨h, by simp⟩
  | cons x keys ih =>
    obtain ⟨h1, h2⟩ := addValidator_ok (v := ⟨shard, x⟩) h rfl
    obtain ⟨h3, h4⟩ := ih h1
    refine ⟨h3, fun k => ?_⟩
    rw [List.map_cons, List.foldl_cons, h4, h2]
    simp only [List.mem_cons]; grind

/-- A configured set has exactly the configured keys, in ascending order. -/
theorem ofConfig_ok (shard : Nat) (c : SetConfig) :
    SetOk shard (StoredSet.ofConfig shard c).validators ∧
    ∀ k, k ∈ (StoredSet.ofConfig shard c).validators.map (·.key) ↔ k ∈ c.keys := by
  obtain ⟨h1, h2⟩ := foldl_addValidator_ok (shard := shard) (keys := c.keys) (l := []) ⟨by simp, by simp⟩
  exact ⟨h1, fun k => by have := h2 k; simpa [StoredSet.ofConfig] using this⟩

theorem foldl_betterSet_mem {shard height : Nat} {l : List StoredSet} {b : StoredSet} :
    l.foldl (betterSet shard height) b = b ∨ l.foldl (betterSet shard height) b ∈ l := by
  induction l generalizing b with
  | nil => exact .inl rfl
  | cons c l ih =>
    simp only [List.foldl_cons]
    rcases ih (b := betterSet shard height b c) with h | h
    · rw [h]
      unfold betterSet
      split
      · exact .inr List.mem_cons_self
      · exact .inl rfl
    · exact .inr (List.mem_cons_of_mem _ h)

theorem validatorSetAt_mem (s : StoredSets) (height : Nat) :
    ∃ c ∈ s.first :: s.others, validatorSetAt s height = c.validators := by
  unfold validatorSetAt
  rcases foldl_betterSet_mem (shard := s.shard) (height := height) (l := s.first :: s.others) (b := s.first) with h | h
  · exact ⟨s.first, List.mem_cons_self, by rw [h]⟩
  · exact ⟨_, h, rfl⟩

theorem inCharge_sorted {shard : Nat} {first : SetConfig} {others : List SetConfig} {height : Nat} :
    (inCharge (configured shard first others) height).Pairwise (· ≺ ·) := by
  obtain ⟨c, hc, he⟩ := validatorSetAt_mem (configured shard first others) height
  unfold inCharge
  rw [he, List.pairwise_map]
  rcases List.mem_cons.1 hc with e | e
  · rw [e]; exact (ofConfig_ok shard first).1.2
  · obtain ⟨o, _, ho⟩ := List.mem_map.1 e
    rw [← ho]; exact (ofConfig_ok shard o).1.2

theorem inCharge_nodup {shard : Nat} {first : SetConfig} {others : List SetConfig} {height : Nat} :
    (inCharge (configured shard first others) height).Nodup := by
  unfold List.Nodup
  exact inCharge_sorted.imp (fun {a b} h e => by subst e; exact StrictOrd.irrefl _ h)

theorem foldl_betterSet_spec {shard height : Nat} (l : List SetConfig) (b : SetConfig) (hb : Applies shard height b) :
    ∃ c, (l.map (StoredSet.ofConfig shard)).foldl (betterSet shard height) (StoredSet.ofConfig shard b) =
        StoredSet.ofConfig shard c ∧ Applies shard height c ∧
      ((c = b ∧ ∀ d ∈ l, Applies shard height d → d.effectiveAt ≤ b.effectiveAt) ∨
       (b.effectiveAt < c.effectiveAt ∧ ∃ pre post, l = pre ++ c :: post ∧
        (∀ d ∈ pre, Applies shard height d → d.effectiveAt < c.effectiveAt) ∧
        (∀ d ∈ post, Applies shard height d → d.effectiveAt ≤ c.effectiveAt))) := by
  induction l generalizing b with
  | nil => exact ⟨b, rfl, hb, .inl ⟨rfl, by simp⟩⟩
  | cons x l ih =>
    rw [List.map_cons, List.foldl_cons]
    by_cases hx : Applies shard height x ∧ x.effectiveAt > b.effectiveAt
    · have e : betterSet shard height (StoredSet.ofConfig shard b) (StoredSet.ofConfig shard x) =
          StoredSet.ofConfig shard x := by
        unfold betterSet StoredSet.ofConfig
        simp only [List.contains_iff_mem, Bool.and_eq_true, decide_eq_true_eq]
        rw [if_pos ⟨⟨hx.1.1, hx.1.2⟩, hx.2⟩]
      rw [e]
      obtain ⟨c, h1, h2, h3⟩ := ih x hx.1
      refine ⟨c, h1, h2, .inr ?_⟩
      rcases h3 with ⟨rfl, h⟩ | ⟨hlt, pre, post, h4, h5, h6⟩
      · exact ⟨hx.2, [], l, rfl, by simp, h⟩
      · have := hx.2
        refine ⟨by omega, x :: pre, post, by rw [h4]; rfl, ?_, h6⟩
        intro d hd ha
        rcases List.mem_cons.1 hd with rfl | hd
        · exact hlt
        · exact h5 d hd ha
    · have e : betterSet shard height (StoredSet.ofConfig shard b) (StoredSet.ofConfig shard x) =
          StoredSet.ofConfig shard b := by
        unfold betterSet StoredSet.ofConfig
        simp only [List.contains_iff_mem, Bool.and_eq_true, decide_eq_true_eq]
        rw [if_neg (fun h => hx ⟨⟨h.1.1, h.1.2⟩, h.2⟩)]
      rw [e]
      have hx' : Applies shard height x → x.effectiveAt ≤ b.effectiveAt := fun ha =>
        Nat.le_of_not_lt (fun hl => hx ⟨ha, hl⟩)
      obtain ⟨c, h1, h2, h3⟩ := ih b hb
      refine ⟨c, h1, h2, ?_⟩
      rcases h3 with ⟨rfl, h⟩ | ⟨hlt, pre, post, h4, h5, h6⟩
      · refine .inl ⟨rfl, ?_⟩
        intro d hd ha
        rcases List.mem_cons.1 hd with rfl | hd
        · exact hx' ha
        · exact h d hd ha
      · refine .inr ⟨hlt, x :: pre, post, by rw [h4]; rfl, ?_, h6⟩
        intro d hd ha
        rcases List.mem_cons.1 hd with rfl | hd
        · exact Nat.lt_of_le_of_lt (hx' ha) hlt
        · exact h5 d hd ha

theorem rotate_perm {α : Type} (f : Nat → α) (n : Nat) (hf : ∀ i, f (i + n) = f i) (a : Nat) :
    ((List.range n).map (fun i => f (a + i))).Perm ((List.range n).map f) := by
  induction a with
  | zero => simp
  | succ a ih =>
    refine List.Perm.trans ?_ ih
    cases n with
    | zero => simp
    | succ n =>
      have e1 : (List.range (n + 1)).map (fun i => f (a + 1 + i)) =
          (List.range n).map (fun i => f (a + (i + 1))) ++ [f (a + 0)] := by
        rw [List.range_succ, List.map_append]
        congr 1
        · exact List.map_congr_left (fun i _ => by congr 1; omega)
        · simp only [List.map_cons, List.map_nil]
          congr 1
          rw [show a + 1 + n = a + (n + 1) by omega]
          exact hf a
      have e2 : (List.range (n + 1)).map (fun i => f (a + i)) =
          f (a + 0) :: (List.range n).map (fun i => f (a + (i + 1))) := by
        rw [List.range_succ_eq_map, List.map_cons, List.map_map]
        rfl
      rw [e1, e2]
      exact List.perm_append_singleton _ _

/-- Every slot, counted from the first height, belongs to one validator in turn. -/
theorem select_turn {set : List Validator} {s h : Nat} (hn : set ≠ []) (h1 : 1 ≤ h) {r : Nat} (hr : h - 1 + r < 2 ^ 64) :
    selectProposer set ⟨s, h⟩ r = set[(h - 1 + r) % set.length]? := by
  unfold selectProposer
  have : (set.isEmpty || decide ((r : Int) < 0)) = false := by
    simp only [Bool.or_eq_false_iff, List.isEmpty_eq_false_iff, decide_eq_false_iff_not]
    exact ⟨hn, by omega⟩
  rw [this]
  simp only [Bool.false_eq_true, if_false, Int.toNat_natCast]
  have : (h + 2 ^ 64 - 1 + r) % 2 ^ 64 = h - 1 + r := by
    rw [show h + 2 ^ 64 - 1 + r = h - 1 + r + 2 ^ 64 by omega, Nat.add_mod_right, Nat.mod_eq_of_lt hr]
  rw [this]

theorem range_getElem {α : Type} (l : List α) : (List.range l.length).map (fun i => l[i % l.length]?) = l.map some := by
  apply List.ext_getElem?
  intro i
  rw [List.getElem?_map, List.getElem?_map]
  by_cases hi : i < l.length
  · rw [List.getElem?_range hi]
    simp only [Option.map_some, Nat.mod_eq_of_lt hi]
    rw [List.getElem?_eq_getElem hi]
    rfl
  · rw [List.getElem?_eq_none (by simpa using hi), List.getElem?_eq_none (by simpa using hi)]
    rfl

end Verif
