import Verif.Spec.Consensus
/-!
Shard witnesses in blocks.
-/
namespace Verif
open Verif.Spec

theorem filterMap_all {α β : Type} {f : α → Option β} {l : List α} (h : (l.filterMap f).length = l.length) :
    ∀ x ∈ l, ∃ y, f x = some y := by
  induction l with
  | nil => simp
  | cons a l ih =>
    cases ha : f a with
    | none =>
      rw [List.filterMap_cons, ha] at h
      have := List.length_filterMap_le f l
      simp only [List.length_cons] at h
      omega
    | some y =>
      rw [List.filterMap_cons, ha] at h
      simp only [List.length_cons, Nat.add_right_cancel_iff] at h
      intro x hx
      rcases List.mem_cons.1 hx with rfl | hx
      · exact ⟨y, ha⟩
      · exact ih h x hx

theorem filterMap_keys {α β γ : Type} {f : α → Option β} {g : β → γ} {k : α → γ} {l : List α}
    (h : ∀ x ∈ l, ∃ y, f x = some y ∧ g y = k x) : (l.filterMap f).map g = l.map k := by
  induction l with
  | nil => rfl
  | cons a l ih =>
    obtain ⟨y, h1, h2⟩ := h a (by simp)
    rw [List.filterMap_cons, h1]
    simp only [List.map_cons, h2]
    rw [ih (fun x hx => h x (by simp [hx]))]

/-- What a shard's witness is. -/
theorem nextWitness_spec {blocks : Nat → Option (List Witness)} {n s : Nat} {chunks : Nat → Option Witness} {w : Witness}
    (hn : 1 ≤ n) (h : nextWitness blocks n s chunks = some w) :
    lastWitness blocks n s = some w ∨
    (n = 1 ∧ chunks 1 = some w) ∨
    (∃ w', n ≠ 1 ∧ lastWitness blocks n s = some w' ∧ chunks ((w'.height.block + 1) % 2 ^ 64) = some w) := by
  unfold nextWitness at h
  by_cases h1 : n = 1
  · subst h1
    simp only [if_true] at h
    cases hc : chunks 1 with
    | none => rw [hc] at h; exact .inl h
    | some v => rw [hc] at h; cases h; exact .inr (.inl ⟨rfl, rfl⟩)
  · simp only [h1, if_false] at h
    cases hl : lastWitness blocks n s with
    | none => rw [hl] at h; cases h
    | some v =>
      rw [hl] at h
      simp only [Option.map_some] at h
      cases hc : chunks ((v.height.block + 1) % 2 ^ 64) with
      | none => rw [hc] at h; simp only at h; exact .inl h
      | some u => rw [hc] at h; cases h; exact .inr (.inr ⟨v, h1, rfl, hc⟩)

theorem lastWitness_some {blocks : Nat → Option (List Witness)} {n s : Nat} {w : Witness}
    (h : lastWitness blocks n s = some w) : n ≠ 0 ∧ RefersTo blocks (n - 1) w ∧ w.height.shard = s := by
  unfold lastWitness at h
  split at h
  · cases h
  · next h0 =>
    cases hb : blocks (n - 1) with
    | none => rw [hb] at h; cases h
    | some ws =>
      rw [hb] at h
      exact ⟨h0, ⟨ws, hb, List.mem_of_find?_eq_some h⟩, by simpa using List.find?_some h⟩

section
variable {shards : List Nat} {stores : Nat → ShardStores} {blocks : Nat → Option (List Witness)} {N : Nat}

/-- A block of the chain: one witness per shard, in order, each found by `nextWitness`. -/
theorem chain_block (hc : HonestChain shards stores blocks N) {n : Nat} (h1 : 1 ≤ n) (h2 : n ≤ N) :
    ∃ ws, blocks n = some ws ∧ ws.map (·.height.shard) = shards ∧
      ∀ w ∈ ws, ∃ s chunks, (s, chunks) ∈ stores n ∧ nextWitness blocks n s chunks = some w ∧ w.height.shard = s := by
  have hb := hc.collected n h1 h2
  have ha := hc.accepted n h1 h2
  unfold collectWitnesses at hb ha
  simp only at hb ha
  by_cases hl : ((stores n).filterMap (fun s => nextWitness blocks n s.1 s.2)).length = shards.length
  · rw [if_pos hl] at hb
    have hlen : (stores n).length = shards.length := by rw [← hc.all n, List.length_map]
    have hall := filterMap_all (hl.trans hlen.symm)
    have hshard : ∀ x ∈ stores n, ∀ w, nextWitness blocks n x.1 x.2 = some w → w.height.shard = x.1 := by
      intro x hx w hw
      rcases nextWitness_spec h1 hw with h | ⟨_, h⟩ | ⟨w', _, h', h⟩
      · exact (lastWitness_some h).2.2
      · rw [hc.keyed n x.1 x.2 hx _ _ h]
      · rw [hc.keyed n x.1 x.2 hx _ _ h]
    refine ⟨_, hb, ?_, ?_⟩
    · rw [← hc.all n]
      apply filterMap_keys
      intro x hx
      obtain ⟨y, hy⟩ := hall x hx
      exact ⟨y, hy, hshard x hx y hy⟩
    · intro w hw
      obtain ⟨x, hx, hy⟩ := List.mem_filterMap.1 hw
      exact ⟨x.1, x.2, hx, hy, hshard x hx w hy⟩
  · rw [if_neg hl] at ha
    exact absurd rfl ha

/-- One block after another. -/
theorem chain_step (hc : HonestChain shards stores blocks N) (hN : N < 2 ^ 64) {n : Nat} (h1 : 1 ≤ n) (h2 : n ≤ N) :
    ∀ w, RefersTo blocks n w → 1 ≤ w.height.block ∧ w.height.block ≤ n ∧
      (∃ i, 1 ≤ i ∧ i ≤ n ∧ ∃ chunks, (w.height.shard, chunks) ∈ stores i ∧ chunks w.height.block = some w) ∧
      (n = 1 → w.height.block = 1) ∧
      (1 < n → RefersTo blocks (n - 1) w ∨
        ∃ w', RefersTo blocks (n - 1) w' ∧ w'.height.shard = w.height.shard ∧ w.height.block = w'.height.block + 1) := by
  induction n with
  | zero => omega
  | succ n ih =>
    rintro w ⟨ws, hb, hw⟩
    obtain ⟨ws', hb', _, hall⟩ := chain_block hc h1 h2
    rw [hb] at hb'
    cases hb'
    obtain ⟨s, chunks, hs, hnext, hws⟩ := hall w hw
    rcases nextWitness_spec h1 hnext with h | ⟨e, h⟩ | ⟨w', e, h', h⟩
    · obtain ⟨_, hr, _⟩ := lastWitness_some h
      simp only [Nat.add_sub_cancel] at hr
      by_cases hn : n = 0
      · subst hn
        obtain ⟨x, hx, _⟩ := hr
        rw [hc.genesis] at hx
        cases hx
      · obtain ⟨a, b, ⟨i, i1, i2, i3⟩, _, _⟩ := ih (by omega) (by omega) w hr
        exact ⟨a, by omega, ⟨i, i1, by omega, i3⟩, fun x => by omega, fun _ => .inl hr⟩
    · have hh := hc.keyed _ s chunks hs 1 w h
      rw [hh]
      refine ⟨by simp, by simp, ⟨n + 1, h1, Nat.le_refl _, chunks, hs, h⟩, fun _ => rfl, fun x => by omega⟩
    · obtain ⟨_, hr, hs'⟩ := lastWitness_some h'
      simp only [Nat.add_sub_cancel] at hr
      by_cases hn : n = 0
      · omega
      · obtain ⟨a, b, _, _, _⟩ := ih (by omega) (by omega) w' hr
        have hmod : (w'.height.block + 1) % 2 ^ 64 = w'.height.block + 1 := Nat.mod_eq_of_lt (by omega)
        rw [hmod] at h
        have hh := hc.keyed _ s chunks hs _ w h
        rw [hh]
        exact ⟨by simp, by simp; omega, ⟨n + 1, h1, Nat.le_refl _, chunks, hs, h⟩, fun x => by omega,
          fun _ => .inr ⟨w', hr, hs', rfl⟩⟩

end
end Verif
