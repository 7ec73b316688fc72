import Verif.Lemmas.Witness
/-!
C56: blocks refer to shard chunks without gaps, as long as proposers follow the code.
-/
namespace Verif
open Verif.Spec

section
variable {shards : List Nat} {stores : Nat → ShardStores} {blocks : Nat → Option (List Witness)} {N : Nat}

/-- Every block refers to exactly one chunk of every shard: in block 1 the first one, later the chunk of the previous
block or the one after it. -/
theorem C56_same_or_next (hc : HonestChain shards stores blocks N) (hN : N < 2 ^ 64) {n : Nat} (h1 : 1 ≤ n) (h2 : n ≤ N) :
    ∃ ws, blocks n = some ws ∧ ws.map (·.height.shard) = shards ∧ ∀ w ∈ ws,
      (n = 1 → w.height.block = 1) ∧
      (1 < n → ∃ w', RefersTo blocks (n - 1) w' ∧ w'.height.shard = w.height.shard ∧
        (w = w' ∨ w.height.block = w'.height.block + 1)) := by
  obtain ⟨ws, hb, hs, _⟩ := chain_block hc h1 h2
  refine ⟨ws, hb, hs, fun w hw => ?_⟩
  obtain ⟨_, _, _, a, b⟩ := chain_step hc hN h1 h2 w ⟨ws, hb, hw⟩
  refine ⟨a, fun hn => ?_⟩
  rcases b hn with h | ⟨w', x, y, z⟩
  · exact ⟨w, h, rfl, .inl rfl⟩
  · exact ⟨w', x, y, .inr z⟩

/-- No chunk is skipped: below a chunk that a block refers to, every chunk of that shard is referred to by this block or
an earlier one. -/
theorem C56_nothing_skipped (hc : HonestChain shards stores blocks N) (hN : N < 2 ^ 64) {n : Nat} (h1 : 1 ≤ n) (h2 : n ≤ N)
    {w : Witness} (hw : RefersTo blocks n w) {m : Nat} (m1 : 1 ≤ m) (m2 : m ≤ w.height.block) :
    ∃ i, 1 ≤ i ∧ i ≤ n ∧ ∃ w', RefersTo blocks i w' ∧ w'.height = ⟨w.height.shard, m⟩ := by
  induction n generalizing w with
  | zero => omega
  | succ n ih =>
    by_cases hm : m = w.height.block
    · exact ⟨n + 1, h1, Nat.le_refl _, w, hw, by rw [hm]⟩
    · obtain ⟨a, b, _, d, e⟩ := chain_step hc hN h1 h2 w hw
      by_cases hn : n = 0
      · subst hn; have := d rfl; omega
      · rcases e (by omega) with h | ⟨w', x, y, z⟩
        · obtain ⟨i, i1, i2, i3⟩ := ih (by omega) (by omega) h m2
          exact ⟨i, i1, by omega, i3⟩
        · obtain ⟨i, i1, i2, i3⟩ := ih (by omega) (by omega) x (by omega)
          exact ⟨i, i1, by omega, by rw [← y]; exact i3⟩

/-- What a block refers to is a chunk some proposer had stored: its hash and root are those of that chunk. -/
theorem C56_refers_to_stored_chunk (hc : HonestChain shards stores blocks N) (hN : N < 2 ^ 64) {n : Nat} (h1 : 1 ≤ n)
    (h2 : n ≤ N) {w : Witness} (hw : RefersTo blocks n w) :
    ∃ i, 1 ≤ i ∧ i ≤ n ∧ ∃ chunks, (w.height.shard, chunks) ∈ stores i ∧ chunks w.height.block = some w :=
  (chain_step hc hN h1 h2 w hw).2.2.1

end

namespace C56Case

def wit (s m : Nat) : Witness := ⟨⟨s, m⟩, [UInt8.ofNat s, UInt8.ofNat m], [UInt8.ofNat m]⟩

/-- A store with the first `k` chunks of a shard. -/
def upTo (s k : Nat) : Nat × (Nat → Option Witness) := (s, fun m => if m ≤ k then some (wit s m) else none)

/-- Shard 1 is faster than shard 2. -/
def stores (n : Nat) : ShardStores := [upTo 1 (2 * n), upTo 2 (n / 2 + 1)]

def blocks : Nat → Option (List Witness)
  | 1 => some [wit 1 1, wit 2 1]
  | 2 => some [wit 1 2, wit 2 2]
  | 3 => some [wit 1 3, wit 2 2]
  | _ => none

example : HonestChain [1, 2] stores blocks 3 where
  some_shard := by simp
  once := by decide
  all _ := rfl
  keyed n s chunks h m w hw := by
    simp only [stores, upTo, List.mem_cons, List.not_mem_nil, or_false, Prod.mk.injEq] at h
    rcases h with ⟨rfl, rfl⟩ | ⟨rfl, rfl⟩ <;> (simp only at hw; split at hw <;> cases hw; rfl)
  genesis := rfl
  collected n h1 h2 := by
    have : n = 1 ∨ n = 2 ∨ n = 3 := by omega
    rcases this with rfl | rfl | rfl <;> decide
  accepted n h1 h2 := by
    have : n = 1 ∨ n = 2 ∨ n = 3 := by omega
    rcases this with rfl | rfl | rfl <;> decide

end C56Case

/-- Validators check only the number of witnesses and their hash.  Every list of the right length is accepted with its
own hash: chunks that do not exist, that go back, or one shard twice. -/
theorem C56_any_witnesses_accepted (H : Bytes → Bytes) (enc : List Witness → Bytes) (ws : List Witness)
    (hH : H (enc ws) ≠ []) : witnessesAccepted H enc ws.length (H (enc ws)) ws = true := by
  unfold witnessesAccepted
  simp [hH]

/-- One accepted block without a witness for some shard stops shard 0 as long as proposers follow the code: what they
collect for the next height is empty, and validators reject it. -/
theorem C56_missing_shard_stops_blocks (H : Bytes → Bytes) (enc : List Witness → Bytes)
    {blocks : Nat → Option (List Witness)} {n : Nat} {stores : ShardStores} {s : Nat} {chunks : Nat → Option Witness}
    {ws : List Witness} (hn : 1 ≤ n) (hb : blocks n = some ws) (hs : (s, chunks) ∈ stores)
    (hno : ∀ w ∈ ws, w.height.shard ≠ s) :
    collectWitnesses blocks (n + 1) stores.length stores = [] ∧
    ∀ claimed, witnessesAccepted H enc stores.length claimed (collectWitnesses blocks (n + 1) stores.length stores) =
      false := by
  have hlast : lastWitness blocks (n + 1) s = none := by
    unfold lastWitness
    rw [if_neg (by omega), Nat.add_sub_cancel, hb]
    simp only [List.find?_eq_none, beq_iff_eq]
    exact hno
  have hnext : nextWitness blocks (n + 1) s chunks = none := by
    unfold nextWitness
    simp only [hlast]
    rw [if_neg (by omega)]
    rfl
  have hcol : collectWitnesses blocks (n + 1) stores.length stores = [] := by
    unfold collectWitnesses
    simp only
    rw [if_neg]
    intro hl
    obtain ⟨y, hy⟩ := filterMap_all hl _ hs
    simp only [hnext] at hy
    cases hy
  refine ⟨hcol, fun claimed => ?_⟩
  rw [hcol]
  unfold witnessesAccepted
  have : 0 < stores.length := List.length_pos_of_mem hs
  have : decide (([] : List Witness).length = stores.length) = false := by
    rw [decide_eq_false_iff_not]; simp only [List.length_nil]; omega
  rw [this]
  simp

namespace C56Case

/-- Such a block: shard 1 twice and shard 2 not at all.  It is accepted, and the next one is empty. -/
example : witnessesAccepted (fun _ => [7]) (fun _ => []) 2 [7] [wit 1 4, wit 1 1] = true ∧
    collectWitnesses (fun n => if n = 4 then some [wit 1 4, wit 1 1] else blocks n) 5 2 (stores 5) = [] := by decide

end C56Case

end Verif
