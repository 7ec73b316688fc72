import Verif.Model.Reconcile
import Verif.Props.C38
/-! C105: repairing a missed heartbeat. -/
namespace Verif
namespace Reconcile
open Spec

/-- A data shard that has the first events of shard 0 has the first events of shard 0 after a start, whatever the setting;
at most one is added, and only the next one, and only if it is no message and no on-chain event. -/
theorem C105_start_keeps_a_prefix (source target : Db BEvent) (all : List BEvent) (k setting : Nat) (hset : setting < 2 ^ 64)
    (hs : HoldsEvents source all) (hk : k ≤ all.length) (ht : HoldsEvents target (all.take k)) :
    ∃ k', (k' = k ∨ (k' = k + 1 ∧ setting = k + 1 ∧ ∃ e d, all[k]? = some e ∧ e.data = some d ∧ d.ty ≠ 1 ∧ d.ty ≠ 2)) ∧
      k' ≤ all.length ∧ HoldsEvents (start source target setting) (all.take k') ∧
      (setting = k + 1 → (∃ e d, all[k]? = some e ∧ e.data = some d ∧ d.ty = 0) → k' = k + 1) := by
  have hlen : (all.take k).length = k := by simp [Nat.min_eq_left hk]
  unfold start
  by_cases h0 : setting = 0
  · rw [if_pos h0]
    exact ⟨k, .inl rfl, hk, ht, fun h => by omega⟩
  · rw [if_neg h0]
    have hget : blockEventBySeqnum some source setting = .ok all[setting - 1]? := by
      unfold blockEventBySeqnum
      rw [hs.get hset, if_neg h0]
      cases all[setting - 1]? <;> rfl
    unfold reconcile
    rw [hget]
    cases he : all[setting - 1]? with
    | none =>
      refine ⟨k, .inl rfl, hk, ht, ?_⟩
      rintro rfl ⟨e, d, h1, -⟩
      rw [Nat.add_sub_cancel, h1] at he; cases he
    | some e =>
      obtain ⟨d, hd, hseq⟩ := hs.2.1 _ _ he
      have hlt := getElem?_lt he
      simp only [hd]
      by_cases hb : isHeartbeat d.ty = true
      · rw [if_pos hb, ht.maxSeqnum, hlen]
        have hmod : (k + 1) % 2 ^ 64 = d.seqnum ↔ setting = k + 1 := by
          have := hs.1
          constructor
          · intro h
            by_cases hkk : k + 1 < 2 ^ 64
            · rw [Nat.mod_eq_of_lt hkk] at h; omega
            · omega
          · intro h
            rw [Nat.mod_eq_of_lt (by omega)]; omega
        by_cases hn : setting = k + 1
        · simp only [if_pos (hmod.2 hn)]
          subst hn
          rw [Nat.add_sub_cancel] at he hlt hseq
          have hst : stageBlockEvents OMap.empty [e] = .ok (Txn.stagePut OMap.empty (blockEventKey d.seqnum) e) := by
            simp [stageBlockEvents, putBlockEvent, hd]
          have hput : putBlockEvent id e OMap.empty = .ok (Txn.stagePut OMap.empty (blockEventKey d.seqnum) e) := by
            simp [putBlockEvent, hd]
          rw [hput]
          simp only [isHeartbeat, Bool.and_eq_true, bne_iff_ne, ne_eq] at hb
          refine ⟨k + 1, .inr ⟨rfl, rfl, e, d, he, hd, hb.1, hb.2⟩, by omega, ?_, fun _ _ => rfl⟩
          have := holds_append (es := [e]) ht (by
            intro i x hx
            cases i with
            | zero =>
              simp only [List.getElem?_cons_zero, Option.some.injEq] at hx
              subst hx
              exact ⟨d, hd, by rw [hlen]; omega⟩
            | succ i => simp at hx) (by rw [hlen]; simpa using (by omega : k + 1 < 2 ^ 64)) hst
          rw [List.take_add_one, he]
          exact this
        · simp only [if_neg (fun h => hn (hmod.1 h))]
          exact ⟨k, .inl rfl, hk, ht, fun h => absurd h hn⟩
      · rw [if_neg hb]
        refine ⟨k, .inl rfl, hk, ht, ?_⟩
        rintro rfl ⟨e', d', h1, h2, h3⟩
        rw [Nat.add_sub_cancel, h1] at he
        cases he
        rw [hd] at h2
        cases h2
        rw [h3] at hb
        exact absurd rfl hb

/-- Over any number of starts with any settings, the data shard still has the first events of shard 0, and everything that was
added is no message and no on-chain event. -/
theorem C105_starts_skip_no_message (source : Db BEvent) (all : List BEvent) (hs : HoldsEvents source all) :
    ∀ (settings : List Nat) (target : Db BEvent) (k : Nat), (∀ n ∈ settings, n < 2 ^ 64) → k ≤ all.length →
      HoldsEvents target (all.take k) →
      ∃ k', k ≤ k' ∧ k' ≤ all.length ∧ HoldsEvents (settings.foldl (start source) target) (all.take k') ∧
        ∀ i, k ≤ i → i < k' → ∃ e d, all[i]? = some e ∧ e.data = some d ∧ d.ty ≠ 1 ∧ d.ty ≠ 2
  | [], target, k, _, hk, ht => ⟨k, Nat.le_refl _, hk, ht, fun i h1 h2 => by omega⟩
  | n :: settings, target, k, hn, hk, ht => by
    obtain ⟨k1, h1, h2, h3, -⟩ := C105_start_keeps_a_prefix source target all k n (hn n (by simp)) hs hk ht
    obtain ⟨k', h4, h5, h6, h7⟩ := C105_starts_skip_no_message source all hs settings (start source target n) k1
      (fun m hm => hn m (by simp [hm])) h2 h3
    refine ⟨k', ?_, h5, h6, ?_⟩
    · rcases h1 with rfl | ⟨rfl, -⟩ <;> omega
    · intro i hi hlt
      by_cases hik : k1 ≤ i
      · exact h7 i hik hlt
      · rcases h1 with rfl | ⟨rfl, -, hx⟩
        · omega
        · have : i = k := by omega
          subst this
          exact hx

/-- With shard 0 as it is after any history of blocks: what the data shard serves by number after a start is what shard 0
serves, up to the data shard's last number, and nothing beyond. -/
theorem C105_serves_the_same (H : Bytes → Bytes) (enc : BData → Bytes) (blocks : List ZBlock) (source target : Db BEvent)
    (ess : List (List BEvent)) (hrun : shard0Run H enc blocks OMap.empty = some (source, ess)) (hfit : ess.flatten.length < 2 ^ 64)
    (k : Nat) (hk : k ≤ ess.flatten.length) (ht : HoldsEvents target (ess.flatten.take k)) (setting : Nat) (hset : setting < 2 ^ 64) :
    ∃ k', maxSeqnum some (start source target setting) = .ok k' ∧ ∀ n, n < 2 ^ 64 →
      blockEventBySeqnum some (start source target setting) n = if n ≤ k' then blockEventBySeqnum some source n else .ok none := by
  have hs := shard0Run_holds (H := H) (enc := enc) blocks _ _ [] ess holds_empty hrun (by simpa using hfit)
  simp only [List.nil_append] at hs
  obtain ⟨k', -, h2, h3, -⟩ := C105_start_keeps_a_prefix source target _ k setting hset hs hk ht
  refine ⟨k', ?_, ?_⟩
  · rw [h3.maxSeqnum, List.length_take, Nat.min_eq_left h2]
  · intro n hn
    unfold blockEventBySeqnum
    rw [h3.get hn, hs.get hn]
    by_cases h0 : n = 0
    · simp [h0]
    · simp only [if_neg h0, List.getElem?_take]
      by_cases hle : n ≤ k'
      · rw [if_pos (by omega), if_pos hle]
      · rw [if_neg (by omega), if_neg hle]

namespace C105Case
open C38Case

/-- Shard 0 with five events, the last a heartbeat. -/
def zero : Option (Db BEvent × List (List BEvent)) := shard0Run hash0 enc0 [b1, b2] OMap.empty

/-- The first events of shard 0, put into an empty store. -/
def copy (k : Nat) : Option (Db BEvent) := zero.bind fun r =>
  match stageBlockEvents OMap.empty (r.2.flatten.take k) with
  | .ok t => some (Db.commit OMap.empty t)
  | .error _ => none

/-- The numbers a data shard with `k` events reports before and after a start. -/
def numbers (k setting : Nat) : Option (Nat × Nat) := zero.bind fun r => (copy k).bind fun t =>
  match maxSeqnum some t, maxSeqnum some (start r.1 t setting) with
  | .ok a, .ok b => some (a, b)
  | _, _ => none

/-- The heartbeat is added if it is the next event; a key message, an event further on and a known one are not. -/
example : numbers 4 5 = some (4, 5) ∧ numbers 2 3 = some (2, 2) ∧ numbers 2 5 = some (2, 2) ∧ numbers 5 5 = some (5, 5) ∧
    numbers 4 0 = some (4, 4) := by decide +kernel

/-- The stores the theorems ask for: shard 0 after two blocks, and the empty store of a new data shard. -/
example : ∃ source ess, zero = some (source, ess) ∧ HoldsEvents source ess.flatten ∧ ess.flatten.length = 5 ∧
    HoldsEvents OMap.empty (ess.flatten.take 0) := by
  have h : zero.map (fun r => r.2.flatten.length) = some 5 := by decide +kernel
  cases hz : zero with
  | none => rw [hz] at h; cases h
  | some r =>
    rw [hz] at h
    simp only [Option.map_some, Option.some.injEq] at h
    refine ⟨r.1, r.2, rfl, ?_, h, by simpa using holds_empty⟩
    have := shard0Run_holds (H := hash0) (enc := enc0) [b1, b2] _ r.1 [] r.2 holds_empty hz (by rw [h]; decide)
    simpa using this

end C105Case
end Reconcile
end Verif
