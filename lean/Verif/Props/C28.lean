import Verif.Model.Time
/-!
# C28: farcaster time conversions round-trip
-/
namespace Verif

/-- **C28.** A millisecond time converts exactly when it lies between the epoch and the end of 32-bit
farcaster time. -/
theorem C28_accepts_iff (ms : Nat) :
    (∃ t, toFarcasterTime ms = .ok t) ↔ 1609459200000 ≤ ms ∧ ms < 1609459200000 + 2 ^ 32 * 1000 := by
  unfold toFarcasterTime farcasterEpoch
  by_cases h : ms < 1609459200000
  · rw [if_pos h]; simp; omega
  · rw [if_neg h]
    simp only
    by_cases h2 : (ms - 1609459200000) / 1000 > 2 ^ 32 - 1
    · rw [if_pos h2]; simp; omega
    · rw [if_neg h2]
      constructor
      · intro _; omega
      · intro _; exact ⟨_, rfl⟩

/-- Converting to farcaster time and back returns the start of the same second. -/
theorem C28_there_and_back (ms t : Nat) (h : toFarcasterTime ms = .ok t) :
    fromFarcasterTime t = .ok (ms - ms % 1000) ∧ t < 2 ^ 32 := by
  unfold toFarcasterTime farcasterEpoch at h
  split at h
  · simp at h
  · simp only at h
    split at h
    · simp at h
    · injection h with h
      unfold fromFarcasterTime farcasterEpoch u64?
      rw [if_pos (by omega)]
      exact ⟨by congr 1; omega, by omega⟩

/-- Every 32-bit farcaster time survives the conversion to milliseconds and back. -/
theorem C28_back_and_there (t : Nat) (h : t < 2 ^ 32) :
    ∃ ms, fromFarcasterTime t = .ok ms ∧ toFarcasterTime ms = .ok t := by
  refine ⟨t * 1000 + 1609459200000, ?_, ?_⟩
  · unfold fromFarcasterTime farcasterEpoch u64?
    rw [if_pos (by omega)]
  · unfold toFarcasterTime farcasterEpoch
    rw [if_neg (by omega)]
    simp only
    rw [if_neg (by omega)]
    congr 1; omega

/-- Conversion never reorders times. -/
theorem C28_monotone (ms ms' t t' : Nat) (h : toFarcasterTime ms = .ok t) (h' : toFarcasterTime ms' = .ok t')
    (hle : ms ≤ ms') : t ≤ t' := by
  unfold toFarcasterTime farcasterEpoch at h h'
  simp only at h h'
  split at h
  · simp at h
  split at h
  · simp at h
  split at h'
  · simp at h'
  split at h'
  · simp at h'
  injection h with h; injection h' with h'
  omega

/-- Unix seconds at or after the epoch round-trip. -/
theorem C28_unix_seconds (s : Nat) (h1 : 1609459200 ≤ s) (h2 : s < 2 ^ 64) :
    ∃ t, fromUnixSeconds s = .ok t ∧ toUnixSeconds t = .ok s := by
  refine ⟨s - 1609459200, ?_, ?_⟩
  · unfold fromUnixSeconds farcasterEpoch; rw [if_neg (by omega)]
  · unfold toUnixSeconds farcasterEpoch u64?
    rw [if_pos (by omega)]; congr 1; omega

/-- **Boundary.** Unix seconds before the epoch underflow (a panic in debug builds). -/
theorem C28_before_epoch (s : Nat) (h : s < 1609459200) : fromUnixSeconds s = .error .overflow := by
  unfold fromUnixSeconds farcasterEpoch; rw [if_pos (by omega)]

/-- Non-vacuity. -/
example : toFarcasterTime 1609459201999 = .ok 1 ∧ fromFarcasterTime 1 = .ok 1609459201000 := by
  constructor <;> rfl

end Verif
