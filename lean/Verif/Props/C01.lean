import Verif.Model.Keys
/-!
# C01: message order keys are faithful

The hash order in the statements is Lean's own lexicographic order on lists of bytes.
-/
namespace Verif

/-- The model's strict byte order is Lean's lexicographic order on lists. -/
theorem blt_iff_lt (a b : Bytes) : Bytes.blt a b = true ↔ a < b := by
  induction a generalizing b with
  | nil => cases b <;> simp [Bytes.blt]
  | cons x a ih =>
    cases b with
    | nil => simp [Bytes.blt]
    | cons y b =>
      simp only [Bytes.blt, List.cons_lt_cons_iff, ← ih, UInt8.lt_iff_toNat_lt]
      have := @UInt8.toNat_inj' x y
      grind

theorem bytesCompare_spec (a b : Bytes) :
    (bytesCompare a b = -1 ↔ Bytes.blt a b = true) ∧ (bytesCompare a b = 1 ↔ Bytes.blt b a = true) ∧
      (bytesCompare a b = 0 ↔ a = b) := by
  induction a generalizing b with
  | nil => cases b <;> simp [bytesCompare, Bytes.blt]
  | cons x a ih =>
    cases b with
    | nil => simp [bytesCompare, Bytes.blt]
    | cons y b =>
      have h := ih b
      have := @UInt8.toNat_inj' x y
      simp only [bytesCompare, Bytes.blt]
      grind

/-- **C01, definedness.** The order key exists exactly when the hash has 20 bytes. -/
theorem C01_defined_iff (ts : Nat) (h : Bytes) : (∃ k, makeTsHash ts h = .ok k) ↔ h.length = 20 := by
  unfold makeTsHash
  by_cases hl : h.length = 20 <;> simp [hl]

/-- **C01, round trip.** The key has 24 bytes and decodes to the timestamp and hash. -/
theorem C01_roundtrip (ts : Nat) (h k : Bytes) (hts : ts < 2 ^ 32) (hk : makeTsHash ts h = .ok k) :
    k.length = 24 ∧ unpackTsHash k = (ts, h) := by
  unfold makeTsHash at hk
  split at hk
  · simp at hk
  · rename_i hl
    injection hk with hk
    subst hk
    have hl : h.length = 20 := by omega
    constructor
    · simp [hl]
    · unfold unpackTsHash
      rw [List.take_append_of_le_length (by simp), List.take_of_length_le (by simp),
        List.drop_append_of_le_length (by simp), List.drop_of_length_le (by simp),
        fromBe_be_of_lt (by simpa using hts)]
      simp [List.take_of_length_le (Nat.le_of_eq hl)]

/-- **C01, order.** Comparing keys, either with `bytes_compare` or by database key order, is comparing
by timestamp and then by hash. -/
theorem C01_order (t1 t2 : Nat) (h1 h2 k1 k2 : Bytes) (ht1 : t1 < 2 ^ 32) (ht2 : t2 < 2 ^ 32)
    (e1 : makeTsHash t1 h1 = .ok k1) (e2 : makeTsHash t2 h2 = .ok k2) :
    (bytesCompare k1 k2 = -1 ↔ t1 < t2 ∨ (t1 = t2 ∧ h1 < h2)) ∧
    (bytesCompare k1 k2 = 1 ↔ t2 < t1 ∨ (t1 = t2 ∧ h2 < h1)) ∧
    (bytesCompare k1 k2 = 0 ↔ t1 = t2 ∧ h1 = h2) ∧
    (k1 < k2 ↔ t1 < t2 ∨ (t1 = t2 ∧ h1 < h2)) := by
  have key : ∀ (t1 t2 : Nat) (h1 h2 k1 k2 : Bytes), t1 < 2 ^ 32 → t2 < 2 ^ 32 →
      makeTsHash t1 h1 = .ok k1 → makeTsHash t2 h2 = .ok k2 →
      (Bytes.blt k1 k2 = true ↔ t1 < t2 ∨ (t1 = t2 ∧ h1 < h2)) := by
    intro t1 t2 h1 h2 k1 k2 ht1 ht2 e1 e2
    unfold makeTsHash at e1 e2
    split at e1
    · simp at e1
    split at e2
    · simp at e2
    injection e1 with e1
    injection e2 with e2
    subst e1; subst e2
    have hb := be_blt_iff (w := 4) (m := t1) (n := t2) (by simpa using ht1) (by simpa using ht2)
    constructor
    · intro h
      rcases Bytes.blt_of_append (by simp) h with h | ⟨h, h'⟩
      · exact .inl (hb.1 h)
      · exact .inr ⟨be_inj (by simpa using ht1) (by simpa using ht2) h, (blt_iff_lt _ _).1 h'⟩
    · rintro (h | ⟨h, h'⟩)
      · exact Bytes.blt_append_of_blt (by simp) (hb.2 h) _ _
      · subst h; rw [Bytes.blt_append_left]; exact (blt_iff_lt _ _).2 h'
  obtain ⟨s1, s2, s3⟩ := bytesCompare_spec k1 k2
  have ka := key t1 t2 h1 h2 k1 k2 ht1 ht2 e1 e2
  have kb := key t2 t1 h2 h1 k2 k1 ht2 ht1 e2 e1
  refine ⟨by rw [s1, ka], by rw [s2, kb]; constructor <;> rintro (h | ⟨h, h'⟩) <;>
    first | exact .inl h | exact .inr ⟨h.symm, h'⟩, ?_, by rw [← blt_iff_lt, ka]⟩
  rw [s3]
  constructor
  · intro e
    subst e
    have r1 := (C01_roundtrip t1 h1 k1 ht1 e1).2
    have r2 := (C01_roundtrip t2 h2 k1 ht2 e2).2
    rw [r1] at r2
    injection r2 with r2 r3
    exact ⟨r2, r3⟩
  · rintro ⟨rfl, rfl⟩
    rw [e1] at e2
    injection e2

/-- Non-vacuity: two messages one second apart. -/
example : ∃ k1 k2, makeTsHash 255 (List.replicate 20 255) = .ok k1 ∧
    makeTsHash 256 (List.replicate 20 0) = .ok k2 ∧ bytesCompare k1 k2 = -1 :=
  ⟨_, _, rfl, rfl, rfl⟩

end Verif
