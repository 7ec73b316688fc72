import Verif.Model.Regex
/-! Which strings a pattern matches. -/
namespace Verif
namespace Re

/-- `n` strings of `L`, one after the other. -/
inductive Pow (L : Bytes → Prop) : Nat → Bytes → Prop
  | zero : Pow L 0 []
  | succ {n s t} : L s → Pow L n t → Pow L (n + 1) (s ++ t)

/-- The strings a pattern stands for. -/
def Lang : Re → Bytes → Prop
  | none, _ => False
  | eps, s => s = []
  | cls p, s => ∃ c, p c = true ∧ s = [c]
  | seq a b, s => ∃ u v, s = u ++ v ∧ Lang a u ∧ Lang b v
  | alt a b, s => Lang a s ∨ Lang b s
  | rep r lo hi, s => ∃ n, lo ≤ n ∧ (∀ h, hi = some h → n ≤ h) ∧ Pow (Lang r) n s

theorem pow_nil {L : Bytes → Prop} (h : L []) : ∀ n, Pow L n []
  | 0 => .zero
  | n + 1 => Pow.succ (s := []) (t := []) h (pow_nil h n)

theorem pow_pad {L : Bytes → Prop} (h : L []) {n m : Nat} {s : Bytes} (hp : Pow L n s) (hle : n ≤ m) : Pow L m s := by
  induction hp generalizing m with
  | zero => exact pow_nil h m
  | succ h1 _ ih =>
    obtain ⟨k, rfl⟩ : ∃ k, m = k + 1 := ⟨m - 1, by omega⟩
    exact .succ h1 (ih (by omega))

theorem pow_nil_inv {L : Bytes → Prop} {n : Nat} {s : Bytes} (hp : Pow L n s) (hs : s = []) : n = 0 ∨ L [] := by
  cases hp with
  | zero => exact .inl rfl
  | succ h1 _ =>
    obtain ⟨rfl, _⟩ := List.append_eq_nil_iff.1 hs
    exact .inr h1

theorem pow_cons {L : Bytes → Prop} {n : Nat} {s : Bytes} (hp : Pow L n s) : ∀ {c t}, s = c :: t →
    ∃ k u v, n = k + 1 ∧ t = u ++ v ∧ L (c :: u) ∧ Pow L k v := by
  induction hp with
  | zero => intro c t h; cases h
  | @succ n s1 t1 h1 h2 ih =>
    intro c t h
    cases s1 with
    | nil =>
      obtain ⟨k, u, v, rfl, rfl, h3, h4⟩ := ih (c := c) (t := t) (by simpa using h)
      exact ⟨k + 1, u, v, rfl, rfl, h3, pow_pad h1 h4 (by omega)⟩
    | cons d s1 =>
      rw [List.cons_append, List.cons.injEq] at h
      obtain ⟨rfl, rfl⟩ := h
      exact ⟨n, s1, t1, rfl, rfl, h1, h2⟩

theorem nullable_iff (r : Re) : nullable r = true ↔ Lang r [] := by
  induction r with
  | none => simp [nullable, Lang]
  | eps => simp [nullable, Lang]
  | cls p => simp [nullable, Lang]
  | seq a b iha ihb =>
    simp only [nullable, Lang, Bool.and_eq_true, iha, ihb]
    constructor
    · rintro ⟨h1, h2⟩; exact ⟨[], [], rfl, h1, h2⟩
    · rintro ⟨u, v, h, h1, h2⟩
      obtain ⟨rfl, rfl⟩ := List.append_eq_nil_iff.1 h.symm
      exact ⟨h1, h2⟩
  | alt a b iha ihb => simp [nullable, Lang, iha, ihb]
  | rep r lo hi ih =>
    cases hi with
    | none =>
      simp only [nullable, Lang, Bool.or_eq_true, decide_eq_true_eq, ih]
      constructor
      · rintro (h | rfl)
        · exact ⟨lo, Nat.le_refl _, by simp, pow_nil h lo⟩
        · exact ⟨0, Nat.le_refl _, by simp, .zero⟩
      · rintro ⟨n, h1, _, h3⟩
        rcases pow_nil_inv h3 rfl with rfl | h
        · exact .inr (by omega)
        · exact .inl h
    | some m =>
      simp only [nullable, Lang, Bool.and_eq_true, Bool.or_eq_true, decide_eq_true_eq, ih]
      constructor
      · rintro ⟨hle, h | rfl⟩
        · exact ⟨lo, Nat.le_refl _, by simpa using hle, pow_nil h lo⟩
        · exact ⟨0, Nat.le_refl _, by simp, .zero⟩
      · rintro ⟨n, h1, h2, h3⟩
        have h2 := h2 m rfl
        refine ⟨by omega, ?_⟩
        rcases pow_nil_inv h3 rfl with rfl | h
        · exact .inr (by omega)
        · exact .inl h

theorem deriv_iff (c : UInt8) (r : Re) : ∀ s, Lang (deriv c r) s ↔ Lang r (c :: s) := by
  induction r with
  | none => intro s; simp [deriv, Lang]
  | eps => intro s; simp [deriv, Lang]
  | cls p =>
    intro s
    unfold deriv
    by_cases h : p c = true
    · rw [if_pos h]
      simp only [Lang, List.cons.injEq]
      constructor
      · rintro rfl; exact ⟨c, h, rfl, rfl⟩
      · rintro ⟨d, _, _, h2⟩; exact h2
    · rw [if_neg h]
      simp only [Lang, List.cons.injEq, false_iff]
      rintro ⟨d, h1, rfl, _⟩
      exact h h1
  | seq a b iha ihb =>
    intro s
    have hseq : Lang (seq (deriv c a) b) s ↔ ∃ u v, s = u ++ v ∧ Lang a (c :: u) ∧ Lang b v := by
      simp only [Lang, iha]
    have hsplit : Lang (seq a b) (c :: s) ↔
        (∃ u v, s = u ++ v ∧ Lang a (c :: u) ∧ Lang b v) ∨ (Lang a [] ∧ Lang b (c :: s)) := by
      simp only [Lang]
      constructor
      · rintro ⟨u, v, h, h1, h2⟩
        cases u with
        | nil => rw [List.nil_append] at h; subst h; exact .inr ⟨h1, h2⟩
        | cons d u =>
          rw [List.cons_append, List.cons.injEq] at h
          obtain ⟨rfl, rfl⟩ := h
          exact .inl ⟨u, v, rfl, h1, h2⟩
      · rintro (⟨u, v, rfl, h1, h2⟩ | ⟨h1, h2⟩)
        · exact ⟨c :: u, v, rfl, h1, h2⟩
        · exact ⟨[], c :: s, rfl, h1, h2⟩
    unfold deriv
    by_cases h : nullable a = true
    · rw [if_pos h, hsplit]
      have ha := (nullable_iff a).1 h
      show Lang (seq (deriv c a) b) s ∨ Lang (deriv c b) s ↔ _
      rw [hseq, ihb]
      simp [ha]
    · rw [if_neg h, hsplit, hseq]
      have ha : ¬ Lang a [] := fun g => h ((nullable_iff a).2 g)
      simp [ha]
  | alt a b iha ihb => intro s; simp only [deriv, Lang, iha, ihb]
  | rep r lo hi ih =>
    intro s
    have gen : ∀ (n : Nat), Pow (Lang r) n (c :: s) ↔
        ∃ k u v, n = k + 1 ∧ s = u ++ v ∧ Lang r (c :: u) ∧ Pow (Lang r) k v := by
      intro n
      constructor
      · intro h; exact pow_cons h rfl
      · rintro ⟨k, u, v, rfl, rfl, h1, h2⟩
        rw [← List.cons_append]
        exact .succ h1 h2
    cases hi with
    | none =>
      simp only [deriv, Lang, ih, gen]
      constructor
      · rintro ⟨u, v, rfl, h1, n, h2, _, h3⟩
        exact ⟨n + 1, by omega, by simp, n, u, v, rfl, rfl, h1, h3⟩
      · rintro ⟨n, h1, _, k, u, v, rfl, rfl, h2, h3⟩
        exact ⟨u, v, rfl, h2, k, by omega, by simp, h3⟩
    | some m =>
      cases m with
      | zero =>
        simp only [deriv, Lang, gen, false_iff]
        rintro ⟨n, _, h2, k, _, _, rfl, _⟩
        have := h2 0 rfl
        omega
      | succ m =>
        by_cases hle : lo ≤ m + 1
        · simp only [deriv, if_pos hle, Lang, ih, gen]
          constructor
          · rintro ⟨u, v, rfl, h1, n, h2, h3, h4⟩
            have := h3 m rfl
            exact ⟨n + 1, by omega, by simp; omega, n, u, v, rfl, rfl, h1, h4⟩
          · rintro ⟨n, h1, h2, k, u, v, rfl, rfl, h3, h4⟩
            have := h2 _ rfl
            exact ⟨u, v, rfl, h3, k, by omega, by simp; omega, h4⟩
        · simp only [deriv, if_neg hle, Lang, false_iff]
          rintro ⟨n, h1, h2, _⟩
          have := h2 _ rfl
          omega

/-- The matcher finds exactly the strings the pattern stands for. -/
theorem isMatch_iff (r : Re) (s : Bytes) : isMatch r s = true ↔ Lang r s := by
  induction s generalizing r with
  | nil => exact nullable_iff r
  | cons c s ih => rw [isMatch, ih, deriv_iff]

theorem pow_cls (p : UInt8 → Bool) {n : Nat} {s : Bytes} :
    Pow (Lang (cls p)) n s ↔ s.length = n ∧ ∀ c ∈ s, p c = true := by
  constructor
  · intro h
    induction h with
    | zero => simp
    | @succ n u v h1 _ ih =>
      obtain ⟨c, hc, rfl⟩ := h1
      refine ⟨by simp [ih.1], ?_⟩
      intro x hx
      rcases List.mem_append.1 hx with h | h
      · rw [List.mem_singleton] at h; subst h; exact hc
      · exact ih.2 x h
  · induction s generalizing n with
    | nil => rintro ⟨rfl, _⟩; exact .zero
    | cons c s ih =>
      rintro ⟨rfl, h⟩
      exact Pow.succ (s := [c]) ⟨c, h c List.mem_cons_self, rfl⟩ (ih ⟨rfl, fun x hx => h x (List.mem_cons_of_mem _ hx)⟩)

theorem lang_rep_cls (p : UInt8 → Bool) (lo : Nat) (hi : Option Nat) (s : Bytes) :
    Lang (rep (cls p) lo hi) s ↔ lo ≤ s.length ∧ (∀ h, hi = some h → s.length ≤ h) ∧ ∀ c ∈ s, p c = true := by
  simp only [Lang]
  constructor
  · rintro ⟨n, h1, h2, h3⟩
    obtain ⟨rfl, h4⟩ := (pow_cls p).1 h3
    exact ⟨h1, h2, h4⟩
  · rintro ⟨h1, h2, h3⟩
    exact ⟨_, h1, h2, (pow_cls p).2 ⟨rfl, h3⟩⟩

theorem lang_chr (c : UInt8) (s : Bytes) : Lang (chr c) s ↔ s = [c] := by
  simp [chr, Lang]

/-- An optional part. -/
theorem lang_opt (r : Re) (s : Bytes) : Lang (rep r 0 (some 1)) s ↔ s = [] ∨ Lang r s := by
  simp only [Lang]
  constructor
  · rintro ⟨n, _, h2, h3⟩
    have := h2 1 rfl
    cases h3 with
    | zero => exact .inl rfl
    | succ h1 h4 => cases h4 with
      | zero => rw [List.append_nil]; exact .inr h1
      | succ => omega
  · rintro (rfl | h)
    · exact ⟨0, by simp, by simp, .zero⟩
    · exact ⟨1, by simp, by simp, by simpa using Pow.succ h .zero⟩

end Re
end Verif
