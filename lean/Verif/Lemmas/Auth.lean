import Verif.Spec.Auth
namespace Verif
namespace Auth

theorem split_ne (sep : UInt8 → Bool) (s : Bytes) : split sep s ≠ [] := by
  cases s with
  | nil => simp [split]
  | cons b s =>
    unfold split
    split
    · simp
    · split <;> simp

theorem split_cons {sep : UInt8 → Bool} {b : UInt8} {s w : Bytes} {ws : List Bytes} (h : split sep s = w :: ws) (hb : sep b = false) :
    split sep (b :: s) = (b :: w) :: ws := by
  simp [split, hb, h]

/-- A piece in front. -/
theorem split_piece {sep : UInt8 → Bool} {b : UInt8} {p s : Bytes} (hp : ∀ x ∈ p, sep x = false) (hb : sep b = true) :
    split sep (p ++ b :: s) = p :: split sep s := by
  induction p with
  | nil => simp [split, hb]
  | cons a p ih =>
    rw [List.cons_append]
    exact split_cons (ih fun x hx => hp x (by simp [hx])) (hp a (by simp))

theorem split_whole {sep : UInt8 → Bool} {p : Bytes} (hp : ∀ x ∈ p, sep x = false) : split sep p = [p] := by
  induction p with
  | nil => rfl
  | cons a p ih => exact split_cons (ih fun x hx => hp x (by simp [hx])) (hp a (by simp))

theorem split_joined {c : UInt8} : ∀ {ps : List Bytes}, ps ≠ [] → (∀ p ∈ ps, c ∉ p) → split (· == c) (joined c ps) = ps
  | [], h, _ => absurd rfl h
  | [p], _, hp => split_whole fun x hx => by
      have := hp p (by simp)
      simp only [beq_eq_false_iff_ne]; rintro rfl; exact this hx
  | p :: q :: ps, _, hp => by
    unfold joined
    rw [split_piece (fun x hx => ?_) (by simp), split_joined (by simp) (fun x hx => hp x (by simp [hx]))]
    have := hp p (by simp)
    simp only [beq_eq_false_iff_ne]; rintro rfl; exact this hx

theorem joined_split (c : UInt8) (s : Bytes) : joined c (split (· == c) s) = s ∧ ∀ p ∈ split (· == c) s, c ∉ p := by
  induction s with
  | nil => simp [split, joined]
  | cons b s ih =>
    obtain ⟨ih1, ih2⟩ := ih
    cases hs : split (· == c) s with
    | nil => exact absurd hs (split_ne _ _)
    | cons w ws =>
      rw [hs] at ih1 ih2
      by_cases hb : b = c
      · subst hb
        have : split (· == b) (b :: s) = [] :: w :: ws := by simp [split, hs]
        rw [this]
        refine ⟨by simp [joined, ih1], ?_⟩
        intro p hp
        rcases List.mem_cons.1 hp with rfl | hp
        · simp
        · exact ih2 p hp
      · rw [split_cons hs (by simpa using hb)]
        refine ⟨?_, ?_⟩
        · cases ws with
          | nil => simp only [joined] at ih1 ⊢; rw [ih1]
          | cons w' ws => simp only [joined, List.cons_append] at ih1 ⊢; rw [ih1]
        · intro p hp
          rcases List.mem_cons.1 hp with rfl | hp
          · have := ih2 w (by simp)
            simp only [List.mem_cons, not_or]
            exact ⟨fun h => hb h.symm, this⟩
          · exact ih2 p (by simp [hp])

theorem split_two {c : UInt8} {s u p : Bytes} : split (· == c) s = [u, p] ↔ s = u ++ c :: p ∧ c ∉ u ∧ c ∉ p := by
  constructor
  · intro h
    obtain ⟨h1, h2⟩ := joined_split c s
    rw [h] at h1 h2
    exact ⟨h1.symm, h2 u (by simp), h2 p (by simp)⟩
  · rintro ⟨rfl, h1, h2⟩
    exact split_joined (ps := [u, p]) (by simp) (by simp [h1, h2])

/-! ### Users -/

theorem snoc_ind {α : Type} {p : List α → Prop} (nil : p []) (snoc : ∀ h a, p h → p (h ++ [a])) (h : List α) : p h := by
  rw [← List.reverse_reverse h]
  induction h.reverse with
  | nil => exact nil
  | cons a t ih => rw [List.reverse_cons]; exact snoc _ _ ih

theorem passwordOf_filter {users : List (Bytes × Bytes)} {u v : Bytes} (h : v ≠ u) :
    passwordOf (users.filter fun x => x.1 != v) u = passwordOf users u := by
  induction users with
  | nil => rfl
  | cons x l ih =>
    obtain ⟨w, p⟩ := x
    by_cases hw : w = v
    · subst hw
      simp [passwordOf, h, ih]
    · have : (w != v) = true := by simpa using hw
      simp only [List.filter_cons, this, if_true, passwordOf, ih]

theorem passwordOf_iff (u p : Bytes) (entries : List Bytes) :
    passwordOf (entries.foldl addUser []) u = some p ↔
      ∃ before after, entries = before ++ (u ++ 58 :: p) :: after ∧ 58 ∉ u ∧ 58 ∉ p ∧ ∀ q, 58 ∉ q → (u ++ 58 :: q) ∉ after := by
  refine snoc_ind (p := fun entries => passwordOf (entries.foldl addUser []) u = some p ↔
      ∃ before after, entries = before ++ (u ++ 58 :: p) :: after ∧ 58 ∉ u ∧ 58 ∉ p ∧ ∀ q, 58 ∉ q → (u ++ 58 :: q) ∉ after) ?_ ?_ entries
  · simp [passwordOf]
  · intro entries x ih
    rw [List.foldl_append]
    simp only [List.foldl_cons, List.foldl_nil]
    by_cases hx : ∃ q, x = u ++ 58 :: q ∧ 58 ∉ u ∧ 58 ∉ q
    · obtain ⟨q, rfl, h1, h2⟩ := hx
      have : addUser (entries.foldl addUser []) (u ++ 58 :: q) = (u, q) :: (entries.foldl addUser []).filter fun x => x.1 != u := by
        simp only [addUser, split_two.2 ⟨rfl, h1, h2⟩]
      rw [this]
      simp only [passwordOf, if_true, Option.some.injEq]
      constructor
      · rintro rfl
        exact ⟨entries, [], rfl, h1, h2, by simp⟩
      · rintro ⟨before, after, h3, -, h5, h6⟩
        rcases List.eq_nil_or_concat after with rfl | ⟨front, last, rfl⟩
        · have := (List.append_inj' h3 rfl).2
          simpa using this
        · exfalso
          have h7 : entries ++ [u ++ 58 :: q] = (before ++ (u ++ 58 :: p) :: front) ++ [last] := by
            rw [h3]; simp
          have h8 := (List.append_inj' h7 rfl).2
          simp only [List.cons.injEq, and_true] at h8
          exact h6 q h2 (by rw [h8]; simp)
    · have hsame : passwordOf (addUser (entries.foldl addUser []) x) u = passwordOf (entries.foldl addUser []) u := by
        unfold addUser
        split
        · rename_i v q hs
          obtain ⟨h1, h2, h3⟩ := split_two.1 hs
          have hv : v ≠ u := by
            rintro rfl; exact hx ⟨q, h1, h2, h3⟩
          simp only [passwordOf, if_neg hv]
          exact passwordOf_filter hv
        · rfl
      rw [hsame, ih]
      constructor
      · rintro ⟨before, after, rfl, h1, h2, h3⟩
        refine ⟨before, after ++ [x], by simp, h1, h2, ?_⟩
        intro q hq hm
        rcases List.mem_append.1 hm with hm | hm
        · exact h3 q hq hm
        · simp only [List.mem_cons, List.not_mem_nil, or_false] at hm
          exact hx ⟨q, hm.symm, h1, hq⟩
      · rintro ⟨before, after, h3, h1, h2, h4⟩
        rcases List.eq_nil_or_concat after with rfl | ⟨front, last, rfl⟩
        · have := (List.append_inj' h3 rfl).2
          simp only [List.cons.injEq, and_true] at this
          exact absurd ⟨p, this, h1, h2⟩ hx
        · have h7 : entries ++ [x] = (before ++ (u ++ 58 :: p) :: front) ++ [last] := by rw [h3]; simp
          exact ⟨before, front, (List.append_inj' h7 rfl).1, h1, h2, fun q hq hm => h4 q hq (by simp [hm])⟩

theorem configured_iff {config u p : Bytes} : passwordOf (parseAuth config) u = some p ↔ Configured config u p := by
  unfold parseAuth
  rw [passwordOf_iff]
  obtain ⟨h1, h2⟩ := joined_split 44 config
  constructor
  · rintro ⟨before, after, h3, h4, h5, h6⟩
    rw [h3] at h1 h2
    exact ⟨before, after, h1.symm, h2, h4, h5, h6⟩
  · rintro ⟨before, after, h3, h4, h5, h6, h7⟩
    refine ⟨before, after, ?_, h5, h6, h7⟩
    rw [h3]
    exact split_joined (by simp) h4

theorem no_users_iff {config : Bytes} : (parseAuth config).isEmpty = true ↔ ¬ ∃ u p, Configured config u p := by
  constructor
  · rintro h ⟨u, p, hc⟩
    rw [← configured_iff, List.isEmpty_iff.1 h] at hc
    cases hc
  · intro h
    cases hu : parseAuth config with
    | nil => rfl
    | cons x l =>
      exfalso
      refine h ⟨x.1, x.2, ?_⟩
      rw [← configured_iff, hu]
      simp [passwordOf]

/-! ### The header -/

theorem blank_iff {b : UInt8} : blank b = true ↔ b = 32 ∨ b = 9 := by simp [blank]

theorem words_blanks {w s : Bytes} (hw : Blanks w) : words (w ++ s) = words s := by
  induction w with
  | nil => rfl
  | cons b w ih =>
    have hb := blank_iff.2 (hw b (by simp))
    have : words (b :: (w ++ s)) = words (w ++ s) := by simp [words, split, hb]
    rw [List.cons_append, this, ih fun x hx => hw x (by simp [hx])]

theorem words_none {w : Bytes} (hw : Blanks w) : words w = [] := by
  have := words_blanks (s := []) hw
  rw [List.append_nil] at this
  rw [this]; rfl

theorem words_word {a r : Bytes} (ha : ∀ x ∈ a, blank x = false) (h0 : a ≠ []) (hr : r = [] ∨ ∃ b r', r = b :: r' ∧ blank b = true) :
    words (a ++ r) = a :: words r := by
  have hne : (!a.isEmpty) = true := by cases a <;> simp_all
  rcases hr with rfl | ⟨b, r', rfl, hb⟩
  · rw [List.append_nil]
    simp [words, split_whole ha, hne, split]
  · have : words (b :: r') = words r' := by simp [words, split, hb]
    rw [this]
    simp [words, split_piece ha hb, hne]

theorem cut_blanks (s : Bytes) : ∃ w r, s = w ++ r ∧ Blanks w ∧ (r = [] ∨ ∃ b r', r = b :: r' ∧ blank b = false) := by
  induction s with
  | nil => exact ⟨[], [], rfl, by simp [Blanks], .inl rfl⟩
  | cons b s ih =>
    cases hb : blank b with
    | false => exact ⟨[], b :: s, rfl, by simp [Blanks], .inr ⟨b, s, rfl, hb⟩⟩
    | true =>
      obtain ⟨w, r, rfl, h1, h2⟩ := ih
      refine ⟨b :: w, r, rfl, ?_, h2⟩
      intro x hx
      rcases List.mem_cons.1 hx with rfl | hx
      · exact blank_iff.1 hb
      · exact h1 x hx

theorem cut_word (s : Bytes) : ∃ a r, s = a ++ r ∧ (∀ x ∈ a, blank x = false) ∧ (r = [] ∨ ∃ b r', r = b :: r' ∧ blank b = true) := by
  induction s with
  | nil => exact ⟨[], [], rfl, by simp, .inl rfl⟩
  | cons b s ih =>
    cases hb : blank b with
    | true => exact ⟨[], b :: s, rfl, by simp, .inr ⟨b, s, rfl, hb⟩⟩
    | false =>
      obtain ⟨a, r, rfl, h1, h2⟩ := ih
      refine ⟨b :: a, r, rfl, ?_, h2⟩
      intro x hx
      rcases List.mem_cons.1 hx with rfl | hx
      · exact hb
      · exact h1 x hx

/-- The first word. -/
theorem words_cons {s a : Bytes} {l : List Bytes} (h : words s = a :: l) :
    ∃ w r, s = w ++ a ++ r ∧ Blanks w ∧ (∀ x ∈ a, blank x = false) ∧ a ≠ [] ∧ (r = [] ∨ ∃ b r', r = b :: r' ∧ blank b = true) ∧
      words r = l := by
  obtain ⟨w, r, rfl, hw, hr⟩ := cut_blanks s
  rw [words_blanks hw] at h
  rcases hr with rfl | ⟨b, r', rfl, hb⟩
  · simp [words, split] at h
  · obtain ⟨a', r2, h1, h2, h3⟩ := cut_word (b :: r')
    have h0 : a' ≠ [] := by
      rintro rfl
      rcases h3 with rfl | ⟨c, r3, rfl, hc⟩
      · simp at h1
      · simp only [List.nil_append, List.cons.injEq] at h1
        rw [← h1.1, hb] at hc; cases hc
    rw [h1, words_word h2 h0 h3] at h
    simp only [List.cons.injEq] at h
    obtain ⟨rfl, h4⟩ := h
    exact ⟨w, r2, by rw [h1, List.append_assoc], hw, h2, h0, h3, h4⟩

theorem words_nil {s : Bytes} (h : words s = []) : Blanks s := by
  obtain ⟨w, r, rfl, hw, hr⟩ := cut_blanks s
  rcases hr with rfl | ⟨b, r', rfl, hb⟩
  · simpa using hw
  · exfalso
    rw [words_blanks hw] at h
    obtain ⟨a', r2, h1, h2, h3⟩ := cut_word (b :: r')
    have h0 : a' ≠ [] := by
      rintro rfl
      rcases h3 with rfl | ⟨c, r3, rfl, hc⟩
      · simp at h1
      · simp only [List.nil_append, List.cons.injEq] at h1
        rw [← h1.1, hb] at hc; cases hc
    rw [h1, words_word h2 h0 h3] at h
    cases h

theorem words_two {s a c : Bytes} : words s = [a, c] ↔
    ∃ w0 w1 w2, s = w0 ++ a ++ w1 ++ c ++ w2 ∧ Blanks w0 ∧ Blanks w1 ∧ Blanks w2 ∧ w1 ≠ [] ∧ a ≠ [] ∧ c ≠ [] ∧
      (∀ x ∈ a, blank x = false) ∧ (∀ x ∈ c, blank x = false) := by
  constructor
  · intro h
    obtain ⟨w0, r, rfl, h1, h2, h3, h4, h5⟩ := words_cons h
    obtain ⟨w1, w2, rfl, h6, h7, h8, -, h10⟩ := words_cons h5
    refine ⟨w0, w1, w2, by simp, h1, h6, words_nil h10, ?_, h3, h8, h2, h7⟩
    rintro rfl
    rcases h4 with h4 | ⟨b, r', h4, hb⟩
    · simp at h4; exact h8 h4.1
    · cases c with
      | nil => exact h8 rfl
      | cons d c =>
        simp only [List.nil_append, List.cons_append, List.cons.injEq] at h4
        have := h7 d (by simp)
        rw [h4.1, hb] at this; cases this
  · rintro ⟨w0, w1, w2, rfl, h1, h2, h3, h4, h5, h6, h7, h8⟩
    have e : w0 ++ a ++ w1 ++ c ++ w2 = w0 ++ (a ++ (w1 ++ (c ++ w2))) := by simp
    have starts : ∀ {w t : Bytes}, Blanks w → w ≠ [] → ∃ b r', w ++ t = b :: r' ∧ blank b = true := by
      intro w t hw hne
      cases w with
      | nil => exact absurd rfl hne
      | cons b w => exact ⟨b, w ++ t, rfl, blank_iff.2 (hw b (by simp))⟩
    rw [e, words_blanks h1, words_word h7 h5 (.inr (starts h2 h4)), words_blanks h2, words_word h8 h6 ?_, words_none h3]
    by_cases hw : w2 = []
    · exact .inl hw
    · right
      have := starts (t := []) h3 hw
      simpa using this

theorem printable_word {b : UInt8} : (printable b = true ∧ blank b = false) ↔ (33 ≤ b ∧ b < 127) := by
  simp only [printable, blank, Bool.or_eq_true, Bool.and_eq_true, decide_eq_true_eq, beq_iff_eq, Bool.or_eq_false_iff, beq_eq_false_iff_ne, ne_eq,
    UInt8.le_iff_toNat_le, UInt8.lt_iff_toNat_lt, ← UInt8.toNat_inj]
  simp only [UInt8.reduceToNat]
  omega

theorem blank_printable {b : UInt8} (h : b = 32 ∨ b = 9) : printable b = true := by
  rcases h with rfl | rfl <;> decide

theorem authenticate_iff (env : AEnv) (config : Bytes) (auth : Option Bytes) :
    authenticate env (parseAuth config) auth = .ok () ↔ (¬ ∃ u p, Configured config u p) ∨ Knows env config auth := by
  unfold authenticate
  by_cases he : (parseAuth config).isEmpty = true
  · simp only [if_pos he, true_iff]
    exact .inl (no_users_iff.1 he)
  · simp only [if_neg he]
    have hsome : ¬ ¬ ∃ u p, Configured config u p := fun h => he (no_users_iff.2 h)
    simp only [hsome, false_or]
    constructor
    · intro h
      split at h
      · cases h
      · rename_i hd
        split at h
        · cases h
        · rename_i hp
          split at h
          · rename_i scheme code hw
            split at h
            · cases h
            · rename_i hs
              split at h
              · cases h
              · rename_i d hd64
                split at h
                · cases h
                · rename_i hu8
                  split at h
                  · rename_i u p hsp
                    split at h
                    · rename_i password hpw
                      split at h
                      · rename_i heq
                        subst heq
                        obtain ⟨rfl, h1, h2⟩ := split_two.1 hsp
                        have hs' : scheme = basic := Classical.not_not.1 hs
                        subst hs'
                        obtain ⟨w0, w1, w2, h3, h4, h5, h6, h7, -, h8, -, h9⟩ := words_two.1 hw
                        refine ⟨hd, u, password, rfl, ⟨w0, w1, w2, code, h3, h4, h5, h6, h7, h8, ?_, hd64, by simpa using hu8, h1, h2⟩,
                          configured_iff.1 hpw⟩
                        intro b hb
                        refine printable_word.1 ⟨?_, h9 b hb⟩
                        have hall : hd.all printable = true := by simpa using hp
                        rw [List.all_eq_true] at hall
                        exact hall b (by rw [h3]; simp [hb])
                      · cases h
                    · cases h
                  · cases h
          · cases h
    · rintro ⟨h, u, p, rfl, ⟨w0, w1, w2, code, h3, h4, h5, h6, h7, h8, h9, h10, h11, h12, h13⟩, hc⟩
      have hw : words h = [basic, code] :=
        words_two.2 ⟨w0, w1, w2, h3, h4, h5, h6, h7, by decide, h8, by decide, fun x hx => (printable_word.2 (h9 x hx)).2⟩
      have hall : h.all printable = true := by
        rw [List.all_eq_true, h3]
        intro b hb
        simp only [List.mem_append] at hb
        rcases hb with (((hb | hb) | hb) | hb) | hb
        · exact blank_printable (h4 b hb)
        · revert b; decide
        · exact blank_printable (h5 b hb)
        · exact (printable_word.2 (h9 b hb)).1
        · exact blank_printable (h6 b hb)
      simp [hall, hw, h10, h11, split_two.2 ⟨rfl, h12, h13⟩, configured_iff.2 hc]

end Auth
end Verif
