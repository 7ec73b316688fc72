import Verif.Lemmas.Validate
import Verif.Lemmas.Regex
/-! When names and profile values are accepted. -/
namespace Verif

/-! ### Strings -/

theorem endsWith_iff {s t : Bytes} : endsWith s t = true ↔ ∃ p, s = p ++ t := by
  unfold endsWith
  simp only [Bool.and_eq_true, decide_eq_true_eq, beq_iff_eq]
  constructor
  · rintro ⟨_, h⟩
    exact ⟨s.take (s.length - t.length), by conv => rhs; rhs; rw [← h]
                                            exact (List.take_append_drop _ _).symm⟩
  · rintro ⟨p, rfl⟩
    simp

theorem splitOn_ne_nil (c : UInt8) : ∀ s, splitOn c s ≠ []
  | [] => by simp [splitOn]
  | x :: s => by
    unfold splitOn
    cases splitOn c s with
    | nil => simp
    | cons p ps => by_cases h : (x == c) = true <;> simp [h]

theorem splitOn_cons_self (c : UInt8) (s : Bytes) : splitOn c (c :: s) = [] :: splitOn c s := by
  rw [splitOn]
  cases h : splitOn c s with
  | nil => exact absurd h (splitOn_ne_nil c s)
  | cons p ps => simp

theorem splitOn_cons_ne {c x : UInt8} (h : x ≠ c) (s : Bytes) :
    splitOn c (x :: s) = (x :: (splitOn c s).headD []) :: (splitOn c s).tail := by
  rw [splitOn]
  cases hs : splitOn c s with
  | nil => exact absurd hs (splitOn_ne_nil c s)
  | cons p ps => simp [h]

theorem splitOn_none {c : UInt8} : ∀ {s : Bytes}, c ∉ s → splitOn c s = [s]
  | [], _ => rfl
  | x :: s, h => by
    rw [List.mem_cons, not_or] at h
    rw [splitOn_cons_ne (Ne.symm h.1), splitOn_none h.2]
    rfl

theorem splitOn_append {c : UInt8} : ∀ {p : Bytes} (t : Bytes), c ∉ p → splitOn c (p ++ c :: t) = p :: splitOn c t
  | [], t, _ => splitOn_cons_self c t
  | x :: p, t, h => by
    rw [List.mem_cons, not_or] at h
    rw [List.cons_append, splitOn_cons_ne (Ne.symm h.1), splitOn_append t h.2]
    rfl

theorem splitOn_length (c : UInt8) : ∀ s, (splitOn c s).length = s.count c + 1
  | [] => rfl
  | x :: s => by
    by_cases h : x = c
    · subst h
      rw [splitOn_cons_self, List.length_cons, splitOn_length, List.count_cons_self]
    · rw [splitOn_cons_ne h, List.length_cons, List.length_tail, splitOn_length, List.count_cons_of_ne h]
      omega

/-- The parts with the separator between them give back the text. -/
theorem splitOn_two {c : UInt8} {a b : Bytes} : ∀ {s : Bytes}, splitOn c s = [a, b] → s = a ++ c :: b ∧ c ∉ a ∧ c ∉ b := by
  intro s h
  by_cases hm : c ∈ s
  · obtain ⟨p, t, rfl, hp⟩ : ∃ p t, s = p ++ c :: t ∧ c ∉ p := by
      clear h
      induction s with
      | nil => cases hm
      | cons x s ih =>
        by_cases hx : x = c
        · exact ⟨[], s, by rw [hx]; rfl, by simp⟩
        · obtain ⟨p, t, rfl, hp⟩ := ih (by rcases List.mem_cons.1 hm with h | h; exact absurd h.symm hx; exact h)
          exact ⟨x :: p, t, rfl, by rw [List.mem_cons, not_or]; exact ⟨Ne.symm hx, hp⟩⟩
    rw [splitOn_append t hp] at h
    by_cases ht : c ∈ t
    · have := splitOn_length c t
      have h2 : 0 < t.count c := List.count_pos_iff.2 ht
      have h3 : (splitOn c t).length = 1 := by
        have := congrArg List.length h
        simpa using this
      omega
    · rw [splitOn_none ht] at h
      simp only [List.cons.injEq, and_true] at h
      obtain ⟨rfl, rfl⟩ := h
      exact ⟨rfl, hp, ht⟩
  · rw [splitOn_none hm] at h
    simp at h

/-! ### Names -/

theorem lower_or_digit (c : UInt8) : (isLower c || isDigit c) = true ↔ Alnum c := by
  simp [isLower, isDigit, Alnum]

theorem any_alnum (c : UInt8) : (isLower c || isUpper c || isDigit c) = true ↔ AnyAlnum c := by
  simp only [isLower, isUpper, isDigit, AnyAlnum, Alnum, Bool.or_eq_true, decide_eq_true_eq]
  grind

theorem Alnum.ne {c : UInt8} (h : Alnum c) {x : UInt8} (hx : ¬ Alnum x) : c ≠ x := fun e => hx (e ▸ h)

theorem fnameRe_iff (s : Bytes) : fnameRe.isMatch s = true ↔ IsName s := by
  rw [Re.isMatch_iff]
  unfold fnameRe IsName
  simp only [Re.Lang.eq_4, Re.lang_rep_cls]
  constructor
  · rintro ⟨u, v, rfl, ⟨c, hc, rfl⟩, _, h2, h3⟩
    have := h2 15 rfl
    refine ⟨⟨c, v, rfl, (lower_or_digit c).1 hc, ?_⟩, by simp; omega⟩
    intro x hx
    have := h3 x hx
    rw [Bool.or_eq_true, lower_or_digit, beq_iff_eq] at this
    exact this
  · rintro ⟨⟨c, v, rfl, hc, hv⟩, hl⟩
    refine ⟨[c], v, rfl, ⟨c, (lower_or_digit c).2 hc, rfl⟩, by omega, ?_, ?_⟩
    · rintro h ⟨⟩; simpa using hl
    · intro x hx
      rw [Bool.or_eq_true, lower_or_digit, beq_iff_eq]
      exact hv x hx

theorem IsName.noDot {s : Bytes} (h : IsName s) : 46 ∉ s := by
  obtain ⟨⟨c, v, rfl, hc, hv⟩, _⟩ := h
  intro hm
  rcases List.mem_cons.1 hm with h | h
  · subst h; revert hc; unfold Alnum; decide
  · rcases hv _ h with h | h
    · revert h; unfold Alnum; decide
    · revert h; decide

theorem IsName.length_pos {s : Bytes} (h : IsName s) : 1 ≤ s.length := by
  obtain ⟨⟨c, v, rfl, _⟩, _⟩ := h
  simp

theorem IsName.ne_nil {s : Bytes} (h : IsName s) : s ≠ [] := by
  have := h.length_pos
  intro e; simp [e] at this

theorem validateFname_ok {s : Bytes} : validateFname s = .ok () ↔ IsName s := by
  simp only [validateFname, ite_err_ok, Bool.not_eq_true', Bool.not_eq_false, fnameRe_iff, List.isEmpty_iff]
  exact ⟨fun h => h.2.2.1, fun h => ⟨h.ne_nil, by have := h.2; omega, h, trivial⟩⟩

theorem splitOn_ens {p : Bytes} (h : 46 ∉ p) : splitOn 46 (p ++ dotEth) = [p, [101, 116, 104]] :=
  splitOn_append [101, 116, 104] h

theorem splitOn_base {p : Bytes} (h : 46 ∉ p) : splitOn 46 (p ++ dotBaseEth) = [p, [98, 97, 115, 101], [101, 116, 104]] :=
  splitOn_append [98, 97, 115, 101, 46, 101, 116, 104] h

theorem validateEnsName_ok {s : Bytes} : validateEnsName s = .ok () ↔ IsEnsName s := by
  simp only [validateEnsName, ite_err_ok, Bool.not_eq_true', Bool.not_eq_false, fnameRe_iff, endsWith_iff]
  constructor
  · rintro ⟨⟨p, rfl⟩, h1, h2, h3, h4, _⟩
    have hp : 46 ∉ p := by
      intro hm
      have := List.count_pos_iff.2 hm
      rw [splitOn_length, List.count_append] at h1
      have : dotEth.count 46 = 1 := by decide
      omega
    rw [splitOn_ens hp] at h4
    exact ⟨p, h4, rfl⟩
  · rintro ⟨p, hp, rfl⟩
    have hs := splitOn_ens hp.noDot
    unfold dotEth at hs ⊢
    rw [hs]
    have := hp.2
    refine ⟨⟨p, rfl⟩, by simp, by simp [hp.ne_nil], by simp; omega, hp, trivial⟩

theorem validateBaseName_ok {s : Bytes} : validateBaseName s = .ok () ↔ IsBaseName s := by
  simp only [validateBaseName, ite_err_ok, Bool.not_eq_true', Bool.not_eq_false, fnameRe_iff, endsWith_iff]
  constructor
  · rintro ⟨⟨p, rfl⟩, h2, h3, h4, _⟩
    have hp : 46 ∉ p := by
      intro hm
      have := List.count_pos_iff.2 hm
      simp only [Bool.or_eq_true, decide_eq_true_eq, not_or, Decidable.not_not] at h2
      have h1 := h2.1
      rw [splitOn_length, List.count_append] at h1
      have : dotBaseEth.count 46 = 2 := by decide
      omega
    rw [splitOn_base hp] at h4
    exact ⟨p, h4, rfl⟩
  · rintro ⟨p, hp, rfl⟩
    have hs := splitOn_base hp.noDot
    unfold dotBaseEth at hs ⊢
    rw [hs]
    have := hp.2
    refine ⟨⟨p, rfl⟩, by simp [hp.ne_nil], by simp; omega, hp, trivial⟩

theorem validateUsername_ok {s : Bytes} : validateUsername s = .ok () ↔
    s = [] ∨ IsName s ∨ IsEnsName s ∨ IsBaseName s := by
  unfold validateUsername
  by_cases h0 : s = []
  · simp [h0]
  rw [if_neg (by simpa using h0)]
  have nodot : ∀ {p t : Bytes}, 46 ∈ t → ¬ IsName (p ++ t) := fun ht h => h.noDot (List.mem_append_right _ ht)
  by_cases hb : endsWith s dotBaseEth = true
  · rw [if_pos hb, validateBaseName_ok]
    obtain ⟨q, rfl⟩ := endsWith_iff.1 hb
    have h1 : ¬ IsName (q ++ dotBaseEth) := nodot (by decide)
    have h2 : ¬ IsEnsName (q ++ dotBaseEth) := by
      rintro ⟨p, hp, he⟩
      have : q ++ [46, 98, 97, 115, 101] ++ [46, 101, 116, 104] = p ++ [46, 101, 116, 104] := by
        rw [← he]; simp [dotBaseEth]
      have := List.append_cancel_right this
      exact hp.noDot (by rw [← this]; simp)
    simp [h0, h1, h2]
  · rw [if_neg hb]
    have hnb : ¬ IsBaseName s := by
      rintro ⟨p, _, rfl⟩
      exact hb (endsWith_iff.2 ⟨p, rfl⟩)
    by_cases he : endsWith s dotEth = true
    · rw [if_pos he, validateEnsName_ok]
      obtain ⟨q, rfl⟩ := endsWith_iff.1 he
      have h1 : ¬ IsName (q ++ dotEth) := nodot (by decide)
      simp [h0, h1, hnb]
    · rw [if_neg he, validateFname_ok]
      have : ¬ IsEnsName s := by
        rintro ⟨p, _, rfl⟩
        exact he (endsWith_iff.2 ⟨p, rfl⟩)
      simp [h0, this, hnb]

/-! ### Handles elsewhere -/

theorem validateTwitter_ok {s : Bytes} : validateTwitter s = .ok () ↔ IsTwitterName s := by
  have h : twitterRe.isMatch s = true ↔ IsTwitterName s := by
    rw [Re.isMatch_iff]
    unfold twitterRe
    rw [Re.lang_rep_cls]
    simp only [Bool.or_eq_true, beq_iff_eq, Nat.zero_le, true_and, IsTwitterName, Option.some.injEq,
      forall_eq']
    simp only [← Bool.or_eq_true, lower_or_digit]
  simp only [validateTwitter, ite_err_ok, Bool.not_eq_true', Bool.not_eq_false, h]
  exact ⟨fun h => h.2.1, fun h => ⟨by have := h.1; omega, h, trivial⟩⟩

theorem githubChar_iff (o : Nat → Bool) (c : Nat) : githubChar o c = true ↔
    (97 ≤ c ∧ c ≤ 122) ∨ (65 ≤ c ∧ c ≤ 90) ∨ (48 ≤ c ∧ c ≤ 57) ∨ o c = true := by
  simp only [githubChar, Bool.or_eq_true, decide_eq_true_eq]
  grind

theorem githubTail_iff (o : Nat → Bool) (ho : o 45 = false) : ∀ (n : Nat) (s : List Nat), githubTail o n s = true ↔
    s.length ≤ n ∧ (∀ x ∈ s, githubChar o x = true ∨ x = 45) ∧ ∀ a b, s = a ++ 45 :: 45 :: b → False
  | n, [] => by simp [githubTail]
  | 0, _ :: _ => by simp [githubTail]
  | n + 1, c :: s => by
    have ih := githubTail_iff o ho n s
    have hd : githubChar o 45 = false := by simp [githubChar, ho]
    rw [githubTail, Bool.and_eq_true, Bool.or_eq_true, Bool.and_eq_true, beq_iff_eq, bne_iff_ne, ih]
    constructor
    · rintro ⟨h1, h2, h3, h4⟩
      refine ⟨by simp; omega, ?_, ?_⟩
      · intro x hx
        rcases List.mem_cons.1 hx with rfl | hx
        · rcases h1 with h | h
          · exact .inl h
          · exact .inr h.1
        · exact h3 x hx
      · intro a b hab
        cases a with
        | nil =>
          simp only [List.nil_append, List.cons.injEq] at hab
          obtain ⟨rfl, rfl⟩ := hab
          rcases h1 with h | h
          · rw [hd] at h; cases h
          · exact h.2 rfl
        | cons y a =>
          simp only [List.cons_append, List.cons.injEq] at hab
          exact h4 a b hab.2
    · rintro ⟨h1, h2, h3⟩
      refine ⟨?_, by simpa using h1, fun x hx => h2 x (List.mem_cons_of_mem _ hx), fun a b e => h3 (c :: a) b (by rw [e]; rfl)⟩
      rcases h2 c List.mem_cons_self with h | h
      · exact .inl h
      · refine .inr ⟨h, fun e => ?_⟩
        cases s with
        | nil => simp at e
        | cons y s =>
          simp only [List.head?_cons, Option.some.injEq] at e
          exact h3 [] s (by rw [h, e]; rfl)

theorem githubMatch_iff (o : Nat → Bool) (ho : o 45 = false) (cs : List Nat) :
    githubMatch o cs = true ↔ IsGithubName o cs := by
  cases cs with
  | nil => simp [githubMatch, IsGithubName]
  | cons c s =>
    simp only [githubMatch, Bool.and_eq_true, githubTail_iff o ho, IsGithubName, ← githubChar_iff]
    constructor
    · rintro ⟨h1, h2, h3, h4⟩
      exact ⟨⟨c, s, rfl, h1, h3, h4⟩, by simp; omega⟩
    · rintro ⟨⟨c', s', he, h1, h3, h4⟩, h2⟩
      simp only [List.cons.injEq] at he
      obtain ⟨rfl, rfl⟩ := he
      exact ⟨h1, by simpa using h2, h3, h4⟩

theorem validateGithub_ok {env : VEnv} (ho : env.otherDigit 45 = false) {s : Bytes} : validateGithub env s = .ok () ↔
    s.length ≤ 38 ∧ ∃ cs, env.chars s = some cs ∧ IsGithubName env.otherDigit cs := by
  unfold validateGithub
  rw [ite_err_ok]
  cases env.chars s with
  | none => simp
  | some cs =>
    simp only [ite_err_ok, Bool.not_eq_true', Bool.not_eq_false, githubMatch_iff _ ho, Option.some.injEq]
    simp

/-! ### Locations -/

theorem digit_iff (c : UInt8) : isDigit c = true ↔ 48 ≤ c.toNat ∧ c.toNat ≤ 57 := by simp [isDigit]

theorem degreesRe_iff (most : Nat) (s : Bytes) : (degreesRe most).isMatch s = true ↔
    ∃ sign whole frac, s = sign ++ whole ++ [46] ++ frac ∧ (sign = [] ∨ sign = [45]) ∧
      1 ≤ whole.length ∧ whole.length ≤ most ∧ frac.length = 2 ∧
      (∀ c ∈ whole ++ frac, 48 ≤ c.toNat ∧ c.toNat ≤ 57) := by
  rw [Re.isMatch_iff]
  unfold degreesRe
  simp only [Re.Lang.eq_4, Re.lang_rep_cls, Re.lang_opt, Re.lang_chr, digit_iff]
  constructor
  · rintro ⟨sign, _, rfl, hs, whole, _, rfl, ⟨h1, h2, h3⟩, _, frac, rfl, rfl, h4, h5, h6⟩
    have := h5 2 rfl
    refine ⟨sign, whole, frac, by simp, hs, h1, h2 _ rfl, by omega, ?_⟩
    intro c hc
    rcases List.mem_append.1 hc with h | h
    · exact h3 c h
    · exact h6 c h
  · rintro ⟨sign, whole, frac, rfl, hs, h1, h2, h3, h4⟩
    refine ⟨sign, _, by rw [List.append_assoc, List.append_assoc], hs, whole, _, rfl, ⟨h1, ?_, ?_⟩, [46], frac, rfl, rfl,
      by omega, ?_, ?_⟩
    · rintro h ⟨⟩; exact h2
    · exact fun c hc => h4 c (List.mem_append_left _ hc)
    · rintro h ⟨⟩; omega
    · exact fun c hc => h4 c (List.mem_append_right _ hc)

theorem hundredths_append (a b : Bytes) : ∀ n, hundredths (a ++ b) n = hundredths b (hundredths a n) := by
  induction a with
  | nil => intro n; rfl
  | cons c a ih =>
    intro n
    rw [List.cons_append, hundredths, hundredths]
    by_cases h : isDigit c = true
    · rw [if_pos h, if_pos h, ih]
    · rw [if_neg h, if_neg h, ih]

theorem hundredths_digits {a : Bytes} (h : ∀ c ∈ a, 48 ≤ c.toNat ∧ c.toNat ≤ 57) : ∀ n,
    hundredths a n = a.foldl (fun n c => n * 10 + (c.toNat - 48)) n := by
  induction a with
  | nil => intro n; rfl
  | cons c a ih =>
    intro n
    rw [hundredths, if_pos ((digit_iff c).2 (h c List.mem_cons_self)), List.foldl_cons,
      ih fun x hx => h x (List.mem_cons_of_mem _ hx)]

theorem hundredths_parts {sign whole frac : Bytes} (hs : sign = [] ∨ sign = [45])
    (h : ∀ c ∈ whole ++ frac, 48 ≤ c.toNat ∧ c.toNat ≤ 57) :
    hundredths (sign ++ whole ++ [46] ++ frac) 0 = digitsValue (whole ++ frac) := by
  have h0 : hundredths sign 0 = 0 := by rcases hs with rfl | rfl <;> rfl
  have hd : ∀ n, hundredths [46] n = n := fun n => rfl
  rw [hundredths_append, hundredths_append, hundredths_append, h0, hd, ← hundredths_append, hundredths_digits h]
  rfl

theorem degrees_ok (most limit : Nat) (s : Bytes) :
    ((degreesRe most).isMatch s = true ∧ ¬ hundredths s 0 > limit * 100) ↔ IsDegrees most limit s := by
  rw [degreesRe_iff]
  constructor
  · rintro ⟨⟨sign, whole, frac, rfl, hs, h1, h2, h3, h4⟩, h5⟩
    rw [hundredths_parts hs h4] at h5
    exact ⟨sign, whole, frac, rfl, hs, h1, h2, h3, h4, by omega⟩
  · rintro ⟨sign, whole, frac, rfl, hs, h1, h2, h3, h4, h5⟩
    refine ⟨⟨sign, whole, frac, rfl, hs, h1, h2, h3, h4⟩, ?_⟩
    rw [hundredths_parts hs h4]
    omega

theorem IsDegrees.noComma {most limit : Nat} {s : Bytes} (h : IsDegrees most limit s) : 44 ∉ s := by
  obtain ⟨sign, whole, frac, rfl, hs, -, -, -, h4, -⟩ := h
  intro hm
  have hw : ∀ c ∈ whole ++ frac, c ≠ 44 := by
    intro c hc e
    subst e
    have := h4 _ hc
    revert this; decide
  simp only [List.mem_append, List.mem_singleton] at hm
  rcases hm with ((h | h) | h) | h
  · rcases hs with rfl | rfl <;> revert h <;> decide
  · exact hw 44 (List.mem_append_left _ h) rfl
  · revert h; decide
  · exact hw 44 (List.mem_append_right _ h) rfl

theorem validateLocation_ok {s : Bytes} : validateLocation s = .ok () ↔ s = [] ∨ IsLocation s := by
  unfold validateLocation
  by_cases h0 : s = []
  · simp [h0]
  rw [if_neg (by simpa using h0)]
  simp only [h0, false_or]
  unfold geoParts IsLocation
  by_cases hp : s.take 4 = geoPrefix
  · rw [if_neg (by simpa using hp)]
    have hs : s = geoPrefix ++ s.drop 4 := by rw [← hp]; exact (List.take_append_drop 4 s).symm
    constructor
    · intro h
      split at h
      · cases h
      · rename_i lat lon hg
        split at hg
        · rename_i lat' lon' hsp
          split at hg
          · rename_i hm
            simp only [Option.some.injEq, Prod.mk.injEq] at hg
            obtain ⟨rfl, rfl⟩ := hg
            rw [ite_err_ok, ite_err_ok] at h
            rw [Bool.and_eq_true] at hm
            refine ⟨lat', lon', ?_, (degrees_ok 2 90 _).1 ⟨hm.1, h.1⟩, (degrees_ok 3 180 _).1 ⟨hm.2, h.2.1⟩⟩
            rw [hs, (splitOn_two hsp).1]
            simp [geoPrefix]
          · cases hg
        · cases hg
    · rintro ⟨lat, lon, rfl, h1, h2⟩
      have hsp : splitOn 44 (([103, 101, 111, 58] ++ lat ++ [44] ++ lon).drop 4) = [lat, lon] := by
        have : ([103, 101, 111, 58] ++ lat ++ [44] ++ lon).drop 4 = lat ++ 44 :: lon := by simp
        rw [this, splitOn_append lon h1.noComma, splitOn_none h2.noComma]
      rw [hsp]
      have h1' := (degrees_ok 2 90 lat).2 h1
      have h2' := (degrees_ok 3 180 lon).2 h2
      simp only [h1'.1, h2'.1, Bool.and_self, if_true]
      rw [ite_err_ok, ite_err_ok]
      exact ⟨h1'.2, h2'.2, rfl⟩
  · rw [if_pos (by simpa using hp)]
    simp only [reduceCtorEq, false_iff]
    rintro ⟨lat, lon, rfl, _⟩
    exact hp rfl

/-! ### Assets -/

theorem dash_iff (c : UInt8) : (isLower c || isDigit c || c == 45) = true ↔ Alnum c ∨ c = 45 := by
  rw [Bool.or_eq_true, lower_or_digit, beq_iff_eq]

theorem assetChar_iff (c : UInt8) : (isLower c || isUpper c || isDigit c || c == 45 || c == 46 || c == 37) = true ↔
    AnyAlnum c ∨ c = 45 ∨ c = 46 ∨ c = 37 := by
  rw [Bool.or_eq_true, Bool.or_eq_true, Bool.or_eq_true, any_alnum, beq_iff_eq, beq_iff_eq, beq_iff_eq, or_assoc, or_assoc]

theorem caip19Re_iff (s : Bytes) : caip19Re.isMatch s = true ↔ IsAsset s := by
  rw [Re.isMatch_iff]
  unfold caip19Re IsAsset
  simp only [Re.Lang.eq_4, Re.lang_rep_cls, Re.lang_opt, Re.lang_chr, any_alnum, lower_or_digit, dash_iff, assetChar_iff]
  constructor
  · rintro ⟨chain, _, rfl, ⟨a1, -, a2⟩, _, _, rfl, rfl, ref, _, rfl, ⟨b1, -, b2⟩, _, _, rfl, rfl, ns, _, rfl,
      ⟨c1, c2, c3⟩, _, _, rfl, rfl, asset, token, rfl, ⟨d1, d2, d3⟩, ht⟩
    refine ⟨chain, ref, ns, asset, token, by simp, ⟨?_, a2⟩, ⟨?_, b2⟩, ⟨c1, c2 _ rfl, c3⟩, ⟨d1, d2 _ rfl, d3⟩, ?_⟩
    · intro e; simp [e] at a1
    · intro e; simp [e] at b1
    · rcases ht with rfl | ⟨_, t, rfl, rfl, e1, -, e2⟩
      · exact .inl rfl
      · exact .inr ⟨t, rfl, by intro e; simp [e] at e1, e2⟩
  · rintro ⟨chain, ref, ns, asset, token, rfl, ⟨a1, a2⟩, ⟨b1, b2⟩, ⟨c1, c2, c3⟩, ⟨d1, d2, d3⟩, ht⟩
    have pos : ∀ {l : Bytes}, l ≠ [] → 1 ≤ l.length := fun h => List.length_pos_iff.2 h
    refine ⟨chain, _, by simp only [List.append_assoc], ⟨pos a1, by simp, a2⟩, [58], _, rfl, rfl,
      ref, _, rfl, ⟨pos b1, by simp, b2⟩, [47], _, rfl, rfl, ns, _, rfl, ⟨c1, by simpa using c2, c3⟩,
      [58], _, rfl, rfl, asset, token, rfl, ⟨d1, by simpa using d2, d3⟩, ?_⟩
    · rcases ht with rfl | ⟨t, rfl, e1, e2⟩
      · exact .inl rfl
      · exact .inr ⟨[47], t, rfl, rfl, pos e1, by simp, e2⟩

theorem afterColon_append {p : Bytes} (t : Bytes) (h : 58 ∉ p) : afterColon (p ++ 58 :: t) = some t := by
  induction p with
  | nil => rfl
  | cons c p ih =>
    rw [List.mem_cons, not_or] at h
    rw [List.cons_append, afterColon, if_neg (by simpa using Ne.symm h.1), ih h.2]

theorem validateCaip19_ok {s : Bytes} : validateCaip19 s = .ok () ↔ s = [] ∨ s.length ≤ 256 ∧ IsAsset s := by
  unfold validateCaip19
  by_cases h0 : s = []
  · simp [h0]
  rw [if_neg (by simpa using h0)]
  simp only [ite_err_ok, Bool.not_eq_true', Bool.not_eq_false, caip19Re_iff, h0, false_or]
  constructor
  · rintro ⟨h1, h2, -⟩
    exact ⟨by omega, h2⟩
  · rintro ⟨h1, h2⟩
    refine ⟨by omega, h2, ?_⟩
    obtain ⟨chain, ref, ns, asset, token, rfl, ⟨-, a2⟩, ⟨-, b2⟩, ⟨-, -, c3⟩, ⟨-, d2, d3⟩, ht⟩ := h2
    have x1 : ∀ {c : UInt8}, Alnum c → c ≠ 47 ∧ c ≠ 58 := by
      intro c hc
      constructor <;> (rintro rfl; revert hc; unfold Alnum; decide)
    have x2 : ∀ {c : UInt8}, AnyAlnum c → c ≠ 47 ∧ c ≠ 58 := by
      intro c hc
      constructor <;> (rintro rfl; revert hc; unfold AnyAlnum Alnum; decide)
    have n1 : 47 ∉ chain ++ [58] ++ ref := by
      simp only [List.mem_append, List.mem_singleton, not_or]
      exact ⟨⟨fun h => (x1 (a2 _ h)).1 rfl, by decide⟩, fun h => (x2 (b2 _ h)).1 rfl⟩
    have n2 : 47 ∉ ns ++ 58 :: asset := by
      simp only [List.mem_append, List.mem_cons, not_or]
      refine ⟨fun h => ?_, by decide, fun h => ?_⟩
      · rcases c3 _ h with h | h
        · exact (x1 h).1 rfl
        · revert h; decide
      · rcases d3 _ h with h | h | h | h
        · exact (x2 h).1 rfl
        all_goals (revert h; decide)
    have n3 : 58 ∉ ns := by
      intro h
      rcases c3 _ h with h | h
      · exact (x1 h).2 rfl
      · revert h; decide
    have hsplit : splitOn 47 (chain ++ [58] ++ ref ++ [47] ++ ns ++ [58] ++ asset ++ token) =
        (chain ++ [58] ++ ref) :: (ns ++ 58 :: asset) :: (if token = [] then [] else [token.drop 1]) := by
      have e : chain ++ [58] ++ ref ++ [47] ++ ns ++ [58] ++ asset ++ token =
          (chain ++ [58] ++ ref) ++ 47 :: ((ns ++ 58 :: asset) ++ token) := by simp
      rw [e, splitOn_append _ n1]
      rcases ht with rfl | ⟨t, rfl, -, e2⟩
      · rw [List.append_nil, splitOn_none n2]; rfl
      · rw [splitOn_append _ n2, splitOn_none fun h => (x2 (e2 _ h)).1 rfl]; rfl
    rw [hsplit]
    refine ⟨?_, ?_, trivial⟩
    · by_cases h : token = [] <;> simp [h]
    · simp only [referenceTooLong, afterColon_append asset n3]
      simpa using d2

/-! ### Addresses -/

theorem unhex_hexDigit {n : Nat} (h : n < 16) : unhex (hexDigit n) = some n := by
  revert n; decide

theorem unhex_upper {n : Nat} (h : n < 16) (h2 : 97 ≤ (hexDigit n).toNat) :
    unhex (UInt8.ofNat ((hexDigit n).toNat - 32)) = some n := by
  revert n; decide

theorem hexEncode_len : ∀ b : Bytes, (hexEncode b).length = 2 * b.length
  | [] => rfl
  | x :: l => by simp only [hexEncode, List.length_cons, hexEncode_len l]; omega

theorem caseBy_length : ∀ (s : Bytes) (ns : List Nat), (caseBy s ns).length = s.length
  | [], _ => by simp [caseBy]
  | _ :: _, [] => by simp [caseBy]
  | _ :: s, _ :: ns => by simp [caseBy, caseBy_length s ns]

theorem hexDecode_pair {a b : UInt8} {x y : Nat} {s l : Bytes} (ha : unhex a = some x) (hb : unhex b = some y)
    (hs : hexDecode s = some l) : hexDecode (a :: b :: s) = some (UInt8.ofNat (16 * x + y) :: l) := by
  rw [hexDecode, ha, hb, hs]

theorem byte_halves (x : UInt8) : UInt8.ofNat (16 * (x.toNat / 16) + x.toNat % 16) = x := by
  rw [show 16 * (x.toNat / 16) + x.toNat % 16 = x.toNat by omega, UInt8.ofNat_toNat]

/-- The case of the letters does not matter when reading. -/
theorem hexDecode_caseBy : ∀ (a : Bytes) (ns : List Nat), hexDecode (caseBy (hexEncode a) ns) = some a
  | [], ns => by cases ns <;> rfl
  | x :: l, ns => by
    have h1 : x.toNat / 16 < 16 := by have := x.toNat_lt; omega
    have h2 : x.toNat % 16 < 16 := Nat.mod_lt _ (by omega)
    have plain : ∀ m, caseBy (hexEncode l) m = hexEncode l → hexDecode (hexEncode l) = some l := fun m h => by
      rw [← h]; exact hexDecode_caseBy l m
    have hl : hexDecode (hexEncode l) = some l := plain [] (by cases hexEncode l <;> rfl)
    have dig : ∀ {n : Nat} (m : Nat), n < 16 →
        unhex (if 97 ≤ (hexDigit n).toNat ∧ 8 ≤ m then UInt8.ofNat ((hexDigit n).toNat - 32) else hexDigit n) = some n := by
      intro n m hn
      by_cases hc : 97 ≤ (hexDigit n).toNat ∧ 8 ≤ m
      · rw [if_pos hc]; exact unhex_upper hn hc.1
      · rw [if_neg hc]; exact unhex_hexDigit hn
    rw [hexEncode]
    cases ns with
    | nil =>
      rw [caseBy.eq_2 _ _ (by intros; simp_all)]
      rw [hexDecode_pair (unhex_hexDigit h1) (unhex_hexDigit h2) hl, byte_halves]
    | cons m ns =>
      cases ns with
      | nil =>
        have : caseBy (hexDigit (x.toNat % 16) :: hexEncode l) [] = hexDigit (x.toNat % 16) :: hexEncode l := by
          rw [caseBy.eq_2 _ _ (by intros; simp_all)]
        rw [caseBy, this, hexDecode_pair (dig m h1) (unhex_hexDigit h2) hl, byte_halves]
      | cons k ns =>
        rw [caseBy, caseBy, hexDecode_pair (dig m h1) (dig k h2) (hexDecode_caseBy l ns), byte_halves]

theorem parse_checksum {k : Bytes → Bytes} {a : Bytes} (h : a.length = 20) : parseAddress (checksum k a) = some a := by
  unfold parseAddress checksum
  have : (hexPrefix ++ caseBy (hexEncode a) (nibbles (k (hexEncode a)))).drop 2 =
      caseBy (hexEncode a) (nibbles (k (hexEncode a))) := rfl
  rw [this, hexDecode_caseBy]
  simp [h]

theorem checksum_length {k : Bytes → Bytes} {a : Bytes} (h : a.length = 20) : (checksum k a).length = 42 := by
  unfold checksum
  rw [List.length_append, caseBy_length, hexEncode_len, h]
  rfl

theorem parseAddress_length {s a : Bytes} (h : parseAddress s = some a) : a.length = 20 := by
  unfold parseAddress at h
  split at h
  · cases h
  · split at h
    · cases h; assumption
    · cases h

theorem checksum_inj {k : Bytes → Bytes} {a b : Bytes} (ha : a.length = 20) (hb : b.length = 20)
    (h : checksum k a = checksum k b) : a = b := by
  have := parse_checksum (k := k) ha
  rw [h, parse_checksum hb] at this
  exact (Option.some.inj this).symm

theorem validatePrimaryEth_ok {env : VEnv} {s : Bytes} : validatePrimaryEth env s = .ok () ↔
    s = [] ∨ ∃ a : Bytes, a.length = 20 ∧ s = checksum env.keccak a := by
  unfold validatePrimaryEth
  by_cases h0 : s = []
  · simp [h0]
  rw [if_neg (by simpa using h0), ite_err_ok]
  simp only [h0, false_or]
  constructor
  · rintro ⟨-, h⟩
    split at h
    · cases h
    · rename_i a ha
      rw [andThen_ok, ite_err_ok] at h
      exact ⟨a, parseAddress_length ha, (Decidable.not_not.1 h.2.1).symm⟩
  · rintro ⟨a, ha, rfl⟩
    rw [parse_checksum ha]
    refine ⟨?_, ?_⟩
    · rw [checksum_length ha]
      simp [checksum, hexPrefix]
    · rw [andThen_ok, validateAddress_ok (by decide), ite_err_ok]
      exact ⟨ha, by simp, rfl⟩

theorem validatePrimarySol_ok {env : VEnv} {s : Bytes} : validatePrimarySol env s = .ok () ↔
    s = [] ∨ ∃ a : Bytes, env.solAddress s = some a ∧ a.length = 32 := by
  unfold validatePrimarySol
  by_cases h0 : s = []
  · simp [h0]
  rw [if_neg (by simpa using h0)]
  cases env.solAddress s <;> simp [h0, validateAddress_ok]

theorem validateLength_ok {s : Bytes} {n : Nat} : validateLength s n = .ok () ↔ s.length ≤ n := by
  simp [validateLength]

end Verif
