import Verif.Spec.ChannelUri
import Verif.Spec.Store
import Verif.Lemmas.ValidateNames
import Verif.Lemmas.MempoolKeys
/-! Reading and writing channel names. -/
namespace Verif

theorem digitsValue_snoc (s : Bytes) (c : UInt8) : digitsValue (s ++ [c]) = digitsValue s * 10 + (c.toNat - 48) := by
  simp [digitsValue]

theorem readDigits_eq : ∀ (s : Bytes) (n : Nat), (∀ c ∈ s, 48 ≤ c.toNat ∧ c.toNat ≤ 57) →
    readDigits s n = some (s.foldl (fun n c => n * 10 + (c.toNat - 48)) n)
  | [], _, _ => rfl
  | c :: s, n, h => by
    rw [readDigits, if_pos ((digit_iff c).2 (h c (by simp))), readDigits_eq s _ fun d hd => h d (by simp [hd])]
    rfl

theorem IsNumeral.read {t : Bytes} {n : Nat} (h : IsNumeral t n) : readDigits t 0 = some n := by
  rw [readDigits_eq t 0 h.digits, ← h.value]
  rfl

theorem IsNumeral.not_mem {t : Bytes} {n : Nat} (h : IsNumeral t n) {c : UInt8} (hc : ¬ (48 ≤ c.toNat ∧ c.toNat ≤ 57)) :
    c ∉ t := fun hm => hc (h.digits c hm)

theorem digitByte (d : Nat) (h : d < 10) : (UInt8.ofNat (48 + d)).toNat = 48 + d := digit_val h

theorem decimalAux_numeral : ∀ (fuel n : Nat), n < 10 ^ (fuel + 1) → IsNumeral (decimalAux fuel n) n := by
  have single : ∀ n, n < 10 → IsNumeral [UInt8.ofNat (48 + n)] n := by
    intro n h
    refine ⟨by simp, ?_, ?_, ?_⟩
    · intro c hc
      rw [List.mem_singleton.1 hc, digitByte n h]
      omega
    · simp only [digitsValue, List.foldl_cons, List.foldl_nil, digitByte n h]
      omega
    · intro h2
      simpa using h2
  intro fuel
  induction fuel with
  | zero =>
    intro n h
    have h : n < 10 := by simpa using h
    have : n % 10 = n := by omega
    rw [decimalAux, this]
    exact single n h
  | succ fuel ih =>
    intro n h
    unfold decimalAux
    by_cases hn : n < 10
    · rw [if_pos hn]
      exact single n hn
    · rw [if_neg hn]
      have hi := ih (n / 10) (by rw [Nat.pow_succ] at h; omega)
      have hd := digitByte (n % 10) (by omega)
      refine ⟨by simp, ?_, ?_, ?_⟩
      · intro c hc
        rcases List.mem_append.1 hc with hc | hc
        · exact hi.digits c hc
        · rw [List.mem_singleton.1 hc, hd]
          omega
      · rw [digitsValue_snoc, hi.value, hd]
        omega
      · intro h2
        obtain ⟨c, s, hs⟩ := List.exists_cons_of_ne_nil hi.nonempty
        have h3 := hi.lead (by rw [hs] at h2 ⊢; simpa using h2)
        have := hi.value
        rw [h3] at this
        simp [digitsValue] at this
        omega

theorem IsNumeral.eq : ∀ (fuel : Nat) {t : Bytes} {n : Nat}, n < 10 ^ (fuel + 1) → IsNumeral t n → t = decimalAux fuel n := by
  have low : ∀ {c : UInt8} {n : Nat}, IsNumeral [c] n → n < 10 ∧ [c] = [UInt8.ofNat (48 + n)] := by
    intro c n h
    have hc := h.digits c (by simp)
    have hv := h.value
    simp only [digitsValue, List.foldl_cons, List.foldl_nil] at hv
    refine ⟨by omega, ?_⟩
    have : 48 + n = c.toNat := by omega
    rw [this, UInt8.ofNat_toNat]
  have split : ∀ {p : Bytes} {c : UInt8} {n : Nat}, p ≠ [] → IsNumeral (p ++ [c]) n →
      IsNumeral p (n / 10) ∧ 10 ≤ n ∧ c = UInt8.ofNat (48 + n % 10) := by
    intro p c n hp h
    have hc := h.digits c (by simp)
    have hv := h.value
    rw [digitsValue_snoc] at hv
    obtain ⟨x, s, rfl⟩ := List.exists_cons_of_ne_nil hp
    have hx : x ≠ 48 := by
      rintro rfl
      have := h.lead (by simp)
      simp at this
    have hx' := h.digits x (by simp)
    have hpv : n / 10 = digitsValue (x :: s) := by omega
    refine ⟨⟨by simp, fun d hd => h.digits d (List.mem_append_left _ hd), hpv.symm, fun h2 => ?_⟩, ?_, ?_⟩
    · exact absurd (by simpa using h2) hx
    · have hx2 : x.toNat ≠ 48 := fun e => hx (UInt8.toNat_inj.1 (by simpa using e))
      have hge : ∀ (s : Bytes) (m : Nat), m ≤ s.foldl (fun n c => n * 10 + (c.toNat - 48)) m := by
        intro s
        induction s with
        | nil => intro m; exact Nat.le_refl _
        | cons d s ih => intro m; exact Nat.le_trans (by show m ≤ m * 10 + (d.toNat - 48); omega) (ih _)
      have := hge s (0 * 10 + (x.toNat - 48))
      have e : digitsValue (x :: s) = s.foldl (fun n c => n * 10 + (c.toNat - 48)) (0 * 10 + (x.toNat - 48)) := rfl
      omega
    · have : 48 + n % 10 = c.toNat := by omega
      rw [this, UInt8.ofNat_toNat]
  intro fuel
  induction fuel with
  | zero =>
    intro t n hn h
    have hn : n < 10 := by simpa using hn
    rcases List.eq_nil_or_concat t with rfl | ⟨p, c, rfl⟩
    · exact absurd rfl h.nonempty
    · rw [List.concat_eq_append] at h ⊢
      by_cases hp : p = []
      · subst hp
        have := (low h).2
        rw [decimalAux, show n % 10 = n by omega]
        exact this
      · exact absurd (split hp h).2.1 (by omega)
  | succ fuel ih =>
    intro t n hn h
    unfold decimalAux
    rcases List.eq_nil_or_concat t with rfl | ⟨p, c, rfl⟩
    · exact absurd rfl h.nonempty
    · rw [List.concat_eq_append] at h ⊢
      by_cases hp : p = []
      · subst hp
        rw [if_pos (low h).1]
        exact (low h).2
      · obtain ⟨h1, h2, h3⟩ := split hp h
        rw [if_neg (by omega), ← ih (by rw [Nat.pow_succ] at hn; omega) h1, ← h3]

theorem decimal_iff {t : Bytes} {n : Nat} (h : n < 2 ^ 64) : decimal n = t ↔ IsNumeral t n :=
  ⟨fun e => e ▸ decimalAux_numeral 19 n (by omega), fun e => (e.eq 19 (by omega)).symm⟩

theorem decimal256_iff {t : Bytes} {n : Nat} (h : n < 2 ^ 256) : decimal256 n = t ↔ IsNumeral t n :=
  ⟨fun e => e ▸ decimalAux_numeral 77 n (by omega), fun e => (e.eq 77 (by omega)).symm⟩

theorem stripPrefix_some {p s r : Bytes} : stripPrefix p s = some r ↔ s = p ++ r := by
  unfold stripPrefix
  split
  · rename_i h
    rw [Option.some.injEq]
    constructor
    · rintro rfl
      conv => lhs; rw [← List.take_append_drop p.length s, h]
    · rintro rfl
      simp
  · rename_i h
    simp only [reduceCtorEq, false_iff]
    rintro rfl
    simp at h

theorem parseChain_ok {s : Bytes} {n : Nat} : parseChain s = .ok n ↔ n < 2 ^ 64 ∧ ∃ r, IsNumeral r n ∧ s = eip155 ++ r := by
  unfold parseChain
  constructor
  · intro h
    cases hs : stripPrefix eip155 s with
    | none => simp [hs] at h
    | some r =>
      cases hp : parseU64 r with
      | none => simp [hs, hp] at h
      | some m =>
        simp only [hs, hp, ite_not] at h
        split at h
        · rename_i hd
          simp only [Except.ok.injEq] at h
          subst h
          have hm : m < 2 ^ 64 := by
            unfold parseU64 at hp
            grind
          exact ⟨hm, r, (decimal_iff hm).1 hd, stripPrefix_some.1 hs⟩
        · cases h
  · rintro ⟨hn, r, hr, rfl⟩
    rw [stripPrefix_some.2 rfl]
    have : parseU64 r = some n := by
      unfold parseU64
      have : dropPlus r = r := by
        cases r with
        | nil => rfl
        | cons c s =>
          have : c ≠ 43 := by
            rintro rfl
            exact hr.not_mem (c := 43) (by decide) (by simp)
          simp [dropPlus, this]
      rw [this, if_neg (by simpa using hr.nonempty), hr.read]
      exact if_pos hn
    simp only [this]
    rw [if_neg (by simpa using (decimal_iff hn).2 hr)]

theorem parseToken_ok {s c : Bytes} : parseToken s = .ok c ↔ ∃ n, n < 2 ^ 256 ∧ IsNumeral s n ∧ c = be 32 n := by
  unfold parseToken
  constructor
  · intro h
    split at h
    · cases h
    · cases hp : parseU256 s with
      | none => simp [hp] at h
      | some n =>
        simp only [hp, ite_not] at h
        split at h
        · rename_i hd
          simp only [Except.ok.injEq] at h
          have hm : n < 2 ^ 256 := by
            unfold parseU256 at hp
            grind
          exact ⟨n, hm, (decimal256_iff hm).1 hd, h.symm⟩
        · cases h
  · rintro ⟨n, hn, hr, rfl⟩
    have e := (decimal256_iff hn).2 hr
    have hl : s.length ≤ 78 := by rw [← e]; exact (decimalAux_length 77 n).2
    rw [if_neg (by omega)]
    have hf : s.filter (· != 95) = s := by
      rw [List.filter_eq_self]
      intro d hd
      have := hr.not_mem (c := 95) (by decide)
      simp only [bne_iff_ne, ne_eq]
      rintro rfl
      exact this hd
    have : parseU256 s = some n := by
      unfold parseU256
      rw [hf, hr.read]
      exact if_pos hn
    simp only [this]
    rw [if_neg (by simpa using e)]

theorem parseContract_ok {k : Bytes → Bytes} {s a : Bytes} : parseContract k s = .ok a ↔
    a.length = 20 ∧ s = erc721 ++ checksum k a := by
  unfold parseContract
  constructor
  · intro h
    cases hs : stripPrefix erc721 s with
    | none => simp [hs] at h
    | some r =>
      cases hp : parseChecksummed k r with
      | none => simp [hs, hp] at h
      | some b =>
        simp only [hs, hp, Except.ok.injEq] at h
        subst h
        unfold parseChecksummed at hp
        split at hp
        · cases hp
        · cases hq : parseAddress r with
          | none => simp [hq] at hp
          | some b' =>
            simp only [hq] at hp
            split at hp
            · rename_i hc
              cases hp
              exact ⟨parseAddress_length hq, by rw [hc]; exact stripPrefix_some.1 hs⟩
            · cases hp
  · rintro ⟨ha, rfl⟩
    rw [stripPrefix_some.2 rfl]
    have : parseChecksummed k (checksum k a) = some a := by
      unfold parseChecksummed
      rw [if_neg (by simp [checksum, hexPrefix]), parse_checksum ha]
      simp
    simp only [this]

theorem first_occurrence {c : UInt8} : ∀ {s : Bytes}, c ∈ s → ∃ p t, s = p ++ c :: t ∧ c ∉ p
  | [], h => by cases h
  | x :: s, h => by
    by_cases hx : x = c
    · exact ⟨[], s, by rw [hx]; rfl, by simp⟩
    · obtain ⟨p, t, rfl, hp⟩ := first_occurrence (c := c) (s := s) (by
        rcases List.mem_cons.1 h with h | h
        · exact absurd h.symm hx
        · exact h)
      exact ⟨x :: p, t, rfl, by rw [List.mem_cons, not_or]; exact ⟨Ne.symm hx, hp⟩⟩

theorem splitOn_three {c : UInt8} {x y z : Bytes} {s : Bytes} : splitOn c s = [x, y, z] ↔
    s = x ++ c :: (y ++ c :: z) ∧ c ∉ x ∧ c ∉ y ∧ c ∉ z := by
  constructor
  · intro h
    have hm : c ∈ s := by
      apply Classical.byContradiction
      intro hm
      rw [splitOn_none hm] at h
      simp at h
    obtain ⟨p, t, rfl, hp⟩ := first_occurrence hm
    rw [splitOn_append t hp, List.cons.injEq] at h
    obtain ⟨rfl, h⟩ := h
    obtain ⟨rfl, h1, h2⟩ := splitOn_two h
    exact ⟨rfl, hp, h1, h2⟩
  · rintro ⟨rfl, h1, h2, h3⟩
    rw [splitOn_append _ h1, splitOn_append _ h2, splitOn_none h3]

theorem hexDigit_not_slash : ∀ n < 16, hexDigit n ≠ 47 ∧ (97 ≤ (hexDigit n).toNat → UInt8.ofNat ((hexDigit n).toNat - 32) ≠ 47) := by
  decide

theorem caseBy_slash : ∀ (a : Bytes) (ns : List Nat), 47 ∉ caseBy (hexEncode a) ns := by
  intro a
  induction a with
  | nil => intro ns; cases ns <;> simp [hexEncode, caseBy]
  | cons x l ih =>
    intro ns
    have hx := x.toNat_lt
    obtain ⟨h1, h1'⟩ := hexDigit_not_slash (x.toNat / 16) (by omega)
    obtain ⟨h2, h2'⟩ := hexDigit_not_slash (x.toNat % 16) (by omega)
    have h0 := ih []
    rcases ns with _ | ⟨n, _ | ⟨n', ns⟩⟩
    · have : caseBy (hexEncode l) [] = hexEncode l := by cases hexEncode l <;> rfl
      rw [this] at h0
      simp only [hexEncode, caseBy, List.mem_cons, not_or]
      exact ⟨h1.symm, h2.symm, h0⟩
    · have : caseBy (hexEncode l) [] = hexEncode l := by cases hexEncode l <;> rfl
      rw [this] at h0
      simp only [hexEncode, caseBy, List.mem_cons, not_or]
      refine ⟨?_, h2.symm, h0⟩
      split
      · rename_i h; exact (h1' h.1).symm
      · exact h1.symm
    · simp only [hexEncode, caseBy, List.mem_cons, not_or]
      refine ⟨?_, ?_, ih ns⟩
      · split
        · rename_i h; exact (h1' h.1).symm
        · exact h1.symm
      · split
        · rename_i h; exact (h2' h.1).symm
        · exact h2.symm

theorem checksum_slash (k : Bytes → Bytes) (a : Bytes) : 47 ∉ checksum k a := by
  unfold checksum
  rw [List.mem_append, not_or]
  exact ⟨by decide, caseBy_slash _ _⟩

theorem parse_ok {k : Bytes → Bytes} {u : Bytes} {a : AssetId} : AssetId.parse k u = .ok a ↔
    ∃ n, NamesAsset k u a.chain a.contract n ∧ a.channel = be 32 n := by
  unfold AssetId.parse
  constructor
  · intro h
    split at h
    · cases h
    · split at h
      · rename_i chain asset token hs
        cases h1 : parseChain chain with
        | error e => simp [h1] at h
        | ok n =>
          cases h2 : parseContract k asset with
          | error e => simp [h1, h2] at h
          | ok b =>
            cases h3 : parseToken token with
            | error e => simp [h1, h2, h3] at h
            | ok c =>
              simp only [h1, h2, h3, Except.ok.injEq] at h
              subst h
              obtain ⟨hn, r, hr, rfl⟩ := parseChain_ok.1 h1
              obtain ⟨hb, rfl⟩ := parseContract_ok.1 h2
              obtain ⟨m, hm, ht, rfl⟩ := parseToken_ok.1 h3
              obtain ⟨rfl, -, -, -⟩ := splitOn_three.1 hs
              exact ⟨m, ⟨hn, hb, hm, r, token, hr, ht, by simp [eip155, erc721]⟩, rfl⟩
      · cases h
  · rintro ⟨n, ⟨h1, h2, h3, s, t, hs, ht, rfl⟩, hc⟩
    have ls : s.length ≤ 20 := by rw [← (decimal_iff h1).2 hs]; exact (decimalAux_length 19 _).2
    have lt : t.length ≤ 78 := by rw [← (decimal256_iff h3).2 ht]; exact (decimalAux_length 77 _).2
    have lc := checksum_length (k := k) h2
    rw [if_neg (by simp only [List.length_append, List.length_cons, List.length_nil]; omega)]
    have e : splitOn 47 ([101, 105, 112, 49, 53, 53, 58] ++ s ++ [47] ++ [101, 114, 99, 55, 50, 49, 58] ++
        checksum k a.contract ++ [47] ++ t) = [eip155 ++ s, erc721 ++ checksum k a.contract, t] := by
      rw [splitOn_three]
      refine ⟨by simp [eip155, erc721], ?_, ?_, ht.not_mem (by decide)⟩
      · rw [List.mem_append, not_or]
        exact ⟨by decide, hs.not_mem (by decide)⟩
      · rw [List.mem_append, not_or]
        exact ⟨by decide, checksum_slash _ _⟩
    rw [e]
    simp only [parseChain_ok.2 ⟨h1, s, hs, rfl⟩, parseContract_ok.2 ⟨h2, rfl⟩, parseToken_ok.2 ⟨n, h3, ht, rfl⟩]
    rw [← hc]

/-- A name determines the token, and a token its name. -/
theorem NamesAsset.unique {k : Bytes → Bytes} {u : Bytes} {n n' m m' : Nat} {a a' : Bytes} (h : NamesAsset k u n a m)
    (h' : NamesAsset k u n' a' m') : n = n' ∧ a = a' ∧ m = m' := by
  have e := parse_ok (k := k) (u := u) (a := ⟨n, a, be 32 m⟩) |>.2 ⟨m, h, rfl⟩
  have e' := parse_ok (k := k) (u := u) (a := ⟨n', a', be 32 m'⟩) |>.2 ⟨m', h', rfl⟩
  rw [e] at e'
  simp only [Except.ok.injEq, AssetId.mk.injEq] at e'
  refine ⟨e'.1, e'.2.1, ?_⟩
  have := congrArg fromBe e'.2.2
  have b : (256 : Nat) ^ 32 = 2 ^ 256 := by decide
  rwa [fromBe_be_of_lt (by rw [b]; exact h.2.2.1), fromBe_be_of_lt (by rw [b]; exact h'.2.2.1)] at this

theorem NamesAsset.text {k : Bytes → Bytes} {u : Bytes} {n m : Nat} {a : Bytes} (h : NamesAsset k u n a m) :
    u = eip155 ++ decimal n ++ 47 :: (erc721 ++ checksum k a ++ 47 :: decimal256 m) := by
  obtain ⟨h1, h2, h3, s, t, hs, ht, rfl⟩ := h
  rw [(decimal_iff h1).2 hs, (decimal256_iff h3).2 ht]
  simp [eip155, erc721]

theorem names_canonical {k : Bytes → Bytes} {a : AssetId} (h1 : a.chain < 2 ^ 64) (h2 : a.contract.length = 20)
    (h3 : a.channel.length = 32) : NamesAsset k (a.canonical k) a.chain a.contract (fromBe a.channel) := by
  have b : (256 : Nat) ^ 32 = 2 ^ 256 := by decide
  have hlt : fromBe a.channel < 2 ^ 256 := by rw [← b, ← h3]; exact fromBe_lt _
  exact ⟨h1, h2, hlt, _, _, (decimal_iff h1).1 rfl, (decimal256_iff hlt).1 rfl, by simp [AssetId.canonical, eip155, erc721]⟩

end Verif
