import Verif.Lemmas.Mempool
/-!
Places in the mempool: hexadecimal and decimal strings.
-/
namespace Verif
open Spec
variable {F : Type}

theorem hexDigit_inj : ∀ a < 16, ∀ b < 16, hexDigit a = hexDigit b → a = b := by decide

theorem hexEncode_length (b : Bytes) : (hexEncode b).length = 2 * b.length := by
  induction b with
  | nil => rfl
  | cons x l ih => simp only [hexEncode, List.length_cons, ih]; omega

theorem hexEncode_inj : ∀ {a b : Bytes}, hexEncode a = hexEncode b → a = b
  | [], [], _ => rfl
  | [], _ :: _, h => by simp [hexEncode] at h
  | _ :: _, [], h => by simp [hexEncode] at h
  | x :: a, y :: b, h => by
    simp only [hexEncode, List.cons.injEq] at h
    have hx := x.toNat_lt
    have hy := y.toNat_lt
    have h1 := hexDigit_inj _ (by omega) _ (by omega) h.1
    have h2 := hexDigit_inj _ (by omega) _ (by omega) h.2.1
    have : x = y := UInt8.toNat_inj.1 (by omega)
    rw [this, hexEncode_inj h.2.2]

/-- The number a string of decimal digits stands for. -/
def decVal (b : Bytes) : Nat := b.foldl (fun acc d => acc * 10 + (d.toNat - 48)) 0

theorem decVal_snoc (b : Bytes) (d : UInt8) : decVal (b ++ [d]) = decVal b * 10 + (d.toNat - 48) := by
  simp [decVal]

theorem digit_val {d : Nat} (h : d < 10) : (UInt8.ofNat (48 + d)).toNat = 48 + d := by
  rw [UInt8.toNat_ofNat']; omega

theorem decVal_decimalAux : ∀ (fuel n : Nat), n < 10 ^ (fuel + 1) → decVal (decimalAux fuel n) = n
  | 0, n, h => by
    have h : n < 10 := by simpa using h
    have hd : n % 10 = n := by omega
    show decVal [UInt8.ofNat (48 + n % 10)] = n
    rw [hd]
    show 0 * 10 + ((UInt8.ofNat (48 + n)).toNat - 48) = n
    rw [digit_val h]; omega
  | fuel + 1, n, h => by
    unfold decimalAux
    split
    · rename_i hn
      show 0 * 10 + ((UInt8.ofNat (48 + n)).toNat - 48) = n
      rw [digit_val hn]; omega
    · have : n / 10 < 10 ^ (fuel + 1) := by
        rw [Nat.pow_succ] at h
        omega
      rw [decVal_snoc, decVal_decimalAux fuel _ this, digit_val (Nat.mod_lt _ (by omega))]
      omega

theorem decimal_inj {a b : Nat} (ha : a < 10 ^ 20) (hb : b < 10 ^ 20) (h : decimal a = decimal b) : a = b := by
  rw [← decVal_decimalAux 19 a ha, ← decVal_decimalAux 19 b hb]
  exact congrArg decVal h

theorem decimalAux_length (fuel n : Nat) : 1 ≤ (decimalAux fuel n).length ∧ (decimalAux fuel n).length ≤ fuel + 1 := by
  induction fuel generalizing n with
  | zero => simp [decimalAux]
  | succ fuel ih =>
    unfold decimalAux
    split
    · simp
    · have := ih (n / 10)
      rw [List.length_append]
      simp only [List.length_singleton]
      omega

theorem blt_snoc {a b : Bytes} {x y : UInt8} (h : a.length = b.length) :
    Bytes.blt (a ++ [x]) (b ++ [y]) = true ↔ Bytes.blt a b = true ∨ (a = b ∧ x.toNat < y.toNat) := by
  constructor
  · intro hlt
    rcases Bytes.blt_of_append h hlt with g | ⟨g, g'⟩
    · exact .inl g
    · refine .inr ⟨g, ?_⟩
      simp only [Bytes.blt] at g'
      simpa using g'
  · rintro (g | ⟨g, g'⟩)
    · exact Bytes.blt_append_of_blt h g _ _
    · subst g
      rw [Bytes.blt_append_left]
      simp [Bytes.blt, g']

theorem decimalAux_lt (fuel : Nat) : ∀ a b, a < 10 ^ (fuel + 1) → b < 10 ^ (fuel + 1) →
    (decimalAux fuel a).length = (decimalAux fuel b).length →
    (Bytes.blt (decimalAux fuel a) (decimalAux fuel b) = true ↔ a < b) := by
  induction fuel with
  | zero =>
    intro a b ha hb _
    have ha : a < 10 := by simpa using ha
    have hb : b < 10 := by simpa using hb
    simp only [decimalAux]
    rw [← List.nil_append [UInt8.ofNat (48 + a % 10)], ← List.nil_append [UInt8.ofNat (48 + b % 10)], blt_snoc rfl,
      digit_val (Nat.mod_lt _ (by omega)), digit_val (Nat.mod_lt _ (by omega))]
    simp [Bytes.blt]
    omega
  | succ fuel ih =>
    intro a b ha hb hl
    have h1 := decimalAux_length fuel (a / 10)
    have h2 := decimalAux_length fuel (b / 10)
    unfold decimalAux at hl ⊢
    by_cases ca : a < 10 <;> by_cases cb : b < 10
    · simp only [if_pos ca, if_pos cb]
      rw [← List.nil_append [UInt8.ofNat (48 + a)], ← List.nil_append [UInt8.ofNat (48 + b)], blt_snoc rfl,
        digit_val ca, digit_val cb]
      simp [Bytes.blt]
    · simp only [if_pos ca, if_neg cb, List.length_append, List.length_singleton] at hl
      omega
    · simp only [if_neg ca, if_pos cb, List.length_append, List.length_singleton] at hl
      omega
    · simp only [if_neg ca, if_neg cb, List.length_append, List.length_singleton] at hl ⊢
      have ha' : a / 10 < 10 ^ (fuel + 1) := by rw [Nat.pow_succ] at ha; omega
      have hb' : b / 10 < 10 ^ (fuel + 1) := by rw [Nat.pow_succ] at hb; omega
      have hl : (decimalAux fuel (a / 10)).length = (decimalAux fuel (b / 10)).length := by omega
      rw [blt_snoc hl, ih _ _ ha' hb' hl, digit_val (Nat.mod_lt _ (by omega)), digit_val (Nat.mod_lt _ (by omega))]
      constructor
      · rintro (h | ⟨h, h'⟩)
        · omega
        · have : a / 10 = b / 10 := by
            rw [← decVal_decimalAux fuel _ ha', ← decVal_decimalAux fuel _ hb', h]
          omega
      · intro h
        by_cases e : a / 10 = b / 10
        · exact .inr ⟨by rw [e], by omega⟩
        · exact .inl (by omega)

theorem decimal_lt {a b : Nat} (ha : a < 10 ^ 20) (hb : b < 10 ^ 20) (hl : (decimal a).length = (decimal b).length) :
    decimal a ≺ decimal b ↔ a < b := decimalAux_lt 19 a b ha hb hl

end Verif
