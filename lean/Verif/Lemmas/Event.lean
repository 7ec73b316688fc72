import Verif.Model.Event
import Verif.Lemmas.RangePage
namespace Verif

theorem makeEventId_eq (h s : Nat) (hh : h < 2 ^ 50) : IdGen.makeEventId h s = h * 2 ^ 14 + s % 2 ^ 14 := by
  unfold IdGen.makeEventId sequenceBits
  have h1 : (1 <<< 14 - 1 : Nat) = 2 ^ 14 - 1 := by decide
  rw [h1, Nat.and_two_pow_sub_one_eq_mod]
  have h2 : h <<< 14 % 2 ^ 64 = h <<< 14 := by
    apply Nat.mod_eq_of_lt
    rw [Nat.shiftLeft_eq]
    omega
  rw [h2, ← Nat.shiftLeft_add_eq_or_of_lt (Nat.mod_lt _ (by decide)), Nat.shiftLeft_eq]

theorem extract_eq (id : Nat) : IdGen.extract id = (id / 2 ^ 14, id % 2 ^ 14) := by
  unfold IdGen.extract sequenceBits
  have h1 : (1 <<< 14 - 1 : Nat) = 2 ^ 14 - 1 := by decide
  rw [h1, Nat.and_two_pow_sub_one_eq_mod, Nat.shiftRight_eq_div_pow]

theorem eventKey_blt (a b : Nat) (ha : a < 2 ^ 64) (hb : b < 2 ^ 64) :
    Bytes.blt (eventKey a) (eventKey b) = decide (a < b) := by
  have h := be_blt_iff (w := 8) (m := a) (n := b)
  have ha' : a < 256 ^ 8 := by rw [show (256:Nat) ^ 8 = 2 ^ 64 by decide]; exact ha
  have hb' : b < 256 ^ 8 := by rw [show (256:Nat) ^ 8 = 2 ^ 64 by decide]; exact hb
  rw [Bool.eq_iff_iff, decide_eq_true_iff]
  unfold eventKey
  have hc : Bytes.blt (9 :: be 8 a) (9 :: be 8 b) = Bytes.blt (be 8 a) (be 8 b) := by
    simp [Bytes.blt]
  rw [hc]
  grind

end Verif
