import Verif.Lemmas.StoreInv
import Verif.Spec.Store
/-! The comparison functions of the stores and the winner orders of the specification. -/
namespace Verif

theorem bytesCompare_cases : ∀ a b : Bytes, (bytesCompare a b = -1 ∧ Bytes.blt a b = true) ∨
    (bytesCompare a b = 0 ∧ a = b) ∨ (bytesCompare a b = 1 ∧ Bytes.blt b a = true)
  | [], [] => by simp [bytesCompare]
  | [], _ :: _ => by simp [bytesCompare, Bytes.blt]
  | _ :: _, [] => by simp [bytesCompare, Bytes.blt]
  | a :: as, b :: bs => by
    simp only [bytesCompare, Bytes.blt]
    by_cases h : a.toNat < b.toNat
    · simp [h]
    · by_cases h' : b.toNat < a.toNat
      · simp [h, h']
      · have : a = b := UInt8.toNat_inj' (by omega)
        subst this
        simp only [Nat.lt_irrefl, if_false, List.cons.injEq, true_and]
        exact bytesCompare_cases as bs

theorem bytesCompare_self (a : Bytes) : bytesCompare a a = 0 := by
  rcases bytesCompare_cases a a with ⟨_, h⟩ | ⟨h, _⟩ | ⟨_, h⟩
  · simp [Bytes.blt_irrefl] at h
  · exact h
  · simp [Bytes.blt_irrefl] at h

theorem tsh_take (m : Msg) : (tsh m).take 4 = be 4 m.ts := by
  unfold tsh; rw [List.take_append_of_le_length (by simp), List.take_of_length_le (by simp)]

theorem tsh_drop {m : Msg} (h : m.hash.length = 20) : ((tsh m).drop 4).take 20 = m.hash := by
  unfold tsh; rw [List.drop_append_of_le_length (by simp), List.drop_of_length_le (by simp)]
  simp [List.take_of_length_le, h]

theorem ts_compare {a b : Msg} (ha : a.ts < 2 ^ 32) (hb : b.ts < 2 ^ 32) :
    (bytesCompare (be 4 a.ts) (be 4 b.ts) = -1 ∧ a.ts < b.ts) ∨
    (bytesCompare (be 4 a.ts) (be 4 b.ts) = 0 ∧ a.ts = b.ts) ∨
    (bytesCompare (be 4 a.ts) (be 4 b.ts) = 1 ∧ b.ts < a.ts) := by
  rcases bytesCompare_cases (be 4 a.ts) (be 4 b.ts) with ⟨h, h'⟩ | ⟨h, h'⟩ | ⟨h, h'⟩
  · exact .inl ⟨h, (be_blt_iff (by omega) (by omega)).1 h'⟩
  · exact .inr (.inl ⟨h, be_inj (by omega) (by omega) h'⟩)
  · exact .inr (.inr ⟨h, (be_blt_iff (by omega) (by omega)).1 h'⟩)

/-- The order behind `defaultCompare`. -/
def wins (addT remT : MessageType) (a b : Msg) : Prop :=
  b.ts < a.ts ∨ (b.ts = a.ts ∧ ((a.ty = remT ∧ b.ty = addT) ∨ (a.ty = b.ty ∧ Bytes.blt b.hash a.hash = true)))

/-- The order behind `castCompare`. -/
def castWins (a b : Msg) : Prop :=
  (a.ty = .castRemove ∧ b.ty = .castAdd) ∨
    (a.ty = b.ty ∧ (b.ts < a.ts ∨ (b.ts = a.ts ∧ Bytes.blt b.hash a.hash = true)))

/-- Width conditions on a message. -/
structure Msg.Sized (m : Msg) : Prop where
  ts : m.ts < 2 ^ 32
  hash : m.hash.length = 20

variable {addT remT : MessageType}

theorem default_cases (hne : addT ≠ remT) {a b : Msg} (ha : a.Sized) (hb : b.Sized)
    (hta : a.ty = addT ∨ a.ty = remT) (htb : b.ty = addT ∨ b.ty = remT) :
    (defaultCompare addT remT a.ty (tsh a) b.ty (tsh b) < 0 ∧ wins addT remT b a ∧ ¬ wins addT remT a b) ∨
    (defaultCompare addT remT a.ty (tsh a) b.ty (tsh b) = 0 ∧ a.ts = b.ts ∧ a.hash = b.hash ∧ a.ty = b.ty ∧
      ¬ wins addT remT a b ∧ ¬ wins addT remT b a) ∨
    (defaultCompare addT remT a.ty (tsh a) b.ty (tsh b) > 0 ∧ wins addT remT a b ∧ ¬ wins addT remT b a) := by
  unfold defaultCompare wins
  simp only [tsh_take, tsh_drop ha.hash, tsh_drop hb.hash]
  have irr : ∀ x y : Bytes, Bytes.blt x y = true → Bytes.blt y x = true → False := fun x y h h' => by
    have := Bytes.blt_trans h h'; simp [Bytes.blt_irrefl] at this
  have irr' := Bytes.blt_irrefl
  rcases ts_compare ha.ts hb.ts with ⟨h, h'⟩ | ⟨h, h'⟩ | ⟨h, h'⟩
  · refine .inl ?_; rw [h]; simp; omega
  · rw [h]
    rcases hta with hta | hta <;> rcases htb with htb | htb
    · simp only [hta, htb, hne, h', ne_eq, not_true, if_false, and_false, false_and]
      rcases bytesCompare_cases a.hash b.hash with ⟨e, e'⟩ | ⟨e, e'⟩ | ⟨e, e'⟩ <;> rw [e] <;> simp [e', irr'] <;>
        grind
    · refine .inl ?_; simp [hta, htb, hne, h', hne.symm]
    · refine .inr (.inr ?_); simp [hta, htb, hne, h', hne.symm]
    · simp only [hta, htb, hne.symm, h', ne_eq, not_true, if_false, and_false, false_and]
      rcases bytesCompare_cases a.hash b.hash with ⟨e, e'⟩ | ⟨e, e'⟩ | ⟨e, e'⟩ <;> rw [e] <;> simp [e', irr'] <;>
        grind
  · refine .inr (.inr ?_); rw [h]; simp; omega

theorem cast_cases {a b : Msg} (ha : a.Sized) (hb : b.Sized)
    (hta : a.ty = .castAdd ∨ a.ty = .castRemove) (htb : b.ty = .castAdd ∨ b.ty = .castRemove) :
    (castCompare a.ty (tsh a) b.ty (tsh b) < 0 ∧ castWins b a ∧ ¬ castWins a b) ∨
    (castCompare a.ty (tsh a) b.ty (tsh b) = 0 ∧ a.ts = b.ts ∧ a.hash = b.hash ∧ a.ty = b.ty ∧
      ¬ castWins a b ∧ ¬ castWins b a) ∨
    (castCompare a.ty (tsh a) b.ty (tsh b) > 0 ∧ castWins a b ∧ ¬ castWins b a) := by
  unfold castCompare castWins
  simp only [tsh_take, tsh_drop ha.hash, tsh_drop hb.hash]
  have irr : ∀ x y : Bytes, Bytes.blt x y = true → Bytes.blt y x = true → False := fun x y h h' => by
    have := Bytes.blt_trans h h'; simp [Bytes.blt_irrefl] at this
  have irr' := Bytes.blt_irrefl
  rcases hta with hta | hta <;> rcases htb with htb | htb
  · rcases ts_compare ha.ts hb.ts with ⟨h, h'⟩ | ⟨h, h'⟩ | ⟨h, h'⟩
    · refine .inl ?_; rw [h]; simp [hta, htb]; omega
    · rw [h]
      simp only [hta, htb, h', ne_eq, not_true, if_false, and_false, false_and]
      rcases bytesCompare_cases a.hash b.hash with ⟨e, e'⟩ | ⟨e, e'⟩ | ⟨e, e'⟩ <;> rw [e] <;> simp [e', irr'] <;>
        grind
    · refine .inr (.inr ?_); rw [h]; simp [hta, htb]; omega
  · refine .inl ?_; simp [hta, htb]
  · refine .inr (.inr ?_); simp [hta, htb]
  · rcases ts_compare ha.ts hb.ts with ⟨h, h'⟩ | ⟨h, h'⟩ | ⟨h, h'⟩
    · refine .inl ?_; rw [h]; simp [hta, htb]; omega
    · rw [h]
      simp only [hta, htb, h', ne_eq, not_true, if_false, and_false, false_and]
      rcases bytesCompare_cases a.hash b.hash with ⟨e, e'⟩ | ⟨e, e'⟩ | ⟨e, e'⟩ <;> rw [e] <;> simp [e', irr'] <;>
        grind
    · refine .inr (.inr ?_); rw [h]; simp [hta, htb]; omega

theorem wins_trans (hne : addT ≠ remT) {a b c : Msg} (h : wins addT remT a b) (h' : wins addT remT b c) :
    wins addT remT a c := by
  unfold wins at *
  have := @Bytes.blt_trans c.hash b.hash a.hash
  grind

theorem castWins_trans {a b c : Msg} (h : castWins a b) (h' : castWins b c) : castWins a c := by
  unfold castWins at *
  have := @Bytes.blt_trans c.hash b.hash a.hash
  grind

end Verif
