import Verif.Model.Bytes
import Verif.Model.OMap
/-! Helper lemmas on byte strings. -/
namespace Verif

theorem UInt8.toNat_inj' {a b : UInt8} (h : a.toNat = b.toNat) : a = b := UInt8.toNat_inj.1 h

namespace Bytes

theorem blt_irrefl : ∀ a : Bytes, Bytes.blt a a = false
  | [] => rfl
  | a :: as => by simp [Bytes.blt, blt_irrefl as]

theorem blt_trans : ∀ {a b c : Bytes}, blt a b = true → blt b c = true → blt a c = true
  | a, [], c, h, _ => by cases a <;> simp [blt] at h
  | a, b :: bs, [], _, h => by simp [blt] at h
  | [], b :: bs, c :: cs, _, _ => by simp [blt]
  | a :: as, b :: bs, c :: cs, h1, h2 => by
    have ih := @blt_trans as bs cs
    simp only [blt] at *
    grind

theorem blt_tri : ∀ a b : Bytes, blt a b = true ∨ a = b ∨ blt b a = true
  | [], [] => .inr (.inl rfl)
  | [], _ :: _ => .inl rfl
  | _ :: _, [] => .inr (.inr rfl)
  | a :: as, b :: bs => by
    have ih := blt_tri as bs
    have := @UInt8.toNat_inj' a b
    simp only [blt]
    grind

end Bytes

instance : StrictOrd Bytes where
  lt a b := Bytes.blt a b = true
  decLt _ _ := inferInstance
  irrefl a := by simp [Bytes.blt_irrefl]
  trans := Bytes.blt_trans
  tri := Bytes.blt_tri

theorem Bytes.lt_def (a b : Bytes) : (a ≺ b) ↔ Bytes.blt a b = true := Iff.rfl

namespace Bytes

theorem blt_append_left (p : Bytes) (a b : Bytes) : blt (p ++ a) (p ++ b) = blt a b := by
  induction p with
  | nil => rfl
  | cons x p ih => simp [blt, ih]

/-- Appending to strings of equal length keeps a strict order already decided. -/
theorem blt_append_of_blt : ∀ {a b : Bytes} (_ : a.length = b.length) (_ : blt a b = true) (s t : Bytes),
    blt (a ++ s) (b ++ t) = true
  | [], [], _, h, _, _ => by simp [blt] at h
  | [], _ :: _, h, _, _, _ => by simp at h
  | _ :: _, [], h, _, _, _ => by simp at h
  | a :: as, b :: bs, hl, h, s, t => by
    have ih := @blt_append_of_blt as bs (by simpa using hl)
    simp only [List.cons_append, blt] at *
    grind

theorem blt_of_append : ∀ {a b : Bytes} {s t : Bytes} (_ : a.length = b.length)
    (_ : blt (a ++ s) (b ++ t) = true), blt a b = true ∨ (a = b ∧ blt s t = true) := by
  intro a b s t hl h
  rcases blt_tri a b with h' | h' | h'
  · exact .inl h'
  · subst h'; rw [blt_append_left] at h; exact .inr ⟨rfl, h⟩
  · have := blt_append_of_blt hl.symm h' t s
    have := blt_trans h this
    simp [blt_irrefl] at this

theorem not_blt_of_prefix {p k : Bytes} (h : p <+: k) : blt k p = false := by
  obtain ⟨t, rfl⟩ := h
  cases hh : blt (p ++ t) p with
  | false => rfl
  | true =>
    have : blt (p ++ t) (p ++ []) = true := by simpa using hh
    rw [blt_append_left] at this
    cases t <;> simp [blt] at this

/-- No key lies strictly between `t` and `t ++ [0]`. -/
theorem blt_append_zero (t k : Bytes) : blt k (t ++ [0]) = true ↔ blt k t = true ∨ k = t := by
  induction t generalizing k with
  | nil =>
    cases k with
    | nil => simp [blt]
    | cons a as => cases as <;> simp [blt]
  | cons x t ih =>
    cases k with
    | nil => simp [blt]
    | cons a as =>
      have := ih as
      have := @UInt8.toNat_inj' a x
      simp only [List.cons_append, blt]
      grind

end Bytes

/-! ### Big-endian integers -/

@[simp] theorem be_length (w n : Nat) : (be w n).length = w := by
  induction w with
  | zero => rfl
  | succ w ih => simp [be, ih]

theorem fromBe_cons (b : UInt8) (bs : Bytes) :
    fromBe (b :: bs) = b.toNat * 256 ^ bs.length + fromBe bs := by
  have key : ∀ (bs : Bytes) (acc : Nat),
      bs.foldl (fun acc b => acc * 256 + b.toNat) acc
        = acc * 256 ^ bs.length + bs.foldl (fun acc b => acc * 256 + b.toNat) 0 := by
    intro bs
    induction bs with
    | nil => intro acc; simp
    | cons c cs ih =>
      intro acc
      simp only [List.foldl_cons, List.length_cons]
      rw [ih (acc * 256 + c.toNat), ih (0 * 256 + c.toNat)]
      rw [Nat.pow_succ]
      grind
  unfold fromBe
  rw [List.foldl_cons, key]
  simp

theorem fromBe_lt (bs : Bytes) : fromBe bs < 256 ^ bs.length := by
  induction bs with
  | nil => simp [fromBe]
  | cons b bs ih =>
    rw [fromBe_cons, List.length_cons, Nat.pow_succ]
    have : b.toNat < 256 := b.toNat_lt
    have : b.toNat * 256 ^ bs.length ≤ 255 * 256 ^ bs.length := Nat.mul_le_mul_right _ (by omega)
    omega

theorem fromBe_be (w n : Nat) : fromBe (be w n) = n % 256 ^ w := by
  induction w with
  | zero => simp [be, fromBe, Nat.mod_one]
  | succ w ih =>
    rw [be, fromBe_cons, ih, be_length]
    have h1 : (UInt8.ofNat (n / 256 ^ w % 256)).toNat = n / 256 ^ w % 256 := by
      simp
    rw [h1, Nat.pow_succ, Nat.mod_mul]
    rw [Nat.mul_comm]; omega

theorem fromBe_be_of_lt {w n : Nat} (h : n < 256 ^ w) : fromBe (be w n) = n := by
  rw [fromBe_be, Nat.mod_eq_of_lt h]

theorem be_inj {w m n : Nat} (hm : m < 256 ^ w) (hn : n < 256 ^ w) (h : be w m = be w n) : m = n := by
  rw [← fromBe_be_of_lt hm, ← fromBe_be_of_lt hn, h]

theorem be_mod (w n : Nat) : be w (n % 256 ^ w) = be w n := by
  suffices h : ∀ v, v ≤ w → be v (n % 256 ^ w) = be v n from h w (Nat.le_refl _)
  intro v hv
  induction v with
  | zero => rfl
  | succ v ih =>
    rw [be, be, ih (by omega)]
    congr 2
    obtain ⟨d, rfl⟩ : ∃ d, w = v + 1 + d := ⟨w - (v+1), by omega⟩
    rw [show 256 ^ (v + 1 + d) = 256 ^ v * (256 * 256 ^ d) by rw [Nat.pow_add, Nat.pow_succ]; grind]
    rw [Nat.mod_mul_right_div_self, Nat.mod_mul_right_mod]

theorem be_eq_iff {w m n : Nat} : be w m = be w n ↔ m % 256 ^ w = n % 256 ^ w := by
  constructor
  · intro h; rw [← fromBe_be, ← fromBe_be, h]
  · intro h; rw [← be_mod w m, ← be_mod w n, h]

theorem be_fromBe (bs : Bytes) : be bs.length (fromBe bs) = bs := by
  have key : ∀ (a b : Bytes), a.length = b.length → fromBe a = fromBe b → a = b := by
    intro a
    induction a with
    | nil => intro b h _; cases b <;> simp_all
    | cons x a ih =>
      intro b hl h
      cases b with
      | nil => simp at hl
      | cons y b =>
        rw [fromBe_cons, fromBe_cons] at h
        have hl' : a.length = b.length := by simpa using hl
        rw [hl'] at h
        have h1 := fromBe_lt a
        have h2 := fromBe_lt b
        rw [hl'] at h1
        have hx : x.toNat = y.toNat := by
          rcases Nat.lt_trichotomy x.toNat y.toNat with hh | hh | hh
          · have : (x.toNat + 1) * 256 ^ b.length ≤ y.toNat * 256 ^ b.length :=
              Nat.mul_le_mul_right _ hh
            rw [Nat.add_mul] at this; omega
          · exact hh
          · have : (y.toNat + 1) * 256 ^ b.length ≤ x.toNat * 256 ^ b.length :=
              Nat.mul_le_mul_right _ hh
            rw [Nat.add_mul] at this; omega
        rw [hx] at h
        rw [UInt8.toNat_inj' hx, ih b hl' (by omega)]
  apply key
  · simp
  · rw [fromBe_be_of_lt (fromBe_lt bs)]

/-- Bytewise order of equal-length strings is numeric order of their big-endian values. -/
theorem blt_iff_fromBe_lt {a b : Bytes} (h : a.length = b.length) :
    Bytes.blt a b = true ↔ fromBe a < fromBe b := by
  induction a generalizing b with
  | nil => cases b <;> simp_all [Bytes.blt, fromBe]
  | cons x a ih =>
    cases b with
    | nil => simp at h
    | cons y b =>
      have hl : a.length = b.length := by simpa using h
      have := ih hl
      rw [fromBe_cons, fromBe_cons, hl]
      have h1 := fromBe_lt a
      have h2 := fromBe_lt b
      rw [hl] at h1
      simp only [Bytes.blt]
      rcases Nat.lt_trichotomy x.toNat y.toNat with hh | hh | hh
      · have : (x.toNat + 1) * 256 ^ b.length ≤ y.toNat * 256 ^ b.length :=
          Nat.mul_le_mul_right _ hh
        rw [Nat.add_mul] at this
        simp [hh]; omega
      · simp [hh, this]
      · have : (y.toNat + 1) * 256 ^ b.length ≤ x.toNat * 256 ^ b.length :=
          Nat.mul_le_mul_right _ hh
        rw [Nat.add_mul] at this
        have hn : ¬ x.toNat < y.toNat := by omega
        simp [hn, hh]; omega

theorem be_blt_iff {w m n : Nat} (hm : m < 256 ^ w) (hn : n < 256 ^ w) :
    Bytes.blt (be w m) (be w n) = true ↔ m < n := by
  rw [blt_iff_fromBe_lt (by simp), fromBe_be_of_lt hm, fromBe_be_of_lt hn]

/-! ### `incrementVec` bounds exactly the keys with a prefix -/

theorem incrRev_none {r : Bytes} : incrRev r = none ↔ ∀ b ∈ r, b = 255 := by
  induction r with
  | nil => simp [incrRev]
  | cons x r ih =>
    simp only [incrRev]
    have hx : x.toNat < 255 ↔ x ≠ 255 := by
      have := x.toNat_lt
      have h2 := @UInt8.toNat_inj' x 255
      have : (255 : UInt8).toNat = 255 := rfl
      constructor
      · intro h e; subst e; omega
      · intro h; rcases Nat.lt_or_ge x.toNat 255 with h' | h'
        · exact h'
        · exact absurd (h2 (by omega)) h
    by_cases h : x.toNat < 255
    · simp [h]; intro e; exact absurd e (hx.1 h)
    · have : x = 255 := by
        apply Classical.byContradiction; intro e; exact h (hx.2 e)
      subst this; simp [ih]

/-- Shape of a successful increment: the bytes split as `l ++ b :: 255…255` and become
`l ++ (b+1) :: 0…0`. -/
theorem incrRev_some {r r' : Bytes} (h : incrRev r = some r') :
    ∃ l b n, r.reverse = l ++ b :: List.replicate n 255 ∧ b.toNat < 255 ∧
      r'.reverse = l ++ UInt8.ofNat (b.toNat + 1) :: List.replicate n 0 := by
  induction r generalizing r' with
  | nil => simp [incrRev] at h
  | cons x r ih =>
    simp only [incrRev] at h
    split at h
    · rename_i hx
      injection h with h; subst h
      exact ⟨r.reverse, x, 0, by simp, hx, by simp⟩
    · rename_i hx
      cases hr : incrRev r with
      | none => simp [hr] at h
      | some q =>
        simp [hr] at h; subst h
        obtain ⟨l, b, n, h1, h2, h3⟩ := ih hr
        refine ⟨l, b, n + 1, ?_, h2, ?_⟩
        · have : x = 255 := by
            apply UInt8.toNat_inj'
            have := x.toNat_lt
            have : (255 : UInt8).toNat = 255 := rfl
            omega
          subst this
          rw [List.reverse_cons, h1, List.replicate_succ']; simp
        · rw [List.reverse_cons, h3, List.replicate_succ']; simp

/-- A key between `255…255` (n times) and anything longer starts with it. -/
theorem prefix_of_replicate_le {n : Nat} {k : Bytes}
    (h : Bytes.blt k (List.replicate n 255) = false) : List.replicate n 255 <+: k := by
  induction n generalizing k with
  | zero => simp
  | succ n ih =>
    cases k with
    | nil => simp [List.replicate_succ, Bytes.blt] at h
    | cons x k =>
      rw [List.replicate_succ] at h ⊢
      simp only [Bytes.blt] at h
      have hx := x.toNat_lt
      have h255 : (255 : UInt8).toNat = 255 := rfl
      split at h
      · simp at h
      · have : x = 255 := UInt8.toNat_inj' (by omega)
        subst this
        simp at h
        exact List.cons_prefix_cons.2 ⟨rfl, ih h⟩

theorem blt_cons_replicate_zero {n : Nat} {k : Bytes} {x y : UInt8} :
    Bytes.blt (x :: k) (y :: List.replicate n 0) = true →
      x.toNat < y.toNat ∨ (x = y ∧ k.length < n) := by
  intro h
  simp only [Bytes.blt] at h
  split at h
  · exact .inl ‹_›
  · split at h
    · simp at h
    · refine .inr ⟨UInt8.toNat_inj' (by omega), ?_⟩
      rename_i h1 h2
      clear h1 h2
      induction n generalizing k with
      | zero => cases k <;> simp [Bytes.blt] at h
      | succ n ih =>
        cases k with
        | nil => simp
        | cons z k =>
          rw [List.replicate_succ] at h
          simp only [Bytes.blt] at h
          split at h
          · rename_i hz; simp at hz
          · split at h
            · simp at h
            · simpa using ih h

theorem eq_replicate_zero_of_blt {n : Nat} {k : Bytes}
    (h : Bytes.blt k (List.replicate n 0) = true) : k = List.replicate k.length 0 ∧ k.length < n := by
  induction n generalizing k with
  | zero => cases k <;> simp [Bytes.blt] at h
  | succ n ih =>
    cases k with
    | nil => simp
    | cons z k =>
      rw [List.replicate_succ] at h
      simp only [Bytes.blt] at h
      split at h
      · rename_i hz; simp at hz
      · split at h
        · simp at h
        · rename_i h1 h2
          have hz : z = 0 := UInt8.toNat_inj' (by simpa using h2)
          subst hz
          obtain ⟨h3, h4⟩ := ih h
          refine ⟨?_, by simpa using h4⟩
          rw [List.length_cons, List.replicate_succ, ← h3]

/-- The scan range `[p, incrementVec p)` of a prefix that is not all 255s contains exactly the keys
that start with `p` and the keys above `p` that are a proper prefix of `incrementVec p`. -/
theorem mem_range_iff {p k : Bytes} (hp : ∃ b ∈ p, b ≠ 255) :
    (Bytes.blt k p = false ∧ Bytes.blt k (incrementVec p) = true) ↔
      p <+: k ∨ (Bytes.blt p k = true ∧ k <+: incrementVec p ∧ k ≠ incrementVec p) := by
  cases hi : incrRev p.reverse with
  | none =>
    exfalso
    obtain ⟨b, hb, hne⟩ := hp
    exact hne (incrRev_none.1 hi b (by simpa using hb))
  | some r =>
    obtain ⟨l, b, n, h1, h2, h3⟩ := incrRev_some hi
    rw [List.reverse_reverse] at h1
    have hinc : incrementVec p = l ++ UInt8.ofNat (b.toNat + 1) :: List.replicate n 0 := by
      simp [incrementVec, hi, h3]
    have hb1 : (UInt8.ofNat (b.toNat + 1)).toNat = b.toNat + 1 := by
      rw [UInt8.toNat_ofNat']; omega
    rw [hinc, h1]
    clear hinc hi h3 hp h1
    constructor
    · rintro ⟨hlo, hhi⟩
      induction l generalizing k with
      | nil =>
        simp only [List.nil_append] at *
        cases k with
        | nil => simp [Bytes.blt] at hlo
        | cons x k =>
          simp only [Bytes.blt] at hlo hhi
          rw [hb1] at hhi
          split at hlo
          · simp at hlo
          · rcases Nat.lt_trichotomy x.toNat (b.toNat + 1) with hx | hx | hx
            · have : x = b := UInt8.toNat_inj' (by omega)
              subst this
              simp at hlo
              exact .inl (List.cons_prefix_cons.2 ⟨rfl, prefix_of_replicate_le hlo⟩)
            · right
              rw [if_neg (by omega), if_neg (by omega)] at hhi
              obtain ⟨h4, h5⟩ := eq_replicate_zero_of_blt hhi
              have hxe : x = UInt8.ofNat (b.toNat + 1) := UInt8.toNat_inj' (by rw [hb1]; exact hx)
              refine ⟨?_, ?_, ?_⟩
              · simp only [Bytes.blt]; rw [if_pos (by omega)]
              · refine List.cons_prefix_cons.2 ⟨hxe, ?_⟩
                rw [h4]
                exact ⟨List.replicate (n - k.length) 0, by
                  rw [List.replicate_append_replicate]; congr 1; omega⟩
              · intro e
                have := congrArg List.length e
                simp at this; omega
            · rw [if_neg (by omega), if_pos hx] at hhi
              simp at hhi
      | cons y l ih =>
        cases k with
        | nil => simp [Bytes.blt] at hlo
        | cons x k =>
          simp only [List.cons_append, Bytes.blt] at hlo hhi
          have hxy : x = y := by
            apply UInt8.toNat_inj'
            split at hlo <;> split at hhi <;> simp_all <;> omega
          subst hxy
          simp at hlo hhi
          rcases ih hlo hhi with h | ⟨h, h', h''⟩
          · exact .inl (List.cons_prefix_cons.2 ⟨rfl, h⟩)
          · right
            refine ⟨by simpa [Bytes.blt] using h, List.cons_prefix_cons.2 ⟨rfl, h'⟩, by simpa using h''⟩
    · rintro (hpre | ⟨h4, h5, h6⟩)
      · refine ⟨Bytes.not_blt_of_prefix hpre, ?_⟩
        obtain ⟨t, rfl⟩ := hpre
        rw [List.append_assoc, Bytes.blt_append_left]
        simp only [List.cons_append, Bytes.blt]
        rw [if_pos (by omega)]
      · constructor
        · cases hh : Bytes.blt k (l ++ b :: List.replicate n 255) with
          | false => rfl
          | true => have := Bytes.blt_trans hh h4; simp [Bytes.blt_irrefl] at this
        · rcases Bytes.blt_tri k (l ++ UInt8.ofNat (b.toNat + 1) :: List.replicate n 0) with h | h | h
          · exact h
          · exact absurd h h6
          · rw [Bytes.not_blt_of_prefix h5] at h; simp at h

theorem incrementVec_length {p : Bytes} (hp : ∃ b ∈ p, b ≠ 255) :
    (incrementVec p).length = p.length := by
  cases hi : incrRev p.reverse with
  | none =>
    exfalso
    obtain ⟨b, hb, hne⟩ := hp
    exact hne (incrRev_none.1 hi b (by simpa using hb))
  | some r =>
    obtain ⟨l, b, n, h1, h2, h3⟩ := incrRev_some hi
    rw [List.reverse_reverse] at h1
    have hinc : incrementVec p = l ++ UInt8.ofNat (b.toNat + 1) :: List.replicate n 0 := by
      simp [incrementVec, hi, h3]
    rw [hinc, h1]; simp

/-- A key at least as long as the prefix is in the scan range iff it starts with the prefix. -/
theorem mem_range_iff_prefix {p k : Bytes} (hp : ∃ b ∈ p, b ≠ 255) (hl : p.length ≤ k.length) :
    (Bytes.blt k p = false ∧ Bytes.blt k (incrementVec p) = true) ↔ p <+: k := by
  rw [mem_range_iff hp]
  constructor
  · rintro (h | ⟨_, h1, h2⟩)
    · exact h
    · exfalso
      apply h2
      exact h1.eq_of_length_le (by rw [incrementVec_length hp]; exact hl)
  · exact .inl

/-- When the last byte of the prefix is below 255 the scan range is exact for keys of any length. -/
theorem mem_range_iff_prefix_of_last {q : Bytes} {b : UInt8} (hb : b ≠ 255) {k : Bytes} :
    (Bytes.blt k (q ++ [b]) = false ∧ Bytes.blt k (incrementVec (q ++ [b])) = true) ↔
      (q ++ [b]) <+: k := by
  have hp : ∃ x ∈ q ++ [b], x ≠ 255 := ⟨b, by simp, hb⟩
  rw [mem_range_iff hp]
  constructor
  · rintro (h | ⟨h0, h1, h2⟩)
    · exact h
    · exfalso
      have hb' : b.toNat < 255 := by
        have := b.toNat_lt
        have h255 : (255 : UInt8).toNat = 255 := rfl
        rcases Nat.lt_or_ge b.toNat 255 with h | h
        · exact h
        · exact absurd (UInt8.toNat_inj' (by omega)) hb
      have hinc : incrementVec (q ++ [b]) = q ++ [UInt8.ofNat (b.toNat + 1)] := by
        simp [incrementVec, incrRev, hb']
      rw [hinc] at h1 h2
      rcases List.prefix_concat_iff.1 h1 with h | h
      · exact h2 h
      · have h3 := Bytes.not_blt_of_prefix (h.trans (List.prefix_append q [b]))
        simp [h3] at h0
  · exact .inl

theorem incrementVec_all255 {p : Bytes} (h : ∀ b ∈ p, b = 255) :
    incrementVec p = 1 :: List.replicate p.length 0 := by
  have : incrRev p.reverse = none := incrRev_none.2 (by simpa using h)
  simp [incrementVec, this, List.map_const']

end Verif
