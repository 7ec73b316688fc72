import Verif.Model.Wire
/-!
Lemmas for the wire format.
-/
namespace Verif
namespace Wire

theorem ofNat_toNat {n : Nat} (h : n < 256) : (UInt8.ofNat n).toNat = n := by
  rw [UInt8.toNat_ofNat']; exact Nat.mod_eq_of_lt h

theorem readVarintAux_varint (rest : Bytes) : ∀ (f n : Nat), n < 2 ^ (7 * f + 1) →
    readVarintAux (f + 1) (varintAux (f + 1) n ++ rest) = some (n, rest)
  | 0, n, h => by
    have h : n < 2 := h
    unfold varintAux
    rw [if_pos (by omega)]
    simp only [List.cons_append, List.nil_append, readVarintAux, ofNat_toNat (show n < 256 by omega)]
    rw [if_pos (by omega)]
    have : ¬ (n ≥ 2) := by omega
    simp [this]
  | f + 1, n, h => by
    unfold varintAux
    by_cases hn : n < 128
    · rw [if_pos hn]
      simp only [List.cons_append, List.nil_append, readVarintAux, ofNat_toNat (show n < 256 by omega)]
      rw [if_pos hn]
      simp
    · rw [if_neg hn]
      have hd : n / 128 < 2 ^ (7 * f + 1) := by
        rw [Nat.div_lt_iff_lt_mul (by omega)]
        rw [show 7 * (f + 1) + 1 = (7 * f + 1) + 7 by omega, Nat.pow_add] at h
        exact h
      have ih := readVarintAux_varint rest f (n / 128) hd
      rw [List.cons_append, readVarintAux, ofNat_toNat (show n % 128 + 128 < 256 by omega), if_neg (by omega), ih]
      simp only [Option.some.injEq, Prod.mk.injEq, and_true]
      omega

theorem readVarint_varint {n : Nat} (h : n < 2 ^ 64) (rest : Bytes) : readVarint (varint n ++ rest) = some (n, rest) :=
  readVarintAux_varint rest 9 n h

theorem varint_ne (n : Nat) : varint n ≠ [] := by
  unfold varint varintAux
  split <;> simp

theorem readKey_put {t w : Nat} (ht : 1 ≤ t) (ht' : t < 2 ^ 29) (hw : w ≤ 5) (rest : Bytes) :
    readKey (varint (t * 8 + w) ++ rest) = some ((t, w), rest) := by
  unfold readKey
  rw [readVarint_varint (by omega)]
  have e1 : (t * 8 + w) / 8 = t := by omega
  have e2 : (t * 8 + w) % 8 = w := by omega
  simp only [e1, e2]
  rw [if_pos ⟨by omega, hw, ht⟩]

/-- A field as it is written. -/
def Good : Field → Prop
  | (t, .num n) => 1 ≤ t ∧ t < 2 ^ 29 ∧ n < 2 ^ 64
  | (t, .str b) => 1 ≤ t ∧ t < 2 ^ 29 ∧ b.length < 2 ^ 64
  | (_, .alien) => False

theorem putField_cons {f : Field} (h : Good f) : ∃ b l, putField f = b :: l := by
  obtain ⟨t, v⟩ := f
  have aux : ∀ n (l : Bytes), ∃ b l', varint n ++ l = b :: l' := by
    intro n l
    cases hv : varint n with
    | nil => exact absurd hv (varint_ne n)
    | cons b l' => exact ⟨b, l' ++ l, rfl⟩
  cases v with
  | num n => exact aux _ _
  | str s => rw [show putField (t, .str s) = varint (t * 8 + 2) ++ (varint s.length ++ s) by simp [putField]]; exact aux _ _
  | alien => exact h.elim

theorem readFields_put (limit : Nat) : ∀ (fs : List Field) (n : Nat), (∀ f ∈ fs, Good f) → fs.length ≤ n →
    readFields limit n (put fs) = some fs
  | [], n, _, _ => by simp [put, readFields]
  | f :: fs, n, h, hn => by
    have hg := h f List.mem_cons_self
    obtain ⟨b, l, hb⟩ := putField_cons hg
    obtain ⟨m, rfl⟩ : ∃ m, n = m + 1 := ⟨n - 1, by simp at hn; omega⟩
    have ih := readFields_put limit fs m (fun x hx => h x (List.mem_cons_of_mem _ hx)) (by simpa using hn)
    have e : put (f :: fs) = putField f ++ put fs := by simp [put]
    have hc : put (f :: fs) = b :: (l ++ put fs) := by rw [e, hb, List.cons_append]
    rw [hc, readFields, ← hc, e]
    obtain ⟨t, v⟩ := f
    cases v with
    | num x =>
      obtain ⟨h1, h2, h3⟩ := hg
      have hk := readKey_put (w := 0) h1 h2 (by omega) (varint x ++ put fs)
      rw [Nat.add_zero] at hk
      simp only [putField, List.append_assoc, hk]
      have hv : readValue limit t 0 (varint x ++ put fs) = some (.num x, put fs) := by
        unfold readValue readPlain
        rw [if_neg (by omega), if_pos rfl, readVarint_varint h3]; rfl
      rw [hv]
      simp only [ih, Option.map_some]
    | str x =>
      obtain ⟨h1, h2, h3⟩ := hg
      have hk := readKey_put (w := 2) h1 h2 (by omega) (varint x.length ++ (x ++ put fs))
      simp only [putField, List.append_assoc, hk]
      have hv : readValue limit t 2 (varint x.length ++ (x ++ put fs)) = some (.str x, put fs) := by
        unfold readValue readPlain readStr
        rw [if_neg (by omega), if_neg (by omega), if_neg (by omega), if_pos rfl, readVarint_varint h3]
        simp
      rw [hv]
      simp only [ih, Option.map_some]
    | alien => exact hg.elim

theorem length_le_put : ∀ (fs : List Field), (∀ f ∈ fs, Good f) → fs.length ≤ (put fs).length
  | [], _ => by simp
  | f :: fs, h => by
    obtain ⟨b, l, hb⟩ := putField_cons (h f List.mem_cons_self)
    have ih := length_le_put fs (fun x hx => h x (List.mem_cons_of_mem _ hx))
    have e : put (f :: fs) = putField f ++ put fs := by simp [put]
    rw [e, hb]
    simp only [List.length_cons, List.length_append]
    omega

theorem readMsg_put {S : Type} {limit : Nat} {step : S → Field → Option S} {s : S} {fs : List Field} (h : ∀ f ∈ fs, Good f) :
    readMsg limit step s (put fs) = mergeFields step s fs := by
  unfold readMsg
  rw [readFields_put limit fs _ h (length_le_put fs h)]

/-- What is written determines the fields. -/
theorem put_inj {fs fs' : List Field} (h : ∀ f ∈ fs, Good f) (h' : ∀ f ∈ fs', Good f) (e : put fs = put fs') : fs = fs' := by
  have h1 := readFields_put 0 fs (fs.length + fs'.length) h (by omega)
  have h2 := readFields_put 0 fs' (fs.length + fs'.length) h' (by omega)
  rw [e, h2] at h1
  exact (Option.some.inj h1).symm

theorem mergeFields_append {S : Type} {step : S → Field → Option S} : ∀ (a b : List Field) (s : S),
    mergeFields step s (a ++ b) = (mergeFields step s a).bind (fun s => mergeFields step s b)
  | [], b, s => rfl
  | f :: a, b, s => by
    simp only [List.cons_append, mergeFields]
    cases step s f with
    | none => rfl
    | some s => exact mergeFields_append a b s

/-! ### Lengths -/

theorem varint_length (n : Nat) : (varint n).length ≤ 10 := by
  have h : ∀ f n, (varintAux f n).length ≤ f := by
    intro f
    induction f with
    | zero => intro n; simp [varintAux]
    | succ f ih =>
      intro n
      unfold varintAux
      split
      · simp
      · have := ih (n / 128); simp only [List.length_cons]; omega
  exact h 10 n

theorem put_append (a b : List Field) : put (a ++ b) = put a ++ put b := by simp [put]

theorem put_num_length (t n : Nat) : (put (numField t n)).length ≤ 20 := by
  unfold numField
  split
  · simp [put]
  · have h1 := varint_length (t * 8)
    have h2 := varint_length n
    simp only [put, List.flatMap_cons, List.flatMap_nil, putField, List.append_nil, List.length_append]; omega

theorem put_str_length (t : Nat) (b : Bytes) : (put (strField t b)).length ≤ 20 + b.length := by
  unfold strField
  split
  · simp [put]
  · have h1 := varint_length (t * 8 + 2)
    have h2 := varint_length b.length
    simp only [put, List.flatMap_cons, List.flatMap_nil, putField, List.append_nil, List.length_append]; omega

theorem put_msg_length (t : Nat) (o : Option (List Field)) (n : Nat) (h : ∀ fs, o = some fs → (put fs).length ≤ n) :
    (put (msgField t o)).length ≤ 20 + n := by
  cases o with
  | none => simp [msgField, put]
  | some fs =>
    have h1 := varint_length (t * 8 + 2)
    have h2 := varint_length (put fs).length
    have h3 := h fs rfl
    show (put [(t, .str (put fs))]).length ≤ _
    rw [show put [(t, WVal.str (put fs))] = varint (t * 8 + 2) ++ varint (put fs).length ++ put fs by simp [put, putField]]
    simp only [List.length_append]; omega

/-! ### Good fields -/

theorem good_num {t n : Nat} (ht : 1 ≤ t ∧ t < 2 ^ 29) (hn : n < 2 ^ 64) : ∀ f ∈ numField t n, Good f := by
  intro f hf
  unfold numField at hf
  split at hf
  · cases hf
  · cases List.mem_singleton.1 hf; exact ⟨ht.1, ht.2, hn⟩

theorem good_str {t : Nat} {b : Bytes} (ht : 1 ≤ t ∧ t < 2 ^ 29) (hn : b.length < 2 ^ 64) : ∀ f ∈ strField t b, Good f := by
  intro f hf
  unfold strField at hf
  split at hf
  · cases hf
  · cases List.mem_singleton.1 hf; exact ⟨ht.1, ht.2, hn⟩

theorem good_msg {t : Nat} {o : Option (List Field)} (ht : 1 ≤ t ∧ t < 2 ^ 29) (hn : ∀ fs, o = some fs → (put fs).length < 2 ^ 64) :
    ∀ f ∈ msgField t o, Good f := by
  intro f hf
  cases o with
  | none => cases hf
  | some fs => cases List.mem_singleton.1 hf; exact ⟨ht.1, ht.2, hn fs rfl⟩

theorem ofInt_lt (i : Int) : ofInt i < 2 ^ 64 := by unfold ofInt; omega

theorem toI64_ofInt {i : Int} (h : -2 ^ 63 ≤ i ∧ i < 2 ^ 63) : toI64 (ofInt i) = i := by
  unfold toI64 ofInt
  split <;> omega

theorem toI32_ofInt {i : Int} (h : -2 ^ 31 ≤ i ∧ i < 2 ^ 31) : toI32 (ofInt i) = i := by
  unfold toI32 ofInt
  split <;> omega

theorem ofInt_zero {i : Int} (h : -2 ^ 63 ≤ i ∧ i < 2 ^ 63) (h0 : ofInt i = 0) : i = 0 := by
  unfold ofInt at h0; omega

end Wire
end Verif
