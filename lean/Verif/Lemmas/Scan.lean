import Verif.Lemmas.KV
import Verif.Spec.Scan
namespace Verif

theorem noShortKey_of_last {V : Type} (db : Db V) (q : Bytes) (b : UInt8) (hb : b ≠ 255) :
    NoShortKey db (q ++ [b]) := by
  intro r hr h1 h2
  apply Classical.byContradiction
  intro hne
  have h3 := (mem_range_iff (k := r.1) (p := q ++ [b]) ⟨b, by simp, hb⟩).2 (.inr ⟨h1, h2, hne⟩)
  have h4 := (mem_range_iff_prefix_of_last hb).1 h3
  have h5 := h4.length_le
  have h6 := h2.eq_of_length_le (by rw [incrementVec_length ⟨b, by simp, hb⟩]; exact h5)
  exact hne h6

theorem noShortKey_of_length {V : Type} (db : Db V) (p : Bytes) (hp : ∃ b ∈ p, b ≠ 255)
    (h : ∀ r ∈ db.rows, p.length ≤ r.1.length) : NoShortKey db p := by
  intro r hr h1 h2
  exact h2.eq_of_length_le (by rw [incrementVec_length hp]; exact h r hr)

theorem scan_prefix_eq {V : Type} (db : Db V) (p : Bytes) (hp : ∃ b ∈ p, b ≠ 255)
    (hs : NoShortKey db p) (rev : Bool) :
    scanRows db p (incrementVec p) rev = inDirection rev (rowsStartingWith db p) := by
  have : db.rows.filter (fun r => !Bytes.blt r.1 p && Bytes.blt r.1 (incrementVec p))
      = rowsStartingWith db p := by
    apply List.filter_congr
    intro r hr
    have h := mem_range_iff (k := r.1) hp
    rw [Bool.eq_iff_iff]
    simp only [Bool.and_eq_true, Bool.not_eq_true', List.isPrefixOf_iff_prefix]
    rw [h]
    constructor
    · rintro (h | ⟨h1, h2, h3⟩)
      · exact h
      · exact absurd (hs r hr h1 h2) h3
    · exact .inl
  simp [scanRows, this, inDirection]

section page
variable {V M : Type} (decode : V → Option M) (filter : M → Bool) (lim : Nat)

/-- The callback of `getMessagesPageByPrefix`. -/
def pageStep (s : List M × Bytes) (k : Bytes) (v : V) : Except HubErr ((List M × Bytes) × Bool) :=
  match decode v with
  | none => .error .decode
  | some m =>
    if filter m then
      let msgs := s.1 ++ [m]
      if msgs.length ≥ lim then .ok ((msgs, k), true)
      else .ok ((msgs, s.2), false)
    else .ok (s, false)

/-- What a page returns from a row list, as a split of the rows. -/
theorem page_split (rows : List (Bytes × V)) (hd : ∀ r ∈ rows, (decode r.2).isSome)
    (acc : List M) (lk : Bytes) (c : Nat) :
    (∃ A k v B, rows = A ++ (k, v) :: B ∧
      iterate none (pageStep decode filter lim) rows c (acc, lk) =
        .ok ((acc ++ ((A ++ [(k, v)]).filterMap (fun r => decode r.2)).filter filter, k), false)) ∨
    iterate none (pageStep decode filter lim) rows c (acc, lk) =
        .ok ((acc ++ (rows.filterMap (fun r => decode r.2)).filter filter, lk), true) := by
  induction rows generalizing acc c with
  | nil => right; simp [iterate]
  | cons a rows ih =>
    obtain ⟨k, v⟩ := a
    obtain ⟨m, hm⟩ := Option.isSome_iff_exists.1 (hd (k, v) (by simp))
    simp only at hm
    have hd' : ∀ r ∈ rows, (decode r.2).isSome := fun r hr => hd r (by simp [hr])
    by_cases hf : filter m = true
    · by_cases hl : (acc ++ [m]).length ≥ lim
      · left
        refine ⟨[], k, v, rows, by simp, ?_⟩
        simp only [iterate, pageStep, hm, hf, if_true, if_pos hl]
        simp [hm, hf]
      · rcases ih hd' (acc ++ [m]) c with ⟨A, k', v', B, e1, e2⟩ | e
        · left
          refine ⟨(k, v) :: A, k', v', B, by simp [e1], ?_⟩
          rw [iterate]
          simp only [pageStep, hm, hf, if_true, if_neg hl]
          rw [e2]
          simp [List.filterMap_cons, hm, hf, List.filter_cons]
        · right
          rw [iterate]
          simp only [pageStep, hm, hf, if_true, if_neg hl]
          rw [e]
          simp [List.filterMap_cons, hm, hf, List.filter_cons]
    · have hf' : filter m = false := by simpa using hf
      rcases ih hd' acc c with ⟨A, k', v', B, e1, e2⟩ | e
      · left
        refine ⟨(k, v) :: A, k', v', B, by simp [e1], ?_⟩
        rw [iterate]
        simp only [pageStep, hm, hf', Bool.false_eq_true, if_false]
        rw [e2]
        simp [List.filterMap_cons, hm, hf', List.filter_cons]
      · right
        rw [iterate]
        simp only [pageStep, hm, hf', Bool.false_eq_true, if_false]
        rw [e]
        simp [List.filterMap_cons, hm, hf', List.filter_cons]

end page

/-- Rows after position `t` in scan direction. -/
def afterToken (rev : Bool) (t : Bytes) (k : Bytes) : Bool := if rev then Bytes.blt k t else Bytes.blt t k

theorem filter_after_split {V : Type} {rev : Bool} {A B : List (Bytes × V)} {k : Bytes} {v : V}
    (h : DirSorted rev (A ++ (k, v) :: B)) :
    (A ++ (k, v) :: B).filter (fun r => afterToken rev k r.1) = B := by
  unfold DirSorted at h
  rw [List.pairwise_append] at h
  obtain ⟨_, h2, h3⟩ := h
  obtain ⟨h4, _⟩ := List.pairwise_cons.1 h2
  rw [List.filter_append, List.filter_cons]
  have hA : A.filter (fun r => afterToken rev k r.1) = [] := by
    rw [List.filter_eq_nil_iff]
    intro a ha
    have := h3 a ha (k, v) (by simp)
    simp only [afterToken]
    cases rev
    · simp only [Bool.false_eq_true, if_false] at *
      intro hh
      have := StrictOrd.trans this hh
      exact StrictOrd.irrefl _ this
    · simp only [if_true] at *
      intro hh
      have := StrictOrd.trans this hh
      exact StrictOrd.irrefl _ this
  have hk : afterToken rev k k = false := by
    cases rev <;> simp [afterToken, Bytes.blt_irrefl]
  have hB : B.filter (fun r => afterToken rev k r.1) = B := by
    rw [List.filter_eq_self]
    intro b hb
    have := h4 b hb
    cases rev
    · simp only [Bool.false_eq_true, if_false] at *
      exact this
    · simp only [if_true] at *
      exact this
  rw [hA, hk, hB]
  simp

/-- The rows scanned with a token inside the range are the rows after the token. -/
theorem scan_with_token {V : Type} (db : Db V) (lo hi t : Bytes) (rev : Bool) (n : Option Nat)
    (ht : Bytes.blt t lo = false) (ht' : Bytes.blt t hi = true) :
    (let b := iterBounds (some lo) (some hi) { pageSize := n, pageToken := some t, reverse := rev }
     scanRows db b.1 b.2 rev) = (scanRows db lo hi rev).filter (fun r => afterToken rev t r.1) := by
  cases rev
  · simp only [iterBounds, scanRows, Bool.false_eq_true, if_false, List.filter_filter]
    apply List.filter_congr
    intro r _
    rw [Bool.eq_iff_iff]
    simp only [Bool.and_eq_true, Bool.not_eq_true', afterToken, Bool.false_eq_true, if_false]
    constructor
    · rintro ⟨h1, h2⟩
      have h3 : Bytes.blt t r.1 = true := by
        rcases Bytes.blt_tri t r.1 with h | h | h
        · exact h
        · have := (Bytes.blt_append_zero t r.1).2 (.inr h.symm); simp [this] at h1
        · have := (Bytes.blt_append_zero t r.1).2 (.inl h); simp [this] at h1
      refine ⟨h3, ?_, h2⟩
      cases hh : Bytes.blt r.1 lo with
      | false => rfl
      | true => have := Bytes.blt_trans h3 hh; simp [this] at ht
    · rintro ⟨h1, h2, h3⟩
      refine ⟨?_, h3⟩
      cases hh : Bytes.blt r.1 (t ++ [0]) with
      | false => rfl
      | true =>
        rcases (Bytes.blt_append_zero t r.1).1 hh with h | h
        · have := Bytes.blt_trans h1 h; simp [Bytes.blt_irrefl] at this
        · rw [h] at h1; simp [Bytes.blt_irrefl] at h1
  · simp only [iterBounds, scanRows, if_true, ← List.filter_reverse, List.filter_filter]
    apply List.filter_congr
    intro r _
    rw [Bool.eq_iff_iff]
    simp only [Bool.and_eq_true, Bool.not_eq_true', afterToken, if_true]
    constructor
    · rintro ⟨h1, h2⟩
      exact ⟨h2, h1, Bytes.blt_trans h2 ht'⟩
    · rintro ⟨h1, h2, h3⟩
      exact ⟨h2, h1⟩

end Verif
