import Verif.Lemmas.Scan
/-! Following page tokens over an arbitrary key range. -/
namespace Verif
variable {V M : Type}

/-- A page over the range `[lo, hi)` without a row limit in the iterator. -/
def rangePage (decode : V → Option M) (db : Db V) (lo hi : Bytes) (po : PageOptions) (lim : Nat)
    (filter : M → Bool) : Except HubErr (MessagesPage M) :=
  match iterate none (pageStep decode filter lim)
      (scanRows db (iterBounds (some lo) (some hi) po).1 (iterBounds (some lo) (some hi) po).2 po.reverse)
      0 ([], []) with
  | .error e => .error e
  | .ok ((msgs, lastKey), _) =>
    .ok { messages := msgs, nextPageToken := if lastKey.isEmpty then none else some lastKey }

theorem follow_range_aux (decode : V → Option M) (db : Db V) (lo hi : Bytes) (hlo : lo ≠ [])
    (rev : Bool) (hd : ∀ r ∈ scanRows db lo hi rev, (decode r.2).isSome)
    (n : Option Nat) (lim : Nat) (filter : M → Bool) :
    ∀ (len : Nat) (t : Option Bytes) (rows : List (Bytes × V)), rows.length ≤ len →
      (let b := iterBounds (some lo) (some hi) { pageSize := n, pageToken := t, reverse := rev }
       scanRows db b.1 b.2 rev) = rows →
      (rows = match t with
        | none => scanRows db lo hi rev
        | some t => (scanRows db lo hi rev).filter (fun r => afterToken rev t r.1)) →
      FollowTokens (fun t => rangePage decode db lo hi { pageSize := n, pageToken := t, reverse := rev } lim filter) t
        ((rows.filterMap (fun r => decode r.2)).filter filter) := by
  intro len
  induction len with
  | zero =>
    intro t rows hlen hscan _
    have : rows = [] := List.eq_nil_of_length_eq_zero (by omega)
    subst this
    apply FollowTokens.last
    simp only at hscan
    simp only [rangePage, hscan, iterate]
    rfl
  | succ len ih =>
    intro t rows hlen hscan hrows
    have hmem : ∀ r ∈ rows, r ∈ scanRows db lo hi rev := by
      intro r hr
      rw [hrows] at hr
      cases t with
      | none => exact hr
      | some t => exact (List.mem_filter.1 hr).1
    have hdir : DirSorted rev rows := by
      rw [← hscan]; exact scanRows_dirSorted db _ _ rev
    have hdec : ∀ r ∈ rows, (decode r.2).isSome := fun r hr => hd r (hmem r hr)
    rcases page_split decode filter lim rows hdec [] [] 0 with ⟨A, k, v, B, e1, e2⟩ | e
    · have hkmem : (k, v) ∈ scanRows db lo hi rev := hmem _ (by simp [e1])
      have hrange := (mem_scanRows.1 hkmem).2
      simp only at hrange
      have hkne : k ≠ [] := by
        intro e; subst e
        cases lo with
        | nil => exact hlo rfl
        | cons a l => simp [Bytes.blt] at hrange
      have hB : B = (scanRows db lo hi rev).filter (fun r => afterToken rev k r.1) := by
        cases t with
        | none =>
          simp only at hrows
          rw [← hrows, e1]
          rw [filter_after_split (e1 ▸ hdir)]
        | some t =>
          simp only at hrows
          have h1 : B = rows.filter (fun r => afterToken rev k r.1) := by
            rw [e1, filter_after_split (e1 ▸ hdir)]
          rw [h1, hrows, List.filter_filter]
          apply List.filter_congr
          intro r hr
          have hkt : afterToken rev t k = true := by
            have : (k, v) ∈ rows := by simp [e1]
            rw [hrows] at this
            exact (List.mem_filter.1 this).2
          rw [Bool.eq_iff_iff]
          simp only [Bool.and_eq_true]
          constructor
          · exact fun h => h.1
          · intro h
            refine ⟨h, ?_⟩
            cases rev
            · simp only [afterToken, Bool.false_eq_true, if_false] at *
              exact Bytes.blt_trans hkt h
            · simp only [afterToken, if_true] at *
              exact Bytes.blt_trans h hkt
      have hscan' := scan_with_token db lo hi k rev n hrange.1 hrange.2
      have hfollow := ih (some k) B (by rw [e1] at hlen; simp at hlen; omega)
        (by rw [hscan', ← hB]) (by simp only; exact hB)
      have hsplit : (rows.filterMap (fun r => decode r.2)).filter filter =
          (((A ++ [(k, v)]).filterMap (fun r => decode r.2)).filter filter) ++
            ((B.filterMap (fun r => decode r.2)).filter filter) := by
        rw [e1, show A ++ (k, v) :: B = (A ++ [(k, v)]) ++ B by simp, List.filterMap_append,
          List.filter_append]
      rw [hsplit]
      refine FollowTokens.next (t' := k) ?_ hfollow
      simp only at hscan
      simp only [rangePage, hscan, e2]
      have : k.isEmpty = false := by simpa using hkne
      simp [this]
    · apply FollowTokens.last
      simp only at hscan
      simp only [rangePage, hscan, e]
      simp

/-- Following tokens over `[lo, hi)` collects every row of the range once, in scan order. -/
theorem follow_range (decode : V → Option M) (db : Db V) (lo hi : Bytes) (hlo : lo ≠ [])
    (rev : Bool) (hd : ∀ r ∈ scanRows db lo hi rev, (decode r.2).isSome)
    (n : Option Nat) (lim : Nat) (filter : M → Bool) :
    FollowTokens (fun t => rangePage decode db lo hi { pageSize := n, pageToken := t, reverse := rev } lim filter)
      none (((scanRows db lo hi rev).filterMap (fun r => decode r.2)).filter filter) := by
  refine follow_range_aux decode db lo hi hlo rev hd n lim filter _ none _ (Nat.le_refl _) ?_ rfl
  cases rev <;> simp [iterBounds]

/-- A row limit in the iterator that equals the callback's own limit changes nothing but the
`all_done` flag. -/
theorem iterate_limit_eq (decode : V → Option M) (n : Nat) (rows : List (Bytes × V))
    (acc : List M) (lk : Bytes) (hacc : acc.length < max n 1) :
    (iterate (some n) (pageStep decode (fun _ => true) n) rows acc.length (acc, lk)).map Prod.fst
      = (iterate none (pageStep decode (fun _ => true) n) rows 0 (acc, lk)).map Prod.fst := by
  induction rows generalizing acc with
  | nil => rfl
  | cons a rows ih =>
    obtain ⟨k, v⟩ := a
    simp only [iterate, pageStep]
    cases hm : decode v with
    | none => rfl
    | some m =>
      simp only [if_true]
      by_cases hl : (acc ++ [m]).length ≥ n
      · simp only [if_pos hl]
      · simp only [if_neg hl]
        have hl' : ¬ acc.length + 1 ≥ n := by simpa using hl
        rw [if_neg hl']
        have := ih (acc ++ [m]) (by simp only [List.length_append, List.length_singleton]; omega)
        simpa using this

end Verif
