import Verif.Lemmas.Scan
import Verif.Props.C03
/-!
# C04: pagination neither loses nor repeats messages
-/
namespace Verif
variable {V M : Type}

theorem getMessagesPage_eq (decode : V → Option M) (db : Db V) (p : Bytes) (po : PageOptions)
    (filter : M → Bool) :
    getMessagesPageByPrefix decode db p po filter =
      match iterate none (pageStep decode filter (po.pageSize.getD pageSizeMax))
        (scanRows db (iterBounds (some p) (some (incrementVec p)) po).1
          (iterBounds (some p) (some (incrementVec p)) po).2 po.reverse) 0 ([], []) with
      | .error e => .error e
      | .ok ((msgs, lastKey), _) =>
        .ok { messages := msgs, nextPageToken := if lastKey.isEmpty then none else some lastKey } := rfl

/-- The page function a client calls, as a function of the token. -/
def pageFn (decode : V → Option M) (db : Db V) (p : Bytes) (n : Option Nat) (rev : Bool)
    (filter : M → Bool) (t : Option Bytes) : Except HubErr (MessagesPage M) :=
  getMessagesPageByPrefix decode db p { pageSize := n, pageToken := t, reverse := rev } filter

theorem follow_from_rows (decode : V → Option M) (db : Db V) (p : Bytes) (hp : ∃ b ∈ p, b ≠ 255)
    (hs : NoShortKey db p) (hd : ∀ r ∈ rowsStartingWith db p, (decode r.2).isSome)
    (n : Option Nat) (rev : Bool) (filter : M → Bool) :
    ∀ (len : Nat) (t : Option Bytes) (rows : List (Bytes × V)), rows.length ≤ len →
      (∀ r ∈ rows, r ∈ rowsStartingWith db p) → DirSorted rev rows →
      (let b := iterBounds (some p) (some (incrementVec p)) { pageSize := n, pageToken := t, reverse := rev }
       scanRows db b.1 b.2 rev) = rows →
      (rows = match t with
        | none => inDirection rev (rowsStartingWith db p)
        | some t => (inDirection rev (rowsStartingWith db p)).filter (fun r => afterToken rev t r.1)) →
      FollowTokens (pageFn decode db p n rev filter) t
        ((rows.filterMap (fun r => decode r.2)).filter filter) := by
  intro len
  induction len with
  | zero =>
    intro t rows hlen _ _ hscan _
    have : rows = [] := List.eq_nil_of_length_eq_zero (by omega)
    subst this
    apply FollowTokens.last
    unfold pageFn
    rw [getMessagesPage_eq]
    simp only at hscan
    simp only [hscan, iterate]
    rfl
  | succ len ih =>
    intro t rows hlen hmem hdir hscan hrows
    have hdec : ∀ r ∈ rows, (decode r.2).isSome := fun r hr => hd r (hmem r hr)
    rcases page_split decode filter (n.getD pageSizeMax) rows hdec [] [] 0 with
      ⟨A, k, v, B, e1, e2⟩ | e
    · -- a full page
      have hkmem : (k, v) ∈ rowsStartingWith db p := hmem _ (by simp [e1])
      have hpre : p <+: k := by
        have := (List.mem_filter.1 hkmem).2
        exact List.isPrefixOf_iff_prefix.1 this
      have hkne : k ≠ [] := by
        obtain ⟨b, hb, _⟩ := hp
        intro e; subst e
        have := List.prefix_nil.1 hpre
        subst this; simp at hb
      have hrange := (mem_range_iff hp).2 (.inl hpre)
      have hB : B = (scanRows db p (incrementVec p) rev).filter (fun r => afterToken rev k r.1) := by
        rw [scan_prefix_eq db p hp hs rev]
        have hfull : DirSorted rev (inDirection rev (rowsStartingWith db p)) := by
          rw [← scan_prefix_eq db p hp hs rev]; exact scanRows_dirSorted db _ _ rev
        cases t with
        | none =>
          simp only at hrows
          rw [← hrows, e1]
          rw [filter_after_split (e1 ▸ hdir)]
        | some t =>
          simp only at hrows
          -- rows after k among rows after t are the rows after k
          have h1 : B = rows.filter (fun r => afterToken rev k r.1) := by
            rw [e1, filter_after_split (e1 ▸ hdir)]
          rw [h1, hrows, List.filter_filter]
          apply List.filter_congr
          intro r hr
          have hkt : afterToken rev t k = true := by
            have : (k, v) ∈ rows := by simp [e1]
            rw [hrows] at this
            exact (List.mem_filter.1 this).2
          rw [Bool.eq_iff_iff]
          simp only [Bool.and_eq_true]
          constructor
          · exact fun h => h.1
          · intro h
            refine ⟨h, ?_⟩
            cases rev
            · simp only [afterToken, Bool.false_eq_true, if_false] at *
              exact Bytes.blt_trans hkt h
            · simp only [afterToken, if_true] at *
              exact Bytes.blt_trans h hkt
      have hscan' := scan_with_token db p (incrementVec p) k rev n hrange.1 hrange.2
      have hfollow := ih (some k) B (by rw [e1] at hlen; simp at hlen; omega)
        (fun r hr => hmem r (by simp [e1, hr]))
        (by
          have := e1 ▸ hdir
          unfold DirSorted at this ⊢
          exact (List.pairwise_cons.1 (List.pairwise_append.1 this).2.1).2)
        (by rw [hscan', ← hB])
        (by simp only; rw [← scan_prefix_eq db p hp hs rev]; exact hB)
      have hsplit : (rows.filterMap (fun r => decode r.2)).filter filter =
          (((A ++ [(k, v)]).filterMap (fun r => decode r.2)).filter filter) ++
            ((B.filterMap (fun r => decode r.2)).filter filter) := by
        rw [e1, show A ++ (k, v) :: B = (A ++ [(k, v)]) ++ B by simp, List.filterMap_append,
          List.filter_append]
      rw [hsplit]
      refine FollowTokens.next (t' := k) ?_ hfollow
      unfold pageFn
      rw [getMessagesPage_eq]
      simp only at hscan
      simp only [hscan, e2]
      have : k.isEmpty = false := by simpa using hkne
      simp [this]
    · -- the last page
      apply FollowTokens.last
      unfold pageFn
      rw [getMessagesPage_eq]
      simp only at hscan
      simp only [hscan, e]
      simp

/-- **C04.** Starting without a token and following the returned tokens ends, and the pages
concatenate to every matching message under the prefix exactly once, in scan order; for either
direction, every page size and every filter. -/
theorem C04_pages_complete (decode : V → Option M) (db : Db V) (p : Bytes) (hp : ∃ b ∈ p, b ≠ 255)
    (hs : NoShortKey db p) (hd : ∀ r ∈ rowsStartingWith db p, (decode r.2).isSome)
    (n : Option Nat) (rev : Bool) (filter : M → Bool) :
    FollowTokens
      (fun t => getMessagesPageByPrefix decode db p { pageSize := n, pageToken := t, reverse := rev } filter)
      none
      (((inDirection rev (rowsStartingWith db p)).filterMap (fun r => decode r.2)).filter filter) := by
  refine follow_from_rows decode db p hp hs hd n rev filter _ none _ (Nat.le_refl _) ?_ ?_ ?_ rfl
  · intro r hr; cases rev <;> simpa [inDirection] using hr
  · rw [← scan_prefix_eq db p hp hs rev]; exact scanRows_dirSorted db _ _ rev
  · rw [← scan_prefix_eq db p hp hs rev]; cases rev <;> simp [iterBounds]

/-- Following tokens is deterministic: there is only one possible concatenation. -/
theorem C04_unique (page : Option Bytes → Except HubErr (MessagesPage M)) (t : Option Bytes)
    (ms ms' : List M) (h : FollowTokens page t ms) (h' : FollowTokens page t ms') : ms = ms' := by
  induction h generalizing ms' with
  | last e =>
    cases h' with
    | last e' => rw [e] at e'; injection e' with e'; injection e'
    | next e' _ => rw [e] at e'; injection e' with e'; injection e' with _ e'; simp at e'
  | next e _ ih =>
    cases h' with
    | last e' => rw [e] at e'; injection e' with e'; injection e' with _ e'; simp at e'
    | next e' hf =>
      rw [e] at e'
      injection e' with e'
      injection e' with e1 e2
      injection e2 with e2
      subst e1; subst e2
      rw [ih _ hf]

theorem page_len (decode : V → Option M) (filter : M → Bool) (lim : Nat) (rows : List (Bytes × V))
    (c : Nat) (acc : List M) (lk : Bytes) (r : List M × Bytes) (d : Bool) (hacc : acc.length < max lim 1)
    (h : iterate none (pageStep decode filter lim) rows c (acc, lk) = .ok (r, d)) :
    (d = true → r.1.length < max lim 1 ∧ r.2 = lk) ∧ (d = false → r.1.length = max lim 1) := by
  induction rows generalizing acc c with
  | nil =>
    simp only [iterate] at h
    injection h with h
    injection h with h1 h2
    subst h1; subst h2
    simp [hacc]
  | cons a rows ih =>
    obtain ⟨k, v⟩ := a
    simp only [iterate, pageStep] at h
    cases hm : decode v with
    | none => simp [hm] at h
    | some m =>
      simp only [hm] at h
      by_cases hf : filter m = true
      · simp only [hf, if_true] at h
        by_cases hl : (acc ++ [m]).length ≥ lim
        · simp only [if_pos hl] at h
          injection h with h
          injection h with h1 h2
          subst h1; subst h2
          simp only [List.length_append, List.length_singleton] at hl ⊢
          simp; omega
        · simp only [if_neg hl] at h
          exact ih _ _ (by simp only [List.length_append, List.length_singleton] at hl ⊢; omega) h
      · have hf' : filter m = false := by simpa using hf
        simp only [hf', Bool.false_eq_true, if_false] at h
        exact ih _ _ hacc h

/-- A page never has more messages than asked for (a page size of zero acts as one; no page size means
10000), and a page that carries a token is full. -/
theorem C04_page_size (decode : V → Option M) (db : Db V) (p : Bytes) (po : PageOptions)
    (filter : M → Bool) (pg : MessagesPage M)
    (h : getMessagesPageByPrefix decode db p po filter = .ok pg) :
    pg.messages.length ≤ max (po.pageSize.getD 10000) 1 ∧
      (pg.nextPageToken.isSome → pg.messages.length = max (po.pageSize.getD 10000) 1) := by
  rw [getMessagesPage_eq] at h
  split at h
  · simp at h
  · rename_i msgs lk d he
    injection h with h
    subst h
    have := page_len decode filter (po.pageSize.getD pageSizeMax) _ _ [] [] _ _
      (by simp; omega) he
    simp only at this
    have hmax : po.pageSize.getD pageSizeMax = po.pageSize.getD 10000 := rfl
    rw [hmax] at this
    cases d with
    | true =>
      obtain ⟨h1, h2⟩ := this.1 rfl
      subst h2
      exact ⟨by simp only; omega, by simp⟩
    | false =>
      have h1 := this.2 rfl
      exact ⟨by simp only; omega, fun _ => h1⟩

/-- An undecodable row in the scanned range makes the whole page fail once it is reached. -/
theorem C04_decode_error (decode : V → Option M) (db : Db V) (p : Bytes) (k : Bytes) (v : V)
    (rest : List (Bytes × V)) (filter : M → Bool) (n : Option Nat) (rev : Bool)
    (hrows : scanRows db p (incrementVec p) rev = (k, v) :: rest) (hbad : decode v = none) :
    getMessagesPageByPrefix decode db p { pageSize := n, reverse := rev } filter = .error .decode := by
  rw [getMessagesPage_eq]
  have : scanRows db (iterBounds (some p) (some (incrementVec p)) { pageSize := n, reverse := rev }).1
      (iterBounds (some p) (some (incrementVec p)) { pageSize := n, reverse := rev }).2 rev
        = (k, v) :: rest := by
    rw [← hrows]; cases rev <;> simp [iterBounds]
  simp only [this, iterate, pageStep, hbad]

/-- **Finding.** `get_messages_page_by_prefix` does not check that the caller's token lies under the
prefix: a token below the prefix makes a page for user 2's prefix return user 1's message. -/
theorem C04_foreign_token_leaks :
    let db : Db Nat := (OMap.empty.put [3, 0, 0, 0, 1, 1, 9] 111).put [3, 0, 0, 0, 2, 1, 9] 222
    getMessagesPageByPrefix some db [3, 0, 0, 0, 2, 1] { pageToken := some [3] } (fun _ => true)
      = .ok ⟨[111, 222], none⟩ := by rfl

/-- With the `require_page_token_in_prefix` guard (used by the channel enumerators) every visited row
starts with the prefix, whatever token the caller supplies. -/
theorem C04_guarded_token_confined (db : Db V) (p : Bytes) (hp : ∃ b ∈ p, b ≠ 255)
    (hs : NoShortKey db p) (po : PageOptions) (hg : requirePageTokenInPrefix p po = .ok ())
    (rows : List (Bytes × V))
    (h : forEachByPrefix db (some p) (some (incrementVec p)) po collectRows [] = .ok (rows, true)) :
    ∀ r ∈ rows, p <+: r.1 ∧ r ∈ db.rows := by
  rw [forEach_collect] at h
  injection h with h
  injection h with h _
  subst h
  have hsub : ∀ r ∈ scanRows db p (incrementVec p) po.reverse, p <+: r.1 ∧ r ∈ db.rows := by
    intro r hr
    rw [scan_prefix_eq db p hp hs] at hr
    have hr' : r ∈ rowsStartingWith db p := by
      cases hrev : po.reverse <;> simpa [inDirection, hrev] using hr
    exact ⟨List.isPrefixOf_iff_prefix.1 (List.mem_filter.1 hr').2, (List.mem_filter.1 hr').1⟩
  cases ht : po.pageToken with
  | none =>
    intro r hr
    apply hsub
    have : iterBounds (some p) (some (incrementVec p)) po = (p, incrementVec p) := by
      simp [iterBounds, ht]
    rw [this] at hr
    exact hr
  | some t =>
    intro r hr
    apply hsub
    simp only [requirePageTokenInPrefix, ht] at hg
    split at hg
    · rename_i hpre
      have hpre := List.isPrefixOf_iff_prefix.1 hpre
      have hrange := (mem_range_iff hp).2 (.inl hpre)
      have := scan_with_token db p (incrementVec p) t po.reverse po.pageSize hrange.1 hrange.2
      have hpo : po = { pageSize := po.pageSize, pageToken := some t, reverse := po.reverse } := by
        cases po; simp at ht; simp [ht]
      simp only [← hpo] at this
      rw [this] at hr
      exact (List.mem_filter.1 hr).1
    · simp at hg

/-- Non-vacuity: three messages, page size one, a filter that drops one. -/
example :
    let db : Db Nat := (((OMap.empty.put [3, 1] 10).put [3, 2] 11).put [3, 3] 12).put [4] 13
    (∃ b ∈ ([3] : Bytes), b ≠ 255) ∧ NoShortKey db [3] ∧
      ((inDirection true (rowsStartingWith db [3])).filterMap (fun r => some r.2)).filter (· ≠ 11) = [12, 10] :=
  ⟨⟨3, by simp, by decide⟩, noShortKey_of_last _ [] 3 (by decide), by decide⟩

end Verif
