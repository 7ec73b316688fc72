import Verif.Lemmas.RangePage
/-! Following page tokens when each row is decoded from key and value, with or without the iterator's own
row limit. -/
namespace Verif
variable {V M : Type}

/-- The page callback: decode, push, stop when full. -/
def keyedStep (dec : Bytes → V → Except HubErr M) (lim : Nat) (s : List M × Bytes) (k : Bytes) (v : V) :
    Except HubErr ((List M × Bytes) × Bool) :=
  match dec k v with
  | .error e => .error e
  | .ok m =>
    if (s.1 ++ [m]).length ≥ lim then .ok ((s.1 ++ [m], k), true) else .ok ((s.1 ++ [m], s.2), false)

/-- A page over `[lo, hi)`: `limited` says whether the iterator also gets the page size. -/
def keyedPage (limited : Bool) (dec : Bytes → V → Except HubErr M) (db : Db V) (lo hi : Bytes)
    (po : PageOptions) (dflt : Nat) : Except HubErr (MessagesPage M) :=
  match iterate (if limited then po.pageSize else none) (keyedStep dec (po.pageSize.getD dflt))
      (scanRows db (iterBounds (some lo) (some hi) po).1 (iterBounds (some lo) (some hi) po).2 po.reverse)
      0 ([], []) with
  | .error e => .error e
  | .ok ((msgs, lastKey), _) =>
    .ok { messages := msgs, nextPageToken := if lastKey.isEmpty then none else some lastKey }

/-- The same database with every value paired with its key. -/
def Db.withKeys (db : Db V) : Db (Bytes × V) where
  rows := db.rows.map (fun r => (r.1, (r.1, r.2)))
  sorted := by
    have := db.sorted
    unfold OMapL.Sorted at *
    rw [List.pairwise_map]
    exact this

theorem scanRows_withKeys (db : Db V) (lo hi : Bytes) (rev : Bool) :
    scanRows db.withKeys lo hi rev = (scanRows db lo hi rev).map (fun r => (r.1, (r.1, r.2))) := by
  unfold scanRows Db.withKeys
  simp only [List.filter_map]
  cases rev
  · simp [Function.comp_def]
  · simp [Function.comp_def, List.map_reverse]

theorem FollowTokens.congr {page page' : Option Bytes → Except HubErr (MessagesPage M)}
    (h : ∀ t p, page t = .ok p → page' t = .ok p) {t : Option Bytes} {ms : List M}
    (hf : FollowTokens page t ms) : FollowTokens page' t ms := by
  induction hf with
  | last e => exact .last (h _ _ e)
  | next e _ ih => exact .next (h _ _ e) ih

theorem keyed_of_page (dec : Bytes → V → Except HubErr M) (lim : Nat) (l : Option Nat)
    (rows : List (Bytes × V)) (c : Nat) (acc x : List M × Bytes) (d : Bool)
    (h : iterate l (pageStep (fun kv : Bytes × V => (dec kv.1 kv.2).toOption) (fun _ => true) lim)
      (rows.map (fun r => (r.1, (r.1, r.2)))) c acc = .ok (x, d)) :
    iterate l (keyedStep dec lim) rows c acc = .ok (x, d) := by
  induction rows generalizing c acc with
  | nil => exact h
  | cons a rows ih =>
    obtain ⟨k, v⟩ := a
    simp only [List.map_cons, iterate, pageStep] at h
    simp only [iterate, keyedStep]
    cases hm : dec k v with
    | error e => simp [hm, Except.toOption] at h
    | ok m =>
      simp only [hm, Except.toOption, if_true] at h
      by_cases hl : (acc.1 ++ [m]).length ≥ lim
      · simp only [if_pos hl] at h ⊢
        exact h
      · simp only [if_neg hl] at h ⊢
        cases l with
        | none => exact ih _ _ h
        | some n =>
          simp only at h ⊢
          split
          · rename_i hn; rw [if_pos hn] at h; exact h
          · rename_i hn; rw [if_neg hn] at h; exact ih _ _ h

/-- Following tokens over a keyed page lists every row of the range once, in order. -/
theorem follow_keyed (limited : Bool) (dec : Bytes → V → Except HubErr M) (db : Db V) (lo hi : Bytes)
    (hlo : lo ≠ []) (rev : Bool) (hd : ∀ r ∈ scanRows db lo hi rev, ∃ m, dec r.1 r.2 = .ok m)
    (n : Option Nat) (dflt : Nat) :
    FollowTokens (fun t => keyedPage limited dec db lo hi { pageSize := n, pageToken := t, reverse := rev } dflt)
      none ((scanRows db lo hi rev).filterMap (fun r => (dec r.1 r.2).toOption)) := by
  have h := follow_range (fun kv : Bytes × V => (dec kv.1 kv.2).toOption) db.withKeys lo hi hlo rev
    (by
      intro r hr
      rw [scanRows_withKeys] at hr
      obtain ⟨q, hq, rfl⟩ := List.mem_map.1 hr
      obtain ⟨m, hm⟩ := hd q hq
      simp [hm, Except.toOption]) n (n.getD dflt) (fun _ => true)
  rw [scanRows_withKeys, List.filterMap_map] at h
  have h2 : (List.filterMap ((fun r : Bytes × (Bytes × V) => (dec r.2.1 r.2.2).toOption) ∘ fun r => (r.1, r.1, r.2))
      (scanRows db lo hi rev)).filter (fun _ => true) =
      (scanRows db lo hi rev).filterMap (fun r => (dec r.1 r.2).toOption) := by
    simp [Function.comp_def]
  rw [h2] at h
  refine h.congr ?_
  intro t p hp
  unfold rangePage at hp
  unfold keyedPage
  simp only at hp ⊢
  rw [scanRows_withKeys] at hp
  generalize scanRows db _ _ _ = rows at hp ⊢
  have key : ∀ x d, iterate none (pageStep (fun kv : Bytes × V => (dec kv.1 kv.2).toOption) (fun _ => true)
      (n.getD dflt)) (rows.map (fun r => (r.1, (r.1, r.2)))) 0 ([], []) = .ok (x, d) →
      ∃ d', iterate (if limited then n else none) (keyedStep dec (n.getD dflt)) rows 0 ([], []) = .ok (x, d') := by
    intro x d hx
    cases limited with
    | false => exact ⟨d, keyed_of_page dec _ none rows 0 _ _ _ hx⟩
    | true =>
      cases n with
      | none => exact ⟨d, keyed_of_page dec _ none rows 0 _ _ _ hx⟩
      | some n =>
        have hl := iterate_limit_eq (fun kv : Bytes × V => (dec kv.1 kv.2).toOption) n
          (rows.map (fun r => (r.1, (r.1, r.2)))) [] [] (by simp; omega)
        simp only [Option.getD_some] at hx
        rw [hx] at hl
        cases hy : iterate (some n) (pageStep (fun kv : Bytes × V => (dec kv.1 kv.2).toOption) (fun _ => true) n)
            (rows.map (fun r => (r.1, (r.1, r.2)))) 0 ([], []) with
        | error e => simp only [List.length_nil] at hl; rw [hy] at hl; simp [Except.map] at hl
        | ok y =>
          simp only [List.length_nil] at hl
          rw [hy] at hl
          simp only [Except.map, Except.ok.injEq] at hl
          refine ⟨y.2, keyed_of_page dec _ (some n) rows 0 _ _ _ ?_⟩
          simp only [Option.getD_some]
          rw [hy, ← hl]
  revert hp
  cases hx : iterate none (pageStep (fun kv : Bytes × V => (dec kv.1 kv.2).toOption) (fun _ => true)
      (n.getD dflt)) (rows.map (fun r => (r.1, (r.1, r.2)))) 0 ([], []) with
  | error e => intro hp; simp at hp
  | ok y =>
    obtain ⟨d', hd'⟩ := key y.1 y.2 hx
    rw [hd']
    intro hp
    exact hp

end Verif
