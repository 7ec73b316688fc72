import Verif.Lemmas.FanOut
/-!
Lemmas about the listings that give exhausted shards their first page again.
-/
namespace Verif

/-- A shard in such a listing: its current token, the pages and messages left in the current round, the
pages and messages of a whole round, and the rounds to come. -/
structure ListRound (S M : Type) where
  store : S
  token : Option Bytes
  left : Nat
  rest : List M
  pages : Nat
  all : List M
  more : Nat

namespace ListRound
variable {S M : Type} (page : S → Option Bytes → Except HubErr (MessagesPage M))

def out (z : ListRound S M) : List M := z.rest ++ (List.replicate z.more z.all).flatten

/-- After `j` requests, with `R` to come. -/
def At (j R : Nat) (z : ListRound S M) : Prop :=
  PagesTo (page z.store) z.token z.left z.rest ∧ PagesTo (page z.store) none z.pages z.all ∧
  z.left + z.more * z.pages = R ∧ z.pages ∣ j + z.left

end ListRound

variable {S M : Type} {page : S → Option Bytes → Except HubErr (MessagesPage M)}

theorem PagesTo.pos {p : Option Bytes → Except HubErr (MessagesPage M)} {t : Option Bytes} {k : Nat} {L : List M}
    (h : PagesTo p t k L) : 1 ≤ k := by cases h <;> omega

theorem pageOrEmpty_ok {r : Except HubErr (MessagesPage M)} {p : MessagesPage M} (h : r = .ok p) :
    pageOrEmpty r = .ok p := by rw [h]; rfl

/-- One request: the messages go out; a shard whose token is none begins the next round. -/
theorem zip_step (j R : Nat) (zs : List (ListRound S M)) (hz : ∀ z ∈ zs, z.At page j R) :
    ∃ (ps : List (MessagesPage M)) (zs' : List (ListRound S M)),
      zipPages page (zs.map (fun z => (z.store, z.token))) = .ok ps ∧
      ps.map (fun p => p.nextPageToken) = zs'.map ListRound.token ∧ zs'.map ListRound.store = zs.map ListRound.store ∧
      zs'.map ListRound.pages = zs.map ListRound.pages ∧
      (R = 1 → (∀ z ∈ zs', z.token = none) ∧ (ps.flatMap (fun p => p.messages)).Perm (zs.flatMap ListRound.out)) ∧
      (2 ≤ R → (∀ z ∈ zs', z.At page (j + 1) (R - 1) ∧ (z.token = none → z.pages ∣ j + 1)) ∧
        (ps.flatMap (fun p => p.messages) ++ zs'.flatMap ListRound.out).Perm (zs.flatMap ListRound.out)) := by
  induction zs with
  | nil => exact ⟨[], [], rfl, rfl, rfl, rfl, by simp, by simp⟩
  | cons z zs ih =>
    obtain ⟨ps, zs', h1, h2, h3, h3', h4, h5⟩ := ih (fun y hy => hz y (by simp [hy]))
    obtain ⟨hl, ha, hR, hdvd⟩ := hz z (by simp)
    obtain ⟨st, t, left, rest, k, L, c⟩ := z
    simp only at hl ha hR hdvd
    obtain ⟨pg, rest', e1, e2, e3⟩ := hl.step
    have hzip : zipPages page (((⟨st, t, left, rest, k, L, c⟩ : ListRound S M) :: zs).map (fun z => (z.store, z.token))) =
        .ok (pg :: ps) := by
      simp only [List.map_cons, zipPages, pageOrEmpty_ok e1, h1]
    have hk := ha.pos
    have hperm : ∀ (o o' : List M) (A B C : List M), o = pg.messages ++ o' → (A ++ B).Perm C →
        ((pg.messages ++ A) ++ (o' ++ B)).Perm (o ++ C) := by
      intro o o' A B C e h
      subst e
      simp only [List.append_assoc]
      apply List.Perm.append_left
      refine List.Perm.trans ?_ (List.Perm.append_left _ h)
      rw [← List.append_assoc, ← List.append_assoc]
      exact List.Perm.append_right _ List.perm_append_comm
    rcases e3 with ⟨n1, n2, n3⟩ | ⟨t', n1, n2, n3⟩
    · subst n2
      subst n3
      cases c with
      | zero =>
        have hR1 : R = 1 := by omega
        refine ⟨pg :: ps, ⟨st, none, 1, [], k, L, 0⟩ :: zs', hzip, by simp [h2, n1], by simp [h3], by simp [h3'], ?_, by omega⟩
        intro _
        obtain ⟨q1, q2⟩ := h4 hR1
        refine ⟨?_, ?_⟩
        · intro y hy
          rcases List.mem_cons.1 hy with rfl | hy
          · rfl
          · exact q1 y hy
        · simp only [List.flatMap_cons, ListRound.out, List.replicate_zero, List.flatten_nil, List.append_nil, e2]
          exact List.Perm.append_left _ q2
      | succ c =>
        have hR2 : 2 ≤ R := by
          have : 1 * k ≤ (c + 1) * k := Nat.mul_le_mul_right k (by omega)
          omega
        refine ⟨pg :: ps, ⟨st, none, k, L, k, L, c⟩ :: zs', hzip, by simp [h2, n1], by simp [h3], by simp [h3'], by omega, ?_⟩
        intro _
        obtain ⟨q1, q2⟩ := h5 hR2
        refine ⟨?_, ?_⟩
        · intro y hy
          rcases List.mem_cons.1 hy with rfl | hy
          · refine ⟨⟨ha, ha, ?_, ?_⟩, fun _ => hdvd⟩
            · simp only [Nat.add_mul, Nat.one_mul] at hR ⊢; omega
            · exact (Nat.dvd_add_iff_left (Nat.dvd_refl k)).1 hdvd
          · exact q1 y hy
        · simp only [List.flatMap_cons]
          refine hperm _ _ _ _ _ ?_ q2
          simp [ListRound.out, e2, List.replicate_succ]
    · have hR2 : 2 ≤ R := by omega
      refine ⟨pg :: ps, ⟨st, some t', left - 1, rest', k, L, c⟩ :: zs', hzip, by simp [h2, n1], by simp [h3], by simp [h3'], by omega, ?_⟩
      intro _
      obtain ⟨q1, q2⟩ := h5 hR2
      refine ⟨?_, ?_⟩
      · intro y hy
        rcases List.mem_cons.1 hy with rfl | hy
        · refine ⟨⟨n2, ha, by simp only; omega, ?_⟩, by simp⟩
          simp only
          rw [show j + 1 + (left - 1) = j + left by omega]
          exact hdvd
        · exact q1 y hy
      · simp only [List.flatMap_cons]
        refine hperm _ _ _ _ _ ?_ q2
        simp [ListRound.out, e2]

/-- From any point in the rounds, the listing ends after the `R` requests to come, provided no smaller
number of requests brings all shards to their end at once. -/
theorem zip_follow (N j R : Nat) (zs : List (ListRound S M)) (hR : 1 ≤ R) (hN : j + R = N)
    (hmin : ∀ n, 1 ≤ n → (∀ z ∈ zs, z.pages ∣ n) → N ≤ n) (hz : ∀ z ∈ zs, z.At page j R) (hne : zs ≠ []) :
    ∃ ms, FollowsTo (zipListing true page (zs.map ListRound.store)) (.given (zs.map ListRound.token)) ms ∧
      ms.Perm (zs.flatMap ListRound.out) := by
  induction R generalizing zs j with
  | zero => omega
  | succ R ih =>
    obtain ⟨ps, zs', h1, h2, h3, h3', h4, h5⟩ := zip_step j (R + 1) zs hz
    have hpage : zipListing true page (zs.map ListRound.store) (.given (zs.map ListRound.token)) =
        .ok (ps.flatMap (fun p => p.messages),
          if zs'.any (fun z => z.token.isSome) then some (zs'.map ListRound.token) else none) := by
      unfold zipListing
      simp only [List.length_map, ne_eq, not_true, if_false, List.zip_map', h1, h2, Bool.true_and, List.any_map]
      congr 2
      show (if (!List.any zs' (fun z => z.token.isSome)) = true then none else some (zs'.map ListRound.token)) = _
      cases List.any zs' (fun z => z.token.isSome) <;> rfl
    by_cases hR1 : R = 0
    · subst hR1
      obtain ⟨q1, q2⟩ := h4 rfl
      refine ⟨_, .last ?_, q2⟩
      rw [hpage, if_neg]
      simp only [List.any_eq_true, not_exists, not_and]
      intro z hz'
      simp [q1 z hz']
    · obtain ⟨q1, q2⟩ := h5 (by omega)
      have hdiv : ∀ n, (∀ z ∈ zs', z.pages ∣ n) → ∀ z ∈ zs, z.pages ∣ n := by
        intro n h z hz'
        have : z.pages ∈ zs'.map ListRound.pages := by rw [h3']; exact List.mem_map_of_mem hz'
        obtain ⟨y, hy, e⟩ := List.mem_map.1 this
        exact e ▸ h y hy
      have hsome : zs'.any (fun z => z.token.isSome) = true := by
        apply Decidable.byContradiction
        intro hno
        simp only [List.any_eq_true, not_exists, not_and] at hno
        have := hmin (j + 1) (by omega) (hdiv _ (fun z hz' => (q1 z hz').2 (by
          have := hno z hz'
          cases h : z.token with
          | none => rfl
          | some t => simp [h] at this)))
        omega
      rw [hsome, if_pos rfl] at hpage
      obtain ⟨rest, hf, hp⟩ := ih (j + 1) zs' (by omega) (by omega)
        (fun n hn h => hmin n hn (hdiv n h)) (fun z hz' => (q1 z hz').1)
        (by rintro rfl; apply hne; simpa using h3.symm)
      rw [h3] at hf
      exact ⟨_, .next hpage hf, (List.Perm.append_left _ hp).trans q2⟩

/-- From the first page on. -/
theorem zip_start (N : Nat) (xs : List S) (k : S → Nat) (L : S → List M) (hne : xs ≠ [])
    (h : ∀ x ∈ xs, PagesTo (page x) none (k x) (L x)) (hN : 1 ≤ N) (hdvd : ∀ x ∈ xs, k x ∣ N)
    (hmin : ∀ n, 1 ≤ n → (∀ x ∈ xs, k x ∣ n) → N ≤ n) :
    ∃ ms, FollowsTo (zipListing true page xs) .absent ms ∧
      ms.Perm (xs.flatMap (fun x => (List.replicate (N / k x) (L x)).flatten)) := by
  let zs : List (ListRound S M) := xs.map (fun x => ⟨x, none, k x, L x, k x, L x, N / k x - 1⟩)
  have hstore : zs.map ListRound.store = xs := by simp [zs, Function.comp_def]
  obtain ⟨ms, hf, hp⟩ := zip_follow (page := page) N 0 N zs hN (by omega) (by
      intro n hn hz
      refine hmin n hn (fun x hx => ?_)
      exact hz ⟨x, none, k x, L x, k x, L x, N / k x - 1⟩ (List.mem_map_of_mem hx))
    (by
      intro z hz
      obtain ⟨x, hx, rfl⟩ := List.mem_map.1 hz
      refine ⟨h x hx, h x hx, ?_, by simp⟩
      obtain ⟨q, hq⟩ := hdvd x hx
      have hk := (h x hx).pos
      have : N / k x = q := by rw [hq]; exact Nat.mul_div_cancel_left _ hk
      simp only [this]
      cases q with
      | zero => omega
      | succ q => rw [hq]; simp only [Nat.add_sub_cancel, Nat.mul_add, Nat.mul_one]; rw [Nat.mul_comm]; omega)
    (by simpa [zs] using hne)
  rw [hstore] at hf
  refine ⟨ms, hf.congr_head ?_, ?_⟩
  · unfold zipListing
    simp [zs, Function.comp_def]
  · refine hp.trans ?_
    rw [List.flatMap_map]
    apply List.Perm.of_eq
    unfold List.flatMap
    congr 1
    apply List.map_congr_left
    intro x hx
    obtain ⟨q, hq⟩ := hdvd x hx
    have hk := (h x hx).pos
    have hq' : N / k x = q := by rw [hq]; exact Nat.mul_div_cancel_left _ hk
    cases q with
    | zero => omega
    | succ q => simp [ListRound.out, hq', List.replicate_succ]

end Verif
