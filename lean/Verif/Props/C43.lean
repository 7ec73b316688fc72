import Verif.Lemmas.Storage
import Verif.Lemmas.OnChainChan
/-!
C43: subscription time accumulates.
-/
namespace Verif
open Spec

/-- The purchases of a tier up to a time. -/
def purchasesUpTo (tier : Int) (es : List OEvent) (asOf : Option Nat) : List (Nat × Nat) :=
  (tierPurchases tier es).filter (fun p => asOf.all (fun a => p.1 ≤ a))

theorem extendTier_eq {x t d : Nat} (h : Nat.max t x + d * 86400 < 2 ^ 64) :
    extendTier x (t, d) = Nat.max t x + d * 86400 := by
  unfold extendTier u64
  have : d * 24 * 60 * 60 = d * 86400 := by omega
  simp only [this]
  rw [Nat.mod_eq_of_lt (by omega : d * 86400 < 2 ^ 64), Nat.mod_eq_of_lt h]

theorem foldl_extend_nil : ([] : List (Nat × Nat)).foldl extendTier 0 = 0 := rfl

/-- Folding purchases, from any starting expiry. -/
theorem foldl_extend (ps : List (Nat × Nat)) (x : Nat) (h : ∀ p ∈ ps, p.1 < 2 ^ 63) (hx : x + totalSeconds ps < 2 ^ 64)
    (ht : totalSeconds ps < 2 ^ 63) :
    let y := ps.foldl extendTier x
    x + totalSeconds ps ≤ y ∧ (∀ pre t d post, ps = pre ++ (t, d) :: post → t + totalSeconds ((t, d) :: post) ≤ y) ∧
    (y = x + totalSeconds ps ∨ ∃ pre t d post, ps = pre ++ (t, d) :: post ∧ y = t + totalSeconds ((t, d) :: post)) := by
  induction ps generalizing x with
  | nil => simp [totalSeconds]
  | cons p ps ih =>
    have hp := h p (by simp)
    have hs : totalSeconds (p :: ps) = p.2 * 86400 + totalSeconds ps := by simp [totalSeconds]
    have hmax : Nat.max p.1 x = p.1 ∨ Nat.max p.1 x = x := by
      show max p.1 x = _ ∨ max p.1 x = _; omega
    have hge : p.1 ≤ Nat.max p.1 x ∧ x ≤ Nat.max p.1 x := ⟨Nat.le_max_left _ _, Nat.le_max_right _ _⟩
    have he : extendTier x p = Nat.max p.1 x + p.2 * 86400 := by
      apply extendTier_eq (t := p.1) (d := p.2)
      rcases hmax with e | e <;> rw [e] <;> omega
    obtain ⟨i1, i2, i3⟩ := ih (extendTier x p) (fun q hq => h q (by simp [hq]))
      (by rw [he]; rcases hmax with e | e <;> rw [e] <;> omega) (by omega)
    simp only [List.foldl_cons]
    refine ⟨by omega, ?_, ?_⟩
    · intro pre t d post hpre
      cases pre with
      | nil =>
        simp only [List.nil_append, List.cons.injEq] at hpre
        obtain ⟨rfl, rfl⟩ := hpre
        simp only [hs]
        simp only at hge he
        omega
      | cons q pre =>
        simp only [List.cons_append, List.cons.injEq] at hpre
        exact i2 pre t d post hpre.2
    · rcases i3 with i3 | ⟨pre, t, d, post, e1, e2⟩
      · rw [i3, he]
        rcases hmax with e | e <;> rw [e]
        · right
          exact ⟨[], p.1, p.2, ps, rfl, by rw [show ((p.1, p.2) :: ps) = p :: ps from rfl, hs]; omega⟩
        · left; omega
      · exact Or.inr ⟨p :: pre, t, d, post, by rw [e1]; rfl, e2⟩

theorem totalSeconds_cons (t d : Nat) (l) : totalSeconds ((t, d) :: l) = d * 86400 + totalSeconds l := by
  simp [totalSeconds]

theorem totalSeconds_append (l l') : totalSeconds (l ++ l') = totalSeconds l + totalSeconds l' := by
  simp [totalSeconds]

theorem totalSeconds_nil : totalSeconds [] = 0 := rfl

theorem takeWhile_sorted {ps : List (Nat × Nat)} (h : InTimeOrder ps) (asOf : Option Nat) :
    ps.takeWhile (notAfter asOf) = ps.filter (fun p => asOf.all (fun a => p.1 ≤ a)) := by
  induction ps with
  | nil => rfl
  | cons p ps ih =>
    have hp := List.pairwise_cons.mp h
    rw [List.takeWhile_cons, List.filter_cons, ih hp.2]
    cases asOf with
    | none => simp [notAfter]
    | some a =>
      simp only [notAfter, Option.all_some]
      by_cases hc : p.1 ≤ a
      · have : ¬ p.1 > a := by omega
        simp [hc, this]
      · have : p.1 > a := by omega
        simp only [this, decide_true, Bool.not_true, Bool.false_eq_true, if_false, hc, decide_false]
        symm
        simp only [List.filter_eq_nil_iff, decide_eq_true_eq]
        intro q hq
        have := hp.1 q hq
        omega

/-- **C43**: for purchases in time order, the expiry as of a time is when the purchases made up to that time run out. -/
theorem C43_runs_out {tier : Int} {es : List OEvent} {asOf : Option Nat} (ho : InTimeOrder (tierPurchases tier es))
    (hs : Sane (purchasesUpTo tier es asOf)) : RunsOutAt (purchasesUpTo tier es asOf) (tierExpiry tier es asOf) := by
  unfold tierExpiry
  rw [takeWhile_sorted ho]
  unfold purchasesUpTo at *
  generalize (tierPurchases tier es).filter _ = ps at *
  obtain ⟨h1, h2, h3⟩ := foldl_extend ps 0 hs.1 (by have := hs.2; omega) hs.2
  refine ⟨h2, ?_⟩
  cases ps with
  | nil => exact Or.inl ⟨rfl, rfl⟩
  | cons p ps =>
    rcases h3 with h3 | h3
    · refine Or.inr ⟨[], p.1, p.2, ps, rfl, ?_⟩
      have := h2 [] p.1 p.2 ps rfl
      have e : ((p.1, p.2) :: ps) = p :: ps := rfl
      rw [e] at this ⊢
      omega
    · exact Or.inr h3

/-- **C43**: the time at which purchases run out is unique, so the theorem above determines the expiry. -/
theorem C43_unique {ps : List (Nat × Nat)} {x y : Nat} (hx : RunsOutAt ps x) (hy : RunsOutAt ps y) : x = y := by
  have key : ∀ {a b}, RunsOutAt ps a → RunsOutAt ps b → a ≤ b := by
    intro a b ha hb
    rcases ha.2 with ⟨_, rfl⟩ | ⟨pre, t, d, post, h, rfl⟩
    · omega
    · exact hb.1 _ _ _ _ h
  exact Nat.le_antisymm (key hx hy) (key hy hx)

/-- **C43**: a subscription never ends before any single purchase alone would. -/
theorem C43_at_least_each {tier : Int} {es : List OEvent} {asOf : Option Nat} (ho : InTimeOrder (tierPurchases tier es))
    (hs : Sane (purchasesUpTo tier es asOf)) {t d : Nat} (h : (t, d) ∈ purchasesUpTo tier es asOf) :
    t + d * 86400 ≤ tierExpiry tier es asOf := by
  obtain ⟨pre, post, hp⟩ := List.append_of_mem h
  have := (C43_runs_out ho hs).1 pre t d post hp
  rw [totalSeconds_cons] at this
  exact Nat.le_trans (Nat.add_le_add_left (Nat.le_add_right _ _) t) this

/-- Events of one purchase. -/
def purchase (tier : Int) (t d block log : Nat) : OEvent := ⟨5, 7, block, 0, log, t, .tierPurchase tier d⟩

/-- **C43**: a purchase can be split in two at the same time without changing anything. -/
theorem C43_split {tier : Int} {pre post : List OEvent} {t d1 d2 b l b' l' : Nat} (asOf : Option Nat)
    (ho : InTimeOrder (tierPurchases tier (pre ++ purchase tier t (d1 + d2) b l :: post)))
    (hs : Sane (purchasesUpTo tier (pre ++ purchase tier t (d1 + d2) b l :: post) asOf)) :
    tierExpiry tier (pre ++ purchase tier t d1 b l :: purchase tier t d2 b' l' :: post) asOf =
      tierExpiry tier (pre ++ purchase tier t (d1 + d2) b l :: post) asOf := by
  have app : ∀ l1 l2, tierPurchases tier (l1 ++ l2) = tierPurchases tier l1 ++ tierPurchases tier l2 := by
    intro l1 l2; exact List.filterMap_append
  have con : ∀ d b l l2, tierPurchases tier (purchase tier t d b l :: l2) = (t, d) :: tierPurchases tier l2 := by
    intro d b l l2; unfold tierPurchases purchase; simp
  have ho2 : InTimeOrder (tierPurchases tier (pre ++ purchase tier t d1 b l :: purchase tier t d2 b' l' :: post)) := by
    rw [app, con, con]
    rw [app, con] at ho
    unfold InTimeOrder at *
    generalize tierPurchases tier pre = A at *
    generalize tierPurchases tier post = B at *
    simp only [List.pairwise_append, List.pairwise_cons, List.mem_cons] at *
    obtain ⟨h1, ⟨h2, h3⟩, h4⟩ := ho
    have ht : ∀ a ∈ A, a.1 ≤ t := fun a ha => h4 a ha _ (Or.inl rfl)
    refine ⟨h1, ⟨?_, h2, h3⟩, ?_⟩
    · rintro a (rfl | ha)
      · exact Nat.le_refl _
      · exact h2 a ha
    · rintro a ha b (rfl | rfl | hb)
      · exact ht a ha
      · exact ht a ha
      · exact h4 a ha b (Or.inr hb)
  unfold tierExpiry
  rw [takeWhile_sorted ho, takeWhile_sorted ho2]
  unfold purchasesUpTo at hs
  simp only [app, con, List.filter_append, List.filter_cons] at hs ⊢
  by_cases hc : Option.all (fun a => decide (t ≤ a)) asOf = true
  · simp only [hc, if_true] at hs ⊢
    generalize List.filter _ (tierPurchases tier pre) = A at *
    generalize List.filter _ (tierPurchases tier post) = B at *
    rw [List.foldl_append, List.foldl_append]
    simp only [List.foldl_cons]
    have hA : totalSeconds A + (d1 + d2) * 86400 < 2 ^ 63 := by
      have := hs.2
      rw [totalSeconds_append, totalSeconds_cons] at this
      exact Nat.lt_of_le_of_lt (by rw [← Nat.add_assoc]; exact Nat.le_add_right _ _) this
    have ht : t < 2 ^ 63 := hs.1 (t, d1 + d2) (by simp)
    obtain ⟨_, _, h3⟩ := foldl_extend A 0 (fun p hp => hs.1 p (by simp [hp])) (by omega) (by omega)
    have hx : A.foldl extendTier 0 + (d1 + d2) * 86400 < 2 ^ 64 := by
      rcases h3 with h3 | ⟨p, t', d', q, e, h3⟩
      · omega
      · have h4 : t' < 2 ^ 63 := hs.1 (t', d') (by rw [e]; simp)
        have h5 : totalSeconds ((t', d') :: q) ≤ totalSeconds A := by
          rw [e, totalSeconds_append]; omega
        omega
    have hmax : ∀ x, Nat.max t x = t ∨ Nat.max t x = x := by intro x; show max t x = _ ∨ max t x = _; omega
    generalize A.foldl extendTier 0 = x at *
    have hd : d1 * 86400 ≤ (d1 + d2) * 86400 := Nat.mul_le_mul_right _ (Nat.le_add_right _ _)
    have e1 : extendTier x (t, d1) = Nat.max t x + d1 * 86400 := extendTier_eq (by
      clear h3
      rcases hmax x with e | e <;> rw [e]
      · have := Nat.lt_of_le_of_lt (Nat.le_trans hd (Nat.le_add_left _ _)) hA
        have := Nat.add_lt_add ht this
        exact this
      · exact Nat.lt_of_le_of_lt (Nat.add_le_add_left hd x) hx)
    have e2 : extendTier x (t, d1 + d2) = Nat.max t x + (d1 + d2) * 86400 := extendTier_eq (by
      rcases hmax x with e | e <;> rw [e] <;> omega)
    have e3 : extendTier (Nat.max t x + d1 * 86400) (t, d2) = Nat.max t x + d1 * 86400 + d2 * 86400 := by
      have hm : Nat.max t (Nat.max t x + d1 * 86400) = Nat.max t x + d1 * 86400 := by
        have : t ≤ Nat.max t x := Nat.le_max_left _ _
        show max t (Nat.max t x + d1 * 86400) = _
        omega
      rw [extendTier_eq]
      · rw [hm]
      · rw [hm]; rcases hmax x with e | e <;> rw [e] <;> omega
    rw [e1, e2, e3]
    congr 1
    omega
  · simp only [hc] at hs ⊢
    rfl

/-- **C43**: one more purchase, not earlier than the ones before: bought while active it extends the expiry by exactly its
duration, bought later it runs from its own time. -/
theorem C43_extends {tier : Int} {es : List OEvent} {t d b l : Nat}
    (ho : InTimeOrder (tierPurchases tier (es ++ [purchase tier t d b l])))
    (hs : Sane (purchasesUpTo tier (es ++ [purchase tier t d b l]) none)) :
    (t ≤ tierExpiry tier es none →
      tierExpiry tier (es ++ [purchase tier t d b l]) none = tierExpiry tier es none + d * 86400) ∧
    (tierExpiry tier es none ≤ t → tierExpiry tier (es ++ [purchase tier t d b l]) none = t + d * 86400) := by
  have app : tierPurchases tier (es ++ [purchase tier t d b l]) = tierPurchases tier es ++ [(t, d)] := by
    unfold tierPurchases purchase; simp
  have ho' : InTimeOrder (tierPurchases tier es) := by
    rw [app] at ho; exact (List.pairwise_append.mp ho).1
  unfold tierExpiry purchasesUpTo at *
  rw [takeWhile_sorted ho, takeWhile_sorted ho']
  rw [app] at hs ⊢
  have fe : ∀ l : List (Nat × Nat), l.filter (fun p => (none : Option Nat).all (fun a => p.1 ≤ a)) = l := by
    intro l; simp
  rw [fe] at hs
  rw [fe, fe, List.foldl_append]
  generalize tierPurchases tier es = A at *
  simp only [List.foldl_cons, List.foldl_nil]
  have hA : totalSeconds A + d * 86400 < 2 ^ 63 := by
    have := hs.2
    rw [totalSeconds_append, totalSeconds_cons, totalSeconds_nil, Nat.add_zero] at this
    exact this
  have ht : t < 2 ^ 63 := hs.1 (t, d) (by simp)
  obtain ⟨_, _, h3⟩ := foldl_extend A 0 (fun p hp => hs.1 p (by simp [hp])) (by omega) (by omega)
  have hx : A.foldl extendTier 0 + d * 86400 < 2 ^ 64 := by
    rcases h3 with h3 | ⟨p, t', d', q, e, h3⟩
    · omega
    · have h4 : t' < 2 ^ 63 := hs.1 (t', d') (by rw [e]; simp)
      have h5 : totalSeconds ((t', d') :: q) ≤ totalSeconds A := by
        rw [e, totalSeconds_append]; omega
      omega
  generalize A.foldl extendTier 0 = x at *
  constructor
  · intro h
    have hm : Nat.max t x = x := Nat.max_eq_right h
    rw [extendTier_eq (by rw [hm]; omega), hm]
  · intro h
    have hm : Nat.max t x = t := Nat.max_eq_left h
    rw [extendTier_eq (by rw [hm]; omega), hm]

/-- Three purchases: a gap after the first, the third while the second is active. -/
def someTiers : List OEvent :=
  [purchase 1 1000000 1 1 0, purchase 1 2000000 30 2 0, purchase 2 2000001 99 2 1, purchase 1 2500000 30 3 0]

/-- The hypotheses are met, and the expiry is the second purchase's time plus sixty days. -/
example : InTimeOrder (tierPurchases 1 someTiers) ∧ Sane (purchasesUpTo 1 someTiers (some 2500000)) ∧
    tierExpiry 1 someTiers (some 2500000) = 2000000 + 60 * 86400 ∧
    tierExpiry 1 someTiers (some 2499999) = 2000000 + 30 * 86400 := by
  refine ⟨?_, ⟨?_, ?_⟩, by decide, by decide⟩
  · show InTimeOrder [(1000000, 1), (2000000, 30), (2500000, 30)]
    unfold InTimeOrder; decide
  · show ∀ p ∈ [(1000000, 1), (2000000, 30), (2500000, 30)], p.1 < 2 ^ 63
    decide
  · decide

/-- Time order is needed: a purchase stored after a later one is not seen, although it was made before the time
asked about. -/
theorem C43_out_of_order_hidden :
    tierExpiry 1 [purchase 1 3000000 1 1 0, purchase 1 2000000 30 2 0] (some 2500000) = 0 ∧
    purchasesUpTo 1 [purchase 1 3000000 1 1 0, purchase 1 2000000 30 2 0] (some 2500000) = [(2000000, 30)] := by decide

theorem sorted_ext {l l' : List OEvent} (h : l.Pairwise placeLt) (h' : l'.Pairwise placeLt) (hm : ∀ e, e ∈ l ↔ e ∈ l') : l = l' := by
  have nd : ∀ {l : List OEvent}, l.Pairwise placeLt → l.Nodup :=
    fun h => h.imp (fun {a b} h hc => by subst hc; unfold placeLt at h; omega)
  refine ((List.perm_ext_iff_of_nodup (nd h) (nd h')).mpr hm).eq_of_pairwise ?_ h h'
  intro a b _ _ h1 h2
  unfold placeLt at h1 h2; omega

/-- **C43**: on the database after any run, the end of a subscription is computed from exactly the committed purchases of the
user, in chain order.  When block times do not go back along the chain it is the time those purchases run out. -/
theorem C43_from_committed_purchases {keccak : Bytes → Bytes} {ops : List ChainOp} (ho : OpsFit ops) {fid : Nat} (hf : fid < 2 ^ 32)
    (tier : Int) (asOf : Option Nat)
    (hts : ∀ a ∈ (ChainNode.run keccak ops).saved, ∀ b ∈ (ChainNode.run keccak ops).saved, a.block ≤ b.block → a.ts ≤ b.ts) :
    ∃ es : List OEvent, (∀ e, e ∈ es ↔ e ∈ (ChainNode.run keccak ops).saved ∧ e.ty = 5 ∧ e.fid = fid) ∧ es.Pairwise placeLt ∧
      ∃ x, tierExpiresAt (ChainNode.run keccak ops).db tier fid asOf = .ok x ∧
        (Sane (purchasesUpTo tier es asOf) → RunsOutAt (purchasesUpTo tier es asOf) x) := by
  have hi : ChainInv keccak (ChainNode.run keccak ops) := chainInv_run ho
  obtain ⟨es, h1, h2, h3⟩ := onchainEvents_spec hi.disk (hi.log.prefix hi.sub) (ty := 5) (by decide) hf
  refine ⟨es, h2, h3, tierExpiry tier es asOf, by unfold tierExpiresAt; rw [h1], fun hs => C43_runs_out ?_ hs⟩
  have ht : es.Pairwise (fun a b => a.ts ≤ b.ts) := by
    refine List.Pairwise.imp_of_mem ?_ h3
    intro a b ha hb hab
    exact hts a ((h2 a).mp ha).1 b ((h2 b).mp hb).1 (by unfold placeLt at hab; omega)
  unfold InTimeOrder tierPurchases
  rw [List.pairwise_filterMap]
  refine ht.imp ?_
  intro a b hab p hp q hq
  have key : ∀ (e : OEvent) (p : Nat × Nat), (match e.body with
      | .tierPurchase t d => if t = tier then some (e.ts, d) else none
      | _ => none) = some p → p.1 = e.ts := by
    intro e p h
    split at h
    · split at h
      · simp only [Option.some.injEq] at h; subst h; rfl
      · simp at h
    · simp at h
  rw [key a p hp, key b q hq]; exact hab

/-- **C43**: two nodes that committed the same events, in whatever order, agree on the end of every subscription. -/
theorem C43_order_independent {keccak : Bytes → Bytes} {ops ops' : List ChainOp} (ho : OpsFit ops) (ho' : OpsFit ops') {fid : Nat}
    (hf : fid < 2 ^ 32) (tier : Int) (asOf : Option Nat)
    (hp : (ChainNode.run keccak ops).saved.Perm (ChainNode.run keccak ops').saved) :
    tierExpiresAt (ChainNode.run keccak ops).db tier fid asOf = tierExpiresAt (ChainNode.run keccak ops').db tier fid asOf := by
  have hi : ChainInv keccak (ChainNode.run keccak ops) := chainInv_run ho
  have hi' : ChainInv keccak (ChainNode.run keccak ops') := chainInv_run ho'
  obtain ⟨es, h1, h2, h3⟩ := onchainEvents_spec hi.disk (hi.log.prefix hi.sub) (ty := 5) (by decide) hf
  obtain ⟨es', h1', h2', h3'⟩ := onchainEvents_spec hi'.disk (hi'.log.prefix hi'.sub) (ty := 5) (by decide) hf
  unfold tierExpiresAt
  rw [h1, h1', sorted_ext h3 h3' (fun e => by rw [h2, h2', hp.mem_iff])]

/-- Two purchases merged in either order, with a dropped batch. -/
def buyA : List ChainOp := [.merge (purchase 1 2000000 30 1 0), .commit, .merge (purchase 1 3000000 60 2 0), .commit]
def buyB : List ChainOp := [.merge (purchase 1 3000000 60 2 0), .drop, .merge (purchase 1 3000000 60 2 0), .merge (purchase 1 2000000 30 1 0), .commit]

/-- The hypotheses are met: both nodes arrive at the same end, 90 days after the first purchase. -/
example : OpsFit buyA ∧ OpsFit buyB ∧ (ChainNode.run (fun _ => []) buyA).saved.Perm (ChainNode.run (fun _ => []) buyB).saved ∧
    (∀ a ∈ (ChainNode.run (fun _ => []) buyA).saved, ∀ b ∈ (ChainNode.run (fun _ => []) buyA).saved, a.block ≤ b.block → a.ts ≤ b.ts) ∧
    tierExpiresAt (ChainNode.run (fun _ => []) buyB).db 1 7 none = .ok (2000000 + 90 * 86400) := by
  refine ⟨?_, ?_, by decide +kernel, by decide +kernel, by decide +kernel⟩
  · intro e he
    simp only [buyA, List.mem_cons, ChainOp.merge.injEq, List.not_mem_nil, or_false] at he
    rcases he with rfl | h | rfl | h <;> first | contradiction | (unfold Spec.OEvent.Fits; decide)
  · intro e he
    simp only [buyB, List.mem_cons, ChainOp.merge.injEq, List.not_mem_nil, or_false] at he
    rcases he with rfl | h | rfl | rfl | h <;> first | contradiction | (unfold Spec.OEvent.Fits; decide)

end Verif
