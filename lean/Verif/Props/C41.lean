import Verif.Lemmas.Storage
/-!
C41: does the allowance depend on when a block is replayed?  It does, through the local clock, but only when
some rental expires between the two times.
-/
namespace Verif
open Spec

/-- The time a slot becomes invalid lies between two times. -/
def expiresBetween (t1 t2 : UInt32) (u : UInt32) : Prop := (t1 < u ∧ ¬ t2 < u) ∨ (t2 < u ∧ ¬ t1 < u)

/-- **C41, what holds**: if no rental expires between the two clock values (and both are below the largest 32-bit
time), the replay gives the same allowance. -/
theorem C41_same_unless_expiry_between {t1 t2 : UInt32} (mainnet ext : Bool) (rents pending : List OEvent) (fid : Nat)
    (lent borrowed : List (UnitType × Nat))
    (h : ∀ e ∈ rents ++ pending, ∀ s, Slot.fromEvent mainnet ext e = .ok s → ¬ expiresBetween t1 t2 s.until_)
    (h1 : t1 < 4294967295) (h2 : t2 < 4294967295) :
    slotOf t1 mainnet ext rents pending fid (mergeLends t1 lent) (mergeLends t1 borrowed) =
      slotOf t2 mainnet ext rents pending fid (mergeLends t2 lent) (mergeLends t2 borrowed) := by
  have flip : ∀ s : Slot, ¬ expiresBetween t1 t2 s.until_ → s.isActive t1 = s.isActive t2 := by
    intro s hs
    unfold expiresBetween at hs
    unfold Slot.isActive
    by_cases a : t1 < s.until_ <;> by_cases b : t2 < s.until_
    · rw [decide_eq_true a, decide_eq_true b]
    · exact absurd (Or.inl ⟨a, b⟩) hs
    · exact absurd (Or.inr ⟨b, a⟩) hs
    · rw [decide_eq_false a, decide_eq_false b]
  have hm : ∀ s o : Slot, ¬ expiresBetween t1 t2 s.until_ → ¬ expiresBetween t1 t2 o.until_ →
      s.merge t1 o = s.merge t2 o ∧ ¬ expiresBetween t1 t2 (s.merge t1 o).until_ := by
    intro s o hs ho
    unfold Slot.merge
    rw [flip s hs, flip o ho]
    refine ⟨rfl, ?_⟩
    split
    · exact hs
    · split
      · exact ho
      · simp only []; split <;> assumption
  have hempty : ¬ expiresBetween t1 t2 ({} : Slot).until_ := by
    unfold expiresBetween
    intro hc
    rcases hc with ⟨hc, _⟩ | ⟨hc, _⟩ <;> exact absurd hc (UInt32.not_lt.mpr (by simp))
  have hmax : ¬ expiresBetween t1 t2 4294967295 := by
    unfold expiresBetween; rintro (⟨_, hc⟩ | ⟨_, hc⟩) <;> contradiction
  have lends : ∀ (l : List (UnitType × Nat)) (s : Slot), ¬ expiresBetween t1 t2 s.until_ →
      l.foldl (fun s l => s.merge t1 (Slot.fromLend l.1 l.2)) s = l.foldl (fun s l => s.merge t2 (Slot.fromLend l.1 l.2)) s ∧
      ¬ expiresBetween t1 t2 (l.foldl (fun s l => s.merge t1 (Slot.fromLend l.1 l.2)) s).until_ := by
    intro l
    induction l with
    | nil => intro s hs; exact ⟨rfl, hs⟩
    | cons a l ih =>
      intro s hs
      have := hm s (Slot.fromLend a.1 a.2) hs (by unfold Slot.fromLend; rw [ofType_until]; exact hmax)
      simp only [List.foldl_cons]
      rw [← this.1]
      exact ih _ this.2
  have rent : ∀ (l : List OEvent) (s : Slot), (∀ e ∈ l, ∀ s, Slot.fromEvent mainnet ext e = .ok s → ¬ expiresBetween t1 t2 s.until_) →
      ¬ expiresBetween t1 t2 s.until_ → mergeRents t1 mainnet ext s l = mergeRents t2 mainnet ext s l ∧
      ∀ r, mergeRents t1 mainnet ext s l = .ok r → ¬ expiresBetween t1 t2 r.until_ := by
    intro l
    induction l with
    | nil => intro s _ hs; exact ⟨rfl, by intro r hr; simp only [mergeRents, Except.ok.injEq] at hr; exact hr ▸ hs⟩
    | cons a l ih =>
      intro s hl hs
      unfold mergeRents
      cases ha : Slot.fromEvent mainnet ext a with
      | error x => exact ⟨rfl, by simp⟩
      | ok r =>
        have := hm s r hs (hl a (by simp) r ha)
        simp only []
        rw [← this.1]
        exact ih _ (fun e he => hl e (by simp [he])) this.2
  obtain ⟨hr, hr'⟩ := rent (rents ++ pending.filter (fun e => e.fid = fid && e.ty = 4)) {}
    (fun e he => h e (by
      rcases List.mem_append.mp he with he | he
      · exact List.mem_append.mpr (Or.inl he)
      · exact List.mem_append.mpr (Or.inr (List.mem_filter.mp he).1))) hempty
  obtain ⟨hl, hl'⟩ := lends lent {} hempty
  obtain ⟨hb, hb'⟩ := lends borrowed {} hempty
  unfold slotOf mergeLends
  rw [← hr, ← hl, ← hb]
  cases hP : mergeRents t1 mainnet ext {} (rents ++ pending.filter (fun e => e.fid = fid && e.ty = 4)) with
  | error x => rfl
  | ok P =>
    simp only []
    have hP' := hr' P hP
    have hsub : ∀ o : Slot, ¬ expiresBetween t1 t2 o.until_ → P.sub t1 o = P.sub t2 o := by
      intro o ho
      unfold Slot.sub
      rw [flip o ho]
    have hsubu : ∀ o : Slot, (P.sub t1 o).until_ = P.until_ := by intro o; unfold Slot.sub; split <;> rfl
    rw [← hsub _ hl', (hm _ _ (by rw [hsubu]; exact hP') hb').1]

/-- A user whose three units expire in 2026. -/
def threeUnits : OEvent := ⟨4, 7, 1, 0, 0, 1760000000, .storageRent 3⟩

/-- The hypotheses of the theorem are met by two different times. -/
example : (∀ e ∈ [threeUnits] ++ [], ∀ s, Slot.fromEvent true false e = .ok s →
      ¬ expiresBetween 1780000000 1790000000 s.until_) ∧
    slotOf 1780000000 true false [threeUnits] [] 7 {} {} = .ok ⟨0, 0, 3, 1791536000⟩ := by
  refine ⟨?_, by decide⟩
  intro e he s hs
  simp only [List.append_nil, List.mem_singleton] at he
  subst he
  have : s = ⟨0, 0, 3, 1791536000⟩ := by
    have h2 : Slot.fromEvent true false threeUnits = .ok ⟨0, 0, 3, 1791536000⟩ := by decide
    rw [h2] at hs; exact (Except.ok.inj hs).symm
  subst this
  unfold expiresBetween
  decide

/-- **C41 is false of the code**: the same stored events give an allowance of 300 casts one second and none the next.
The time of the block being replayed plays no part. -/
theorem C41_allowance_depends_on_clock :
    (slotOf 1791535999 true false [threeUnits] [] 7 {} {}).map (fun s => maxMessages s .casts) = .ok 300 ∧
    (slotOf 1791536000 true false [threeUnits] [] 7 {} {}).map (fun s => maxMessages s .casts) = .ok 0 := by decide

end Verif
