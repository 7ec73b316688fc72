import Verif.Spec.Storage
namespace Verif
open Spec

theorem u32_lt (a : UInt32) : a.toNat < 2 ^ 32 := a.toNat_lt

namespace Slot

theorem isActive_iff (now : UInt32) (s : Slot) : s.isActive now = true ↔ now.toNat < s.until_.toNat := by
  simp [isActive, UInt32.lt_iff_toNat_lt]

/-- Slots that are active or empty. -/
def Tidy (now : UInt32) (s : Slot) : Prop := s.isActive now = true ∨ ∀ ty, s.units ty = 0

/-- The units a slot contributes. -/
def live (now : UInt32) (ty : UnitType) (s : Slot) : Nat := if s.isActive now then (s.units ty).toNat else 0

theorem merge_tidy {now s o} (h : Tidy now s) : Tidy now (s.merge now o) := by
  unfold merge
  cases ho : o.isActive now
  · simpa using h
  · cases hs : s.isActive now
    · left; simpa using ho
    · left
      simp only [Bool.not_true, Bool.false_eq_true, if_false]
      rw [isActive_iff] at *
      simp only []
      split <;> assumption

theorem merge_units {now s o} (h : Tidy now s) (ty) :
    ((s.merge now o).units ty).toNat = ((s.units ty).toNat + o.live now ty) % 2 ^ 32 := by
  unfold merge live
  cases ho : o.isActive now
  · simp [Nat.mod_eq_of_lt (u32_lt _)]
  · cases hs : s.isActive now
    · rcases h with h | h
      · simp [h] at hs
      · simp [h ty, Nat.mod_eq_of_lt (u32_lt _)]
    · cases ty <;> simp [units]

theorem merge_active {now} {s o : Slot} : (s.merge now o).isActive now = (s.isActive now || o.isActive now) := by
  unfold merge
  cases ho : o.isActive now
  · simp
  · cases hs : s.isActive now
    · simp [ho]
    · simp only [Bool.not_true, Bool.false_eq_true, if_false, Bool.or_self]
      rw [isActive_iff] at *
      simp only []
      split <;> assumption

theorem merge_right_comm (now : UInt32) (s a b : Slot) : (s.merge now a).merge now b = (s.merge now b).merge now a := by
  have ha := merge_active (now := now) (s := s) (o := a)
  have hb := merge_active (now := now) (s := s) (o := b)
  unfold merge at *
  cases haa : a.isActive now <;> cases hbb : b.isActive now <;> cases hs : s.isActive now <;>
    simp_all
  · refine ⟨UInt32.add_comm _ _, UInt32.add_comm _ _, UInt32.add_comm _ _, ?_⟩
    grind
  · refine ⟨?_, ?_, ?_, ?_⟩ <;> grind

end Slot

theorem foldl_merge_tidy {now} (l : List Slot) {s : Slot} (h : s.Tidy now) : (l.foldl (Slot.merge now) s).Tidy now := by
  induction l generalizing s with
  | nil => exact h
  | cons a l ih => exact ih (Slot.merge_tidy h)

theorem foldl_merge_units {now} (l : List Slot) {s : Slot} (h : s.Tidy now) (ty) :
    ((l.foldl (Slot.merge now) s).units ty).toNat = ((s.units ty).toNat + (l.map (Slot.live now ty)).sum) % 2 ^ 32 := by
  induction l generalizing s with
  | nil => simp [Nat.mod_eq_of_lt (u32_lt _)]
  | cons a l ih =>
    rw [List.foldl_cons, ih (Slot.merge_tidy h), Slot.merge_units h]
    simp only [List.map_cons, List.sum_cons]
    omega

theorem foldl_merge_perm {now} {l l' : List Slot} (h : l.Perm l') (s : Slot) :
    l.foldl (Slot.merge now) s = l'.foldl (Slot.merge now) s := by
  induction h generalizing s with
  | nil => rfl
  | cons a _ ih => exact ih _
  | swap a b l => simp only [List.foldl_cons, Slot.merge_right_comm]
  | trans _ _ ih1 ih2 => exact (ih1 s).trans (ih2 s)

theorem empty_tidy (now) : ({} : Slot).Tidy now := Or.inr (by intro ty; cases ty <;> rfl)

theorem empty_units (ty) : ({} : Slot).units ty = 0 := by cases ty <;> rfl

/-- The slots of a list of rentals. -/
def rentSlots (mainnet ext : Bool) : List OEvent → List Slot
  | [] => []
  | e :: es => (match Slot.fromEvent mainnet ext e with | .ok s => s | .error _ => {}) :: rentSlots mainnet ext es

theorem fromEvent_cases (mainnet ext) (e : OEvent) :
    (∃ s, Slot.fromEvent mainnet ext e = .ok s) ∨ Slot.fromEvent mainnet ext e = .error .validation := by
  unfold Slot.fromEvent; split <;> simp

theorem mergeRents_eq (now mainnet ext) (es : List OEvent) (s : Slot) :
    mergeRents now mainnet ext s es =
      if es.all (fun e => (Slot.fromEvent mainnet ext e).isOk) then .ok ((rentSlots mainnet ext es).foldl (Slot.merge now) s)
      else .error .validation := by
  induction es generalizing s with
  | nil => rfl
  | cons e es ih =>
    rcases fromEvent_cases mainnet ext e with ⟨r, h⟩ | h
    · simp only [mergeRents, h, rentSlots, List.all_cons, ih, List.foldl_cons]
      simp [Except.isOk, Except.toBool]
    · simp [mergeRents, h, List.all_cons, Except.isOk, Except.toBool]

theorem rentSlots_perm (mainnet ext) {l l' : List OEvent} (h : l.Perm l') :
    (rentSlots mainnet ext l).Perm (rentSlots mainnet ext l') := by
  induction h with
  | nil => exact .nil
  | cons a _ ih => exact .cons _ ih
  | swap a b l => exact .swap _ _ _
  | trans _ _ a b => exact a.trans b

theorem mergeRents_perm (now mainnet ext) {l l' : List OEvent} (h : l.Perm l') (s : Slot) :
    mergeRents now mainnet ext s l = mergeRents now mainnet ext s l' := by
  rw [mergeRents_eq, mergeRents_eq, foldl_merge_perm (rentSlots_perm mainnet ext h), h.all_eq]

/-- The slot of a rental: type, units and expiry. -/
theorem fromEvent_eq {mainnet ext} {e : OEvent} {u} (hb : e.body = .storageRent u)
    (hx : expiry mainnet ext e.ts < 2 ^ 32) :
    Slot.fromEvent mainnet ext e =
      .ok (Slot.ofType (unitType mainnet e.ts) u (UInt32.ofNat (expiry mainnet ext e.ts))) := by
  unfold Slot.fromEvent
  rw [hb]
  simp only [rentTerms]
  have key : ∀ (ty : UnitType) (y : UInt32) (n x : Nat), y.toNat = n → x = e.ts + n * (365 * 24 * 60 * 60) → x < 2 ^ 32 →
      Slot.ofType ty u (UInt32.ofNat e.ts + oneYear * y) = Slot.ofType ty u (UInt32.ofNat x) := by
    intro ty y n x hy hx hlt
    congr 1
    apply UInt32.toNat_inj.mp
    have : oneYear.toNat = 31536000 := rfl
    simp only [UInt32.toNat_add, UInt32.toNat_mul, UInt32.toNat_ofNat', this]
    subst hx hy
    omega
  unfold unitType
  unfold expiry unitType at *
  by_cases h1 : e.ts < 1724889600
  · have h3 : e.ts < (if mainnet then 1782147600 else 1781283600) := by cases mainnet <;> simp <;> omega
    simp only [h1, h3, if_true, and_true] at *
    congr 1
    refine key _ _ _ _ ?_ rfl hx
    cases ext <;> rfl
  · by_cases h2 : e.ts < (if mainnet then 1752685200 else 1752426000)
    · have h3 : e.ts < (if mainnet then 1782147600 else 1781283600) := by cases mainnet <;> simp at h2 ⊢ <;> omega
      simp only [h1, h2, h3, if_true, if_false, and_true] at *
      congr 1
      refine key _ _ _ _ ?_ rfl hx
      cases ext <;> rfl
    · by_cases h3 : e.ts < (if mainnet then 1782147600 else 1781283600)
      · simp only [h1, h2, h3, if_true, if_false, and_true] at *
        congr 1
        refine key _ _ _ _ ?_ rfl hx
        cases ext <;> rfl
      · simp only [h1, h2, h3, if_false, and_false] at *
        exact congrArg Except.ok (key _ _ 1 _ (by decide) (by simp only [Nat.add_zero]) hx)

theorem ofType_units (ty ty' : UnitType) (n x : UInt32) : (Slot.ofType ty n x).units ty' = if ty = ty' then n else 0 := by
  cases ty <;> cases ty' <;> rfl

theorem ofType_until (ty : UnitType) (n x : UInt32) : (Slot.ofType ty n x).until_ = x := by cases ty <;> rfl

theorem ofType_live (now : UInt32) (ty ty' : UnitType) (n x : UInt32) :
    (Slot.ofType ty n x).live now ty' = if ty = ty' ∧ now.toNat < x.toNat then n.toNat else 0 := by
  unfold Slot.live
  have h := Slot.isActive_iff now (Slot.ofType ty n x)
  rw [ofType_until] at h
  rw [ofType_units]
  by_cases hx : now.toNat < x.toNat
  · rw [if_pos (h.mpr hx)]
    by_cases ht : ty = ty' <;> simp [ht, hx]
  · rw [if_neg (fun hc => hx (h.mp hc))]
    simp [hx]

theorem rentSlots_live (now : UInt32) {mainnet ext} {es : List OEvent} (h : ∀ e ∈ es, Rental mainnet ext e) (ty) :
    ((rentSlots mainnet ext es).map (Slot.live now ty)).sum = purchased mainnet ext now.toNat ty es := by
  induction es with
  | nil => rfl
  | cons e es ih =>
    obtain ⟨⟨u, hu⟩, hx⟩ := h e (by simp)
    unfold purchased at *
    simp only [rentSlots, fromEvent_eq hu hx, List.map_cons, List.sum_cons, ih (fun e he => h e (by simp [he]))]
    congr 1
    rw [ofType_live]
    unfold rentUnits
    rw [hu]
    simp only [UInt32.toNat_ofNat']
    rw [Nat.mod_eq_of_lt hx]

theorem rents_ok {mainnet ext} {es : List OEvent} (h : ∀ e ∈ es, Rental mainnet ext e) :
    es.all (fun e => (Slot.fromEvent mainnet ext e).isOk) = true := by
  rw [List.all_eq_true]
  intro e he
  obtain ⟨⟨u, hu⟩, hx⟩ := h e he
  rw [fromEvent_eq hu hx]; rfl

theorem mergeLends_tidy (now l) : (mergeLends now l).Tidy now := by
  have := foldl_merge_tidy (now := now) (l.map (fun l => Slot.fromLend l.1 l.2)) (empty_tidy now)
  rwa [List.foldl_map] at this

theorem fromLend_live {now : UInt32} (hn : now.toNat < 4294967295) (l : UnitType × Nat) (hl : l.2 < 2 ^ 32) (ty) :
    (Slot.fromLend l.1 l.2).live now ty = if l.1 = ty then l.2 else 0 := by
  unfold Slot.fromLend
  rw [ofType_live]
  have h1 : (4294967295 : UInt32).toNat = 4294967295 := rfl
  simp only [h1, hn, and_true, UInt32.toNat_ofNat']
  rw [Nat.mod_eq_of_lt hl]

theorem mergeLends_units {now : UInt32} (hn : now.toNat < 4294967295) {l : List (UnitType × Nat)}
    (hl : ∀ x ∈ l, x.2 < 2 ^ 32) (ty) : ((mergeLends now l).units ty).toNat = lendTotal ty l % 2 ^ 32 := by
  have h := foldl_merge_units (now := now) (l.map (fun l => Slot.fromLend l.1 l.2)) (empty_tidy now) ty
  rw [List.foldl_map] at h
  unfold mergeLends
  rw [h, empty_units]
  have : (List.map (Slot.live now ty) (List.map (fun l => Slot.fromLend l.1 l.2) l)).sum = lendTotal ty l := by
    clear h
    unfold lendTotal
    induction l with
    | nil => rfl
    | cons a l ih =>
      simp only [List.map_cons, List.sum_cons, ih (fun x hx => hl x (by simp [hx]))]
      rw [fromLend_live hn a (hl a (by simp))]
  rw [this]; simp

theorem tidy_inactive {now s} (h : Slot.Tidy now s) (hi : s.isActive now = false) (ty) : s.units ty = 0 := by
  rcases h with h | h
  · simp [h] at hi
  · exact h ty

theorem sub_units {now} {s o : Slot} (ho : Slot.Tidy now o) (ty) (h : (o.units ty).toNat ≤ (s.units ty).toNat) :
    ((s.sub now o).units ty).toNat = (s.units ty).toNat - (o.units ty).toNat := by
  unfold Slot.sub
  cases hi : o.isActive now
  · rw [tidy_inactive ho hi ty]; simp
  · have : ∀ a b : UInt32, b.toNat ≤ a.toNat → (a - b).toNat = a.toNat - b.toNat := fun a b hb =>
      UInt32.toNat_sub_of_le _ _ (UInt32.le_iff_toNat_le.mpr hb)
    cases ty <;> exact this _ _ h

theorem sub_active {now} {s o : Slot} : (s.sub now o).isActive now = s.isActive now := by
  unfold Slot.sub; split <;> rfl

theorem sub_tidy {now} {s o : Slot} (hs : Slot.Tidy now s) (ho : Slot.Tidy now o)
    (h : ∀ ty, (o.units ty).toNat ≤ (s.units ty).toNat) : (s.sub now o).Tidy now := by
  cases hi : s.isActive now
  · right
    intro ty
    apply UInt32.toNat_inj.mp
    rw [sub_units ho ty (h ty), tidy_inactive hs hi ty]; simp
  · left; rw [sub_active, hi]

end Verif
