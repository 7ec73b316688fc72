import Verif.Spec.Lending
import Verif.Lemmas.VerificationCap
import Verif.Lemmas.Storage
import Verif.Lemmas.StoreRowsOf
/-! Lending over histories. -/
namespace Verif
open StoreDef Spec

variable {U : Msg → Prop} {ctx : Nat → MergeCtx}

theorem l_lawful (hU : HashesIdentify U) : lendStore.Lawful (okIn .lends U) := kind_lawful .lends noNaming hU

/-- Units of a type in one lend. -/
def lendUnits (ty : UnitType) (m : Msg) : Nat :=
  match lendOf m with
  | some (t, n) => if t = ty then n else 0
  | none => 0

/-- Sum over messages. -/
def sumOf (p : Msg → Nat) (L : List Msg) : Nat := (L.map p).sum

@[simp] theorem sumOf_nil (p : Msg → Nat) : sumOf p [] = 0 := rfl
@[simp] theorem sumOf_cons (p : Msg → Nat) (m : Msg) (L : List Msg) : sumOf p (m :: L) = p m + sumOf p L := rfl

theorem sumOf_perm {p : Msg → Nat} {L L' : List Msg} (h : L.Perm L') : sumOf p L = sumOf p L' :=
  (h.map p).sum_nat

/-- Units of a type a user lends. -/
def lentBy (f : Nat) (ty : UnitType) (m : Msg) : Nat := if m.fid = f then lendUnits ty m else 0

theorem sumOf_filter (p : Msg → Nat) (q : Msg → Bool) (L : List Msg) :
    sumOf p (L.filter q) = sumOf (fun m => if q m then p m else 0) L := by
  induction L with
  | nil => rfl
  | cons a l ih => by_cases h : q a = true <;> simp [h, ih]

theorem sumOf_item {D : StoreDef} {L : List Msg} (hp : L.Pairwise (fun a b => D.ak a ≠ D.ak b)) {x m : Msg} (hx : x ∈ L)
    (e : D.ak x = D.ak m) (p : Msg → Nat) :
    sumOf p L = sumOf p (L.filter (fun y => D.ak y ≠ D.ak m)) + p x := by
  induction L with
  | nil => cases hx
  | cons a l ih =>
    have hp' := List.pairwise_cons.1 hp
    rcases List.mem_cons.1 hx with rfl | hx
    · have hne : l.filter (fun y => D.ak y ≠ D.ak m) = l := List.filter_eq_self.2 (by
        intro y hy; have := hp'.1 y hy; rw [e] at this; simp; exact fun e => this e.symm)
      rw [List.filter_cons_of_neg (by simp [e]), hne, sumOf_cons]; omega
    · have hne : D.ak a ≠ D.ak m := by rw [← e]; exact hp'.1 x hx
      rw [List.filter_cons_of_pos (by simp [hne]), sumOf_cons, sumOf_cons, ih hp'.2 hx]
      omega

theorem sumOf_mem_le {p : Msg → Nat} {L : List Msg} {x : Msg} (hx : x ∈ L) : p x ≤ sumOf p L := by
  induction L with
  | nil => cases hx
  | cons a l ih =>
    rcases List.mem_cons.1 hx with rfl | hx
    · simp
    · have := ih hx; simp; omega

theorem sumOf_drop {p : Msg → Nat} {m : Msg} (hm : p m = 0) (L : List Msg) : sumOf p (L.filter (fun x => x ≠ m)) = sumOf p L := by
  rw [sumOf_filter]
  unfold sumOf
  congr 1
  apply List.map_congr_left
  intro x _
  by_cases e : x = m
  · simp [e, hm]
  · simp [e]

theorem lendTotal_filterMap (ty : UnitType) (L : List Msg) : lendTotal ty (L.filterMap lendOf) = sumOf (lendUnits ty) L := by
  induction L with
  | nil => rfl
  | cons a l ih =>
    unfold lendTotal at *
    cases h : lendOf a with
    | none => rw [List.filterMap_cons_none h, ih]; simp [lendUnits, h]
    | some x => rw [List.filterMap_cons_some h, List.map_cons, List.sum_cons, ih]; simp [lendUnits, h]

theorem l_body {m : Msg} (h : StoreKind.lends.Valid m) : ∃ to u ty, m.body = .lend to u ty ∧ to < 2 ^ 32 := h.2.2.2.2.2

theorem l_isAdd {m : Msg} (h : StoreKind.lends.Valid m) : lendStore.isAdd m = true := by
  simp [isAdd, lendStore, h.2.2.2.2.1]

/-- What a user lends, from the live messages. -/
theorem lentOf_eq (hU : HashesIdentify U) {db : Db SVal} {L : List Msg}
    (h : lendStore.Holds (okIn .lends U) ctx L (viewOf db OMap.empty)) {f : Nat} (hf : f < 2 ^ 32) (ty : UnitType) :
    lendTotal ty (lentOf db f) = sumOf (lentBy f ty) L := by
  have hmem := mem_stored (l_lawful hU) h hf
  unfold lentOf
  rw [lendTotal_filterMap]
  have hall : (storedMessages lendStore db f).filter lendStore.isAdd = storedMessages lendStore db f :=
    List.filter_eq_self.2 (fun m hm => l_isAdd (h.valid m ((hmem m).1 hm).1).1)
  rw [hall]
  have hp : (storedMessages lendStore db f).Perm (L.filter (fun m => m.fid = f)) := by
    rw [List.perm_ext_iff_of_nodup (stored_nodup (l_lawful hU) h hf) ((holds_nodup h).sublist List.filter_sublist)]
    intro m; rw [hmem]; simp
  rw [sumOf_perm hp, sumOf_filter]
  unfold lentBy; simp

/-! ### Slots -/

theorem uncounted_active {now : UInt32} (hn : now.toNat < 4294967295) : uncounted.isActive now = true :=
  (Slot.isActive_iff _ _).2 hn

theorem uncounted_units (ty : UnitType) : uncounted.units ty = 0 := by cases ty <;> rfl

theorem merge_uncounted {now : UInt32} (hn : now.toNat < 4294967295) {s : Slot} (hs : s.Tidy now) :
    (s.merge now uncounted).isActive now = true ∧ ∀ ty, (s.merge now uncounted).units ty = s.units ty := by
  refine ⟨by rw [Slot.merge_active, uncounted_active hn]; simp, fun ty => ?_⟩
  apply UInt32.toNat_inj.mp
  rw [Slot.merge_units hs]
  simp [Slot.live, uncounted_units, Nat.mod_eq_of_lt (u32_lt _)]

/-- Purchased less lent, as one slot. -/
theorem slotOf_less {now : UInt32} (hn : now.toNat < 4294967295) {mainnet ext : Bool} {rents pending : List OEvent}
    {fid : Nat} {lent : Slot} {l : UnitType → Nat} (ht : lent.Tidy now) (hu : ∀ ty, (lent.units ty).toNat = l ty)
    (hr : ∀ e ∈ countedRents rents pending fid, Rental mainnet ext e)
    (hl : ∀ ty, l ty ≤ purchased mainnet ext now.toNat ty (countedRents rents pending fid))
    (hb : ∀ ty, purchased mainnet ext now.toNat ty (countedRents rents pending fid) < 2 ^ 32) :
    ∃ s, slotOf now mainnet ext rents pending fid lent uncounted = .ok s ∧ s.isActive now = true ∧
      ∀ ty, (s.units ty).toNat + l ty = purchased mainnet ext now.toNat ty (countedRents rents pending fid) := by
  unfold slotOf
  rw [mergeRents_eq]
  unfold countedRents at *
  rw [if_pos (rents_ok hr)]
  generalize hP : (rentSlots mainnet ext (rents ++ List.filter (fun e => e.fid = fid && e.ty = 4) pending)).foldl
    (Slot.merge now) {} = P
  have tP : P.Tidy now := hP ▸ foldl_merge_tidy _ (empty_tidy now)
  have uP : ∀ ty, (P.units ty).toNat = purchased mainnet ext now.toNat ty
      (rents ++ List.filter (fun e => e.fid = fid && e.ty = 4) pending) := by
    intro ty
    rw [← hP, foldl_merge_units _ (empty_tidy now), rentSlots_live now hr, empty_units]
    have := hb ty
    simp only [UInt32.toNat_zero, Nat.zero_add]
    exact Nat.mod_eq_of_lt (by omega)
  have hle : ∀ ty, (lent.units ty).toNat ≤ (P.units ty).toNat := fun ty => by rw [hu, uP]; exact hl ty
  obtain ⟨h1, h2⟩ := merge_uncounted hn (sub_tidy tP ht hle)
  refine ⟨_, rfl, h1, fun ty => ?_⟩
  rw [h2, sub_units ht ty (hle ty), hu, uP]
  have := hl ty
  omega

theorem lendTotal_mem {l : List (UnitType × Nat)} {x : UnitType × Nat} (hx : x ∈ l) : x.2 ≤ lendTotal x.1 l := by
  induction l with
  | nil => cases hx
  | cons a l ih =>
    unfold lendTotal at *
    simp only [List.map_cons, List.sum_cons]
    rcases List.mem_cons.mp hx with rfl | hx
    · simp
    · have := ih hx; omega

/-- The slot a transaction starts with. -/
theorem txnSlot_spec {x : LendTxn} (hx : x.Proper U) {db : Db SVal} (hl : ∀ ty, lendTotal ty (lentOf db x.fid) ≤ x.bought ty) :
    ∃ s, x.slot db = .ok s ∧ s.isActive x.now = true ∧
      ∀ ty, (s.units ty).toNat + lendTotal ty (lentOf db x.fid) = x.bought ty := by
  refine slotOf_less hx.clock (mergeLends_tidy _ _) (fun ty => ?_) hx.rents hl hx.fits
  rw [mergeLends_units hx.clock]
  · have := hl ty; have := hx.fits ty; exact Nat.mod_eq_of_lt (by omega)
  · intro y hy
    have := lendTotal_mem hy; have := hl y.1; have := hx.fits y.1; omega

/-- What a transaction's user has bought, without what is pending. -/
theorem total_spec {x : LendTxn} (hn : x.now.toNat < 4294967295) {f : Nat}
    (hr : ∀ e ∈ x.rents f, Rental x.cfg.mainnet x.cfg.ext e)
    (hb : ∀ ty, purchased x.cfg.mainnet x.cfg.ext x.now.toNat ty (x.rents f) < 2 ^ 32) (ty : UnitType) :
    ((x.total f).units ty).toNat = purchased x.cfg.mainnet x.cfg.ext x.now.toNat ty (x.rents f) := by
  have hc : countedRents (x.rents f) [] f = x.rents f := by simp [countedRents]
  obtain ⟨s, h1, _, h2⟩ := slotOf_less (mainnet := x.cfg.mainnet) (ext := x.cfg.ext) (rents := x.rents f) (pending := [])
    (fid := f) (lent := uncounted) (l := fun _ => 0) hn (.inl (uncounted_active hn)) (fun ty => by rw [uncounted_units]; rfl)
    (by rw [hc]; exact hr) (fun ty => Nat.zero_le _) (by rw [hc]; exact hb)
  unfold LendTxn.total
  rw [h1]
  simp only []
  rw [← hc, ← h2 ty]; rfl

theorem fromLend_active {now : UInt32} (hn : now.toNat < 4294967295) (ty : UnitType) (n : Nat) :
    (Slot.fromLend ty n).isActive now = true := by
  rw [Slot.isActive_iff]; unfold Slot.fromLend; rw [ofType_until]; exact hn

theorem takeUnits_spec {now : UInt32} (hn : now.toNat < 4294967295) {s : Slot} (hs : s.isActive now = true) {m : Msg}
    (hle : ∀ ty, lendUnits ty m ≤ (s.units ty).toNat) :
    (takeUnits now s m).isActive now = true ∧
      ∀ ty, ((takeUnits now s m).units ty).toNat + lendUnits ty m = (s.units ty).toNat := by
  unfold takeUnits
  cases h : lendOf m with
  | none => exact ⟨hs, fun ty => by simp [lendUnits, h]⟩
  | some x =>
    obtain ⟨t, n⟩ := x
    simp only []
    have hn' : n < 2 ^ 32 := by
      have := hle t
      have := u32_lt (s.units t)
      simp [lendUnits, h] at *; omega
    have hu : ∀ ty, ((Slot.fromLend t n).units ty).toNat = lendUnits ty m := by
      intro ty
      unfold Slot.fromLend
      rw [ofType_units]
      simp only [lendUnits, h]
      split
      · simp only [UInt32.toNat_ofNat']; exact Nat.mod_eq_of_lt hn'
      · rfl
    refine ⟨by rw [sub_active]; exact hs, fun ty => ?_⟩
    rw [sub_units (.inl (fromLend_active hn t n)) ty (by rw [hu]; exact hle ty), hu]
    have := hle ty
    omega

theorem giveBack_spec {now : UInt32} (hn : now.toNat < 4294967295) {s : Slot} (hs : s.isActive now = true) {m : Msg}
    (hle : ∀ ty, (s.units ty).toNat + lendUnits ty m < 2 ^ 32) :
    (giveBack now s m).isActive now = true ∧
      ∀ ty, ((giveBack now s m).units ty).toNat = (s.units ty).toNat + lendUnits ty m := by
  unfold giveBack
  cases h : lendOf m with
  | none => exact ⟨hs, fun ty => by simp [lendUnits, h]⟩
  | some x =>
    obtain ⟨t, n⟩ := x
    simp only []
    have hn' : n < 2 ^ 32 := by
      have := hle t
      simp [lendUnits, h] at *; omega
    refine ⟨by rw [Slot.merge_active, hs]; rfl, fun ty => ?_⟩
    have hlive : (Slot.fromLend t n).live now ty = lendUnits ty m := by
      rw [fromLend_live hn (t, n) hn']; simp [lendUnits, h]
    rw [Slot.merge_units (.inl hs), hlive]
    exact Nat.mod_eq_of_lt (hle ty)

/-! ### One lend -/

/-- The loop invariant: consistent rows, exact storage left, what the transaction has changed. -/
structure LLoopInv (ctx : Nat → MergeCtx) (U : Msg → Prop) (x : LendTxn) (r : Nat) (L0 L1 L : List Msg) (st : StoreState)
    (y : LLoop) : Prop where
  inv : SafeInv lendStore (okIn .lends U) ctx L0 L { st with pend := y.s }
  active : y.slot.isActive x.now = true
  left : ∀ ty, (y.slot.units ty).toNat + sumOf (lentBy x.fid ty) L = x.bought ty
  bound : ∀ ty, sumOf (lentBy x.fid ty) L ≤ sumOf (lentBy x.fid ty) L1 ∨ sumOf (lentBy x.fid ty) L + r ≤ x.bought ty
  poor : ∀ ty, x.cfg.mainnet = true → ((x.total x.fid).units ty).toNat < 1000 →
    sumOf (lentBy x.fid ty) L ≤ sumOf (lentBy x.fid ty) L1
  others : ∀ g, g ≠ x.fid → ∀ ty, sumOf (lentBy g ty) L = sumOf (lentBy g ty) L1

/-- What an accepted lend does to the sums and to the storage left. -/
theorem accept_spec (hU : HashesIdentify U) {x : LendTxn} (hx : x.Proper U) {r : Nat} (hr : r = 0 ∨ (r = 1 ∧ x.cfg.fix = true))
    {L0 L1 L : List Msg} {st : StoreState} {y : LLoop} (h : LLoopInv ctx U x r L0 L1 L st y) {m : Msg}
    (hm : okIn .lends U m) (hf : m.fid = x.fid) {to u : Nat} {t : UnitType} (hb : m.body = .lend to u t) (hu : u ≤ 5000)
    (ha : admitLend x.cfg (x.total m.fid) y.slot u t = true) {old : List Msg}
    (hl : lendStore.liveMerge L m = (.ok old, m :: L.filter (fun z => lendStore.ak z ≠ lendStore.ak m))) {L' : List Msg}
    (hL : ∀ p : Msg → Nat, (u = 0 → p m = 0) → sumOf p L' = sumOf p (m :: L.filter (fun z => lendStore.ak z ≠ lendStore.ak m)))
    {s' : SSt} (hi : SafeInv lendStore (okIn .lends U) ctx L0 L' { st with pend := s' }) (out : List (Except HubErr (List StoreEvent))) :
    LLoopInv ctx U x r L0 L1 L' st ⟨s', onMerge x.now y.slot (.merge m old), out⟩ := by
  have H := l_lawful (U := U) hU
  have hn := hx.clock
  have hlo : lendOf m = some (t, u) := by simp [lendOf, hb]
  have hum : ∀ ty, lendUnits ty m = if t = ty then u else 0 := by intro ty; simp [lendUnits, hlo]
  have hbm : ∀ g ty, lentBy g ty m = if m.fid = g then (if t = ty then u else 0) else 0 := by
    intro g ty; simp only [lentBy, hum]
  have hL' : ∀ g ty, sumOf (lentBy g ty) L' = lentBy g ty m + sumOf (lentBy g ty) (L.filter (fun z => lendStore.ak z ≠ lendStore.ak m)) := by
    intro g ty
    rw [hL _ (by rintro rfl; rw [hbm]; simp), sumOf_cons]
  unfold admitLend at ha
  simp only [Bool.and_eq_true, Bool.not_eq_true', decide_eq_false_iff_not, Bool.and_eq_false_iff, UInt32.lt_iff_toNat_lt,
    UInt32.toNat_ofNat'] at ha
  obtain ⟨ha1, ha2⟩ := ha
  have hfit : u + (if x.cfg.fix = true then 1 else 0) ≤ (y.slot.units t).toNat := by
    have : (u + if x.cfg.fix = true then 1 else 0) % 2 ^ 32 = u + if x.cfg.fix = true then 1 else 0 :=
      Nat.mod_eq_of_lt (by split <;> omega)
    omega
  obtain ⟨hta, htu⟩ := takeUnits_spec hn h.active (m := m) (by
    intro ty; rw [hum]; split
    · subst t; split at hfit <;> omega
    · omega)
  have hru : r ≤ (if x.cfg.fix = true then 1 else 0) := by
    rcases hr with rfl | ⟨rfl, hfx⟩
    · omega
    · simp [hfx]
  have key : ∃ w : Nat → UnitType → Nat, (∀ g ty, sumOf (lentBy g ty) L = sumOf (lentBy g ty) (L.filter (fun z => lendStore.ak z ≠ lendStore.ak m)) + w g ty) ∧
      (∀ g, g ≠ x.fid → ∀ ty, w g ty = 0) ∧
      (onMerge x.now y.slot (.merge m old)).isActive x.now = true ∧
      ∀ ty, ((onMerge x.now y.slot (.merge m old)).units ty).toNat = ((takeUnits x.now y.slot m).units ty).toNat + w x.fid ty := by
    cases hfd : L.find? (fun z => lendStore.ak z = lendStore.ak m) with
    | none =>
      have hno : ∀ z ∈ L, lendStore.ak z ≠ lendStore.ak m := by simpa using List.find?_eq_none.1 hfd
      have hLe : L.filter (fun z => lendStore.ak z ≠ lendStore.ak m) = L := List.filter_eq_self.2 (by simpa using hno)
      unfold liveMerge at hl
      rw [hfd] at hl
      simp only [Prod.mk.injEq, Except.ok.injEq] at hl
      obtain ⟨rfl, _⟩ := hl
      refine ⟨fun _ _ => 0, fun g ty => by rw [hLe]; rfl, fun _ _ _ => rfl, ?_, ?_⟩
      · exact hta
      · intro ty; simp [onMerge]
    | some z =>
      have hz : z ∈ L := List.mem_of_find?_eq_some hfd
      have hze : lendStore.ak z = lendStore.ak m := by simpa using List.find?_some hfd
      have hzf : z.fid = m.fid := H.itemFid (h.inv.holds.valid z hz) hm hze
      have hold : old = [z] := by
        unfold liveMerge at hl
        rw [hfd] at hl
        simp only [] at hl
        split at hl
        · cases hl
        · split at hl
          · cases hl
          · simp only [Prod.mk.injEq, Except.ok.injEq] at hl; exact hl.1.symm
      subst hold
      have hw : ∀ ty, lentBy x.fid ty z = lendUnits ty z := by intro ty; simp [lentBy, hzf, hf]
      obtain ⟨hga, hgu⟩ := giveBack_spec hn hta (m := z) (by
        intro ty
        have h1 := htu ty
        have h2 := h.left ty
        have h3 := sumOf_mem_le (p := lentBy x.fid ty) hz
        have h4 := hx.fits ty
        rw [hw] at h3
        omega)
      refine ⟨fun g ty => lentBy g ty z, fun g ty => sumOf_item h.inv.holds.items hz hze _, ?_, ?_, ?_⟩
      · intro g hg ty
        have : ¬ z.fid = g := by rw [hzf, hf]; exact fun e => hg e.symm
        simp [lentBy, this]
      · exact hga
      · intro ty
        show ((giveBack x.now (takeUnits x.now y.slot m) z).units ty).toNat = _
        rw [hgu]; show _ = _ + lentBy x.fid ty z; rw [hw]
  obtain ⟨w, hw1, hw2, hw3, hw4⟩ := key
  refine ⟨hi, hw3, ?_, ?_, ?_, ?_⟩
  · intro ty
    have h1 := htu ty
    have h2 := h.left ty
    have h3 := hw1 x.fid ty
    have h4 := hL' x.fid ty
    rw [hbm, if_pos hf] at h4
    rw [hum] at h1
    simp only [hw4]
    omega
  · intro ty
    have h2 := h.left ty
    have h3 := hw1 x.fid ty
    have h4 := hL' x.fid ty
    rw [hbm, if_pos hf] at h4
    have h5 := h.bound ty
    by_cases e : t = ty
    · subst e
      right
      simp only [if_true] at h4
      split at hru <;> simp_all <;> omega
    · rw [if_neg e] at h4; omega
  · intro ty hmn hpo
    have h3 := hw1 x.fid ty
    have h4 := hL' x.fid ty
    rw [hbm, if_pos hf] at h4
    have h5 := h.poor ty hmn hpo
    by_cases e : t = ty
    · subst e
      exfalso
      rw [hf] at ha1
      have h1000 : (1000 : UInt32).toNat = 1000 := rfl
      rcases ha1 with ha1 | ha1
      · rw [hmn] at ha1; cases ha1
      · rw [h1000] at ha1; omega
    · rw [if_neg e] at h4; omega
  · intro g hg ty
    have h3 := hw1 g ty
    have h4 := hL' g ty
    have hgm : ¬ m.fid = g := by rw [hf]; exact fun e => hg e.symm
    rw [hbm, if_neg hgm] at h4
    have h5 := h.others g hg ty
    have h6 := hw2 g hg ty
    omega

theorem LLoopInv.refuse {x : LendTxn} {r : Nat} {L0 L1 L : List Msg} {st : StoreState} {y : LLoop}
    (h : LLoopInv ctx U x r L0 L1 L st y) (out : List (Except HubErr (List StoreEvent))) :
    LLoopInv ctx U x r L0 L1 L st { y with out := out } :=
  ⟨h.inv, h.active, h.left, h.bound, h.poor, h.others⟩

/-- The lend as stored: gone again if it lends nothing. -/
theorem pruneZero_spec (H : lendStore.Lawful (okIn .lends U)) {m : Msg} {to u : Nat} {t : UnitType} (hb : m.body = .lend to u t)
    {db : Db SVal} {L : List Msg} {s : SSt} (h : lendStore.Holds (okIn .lends U) ctx (m :: L) (viewOf db s.txn)) {e : StoreEvent} :
    ∃ L' s' evs, lendPruneZero m e s = (.ok evs, s') ∧ (∀ now slot, evs.foldl (onMerge now) slot = onMerge now slot e) ∧
      lendStore.Holds (okIn .lends U) ctx L' (viewOf db s'.txn) ∧
      (∀ p : Msg → Nat, (u = 0 → p m = 0) → sumOf p L' = sumOf p (m :: L)) ∧
      Frame lendStore (okIn .lends U) (viewOf db s.txn) (viewOf db s'.txn) := by
  unfold lendPruneZero
  rw [hb]
  cases u with
  | zero =>
    obtain ⟨s2, h1, h2, h3⟩ := pruneMessage_spec H h (m := m) (by simp)
    rcases h1 with h1 | h1 <;> simp only [h1]
    · exact ⟨_, _, _, rfl, fun _ _ => rfl, h2, fun p hp => sumOf_drop (hp (by trivial)) _, h3⟩
    · exact ⟨_, _, _, rfl, fun _ _ => rfl, h2, fun p hp => sumOf_drop (hp (by trivial)) _, h3⟩
  | succ n => exact ⟨_, _, _, rfl, fun _ _ => rfl, h, fun _ _ => rfl, Frame.refl _⟩

theorem lStep_spec (hU : HashesIdentify U) {x : LendTxn} (hx : x.Proper U) {r : Nat}
    (hr : r = 0 ∨ (r = 1 ∧ x.cfg.fix = true)) {L0 L1 L : List Msg} {st : StoreState} {y : LLoop}
    (h : LLoopInv ctx U x r L0 L1 L st y) {m : Msg} (hmm : m ∈ x.msgs) :
    ∃ o, (lStep ctx st.db x.cfg x.now x.total y m).out = y.out ++ [o] ∧ (o ≠ .error .invalidParameter →
      ∃ L', LLoopInv ctx U x r L0 L1 L' st (lStep ctx st.db x.cfg x.now x.total y m)) := by
  have H := l_lawful (U := U) hU
  obtain ⟨hv, hUm, hf⟩ := hx.msgs m hmm
  have hm : okIn .lends U m := ⟨hv, hUm⟩
  obtain ⟨to, u, t, hb, hto⟩ := l_body hv
  have hu := hx.size m hmm to u t hb
  have hh : lendStore.Holds (okIn .lends U) ctx L (viewOf st.db y.s.txn) := h.inv.holds
  unfold lStep
  rw [hb]
  simp only []
  by_cases ha : admitLend x.cfg (x.total m.fid) y.slot u t = true
  · rw [if_pos ha]
    have hbl : CompactFree lendStore m (viewOf st.db y.s.txn) :=
      CompactFree.of_blank (kind_compactOut (channelOf := fun _ => none) .lends hU) h.inv.blank hm
    unfold lendMerge
    rcases merge_spec H hh hm hbl with ⟨e, hl, he, hr'⟩ | ⟨old, s', hl, hr', hh', hfr⟩
    · rw [SM.bind_error hr']
      exact ⟨_, rfl, fun _ => ⟨L, h.refuse _⟩⟩
    · rcases hr' with hr' | hr'
      · rw [SM.bind_ok hr']
        rcases pruneZero_spec H hb hh' with ⟨L', s2, evs, h1, h2, h3, h4, h5⟩
        rw [h1]
        refine ⟨_, rfl, fun _ => ⟨L', ?_⟩⟩
        have := accept_spec hU hx hr h hm hf hb hu ha hl h4 (safe_pend h.inv h3 (hfr.trans h5)) (y.out ++ [.ok evs])
        rw [← h2] at this
        exact this
      · rw [SM.bind_error hr']
        exact ⟨_, rfl, fun hne => absurd rfl hne⟩
  · rw [if_neg ha]
    exact ⟨_, rfl, fun _ => ⟨L, h.refuse _⟩⟩

theorem lLoop_spec (hU : HashesIdentify U) {x : LendTxn} (hx : x.Proper U) {r : Nat}
    (hr : r = 0 ∨ (r = 1 ∧ x.cfg.fix = true)) {L0 L1 : List Msg} {st : StoreState} (ms : List Msg) :
    ∀ {L : List Msg} {y : LLoop}, LLoopInv ctx U x r L0 L1 L st y → (∀ m ∈ ms, m ∈ x.msgs) →
    .error .invalidParameter ∉ (ms.foldl (lStep ctx st.db x.cfg x.now x.total) y).out →
    ∃ L', LLoopInv ctx U x r L0 L1 L' st (ms.foldl (lStep ctx st.db x.cfg x.now x.total) y) := by
  have hout : ∀ (ms : List Msg) (y : LLoop), y.out <+: (ms.foldl (lStep ctx st.db x.cfg x.now x.total) y).out := by
    intro ms
    induction ms with
    | nil => intro y; exact List.prefix_refl _
    | cons m ms ih =>
      intro y
      refine List.IsPrefix.trans ?_ (ih _)
      unfold lStep
      repeat' split
      all_goals first | exact List.prefix_append .. | exact List.prefix_refl _
  induction ms with
  | nil => intro L y h _ _; exact ⟨L, h⟩
  | cons m ms ih =>
    intro L y h hms hno
    obtain ⟨o, ho, hs⟩ := lStep_spec hU hx hr h (hms m (by simp))
    have : o ≠ .error .invalidParameter := by
      rintro rfl
      exact hno ((hout ms _).subset (by rw [ho]; simp))
    obtain ⟨L', h'⟩ := hs this
    exact ih h' (fun z hz => hms z (by simp [hz])) hno

/-! ### Histories -/

/-- The invariant of a history. -/
structure LHist (ctx : Nat → MergeCtx) (U : Msg → Prop) (r : Nat) (Q : Nat → UnitType → Nat) (seen : List Nat)
    (L0 L : List Msg) (st : StoreState) : Prop where
  inv : SafeInv lendStore (okIn .lends U) ctx L0 L st
  same : ∀ f, f ∉ seen → ∀ ty, sumOf (lentBy f ty) L = sumOf (lentBy f ty) L0
  bound : ∀ f ty, sumOf (lentBy f ty) L = 0 ∨ sumOf (lentBy f ty) L + r ≤ Q f ty
  bound0 : ∀ f ty, sumOf (lentBy f ty) L0 = 0 ∨ sumOf (lentBy f ty) L0 + r ≤ Q f ty

/-- The start of a transaction. -/
theorem LHist.loop (hU : HashesIdentify U) {r : Nat} {Q : Nat → UnitType → Nat} {seen : List Nat} {L0 L : List Msg}
    {st : StoreState} (h : LHist ctx U r Q seen L0 L st) {x : LendTxn} (hx : x.Proper U) (hs : x.fid ∉ seen)
    (hq : ∀ ty, Q x.fid ty ≤ x.bought ty) :
    ∃ slot, x.slot st.db = .ok slot ∧ LLoopInv ctx U x r L0 L L st ⟨st.pend, slot, []⟩ := by
  have he : ∀ ty, lendTotal ty (lentOf st.db x.fid) = sumOf (lentBy x.fid ty) L0 := fun ty => lentOf_eq hU h.inv.committed hx.fid ty
  obtain ⟨slot, h1, h2, h3⟩ := txnSlot_spec hx (db := st.db) (by
    intro ty; rw [he]
    have := hq ty
    rcases h.bound0 x.fid ty with h | h <;> omega)
  refine ⟨slot, h1, h.inv, h2, fun ty => ?_, fun ty => .inl (Nat.le_refl _), fun ty _ _ => Nat.le_refl _, fun _ _ _ => rfl⟩
  rw [h.same x.fid hs ty, ← he]; exact h3 ty

theorem lExec_txn (hU : HashesIdentify U) {r : Nat} {Q : Nat → UnitType → Nat} {seen : List Nat} {L0 L : List Msg}
    {st : StoreState} (h : LHist ctx U r Q seen L0 L st) {x : LendTxn} (hr : r = 0 ∨ (r = 1 ∧ x.cfg.fix = true))
    (hx : x.Proper U) (hs : x.fid ∉ seen) (hq : ∀ ty, Q x.fid ty ≤ x.bought ty)
    (hno : ∀ y, lTxn ctx st x = .ok y → .error .invalidParameter ∉ y.out) :
    ∃ y L', lTxn ctx st x = .ok y ∧ LLoopInv ctx U x r L0 L L' st y ∧
      LHist ctx U r (setBought Q x) (x.fid :: seen) L0 L' (lExec ctx st (.txn x)) := by
  obtain ⟨slot, h1, h2⟩ := h.loop hU hx hs hq
  have ht : lTxn ctx st x = .ok (x.msgs.foldl (lStep ctx st.db x.cfg x.now x.total) ⟨st.pend, slot, []⟩) := by
    unfold lTxn; rw [h1]
  obtain ⟨L', hl⟩ := lLoop_spec hU hx hr x.msgs h2 (fun _ h => h) (hno _ ht)
  refine ⟨_, L', ht, hl, ?_⟩
  simp only [lExec, ht]
  refine ⟨hl.inv, ?_, ?_, ?_⟩
  · intro f hf ty
    simp only [List.mem_cons, not_or] at hf
    rw [hl.others f hf.1 ty, h.same f hf.2 ty]
  · intro f ty
    unfold setBought
    by_cases e : f = x.fid
    · subst e
      rw [if_pos rfl]
      have h1 := hl.bound ty
      have h2 := h.bound x.fid ty
      have h3 := hq ty
      omega
    · rw [if_neg e, hl.others f e ty]; exact h.bound f ty
  · intro f ty
    unfold setBought
    by_cases e : f = x.fid
    · subst e
      rw [if_pos rfl]
      have h2 := h.bound0 x.fid ty
      have h3 := hq ty
      omega
    · rw [if_neg e]; exact h.bound0 f ty

theorem lRun_rest (hU : HashesIdentify U) {r : Nat} (rest ops : List LOp) :
    ∀ {Q : Nat → UnitType → Nat} {seen : List Nat} {L0 L : List Msg} {st : StoreState}, LHist ctx U r Q seen L0 L st →
    LFair ctx U Q seen st (ops ++ rest) → (r = 0 ∨ (r = 1 ∧ WithReserve ops)) →
    ∃ seen' L0' L', LHist ctx U r (ops.foldl (fun Q op => match op with | .txn x => setBought Q x | _ => Q) Q) seen' L0' L'
      (lRun ctx st ops) ∧
      LFair ctx U (ops.foldl (fun Q op => match op with | .txn x => setBought Q x | _ => Q) Q) seen' (lRun ctx st ops) rest := by
  induction ops with
  | nil => intro Q seen L0 L st h hp _; exact ⟨seen, L0, L, h, hp⟩
  | cons op ops ih =>
    intro Q seen L0 L st h hp hr
    rw [List.cons_append] at hp
    have hr' : r = 0 ∨ (r = 1 ∧ WithReserve ops) := hr.imp id (fun h => ⟨h.1, fun x hx => h.2 x (by simp [hx])⟩)
    cases op with
    | txn x =>
      obtain ⟨hx, hs, hq, hno, hp⟩ := hp
      obtain ⟨y, L', _, _, h'⟩ := lExec_txn hU h (hr.imp id (fun h => ⟨h.1, h.2 x (by simp)⟩)) hx hs hq hno
      exact ih h' hp hr'
    | commit =>
      refine ih (L0 := L) (L := L) ?_ hp hr'
      exact ⟨⟨⟨holds_commit h.inv.holds, holds_commit h.inv.holds⟩, fun k hk hs => by
        show (Db.commit st.db st.pend.txn).get k = none
        rw [Db.get_commit]; exact h.inv.blank k hk hs, fun k hk hs => by
        show (Db.commit st.db st.pend.txn).get k = none
        rw [Db.get_commit]; exact h.inv.blank k hk hs⟩, fun _ _ _ => rfl, h.bound, h.bound⟩
    | drop =>
      refine ih (L0 := L0) (L := L0) ?_ hp hr'
      exact ⟨⟨⟨h.inv.committed, h.inv.committed⟩, h.inv.blank0, h.inv.blank0⟩, fun _ _ _ => rfl, h.bound0, h.bound0⟩
    | block n =>
      refine ih (L0 := L0) (L := L) ?_ hp hr'
      exact ⟨⟨⟨h.inv.committed, h.inv.holds⟩, h.inv.blank0, h.inv.blank⟩, h.same, h.bound, h.bound0⟩

theorem lRun_spec (hU : HashesIdentify U) {r : Nat} (ops : List LOp) {Q : Nat → UnitType → Nat} {seen : List Nat} {L0 L : List Msg}
    {st : StoreState} (h : LHist ctx U r Q seen L0 L st) (hp : LFair ctx U Q seen st ops)
    (hr : r = 0 ∨ (r = 1 ∧ WithReserve ops)) :
    ∃ seen' L0' L', LHist ctx U r (ops.foldl (fun Q op => match op with | .txn x => setBought Q x | _ => Q) Q) seen' L0' L'
      (lRun ctx st ops) := by
  obtain ⟨s', a, b, h', _⟩ := lRun_rest hU [] ops h (by rw [List.append_nil]; exact hp) hr
  exact ⟨s', a, b, h'⟩

theorem lHist_init {r : Nat} {Q : Nat → UnitType → Nat} : LHist ctx U r Q [] [] [] {} :=
  ⟨kind_init (channelOf := fun _ => none) .lends, fun _ _ _ => rfl, fun _ _ => .inl rfl, fun _ _ => .inl rfl⟩

/-! ### What is borrowed -/

/-- The index key of a lend. -/
def lendIdx (m : Msg) : Bytes := 22 :: (makeFidKey (lendTo m) ++ makeFidKey m.fid)

theorem lendIdx_inj {a b : Msg} (ha : StoreKind.lends.Valid a) (hb : StoreKind.lends.Valid b) (h : lendIdx a = lendIdx b) :
    lendTo a = lendTo b ∧ a.fid = b.fid := by
  obtain ⟨to, u, t, e, h1⟩ := l_body ha
  obtain ⟨to', u', t', e', h1'⟩ := l_body hb
  have ea : lendTo a = to := by simp [lendTo, e]
  have eb : lendTo b = to' := by simp [lendTo, e']
  unfold lendIdx makeFidKey at h
  simp only [List.cons.injEq, true_and] at h
  obtain ⟨h2, h3⟩ := List.append_inj h (by simp [be_length])
  rw [ea, eb] at h2 ⊢
  exact ⟨be_inj (w := 4) h1 h1' h2, be_inj (w := 4) ha.2.1 hb.2.1 h3⟩

/-- The rows of the index are those of the live lends. -/
theorem lendIdx_rows (hU : HashesIdentify U) {L0 L : List Msg} {st : StoreState}
    (h : SafeInv lendStore (okIn .lends U) ctx L0 L st) (k : Bytes) (hk : k.head? = some 22) :
    (∃ v, st.db.get k = some v) ↔ ∃ m ∈ L0, lendIdx m = k := by
  have H := l_lawful (U := U) hU
  have h' : KindInv .lends (fun _ => none) ctx U L0 L0 (lExec ctx st .drop) :=
    ⟨⟨h.committed, h.committed⟩, h.blank0, h.blank0⟩
  have hev : ∀ id, k ≠ eventKey id := by
    intro id e
    rw [e] at hk
    simp [eventKey] at hk
  have hv : ∀ v, st.db.get k = some v ↔ _ := kind_view .lends noNaming hU h' k hev
  constructor
  · rintro ⟨v, hg⟩
    obtain ⟨m, h1, h2, h3, r, h4, h5⟩ := (hv v).1 hg
    have hm : m ∈ L0 := (h'.has_iff H m).1 h3
    obtain ⟨to, u, t, e, _⟩ := l_body h1
    refine ⟨m, hm, ?_⟩
    simp only [StoreKind.rows, e, List.mem_cons, Prod.mk.injEq, List.not_mem_nil, or_false] at h4
    rcases h4 with ⟨rfl, _⟩ | ⟨rfl, _⟩ | ⟨rfl, _⟩
    · rw [h5] at hk; simp [RowKey.bytes, makeMessagePrimaryKey, makeUserKey] at hk
    · rw [h5] at hk; simp [RowKey.bytes, makeUserKey] at hk
    · rw [h5]; simp [lendIdx, lendTo, e, RowKey.bytes]
  · rintro ⟨m, hm, e⟩
    have hmo := h'.holds.valid m hm
    obtain ⟨to, u, t, eb, _⟩ := l_body hmo.1
    refine ⟨.raw [1], (hv _).2 ⟨m, hmo.1, hmo.2, (h'.has_iff H m).2 hm, .lendByRecipient to m.fid, ?_, ?_⟩⟩
    · simp [StoreKind.rows, eb]
    · rw [← e]; simp [lendIdx, lendTo, eb, RowKey.bytes]

theorem lendIdx_partial {m : Msg} (hm : StoreKind.lends.Valid m) :
    readFidKey (lendIdx m) 5 = some m.fid ∧ readFidKey (lendIdx m) 1 = some (lendTo m) := by
  obtain ⟨to, u, t, e, h1⟩ := l_body hm
  have ea : lendTo m = to := by simp [lendTo, e]
  have l1 : (makeFidKey (lendTo m)).length = 4 := be_length ..
  have l2 : (makeFidKey m.fid).length = 4 := be_length ..
  have hl : (lendIdx m).length = 9 := by simp [lendIdx, l1, l2]
  unfold readFidKey
  rw [if_pos (by omega), if_pos (by omega)]
  constructor
  · have : (lendIdx m).drop 5 = makeFidKey m.fid := by
      show (makeFidKey (lendTo m) ++ makeFidKey m.fid).drop 4 = _
      rw [← l1, List.drop_left]
    rw [this, List.take_of_length_le (by omega)]
    unfold makeFidKey
    rw [fromBe_be_of_lt (by have := hm.2.1; omega)]
  · have : (lendIdx m).drop 1 = makeFidKey (lendTo m) ++ makeFidKey m.fid := rfl
    rw [this, ← l1, List.take_left]
    unfold makeFidKey
    rw [fromBe_be_of_lt (by omega)]

theorem borrowedRow_eq (hU : HashesIdentify U) {db : Db SVal} {L : List Msg}
    (h : lendStore.Holds (okIn .lends U) ctx L (viewOf db OMap.empty)) {m : Msg} (hm : m ∈ L) :
    borrowedRow db (lendIdx m) = lendOf m := by
  have H := l_lawful (U := U) hU
  have hmo := h.valid m hm
  obtain ⟨to, u, t, e, h1⟩ := l_body hmo.1
  have ea : lendTo m = to := by simp [lendTo, e]
  obtain ⟨p1, p2⟩ := lendIdx_partial hmo.1
  unfold borrowedRow
  rw [p1, p2]
  simp only []
  have hg : lendStore.getAdd db OMap.empty (lendPartial m.fid (lendTo m)) = lendStore.getAdd db OMap.empty m := by
    have : lendStore.addKey (lendPartial m.fid (lendTo m)) = lendStore.addKey m := by
      simp [lendStore, lendPartial, e, ea]
    unfold getAdd
    rw [this]; rfl
  rw [hg]
  have h0 : m.fid ≠ 0 := by have := hmo.1.1; omega
  rcases getAdd_eq (t := OMap.empty) H h hmo h0 with ⟨z, hz, ez, _, hr⟩ | ⟨hn, _⟩
  · have := h.unique hz hm ez; subst this
    rw [hr]
  · have := hn m hm rfl
    rw [l_isAdd hmo.1] at this; cases this

/-- Units of a type a user borrows. -/
def borrowedBy (f : Nat) (ty : UnitType) (m : Msg) : Nat := if lendTo m = f then lendUnits ty m else 0

/-- The index rows of a borrower are found by a scan. -/
theorem lend_scan (hU : HashesIdentify U) {L0 L : List Msg} {st : StoreState}
    (h : SafeInv lendStore (okIn .lends U) ctx L0 L st) (f : Nat) :
    scanRows st.db (22 :: makeFidKey f) (incrementVec (22 :: makeFidKey f)) false =
      rowsStartingWith st.db (22 :: makeFidKey f) := by
  have hp : ∃ b ∈ (22 :: makeFidKey f : Bytes), b ≠ 255 := ⟨22, by simp, by decide⟩
  have hshort : NoShortKey st.db (22 :: makeFidKey f) := by
    apply noShortKey_of_length _ _ hp
    intro r hr
    have hl5 : (22 :: makeFidKey f : Bytes).length = 5 := by simp [makeFidKey, be_length]
    rw [hl5]
    by_cases hev : ∃ id, r.1 = eventKey id
    · obtain ⟨id, e⟩ := hev
      rw [e]; simp [eventKey, be_length]
    · have h' : KindInv .lends (fun _ => none) ctx U L0 L0 (lExec ctx st .drop) :=
        ⟨⟨h.committed, h.committed⟩, h.blank0, h.blank0⟩
      obtain ⟨m, h1, h2, h3, k, h4, h5⟩ := (kind_view .lends noNaming hU h' r.1 (fun id e => hev ⟨id, e⟩) r.2).1
        ((OMap.get_eq_some_iff st.db).mpr hr)
      obtain ⟨to, u, t, e, _⟩ := l_body h1
      simp only [StoreKind.rows, e, List.mem_cons, Prod.mk.injEq, List.not_mem_nil, or_false] at h4
      rcases h4 with ⟨rfl, _⟩ | ⟨rfl, _⟩ | ⟨rfl, _⟩ <;> rw [h5] <;>
        simp [RowKey.bytes, makeMessagePrimaryKey, makeUserKey, makeFidKey, be_length]
  exact scan_prefix_eq st.db _ hp hshort false

/-- What a user borrows, from the live messages. -/
theorem borrowedOf_eq (hU : HashesIdentify U) {L0 L : List Msg} {st : StoreState}
    (h : SafeInv lendStore (okIn .lends U) ctx L0 L st) {f : Nat} (hf : f < 2 ^ 32) (ty : UnitType) :
    lendTotal ty (borrowedOf st.db f) = sumOf (borrowedBy f ty) L0 := by
  have hh : lendStore.Holds (okIn .lends U) ctx L0 (viewOf st.db OMap.empty) := h.committed
  have hscan := lend_scan hU h f
  unfold borrowedOf
  rw [hscan]
  have hfm : ∀ l : List (Bytes × SVal), l.filterMap (fun r => borrowedRow st.db r.1) = (l.map (·.1)).filterMap (borrowedRow st.db) := by
    intro l; rw [List.filterMap_map]; rfl
  rw [hfm]
  have hperm : ((rowsStartingWith st.db (22 :: makeFidKey f)).map (·.1)).Perm ((L0.filter (fun m => lendTo m = f)).map lendIdx) := by
    rw [List.perm_ext_iff_of_nodup]
    · intro k
      simp only [List.mem_map, rowsStartingWith, List.mem_filter, List.isPrefixOf_iff_prefix, decide_eq_true_eq]
      constructor
      · rintro ⟨⟨k', v⟩, ⟨hr, hpre⟩, rfl⟩
        have hk : (k' : Bytes).head? = some 22 := by
          obtain ⟨t, ht⟩ := hpre
          simp only [] at ht
          rw [← ht]; rfl
        obtain ⟨m, hm, e⟩ := (lendIdx_rows hU h k' hk).1 ⟨v, (OMap.get_eq_some_iff st.db).mpr hr⟩
        refine ⟨m, ⟨hm, ?_⟩, e⟩
        have hv := (hh.valid m hm).1
        simp only [] at hpre
        rw [← e] at hpre
        obtain ⟨t, ht⟩ := hpre
        unfold lendIdx at ht
        simp only [List.cons_append, List.cons.injEq, true_and] at ht
        have := (List.append_inj ht (by simp [makeFidKey, be_length])).1
        obtain ⟨to, u, t', e', h1⟩ := l_body hv
        have ea : lendTo m = to := by simp [lendTo, e']
        rw [ea] at this ⊢
        exact (be_inj (w := 4) hf h1 this).symm
      · rintro ⟨m, ⟨hm, e⟩, rfl⟩
        obtain ⟨v, hv⟩ := (lendIdx_rows hU h (lendIdx m) rfl).2 ⟨m, hm, rfl⟩
        refine ⟨(lendIdx m, v), ⟨(OMap.get_eq_some_iff st.db).mp hv, ?_⟩, rfl⟩
        exact ⟨makeFidKey m.fid, by simp [lendIdx, e]⟩
    · have hs : (rowsStartingWith st.db (22 :: makeFidKey f)).Pairwise (fun a b => a.1 ≺ b.1) :=
        List.Pairwise.sublist List.filter_sublist st.db.sorted
      rw [List.Nodup, List.pairwise_map]
      refine hs.imp ?_
      intro a b hlt heq
      rw [heq] at hlt
      exact absurd hlt (by show ¬ Bytes.blt _ _ = true; rw [Bytes.blt_irrefl]; simp)
    · rw [List.Nodup, List.pairwise_map]
      have := (hh.items.sublist (List.filter_sublist (p := fun m => lendTo m = f))) 
      refine List.Pairwise.imp_of_mem ?_ this
      intro a b ha hb hne e
      have va := (hh.valid a (List.mem_filter.1 ha).1)
      have vb := (hh.valid b (List.mem_filter.1 hb).1)
      obtain ⟨e1, e2⟩ := lendIdx_inj va.1 vb.1 e
      exact hne (by
        obtain ⟨to, u, t, eb, _⟩ := l_body va.1
        obtain ⟨to', u', t', eb', _⟩ := l_body vb.1
        simp [lendTo, eb, eb'] at e1
        simp [ak, lendStore, eb, eb', e1, e2])
  have hcongr : ((L0.filter (fun m => lendTo m = f)).map lendIdx).filterMap (borrowedRow st.db) =
      (L0.filter (fun m => lendTo m = f)).filterMap lendOf := by
    rw [List.filterMap_map]
    have : ∀ l : List Msg, (∀ m ∈ l, m ∈ L0) → l.filterMap (borrowedRow st.db ∘ lendIdx) = l.filterMap lendOf := by
      intro l
      induction l with
      | nil => intro _; rfl
      | cons a l ih =>
        intro hl
        have e : (borrowedRow st.db ∘ lendIdx) a = lendOf a := borrowedRow_eq hU hh (hl a (by simp))
        rw [List.filterMap_cons, List.filterMap_cons, e, ih (fun m hm => hl m (by simp [hm]))]
    exact this _ (fun m hm => (List.mem_filter.1 hm).1)
  have hsum : ∀ {l l' : List (UnitType × Nat)}, l.Perm l' → lendTotal ty l = lendTotal ty l' := fun h => (h.map _).sum_nat
  rw [hsum (hperm.filterMap _), hcongr, lendTotal_filterMap, sumOf_filter]
  unfold borrowedBy
  simp

/-- Every unit is counted at exactly one user of a list that covers the messages. -/
theorem sumOf_users {L : List Msg} (g : Msg → Nat) (p : Msg → Nat) {users : List Nat} (hn : users.Nodup)
    (hc : ∀ m ∈ L, g m ∈ users) : (users.map (fun f => sumOf (fun m => if g m = f then p m else 0) L)).sum = sumOf p L := by
  induction L with
  | nil => simp only [sumOf_nil]; clear hn hc; induction users with
    | nil => rfl
    | cons u us ih => rw [List.map_cons, List.sum_cons, ih]
  | cons a l ih =>
    have one : ∀ us : List Nat, us.Nodup → (us.map (fun f => if g a = f then p a else 0)).sum = if g a ∈ us then p a else 0 := by
      intro us
      induction us with
      | nil => intro _; simp
      | cons u us ihu =>
        intro hn
        have hn' := List.nodup_cons.1 hn
        simp only [List.map_cons, List.sum_cons, ihu hn'.2, List.mem_cons]
        by_cases e : g a = u
        · have : ¬ g a ∈ us := by rw [e]; exact hn'.1
          rw [if_pos e, if_neg this, if_pos (.inl e)]; omega
        · by_cases e' : g a ∈ us
          · rw [if_neg e, if_pos e', if_pos (.inr e')]; omega
          · rw [if_neg e, if_neg e', if_neg (by simp [e, e'])]
    have add : ∀ us : List Nat, (us.map (fun f => sumOf (fun m => if g m = f then p m else 0) (a :: l))).sum =
        (us.map (fun f => if g a = f then p a else 0)).sum +
          (us.map (fun f => sumOf (fun m => if g m = f then p m else 0) l)).sum := by
      intro us
      induction us with
      | nil => rfl
      | cons u us ihu => simp only [sumOf_cons] at ihu; simp only [List.map_cons, List.sum_cons, sumOf_cons]; omega
    rw [add, one users hn, if_pos (hc a (by simp)), ih (fun m hm => hc m (by simp [hm])), sumOf_cons]

end Verif
