import Verif.Model.VerificationCap
import Verif.Lemmas.StoreSafe
import Verif.Lemmas.TrieGood
/-! The verification caps over histories. -/
namespace Verif
open StoreDef

variable {U : Msg → Prop} {ctx : Nat → MergeCtx}

/-- The verification store is one of the kinds. -/
theorem noNaming : ChannelNaming (fun _ => none) := ⟨by simp, by simp⟩

/-- The invariant of the verification store. -/
abbrev VInv (ctx : Nat → MergeCtx) (U : Msg → Prop) := KindInv .verifications (fun _ => none) ctx U

theorem v_lawful (hU : HashesIdentify U) : verificationStore.Lawful (okIn .verifications U) :=
  kind_lawful .verifications noNaming hU

/-- A user's messages of one type. -/
def ofType (f : Nat) (ty : MessageType) (m : Msg) : Bool := decide (m.fid = f) && decide (m.ty = ty)

/-- The counts of a list of messages. -/
def countsOf (L : List Msg) (f : Nat) : VCounts :=
  ⟨L.countP (ofType f .verificationAdd), L.countP (ofType f .verificationRemove)⟩

theorem countP_eq_of_mem {l l' : List Msg} (hn : l.Nodup) (hn' : l'.Nodup) {p q : Msg → Bool}
    (h : ∀ m, (m ∈ l ∧ p m = true) ↔ (m ∈ l' ∧ q m = true)) : l.countP p = l'.countP q := by
  rw [List.countP_eq_length_filter, List.countP_eq_length_filter]
  apply Nat.le_antisymm
  · exact Tree.Good.length_le_of_subset (hn.sublist List.filter_sublist)
      (fun x hx => List.mem_filter.2 ((h x).1 (List.mem_filter.1 hx)))
  · exact Tree.Good.length_le_of_subset (hn'.sublist List.filter_sublist)
      (fun x hx => List.mem_filter.2 ((h x).2 (List.mem_filter.1 hx)))

theorem holds_nodup {D : StoreDef} {ok : Msg → Prop} {L : List Msg} {V : View} (h : D.Holds ok ctx L V) : L.Nodup :=
  h.items.imp (fun hne e => hne (by rw [e]))

/-- Counting the stored rows of a view. -/
theorem stored_countP (hU : HashesIdentify U) {db : Db SVal} {L : List Msg}
    (h : verificationStore.Holds (okIn .verifications U) ctx L (viewOf db OMap.empty)) {f : Nat} (hf : f < 2 ^ 32)
    (ty : MessageType) :
    (storedMessages verificationStore db f).countP (·.ty = ty) = L.countP (ofType f ty) := by
  apply countP_eq_of_mem (stored_nodup (v_lawful hU) h hf) (holds_nodup h)
  intro m
  rw [mem_stored (v_lawful hU) h hf]
  simp [ofType, and_assoc]

theorem holds_commit {D : StoreDef} {ok : Msg → Prop} {L : List Msg} {db : Db SVal} {t : Txn SVal}
    (h : D.Holds ok ctx L (viewOf db t)) : D.Holds ok ctx L (viewOf (Db.commit db t) OMap.empty) :=
  h.congr (fun k _ => by
    show (Db.commit db t).get k = _
    rw [Db.get_commit]; rfl)

theorem verificationCounts_eq (hU : HashesIdentify U) {db : Db SVal} {t : Txn SVal} {L : List Msg}
    (h : verificationStore.Holds (okIn .verifications U) ctx L (viewOf db t)) {f : Nat} (hf : f < 2 ^ 32) :
    verificationCounts db t f = countsOf L f := by
  unfold verificationCounts countsOf
  simp only [stored_countP hU (holds_commit h) hf]

theorem v_type {m : Msg} (h : StoreKind.verifications.Valid m) :
    (m.ty = .verificationAdd ∧ (∃ a, m.body = .verificationAdd a) ∧ verificationStore.isAdd m = true) ∨
    (m.ty = .verificationRemove ∧ (∃ a, m.body = .verificationRemove a) ∧ verificationStore.isAdd m = false) := by
  rcases h.2.2.2.2 with ⟨h1, a, h2, _⟩ | ⟨h1, a, h2, _⟩
  · exact .inl ⟨h1, ⟨a, h2⟩, by simp [StoreDef.isAdd, verificationStore, h1]⟩
  · exact .inr ⟨h1, ⟨a, h2⟩, by simp [StoreDef.isAdd, verificationStore, h1]⟩

/-- The type of the live message about an item. -/
theorem logicalKeyType_eq (hU : HashesIdentify U) {db : Db SVal} {t : Txn SVal} {L : List Msg}
    (h : verificationStore.Holds (okIn .verifications U) ctx L (viewOf db t)) {m : Msg} (hm : okIn .verifications U m) :
    logicalKeyType db t m =
      .ok ((L.find? (fun x => verificationStore.ak x = verificationStore.ak m)).map verificationStore.isAdd) := by
  have H := v_lawful hU
  have h0 : m.fid ≠ 0 := by have := hm.1.1; omega
  unfold logicalKeyType
  cases hf : L.find? (fun x => verificationStore.ak x = verificationStore.ak m) with
  | none =>
    have hn : ∀ x ∈ L, verificationStore.ak x ≠ verificationStore.ak m := by simpa using List.find?_eq_none.1 hf
    rcases getAdd_eq (t := t) H h hm h0 with ⟨x, hx, e, _⟩ | ⟨_, hg⟩
    · exact absurd e (hn x hx)
    rcases getRemove_eq (t := t) H h hm h0 rfl with ⟨x, hx, e, _⟩ | ⟨_, hr⟩
    · exact absurd e (hn x hx)
    rw [hg]; simp only [hr]; rfl
  | some y =>
    have hy : y ∈ L := List.mem_of_find?_eq_some hf
    have hye : verificationStore.ak y = verificationStore.ak m := by simpa using List.find?_some hf
    rcases getAdd_eq (t := t) H h hm h0 with ⟨x, hx, e, ha, hg⟩ | ⟨hno, hg⟩
    · rw [hg]
      have := h.unique hx hy (e.trans hye.symm); subst this
      simp [ha]
    · rw [hg]
      rcases getRemove_eq (t := t) H h hm h0 rfl with ⟨x, hx, e, ha, hr⟩ | ⟨hno', hr⟩
      · simp only [hr]
        have := h.unique hx hy (e.trans hye.symm); subst this
        simp [ha]
      · have h1 := hno y hy hye
        rw [hno' y hy hye] at h1; cases h1

/-- Taking one item out of the live messages. -/
theorem countP_item {D : StoreDef} {L : List Msg} (hp : L.Pairwise (fun a b => D.ak a ≠ D.ak b)) {x m : Msg} (hx : x ∈ L)
    (e : D.ak x = D.ak m) (p : Msg → Bool) :
    L.countP p = (L.filter (fun y => D.ak y ≠ D.ak m)).countP p + (if p x then 1 else 0) := by
  induction L with
  | nil => cases hx
  | cons a l ih =>
    have hp' := List.pairwise_cons.1 hp
    rcases List.mem_cons.1 hx with rfl | hx
    · have hne : l.filter (fun y => D.ak y ≠ D.ak m) = l := List.filter_eq_self.2 (by
        intro y hy; have := hp'.1 y hy; rw [e] at this; simp; exact fun e => this e.symm)
      rw [List.filter_cons_of_neg (by simp [e]), hne, List.countP_cons]
    · have hne : D.ak a ≠ D.ak m := by rw [← e]; exact hp'.1 x hx
      rw [List.filter_cons_of_pos (by simp [hne]), List.countP_cons, List.countP_cons, ih hp'.2 hx]
      omega

/-- The bound on one user. -/
def VBound (M : Nat → Nat) (L : List Msg) : Prop :=
  ∀ f, (countsOf L f).live ≤ M f ∧ (countsOf L f).live + (countsOf L f).tombs ≤ rowCap (M f)

theorem tombstoneCap_mono {a b : Nat} (h : a ≤ b) : tombstoneCap a ≤ tombstoneCap b := by
  unfold tombstoneCap
  by_cases ha : a = 0
  · simp [ha]
  · rw [if_neg ha, if_neg (by omega)]
    show max a 256 ≤ max b 256
    omega

theorem rowCap_mono {a b : Nat} (h : a ≤ b) : rowCap a ≤ rowCap b := by
  have := tombstoneCap_mono h
  unfold rowCap
  simp only [Nat.min_def]
  split <;> split <;> omega

theorem rowCap_lt (a : Nat) : rowCap a < 2 ^ 32 := by
  unfold rowCap; simp only [Nat.min_def]; split <;> omega

/-- What one accepted message does to the counts and the bound. -/
theorem counts_step {M : Nat → Nat} {L : List Msg} (hp : L.Pairwise (fun a b => verificationStore.ak a ≠ verificationStore.ak b))
    (hok : ∀ x ∈ L, okIn .verifications U x) (H : verificationStore.Lawful (okIn .verifications U)) {m : Msg}
    (hm : okIn .verifications U m) (hb : VBound M L) {max : Nat} (hmax : max ≤ M m.fid) {old : List Msg}
    (hl : verificationStore.liveMerge L m =
      (.ok old, m :: L.filter (fun x => verificationStore.ak x ≠ verificationStore.ak m)))
    (hfit : fits max (countsOf L m.fid) (verificationStore.isAdd m)
      ((L.find? (fun x => verificationStore.ak x = verificationStore.ak m)).map verificationStore.isAdd) = true) :
    VBound M (m :: L.filter (fun x => verificationStore.ak x ≠ verificationStore.ak m)) ∧
    applyDelta (countsOf L m.fid) (.merge m old) =
      some (countsOf (m :: L.filter (fun x => verificationStore.ak x ≠ verificationStore.ak m)) m.fid) := by
  have hmono := rowCap_mono hmax
  have hlt := rowCap_lt (M m.fid)
  have hlt' := rowCap_lt max
  have hself := hb m.fid
  cases hf : L.find? (fun x => verificationStore.ak x = verificationStore.ak m) with
  | none =>
    have hn : ∀ x ∈ L, verificationStore.ak x ≠ verificationStore.ak m := by simpa using List.find?_eq_none.1 hf
    have hL : L.filter (fun x => verificationStore.ak x ≠ verificationStore.ak m) = L :=
      List.filter_eq_self.2 (by simpa using hn)
    unfold liveMerge at hl
    rw [hf] at hl
    simp only [Prod.mk.injEq, Except.ok.injEq] at hl
    obtain ⟨rfl, _⟩ := hl
    rw [hL]
    rw [hf] at hfit
    have hc : ∀ f, countsOf (m :: L) f = ⟨(countsOf L f).live + (if ofType f .verificationAdd m then 1 else 0),
        (countsOf L f).tombs + (if ofType f .verificationRemove m then 1 else 0)⟩ := by
      intro f; simp [countsOf, List.countP_cons]
    rcases v_type hm.1 with ⟨ty, _, ha⟩ | ⟨ty, _, ha⟩
    · rw [ha] at hfit
      simp [fits, Nat.min_def] at hfit
      refine ⟨fun f => ?_, ?_⟩
      · rw [hc]
        by_cases e : m.fid = f
        · subst e
          simp [ofType, ty]
          split at hfit <;> omega
        · have := hb f; simp [ofType, e]; exact this
      · rw [hc]
        simp [applyDelta, VCounts.plus, ty, ofType]
        split at hfit <;> omega
    · rw [ha] at hfit
      simp [fits, Nat.min_def] at hfit
      refine ⟨fun f => ?_, ?_⟩
      · rw [hc]
        by_cases e : m.fid = f
        · subst e
          simp [ofType, ty]
          split at hfit <;> omega
        · have := hb f; simp [ofType, e]; exact this
      · rw [hc]
        simp [applyDelta, VCounts.plus, ty, ofType]
        split at hfit <;> omega
  | some x =>
    have hx : x ∈ L := List.mem_of_find?_eq_some hf
    have hxe : verificationStore.ak x = verificationStore.ak m := by simpa using List.find?_some hf
    have hxf : x.fid = m.fid := H.itemFid (hok x hx) hm hxe
    have hold : old = [x] := by
      unfold liveMerge at hl
      rw [hf] at hl
      simp only [] at hl
      split at hl
      · cases hl
      · split at hl
        · cases hl
        · simp only [Prod.mk.injEq, Except.ok.injEq] at hl; exact hl.1.symm
    subst hold
    rw [hf] at hfit
    generalize hL' : L.filter (fun x => verificationStore.ak x ≠ verificationStore.ak m) = L'
    have hadd : ∀ f ty, L.countP (ofType f ty) = L'.countP (ofType f ty) + (if ofType f ty x then 1 else 0) := by
      intro f ty; rw [← hL']; exact countP_item hp hx hxe _
    have hc : ∀ f, (countsOf (m :: L') f).live + (if ofType f .verificationAdd x then 1 else 0) =
        (countsOf L f).live + (if ofType f .verificationAdd m then 1 else 0) ∧
        (countsOf (m :: L') f).tombs + (if ofType f .verificationRemove x then 1 else 0) =
        (countsOf L f).tombs + (if ofType f .verificationRemove m then 1 else 0) := by
      intro f
      have h1 := hadd f .verificationAdd
      have h2 := hadd f .verificationRemove
      simp only [countsOf, List.countP_cons]
      omega
    have hother : ∀ f, f ≠ m.fid → (countsOf (m :: L') f).live ≤ M f ∧
        (countsOf (m :: L') f).live + (countsOf (m :: L') f).tombs ≤ rowCap (M f) := by
      intro f hne
      have hcf := hc f
      have e1 : ¬ m.fid = f := fun e => hne e.symm
      have e2 : ¬ x.fid = f := by rw [hxf]; exact e1
      simp [ofType, e1, e2] at hcf
      rw [hcf.1, hcf.2]; exact hb f
    have hcm := hc m.fid
    have hcx : (if ofType m.fid .verificationAdd x then 1 else 0) ≤ (countsOf L m.fid).live ∧
        (if ofType m.fid .verificationRemove x then 1 else 0) ≤ (countsOf L m.fid).tombs := by
      have h1 := hadd m.fid .verificationAdd
      have h2 := hadd m.fid .verificationRemove
      simp only [countsOf]
      omega
    have hself' : VBound M (m :: L') ↔ ((countsOf (m :: L') m.fid).live ≤ M m.fid ∧
        (countsOf (m :: L') m.fid).live + (countsOf (m :: L') m.fid).tombs ≤ rowCap (M m.fid)) :=
      ⟨fun h => h m.fid, fun h f => by
        by_cases e : f = m.fid
        · rw [e]; exact h
        · exact hother f e⟩
    rw [hself']
    generalize countsOf (m :: L') m.fid = c' at hcm ⊢
    generalize countsOf L m.fid = c at hcm hself hfit hcx ⊢
    obtain ⟨cl, ct⟩ := c
    obtain ⟨cl', ct'⟩ := c'
    simp only [] at hcm hself hcx
    rcases v_type hm.1 with ⟨ty, _, ha⟩ | ⟨ty, _, ha⟩ <;> rcases v_type (hok x hx).1 with ⟨tx, _, hxa⟩ | ⟨tx, _, hxa⟩ <;>
      simp [ofType, ty, tx, hxf] at hcm hcx <;> rw [ha] at hfit <;>
      simp [fits, hxa, Nat.min_def] at hfit <;>
      simp [applyDelta, VCounts.plus, VCounts.minus, ty, tx]
    · obtain ⟨h1, h2⟩ := hcm; subst h1 h2
      rw [if_neg (by omega)]; simp only []
      rw [if_neg (by omega)]
      refine ⟨by omega, ?_⟩
      simp; omega
    · rw [if_neg (by omega)]; simp only []
      rw [if_neg (by omega)]
      refine ⟨by omega, ?_⟩
      simp; omega
    · rw [if_neg (by omega)]; simp only []
      rw [if_neg (by omega)]
      refine ⟨by omega, ?_⟩
      simp; omega
    · obtain ⟨h1, h2⟩ := hcm; subst h1 h2
      rw [if_neg (by omega)]; simp only []
      rw [if_neg (by omega)]
      refine ⟨by omega, ?_⟩
      simp; omega

theorem admit_eq (hU : HashesIdentify U) {db : Db SVal} {t : Txn SVal} {L : List Msg}
    (h : verificationStore.Holds (okIn .verifications U) ctx L (viewOf db t)) {m : Msg} (hm : okIn .verifications U m)
    (max : Nat) (c : VCounts) :
    admitVerification db t max c m =
      if fits max c (verificationStore.isAdd m)
        ((L.find? (fun x => verificationStore.ak x = verificationStore.ak m)).map verificationStore.isAdd) then .ok ()
      else .error .validation := by
  have hk := logicalKeyType_eq hU h hm
  unfold admitVerification
  rcases v_type hm.1 with ⟨ty, ⟨a, hb⟩, ha⟩ | ⟨ty, ⟨a, hb⟩, ha⟩
  · rw [ty, hb, ha]; simp only [hk]
  · rw [ty, hb, ha]; simp only [hk]

/-- The loop invariant: consistent rows, exact counts, the bound. -/
structure VLoopInv (ctx : Nat → MergeCtx) (U : Msg → Prop) (M : Nat → Nat) (f : Nat) (L0 L : List Msg) (st : StoreState)
    (x : VLoop) : Prop where
  inv : SafeInv verificationStore (okIn .verifications U) ctx L0 L { st with pend := x.s }
  counts : x.c = countsOf L f
  bound : VBound M L

theorem vStep_spec (hU : HashesIdentify U) {M : Nat → Nat} {f : Nat} {L0 L : List Msg} {st : StoreState} {x : VLoop}
    (h : VLoopInv ctx U M f L0 L st x) {m : Msg} (hm : okIn .verifications U m) (hf : m.fid = f) {max : Nat}
    (hmax : max ≤ M f) :
    ∃ x' r, vStep ctx st.db max x m = .ok x' ∧ x'.out = x.out ++ [r] ∧
      (r ≠ .error .invalidParameter → ∃ L', VLoopInv ctx U M f L0 L' st x') := by
  have H := v_lawful (U := U) hU
  have hh : verificationStore.Holds (okIn .verifications U) ctx L (viewOf st.db x.s.txn) := h.inv.holds
  unfold vStep
  rw [admit_eq hU hh hm]
  subst hf
  by_cases hfit : fits max x.c (verificationStore.isAdd m)
        ((L.find? (fun x => verificationStore.ak x = verificationStore.ak m)).map verificationStore.isAdd) = true
  · rw [if_pos hfit]
    simp only []
    have hbl : CompactFree verificationStore m (viewOf st.db x.s.txn) :=
      CompactFree.of_blank (kind_compactOut (channelOf := fun _ => none) .verifications hU) h.inv.blank hm
    rcases merge_spec H hh hm hbl with ⟨e, hl, he, hr⟩ | ⟨old, s', hl, hr, hh', hfr⟩
    · rw [hr]
      exact ⟨_, _, rfl, rfl, fun _ => ⟨L, h.inv, h.counts, h.bound⟩⟩
    · rw [h.counts] at hfit
      obtain ⟨hb, hd⟩ := counts_step hh.items hh.valid H hm h.bound hmax hl hfit
      rcases hr with hr | hr
      · rw [hr]
        simp only []
        rw [h.counts, hd]
        exact ⟨_, _, rfl, rfl, fun _ => ⟨_, safe_pend h.inv hh' hfr, rfl, hb⟩⟩
      · rw [hr]
        exact ⟨_, _, rfl, rfl, fun hne => absurd rfl hne⟩
  · rw [if_neg hfit]
    exact ⟨_, _, rfl, rfl, fun _ => ⟨L, h.inv, h.counts, h.bound⟩⟩

/-- What is said of one message is only added to. -/
theorem vLoop_out (db : Db SVal) (max : Nat) (ms : List Msg) :
    ∀ {x y : VLoop}, ms.foldlM (vStep ctx db max) x = .ok y → x.out <+: y.out := by
  induction ms with
  | nil => intro x y h; simp [pure, Except.pure] at h; rw [h]; exact List.prefix_refl _
  | cons m ms ih =>
    intro x y h
    rw [List.foldlM_cons] at h
    cases hs : vStep ctx db max x m with
    | error e => rw [hs] at h; simp [bind, Except.bind] at h
    | ok x' =>
      rw [hs] at h
      refine List.IsPrefix.trans ?_ (ih h)
      unfold vStep at hs
      split at hs
      · cases hs; exact List.prefix_append ..
      · split at hs
        · cases hs; exact List.prefix_append ..
        · split at hs
          · cases hs
          · cases hs; exact List.prefix_append ..

theorem vLoop_spec (hU : HashesIdentify U) {M : Nat → Nat} {f max : Nat} {L0 : List Msg} {st : StoreState}
    (hmax : max ≤ M f) (ms : List Msg) :
    ∀ {L : List Msg} {x : VLoop}, VLoopInv ctx U M f L0 L st x → (∀ m ∈ ms, okIn .verifications U m ∧ m.fid = f) →
    ((∀ pre y, pre <+: ms → pre.foldlM (vStep ctx st.db max) x = .ok y → .error .invalidParameter ∉ y.out) →
      ∃ y, ms.foldlM (vStep ctx st.db max) x = .ok y) ∧
    ∀ y, ms.foldlM (vStep ctx st.db max) x = .ok y → .error .invalidParameter ∉ y.out →
      ∃ L', VLoopInv ctx U M f L0 L' st y := by
  induction ms with
  | nil =>
    intro L x h _
    refine ⟨fun _ => ⟨x, rfl⟩, fun y hy _ => ?_⟩
    simp [pure, Except.pure] at hy
    rw [← hy]; exact ⟨L, h⟩
  | cons m ms ih =>
    intro L x h hms
    obtain ⟨x', r, hs, ho, hr⟩ := vStep_spec hU h (hms m (by simp)).1 (hms m (by simp)).2 hmax
    have hcons : ∀ pre, (m :: pre).foldlM (vStep ctx st.db max) x = pre.foldlM (vStep ctx st.db max) x' := by
      intro pre; rw [List.foldlM_cons, hs]; rfl
    refine ⟨fun hno => ?_, fun y hy hno => ?_⟩
    · have h1 := hno [m] x' (by simp) (by rw [hcons]; rfl)
      obtain ⟨L', h'⟩ := hr (by rintro rfl; exact h1 (by rw [ho]; simp))
      rw [hcons]
      refine (ih h' (fun y hy => hms y (by simp [hy]))).1 (fun pre y hp hy => hno (m :: pre) y ?_ (by rw [hcons]; exact hy))
      exact List.cons_prefix_cons.2 ⟨rfl, hp⟩
    · rw [hcons] at hy
      have hsub := (vLoop_out st.db max ms hy).subset
      obtain ⟨L', h'⟩ := hr (by rintro rfl; exact hno (hsub (by rw [ho]; simp)))
      exact (ih h' (fun y hy => hms y (by simp [hy]))).2 y hy hno

/-- The invariant of a history. -/
structure VHist (ctx : Nat → MergeCtx) (U : Msg → Prop) (M : Nat → Nat) (L0 L : List Msg) (st : StoreState) : Prop where
  inv : SafeInv verificationStore (okIn .verifications U) ctx L0 L st
  bound0 : VBound M L0
  bound : VBound M L

theorem VHist.loop (hU : HashesIdentify U) {M : Nat → Nat} {L0 L : List Msg} {st : StoreState} (h : VHist ctx U M L0 L st)
    {f : Nat} (hf : f < 2 ^ 32) :
    VLoopInv ctx U M f L0 L st ⟨st.pend, verificationCounts st.db st.pend.txn f, []⟩ :=
  ⟨h.inv, verificationCounts_eq hU h.inv.holds hf, h.bound⟩

theorem vExec_spec (hU : HashesIdentify U) {M : Nat → Nat} {L0 L : List Msg} {st : StoreState} (h : VHist ctx U M L0 L st)
    {op : VOp} {ops : List VOp} (hp : VFair ctx U M st (op :: ops)) : ∃ L0' L', VHist ctx U M L0' L' (vExec ctx st op) := by
  have hp := hp.1
  cases op with
  | txn f max ms =>
    simp only [] at hp
    obtain ⟨hms, hf, hmax, hno⟩ := hp
    simp only [vExec]
    cases ht : vTxn ctx st f max ms with
    | error e => exact ⟨L0, L, h⟩
    | ok y =>
      obtain ⟨L', hl⟩ := (vLoop_spec hU hmax ms (h.loop hU hf) (fun m hm => ⟨⟨(hms m hm).1, (hms m hm).2.1⟩, (hms m hm).2.2⟩)).2
        y ht (hno y ht)
      exact ⟨L0, L', hl.inv, h.bound0, hl.bound⟩
  | commit =>
    exact ⟨L, L, ⟨⟨holds_commit h.inv.holds, holds_commit h.inv.holds⟩, fun k hk hs => by
      show (Db.commit st.db st.pend.txn).get k = none
      rw [Db.get_commit]; exact h.inv.blank k hk hs, fun k hk hs => by
      show (Db.commit st.db st.pend.txn).get k = none
      rw [Db.get_commit]; exact h.inv.blank k hk hs⟩, h.bound, h.bound⟩
  | drop => exact ⟨L0, L0, ⟨⟨h.inv.committed, h.inv.committed⟩, h.inv.blank0, h.inv.blank0⟩, h.bound0, h.bound0⟩
  | block n => exact ⟨L0, L, ⟨⟨h.inv.committed, h.inv.holds⟩, h.inv.blank0, h.inv.blank⟩, h.bound0, h.bound⟩

theorem vRun_spec (hU : HashesIdentify U) {M : Nat → Nat} (ops : List VOp) :
    ∀ {L0 L : List Msg} {st : StoreState}, VHist ctx U M L0 L st → VFair ctx U M st ops →
    ∃ L0' L', VHist ctx U M L0' L' (vRun ctx st ops) := by
  induction ops with
  | nil => intro L0 L st h _; exact ⟨L0, L, h⟩
  | cons op ops ih =>
    intro L0 L st h hp
    obtain ⟨L0', L', h'⟩ := vExec_spec hU h hp
    exact ih h' hp.2

theorem vHist_init {M : Nat → Nat} : VHist ctx U M [] [] {} :=
  ⟨kind_init (channelOf := fun _ => none) .verifications, fun f => by simp [countsOf], fun f => by simp [countsOf]⟩

/-- A user's rows are verifications and removals. -/
theorem rows_length (hU : HashesIdentify U) {db : Db SVal} {L : List Msg}
    (h : verificationStore.Holds (okIn .verifications U) ctx L (viewOf db OMap.empty)) {f : Nat} (hf : f < 2 ^ 32) :
    (storedMessages verificationStore db f).length =
      (storedMessages verificationStore db f).countP (·.ty = .verificationAdd) +
      (storedMessages verificationStore db f).countP (·.ty = .verificationRemove) := by
  have hall : ∀ m ∈ storedMessages verificationStore db f, m.ty = .verificationAdd ∨ m.ty = .verificationRemove := by
    intro m hm
    have := h.valid m ((mem_stored (v_lawful hU) h hf m).1 hm).1
    rcases v_type this.1 with ⟨ty, _⟩ | ⟨ty, _⟩
    · exact .inl ty
    · exact .inr ty
  generalize storedMessages verificationStore db f = l at hall
  induction l with
  | nil => rfl
  | cons a l ih =>
    have := ih (fun m hm => hall m (by simp [hm]))
    rcases hall a (by simp) with e | e <;> simp [List.countP_cons, e, this] <;> omega

/-- The bound in terms of the rows. -/
theorem rows_bound (hU : HashesIdentify U) {M : Nat → Nat} {db : Db SVal} {L : List Msg}
    (h : verificationStore.Holds (okIn .verifications U) ctx L (viewOf db OMap.empty)) (hb : VBound M L) {f : Nat} (hf : f < 2 ^ 32) :
    (storedMessages verificationStore db f).countP (·.ty = .verificationAdd) ≤ M f ∧
    (storedMessages verificationStore db f).length ≤ M f + (if M f = 0 then 0 else max (M f) 256) := by
  have h1 := stored_countP hU h hf .verificationAdd
  have h2 := stored_countP hU h hf .verificationRemove
  have hlen := rows_length hU h hf
  have hbf := hb f
  simp only [countsOf] at hbf
  rw [h1]
  refine ⟨hbf.1, ?_⟩
  rw [hlen, h1, h2]
  refine Nat.le_trans hbf.2 ?_
  unfold rowCap tombstoneCap
  exact Nat.min_le_left _ _

end Verif
