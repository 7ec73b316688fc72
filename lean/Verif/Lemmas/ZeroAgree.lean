import Verif.Spec.ZeroAgree
/-!
Agreement on shard 0: the clock is only compared with the ends of rentals, and the roots in transactions are only compared.
-/
namespace Verif

/-! ## Slots -/
section
variable {P : UInt32 → Prop} {now now' : UInt32} (hP : ∀ x, P x → (decide (now < x) = decide (now' < x)))
include hP

theorem Slot.active_congr {s : Slot} (h : P s.until_) : s.isActive now = s.isActive now' := hP _ h

theorem Slot.merge_congr {s o : Slot} (hs : P s.until_) (ho : P o.until_) :
    s.merge now o = s.merge now' o ∧ P (s.merge now o).until_ := by
  unfold Slot.merge
  rw [Slot.active_congr hP hs, Slot.active_congr hP ho]
  refine ⟨rfl, ?_⟩
  split
  · exact hs
  · split
    · exact ho
    · simp only
      split <;> assumption

theorem Slot.sub_congr {s o : Slot} (hs : P s.until_) (ho : P o.until_) :
    s.sub now o = s.sub now' o ∧ P (s.sub now o).until_ := by
  unfold Slot.sub
  rw [Slot.active_congr hP ho]
  exact ⟨rfl, by split <;> exact hs⟩

theorem Slot.fromLend_until (ty : UnitType) (n : Nat) : (Slot.fromLend ty n).until_ = 4294967295 := by cases ty <;> rfl

variable (hm : P 4294967295)
include hm

theorem mergeLends_congr_aux : ∀ (l : List (UnitType × Nat)) (s : Slot), P s.until_ →
    l.foldl (fun s l => s.merge now (Slot.fromLend l.1 l.2)) s = l.foldl (fun s l => s.merge now' (Slot.fromLend l.1 l.2)) s ∧
    P (l.foldl (fun s l => s.merge now (Slot.fromLend l.1 l.2)) s).until_
  | [], s, h => ⟨rfl, h⟩
  | a :: l, s, h => by
    have h1 := Slot.merge_congr hP h (o := Slot.fromLend a.1 a.2) (by rw [Slot.fromLend_until hP]; exact hm)
    have h2 := mergeLends_congr_aux l _ h1.2
    simp only [List.foldl_cons]
    rw [← h1.1]
    exact h2

variable (h0 : P 0)
include h0

theorem mergeLends_congr (l : List (UnitType × Nat)) : mergeLends now l = mergeLends now' l ∧ P (mergeLends now l).until_ :=
  mergeLends_congr_aux hP hm l {} h0

omit hm h0 in
theorem mergeRents_congr {mn ext : Bool} : ∀ (l : List OEvent) (s : Slot), P s.until_ →
    (∀ e ∈ l, ∀ s, Slot.fromEvent mn ext e = .ok s → P s.until_) →
    mergeRents now mn ext s l = mergeRents now' mn ext s l ∧ ∀ s', mergeRents now mn ext s l = .ok s' → P s'.until_
  | [], s, h, _ => ⟨rfl, fun s' e => by cases e; exact h⟩
  | e :: es, s, h, hl => by
    unfold mergeRents
    cases hf : Slot.fromEvent mn ext e with
    | error x => exact ⟨rfl, fun s' e => by cases e⟩
    | ok r =>
      have h1 := Slot.merge_congr hP h (hl e (by simp) r hf)
      have h2 := mergeRents_congr es _ h1.2 (fun e he => hl e (by simp [he]))
      simp only
      rw [← h1.1]
      exact h2

omit hm in
theorem slotOf_congr {mn ext : Bool} {rents pending : List OEvent} {fid : Nat} {lent borrowed : Slot}
    (hr : ∀ e ∈ rents, ∀ s, Slot.fromEvent mn ext e = .ok s → P s.until_)
    (hq : ∀ e ∈ pending, ∀ s, Slot.fromEvent mn ext e = .ok s → P s.until_) (hl : P lent.until_) (hb : P borrowed.until_) :
    slotOf now mn ext rents pending fid lent borrowed = slotOf now' mn ext rents pending fid lent borrowed ∧
    ∀ s, slotOf now mn ext rents pending fid lent borrowed = .ok s → P s.until_ := by
  have h1 := mergeRents_congr hP (mn := mn) (ext := ext) (rents ++ pending.filter (fun e => e.fid = fid && e.ty = 4)) {} h0
    (fun e he => (List.mem_append.1 he).elim (hr e) (fun h => hq e (List.mem_filter.1 h).1))
  unfold slotOf
  rw [← h1.1]
  cases hx : mergeRents now mn ext {} (rents ++ pending.filter (fun e => e.fid = fid && e.ty = 4)) with
  | error x => exact ⟨rfl, fun s e => by cases e⟩
  | ok s =>
    have h2 := Slot.sub_congr hP (h1.2 s hx) hl
    have h3 := Slot.merge_congr hP h2.2 hb
    refine ⟨?_, fun s' e => by cases e; exact h3.2⟩
    simp only
    rw [h3.1, h2.1]

omit h0 in
theorem onMerge_congr {s : Slot} (hs : P s.until_) (e : StoreEvent) : onMerge now s e = onMerge now' s e ∧ P (onMerge now s e).until_ := by
  have take : ∀ (s : Slot) (m : Msg), P s.until_ → takeUnits now s m = takeUnits now' s m ∧ P (takeUnits now s m).until_ := by
    intro s m h
    unfold takeUnits
    cases lendOf m with
    | none => exact ⟨rfl, h⟩
    | some p => exact Slot.sub_congr hP h (by rw [Slot.fromLend_until hP]; exact hm)
  have give : ∀ (l : List Msg) (s : Slot), P s.until_ →
      l.foldl (giveBack now) s = l.foldl (giveBack now') s ∧ P (l.foldl (giveBack now) s).until_ := by
    intro l
    induction l with
    | nil => intro s h; exact ⟨rfl, h⟩
    | cons a l ih =>
      intro s h
      have h1 : giveBack now s a = giveBack now' s a ∧ P (giveBack now s a).until_ := by
        unfold giveBack
        cases lendOf a with
        | none => exact ⟨rfl, h⟩
        | some p => exact Slot.merge_congr hP h (by rw [Slot.fromLend_until hP]; exact hm)
      simp only [List.foldl_cons]
      rw [← h1.1]
      exact ih _ h1.2
  unfold onMerge
  split
  · rename_i m del
    have h1 := take s m hs
    have h2 := give del _ h1.2
    rw [← h1.1]
    exact h2
  · exact ⟨rfl, hs⟩

omit h0 in
theorem onMerges_congr : ∀ (es : List StoreEvent) (s : Slot), P s.until_ →
    es.foldl (onMerge now) s = es.foldl (onMerge now') s ∧ P (es.foldl (onMerge now) s).until_
  | [], s, h => ⟨rfl, h⟩
  | e :: es, s, h => by
    have h1 := onMerge_congr hP hm h e
    have h2 := onMerges_congr es _ h1.2
    simp only [List.foldl_cons]
    rw [← h1.1]
    exact h2
end

namespace ZeroCfg
variable {F : Type} {c : ZeroCfg}

/-! ## The engine under two clocks -/
section
variable {P : UInt32 → Prop} {k k' : Nat} {v : EngineVersion} {db : Db OVal}

/-- The ends of rentals are in `P`, and the clocks agree on `P`. -/
structure Clocks (c : ZeroCfg) (P : UInt32 → Prop) (k k' : Nat) (v : EngineVersion) (db : Db OVal) : Prop where
  agree : ∀ x, P x → (decide (UInt32.ofNat k < x) = decide (UInt32.ofNat k' < x))
  zero : P 0
  max : P 4294967295
  stored : ∀ fid rents, onchainEvents db 4 fid = .ok rents → ∀ e ∈ rents, ∀ s,
    Slot.fromEvent (decide (c.net = .mainnet)) (v.isEnabled .storageExpiryExtension2026) e = .ok s → P s.until_

/-- The rentals of a transaction are in `P`. -/
def Brings (c : ZeroCfg) (P : UInt32 → Prop) (v : EngineVersion) (t : ETxn F) : Prop :=
  ∀ s ∈ t.sys, ∀ e, s.onchain = some e → ∀ s,
    Slot.fromEvent (decide (c.net = .mainnet)) (v.isEnabled .storageExpiryExtension2026) e = .ok s → P s.until_

variable (H : c.Clocks P k k' v db)
include H

theorem slotFor_congr {w : ZWork} (hw : w.admit.chain.db = db) {pending : List OEvent}
    (hp : ∀ e ∈ pending, ∀ s, Slot.fromEvent (decide (c.net = .mainnet)) (v.isEnabled .storageExpiryExtension2026) e = .ok s →
      P s.until_) (fid : Nat) (lent borrowed : Bool) :
    c.slotFor k v w pending fid lent borrowed = c.slotFor k' v w pending fid lent borrowed ∧
    ∀ s, c.slotFor k v w pending fid lent borrowed = some s → P s.until_ := by
  have hl := mergeLends_congr H.agree H.max H.zero (lentOf w.st.store.db fid)
  have hb := mergeLends_congr H.agree H.max H.zero (borrowedOf w.st.store.db fid)
  have hl' : P (if lent then mergeLends (UInt32.ofNat k) (lentOf w.st.store.db fid) else uncounted).until_ := by
    split
    · exact hl.2
    · exact H.max
  have hb' : P (if borrowed then mergeLends (UInt32.ofNat k) (borrowedOf w.st.store.db fid) else uncounted).until_ := by
    split
    · exact hb.2
    · exact H.max
  unfold slotFor slotForFid
  simp only
  rw [hw, ← hl.1, ← hb.1]
  cases hr : onchainEvents db 4 fid with
  | error x => exact ⟨rfl, fun s e => by cases e⟩
  | ok rents =>
    have h := slotOf_congr H.agree H.zero (fid := fid) (H.stored fid rents hr) hp hl' hb'
    simp only
    rw [← h.1]
    refine ⟨rfl, fun s e => ?_⟩
    split at e
    · rename_i s' hs; cases e; exact h.2 _ hs
    · cases e

theorem txnSlot_congr {w : ZWork} (hw : w.admit.chain.db = db) {t : ETxn F} (ht : c.Brings P v t) (borrowed : Bool) :
    c.txnSlot k v w t borrowed = c.txnSlot k' v w t borrowed ∧ ∀ s, c.txnSlot k v w t borrowed = some s → P s.until_ := by
  unfold txnSlot
  refine slotFor_congr H hw ?_ t.fid true borrowed
  intro e he
  obtain ⟨s, hs, hse⟩ := List.mem_filterMap.1 he
  exact ht s hs e hse

theorem validateUser_congr {w : ZWork} (hw : w.admit.chain.db = db) (ts : Nat) (slot : Slot) (n : VCounts) (m : Msg) :
    c.validateUser k v ts w slot n m = c.validateUser k' v ts w slot n m := by
  have h1 : ∀ fid units ty, c.lendArm k v w slot fid units ty = c.lendArm k' v w slot fid units ty := by
    intro fid units ty
    unfold lendArm
    rw [(slotFor_congr H hw (by simp) fid false false).1]
  have h2 : ∀ d, c.arm k v w slot n m d = c.arm k' v w slot n m d := by
    intro d; unfold arm; simp only [h1]
  have h3 : ∀ d, c.checks k v ts w slot n m d = c.checks k' v ts w slot n m d := by
    intro d; unfold checks; simp only [h2]
  unfold validateUser
  simp only [h3]

omit H in
/-- What the loop keeps. -/
structure Steady (P : UInt32 → Prop) (db : Db OVal) (x : ZLoop) : Prop where
  base : x.w.admit.chain.db = db
  slot : P x.slot.until_
  vslot : P x.vslot.until_

omit H in
theorem posted_db (w : ZWork) (v : EngineVersion) (ts : Nat) (t : Txn GVal) (m : Msg) :
    (c.posted w v ts t m).admit.chain.db = w.admit.chain.db := rfl

omit H in
theorem mergeKey_chain_eq (n : AdmitNode) (m : WMsg) : (c.mergeKey n m).2.chain = n.chain := by
  unfold ZeroCfg.mergeKey
  split
  · rfl
  · split <;> rfl

theorem doUser_congr {ts : Nat} {x : ZLoop} (hx : Steady P db x) (m : Msg) :
    c.doUser k v ts x m = c.doUser k' v ts x m ∧ ∀ x', c.doUser k v ts x m = .ok x' → Steady P db x' := by
  unfold doUser
  rw [← validateUser_congr H hx.base]
  cases hv : c.validateUser k v ts x.w (if isVerificationTy m.ty then x.vslot else x.slot) x.counts m with
  | error e => exact ⟨rfl, fun x' e => by cases e; exact ⟨hx.base, hx.slot, hx.vslot⟩⟩
  | ok p =>
    obtain ⟨t, kind⟩ := p
    have hl : c.mergeLend k v x (c.posted x.w v ts t m) m = c.mergeLend k' v x (c.posted x.w v ts t m) m ∧
        Steady P db (c.mergeLend k v x (c.posted x.w v ts t m) m) := by
      unfold mergeLend
      split
      · generalize lendMerge (c.posted x.w v ts t m).st.store.db (c.ctx m.ts) m (c.posted x.w v ts t m).st.store.pend = r
        obtain ⟨r, s⟩ := r
        cases r with
        | error e => exact ⟨rfl, hx.base, hx.slot, hx.vslot⟩
        | ok evs =>
          have h1 := onMerges_congr H.agree H.max evs _ hx.slot
          have h2 := onMerges_congr H.agree H.max evs _ hx.vslot
          refine ⟨?_, hx.base, h1.2, h2.2⟩
          simp only
          rw [h1.1, h2.1]
      · exact ⟨rfl, hx.base, hx.slot, hx.vslot⟩
    have hk : Steady P db (c.mergeKeyArm v x (c.posted x.w v ts t m) m) := by
      have he := mergeKey_chain_eq (c := c) (c.posted x.w v ts t m).admit (c.wire m)
      unfold mergeKeyArm
      split
      · split
        · rename_i n hn
          rw [hn] at he
          exact ⟨(congrArg (·.db) he).trans hx.base, hx.slot, hx.vslot⟩
        · rename_i n hn
          rw [hn] at he
          exact ⟨(congrArg (·.db) he).trans hx.base, hx.slot, hx.vslot⟩
      · exact ⟨hx.base, hx.slot, hx.vslot⟩
    have hver : ∀ x', c.mergeVerification v x (c.posted x.w v ts t m) m = .ok x' → Steady P db x' := by
      intro x' e
      unfold mergeVerification at e
      split at e
      · split at e
        · cases e; exact ⟨hx.base, hx.slot, hx.vslot⟩
        · split at e
          · cases e
          · cases e; exact ⟨hx.base, hx.slot, hx.vslot⟩
      · cases e; exact ⟨hx.base, hx.slot, hx.vslot⟩
    have hch : ∀ x', c.mergeChannel v x (c.posted x.w v ts t m) kind m = .ok x' → Steady P db x' := by
      intro x' e
      unfold mergeChannel at e
      split at e
      · cases e
      · split at e <;> (cases e; exact ⟨hx.base, hx.slot, hx.vslot⟩)
    simp only
    refine ⟨?_, fun x' e => ?_⟩
    · split <;> first | rfl | exact congrArg _ hl.1
    · split at e <;> first
        | exact hver _ e
        | exact hch _ e
        | (cases e; first | exact hl.2 | exact hk | exact ⟨hx.base, hx.slot, hx.vslot⟩)

theorem doUsers_congr {ts : Nat} : ∀ (l : List Msg) {x : ZLoop}, Steady P db x →
    c.doUsers k v ts l x = c.doUsers k' v ts l x ∧ ∀ x', c.doUsers k v ts l x = .ok x' → Steady P db x'
  | [], x, h => ⟨rfl, fun x' e => by cases e; exact h⟩
  | m :: l, x, h => by
    have h1 := doUser_congr H h m (ts := ts)
    unfold doUsers
    rw [← h1.1]
    cases hd : c.doUser k v ts x m with
    | error e => exact ⟨rfl, fun x' e => by cases e⟩
    | ok y => exact doUsers_congr l (h1.2 y hd)

omit H in
theorem doSys_db (v : EngineVersion) (w : ZWork) (m : SysMsg F) : (c.doSys v w m).1.admit.chain.db = w.admit.chain.db := by
  unfold doSys
  split
  · rfl
  · split
    · rfl
    · simp only [AdmitNode.exec, ChainNode.step]
      split <;> rfl

omit H in
theorem doSyss_db (v : EngineVersion) : ∀ (l : List (SysMsg F)) (w : ZWork) (es : List ZEv),
    (c.doSyss v l w es).1.admit.chain.db = w.admit.chain.db
  | [], _, _ => rfl
  | m :: l, w, es => by
    unfold doSyss
    rw [doSyss_db v l, doSys_db]

theorem replay_congr {ts : Nat} {w : ZWork} (hw : w.admit.chain.db = db) {t : ETxn F} (ht : c.Brings P v t) :
    c.replay k v ts w t = c.replay k' v ts w t ∧ ∀ r x, c.replay k v ts w t = .ok (r, x) → x.w.admit.chain.db = db := by
  have hs : (c.doSyss v (sysOrder v t.sys) w []).1.admit.chain.db = db := (doSyss_db v _ _ _).trans hw
  have h1 := txnSlot_congr H hs ht false
  have h2 := txnSlot_congr H hs ht true
  unfold replay
  simp only
  rw [← h1.1]
  cases hslot : c.txnSlot k v (c.doSyss v (sysOrder v t.sys) w []).1 t false with
  | none => exact ⟨rfl, fun r x e => by cases e⟩
  | some slot =>
    have hq : c.quota k v (c.doSyss v (sysOrder v t.sys) w []).1 t slot = c.quota k' v (c.doSyss v (sysOrder v t.sys) w []).1 t slot := by
      unfold quota; rw [← h2.1]
    have hq' : ∀ q, c.quota k v (c.doSyss v (sysOrder v t.sys) w []).1 t slot = .ok q → P q.1.until_ := by
      intro q e
      unfold quota at e
      split at e
      · split at e
        · cases e
        · rename_i vs hvs
          split at e
          · cases e
          · cases e; exact h2.2 _ hvs
      · cases e; exact h1.2 _ hslot
    simp only
    rw [← hq]
    cases hqq : c.quota k v (c.doSyss v (sysOrder v t.sys) w []).1 t slot with
    | error e => exact ⟨rfl, fun r x e => by cases e⟩
    | ok q =>
      have h3 := doUsers_congr H (ts := ts) t.user (x := { w := (c.doSyss v (sysOrder v t.sys) w []).1, events := (c.doSyss v (sysOrder v t.sys) w []).2, slot := slot, vslot := q.1, counts := q.2 })
        ⟨hs, h1.2 _ hslot, hq' q hqq⟩
      simp only
      rw [← h3.1]
      refine ⟨rfl, fun r x e => ?_⟩
      split at e
      · cases e
      · rename_i y hy
        have := (h3.2 y hy).base
        unfold close at e
        split at e
        · cases e
        · cases e; exact this

theorem replays_congr {ts : Nat} {claimed : Bool} : ∀ (l : List (ETxn F)) {w : ZWork}, w.admit.chain.db = db →
    (∀ t ∈ l, c.Brings P v t) → c.replays k v ts claimed l w = c.replays k' v ts claimed l w
  | [], _, _, _ => rfl
  | t :: l, w, hw, hl => by
    have h1 := replay_congr H (ts := ts) hw (hl t (by simp))
    unfold replays
    rw [← h1.1]
    split
    · rfl
    · rename_i r x hx
      rw [replays_congr l (h1.2 r x hx) (fun t ht => hl t (by simp [ht]))]

omit H in
theorem begin_db (d : ZWork) (v : EngineVersion) (h : Nat) : (c.begin d v h).admit.chain.db = d.admit.chain.db := rfl
end

theorem replayProposal_congr {P : UInt32 → Prop} {k k' : Nat} {d : ZWork} {b : ZBlock F}
    (H : c.Clocks P k k' (c.ver b.ts) d.admit.chain.db) (hb : ∀ t ∈ b.txns, c.Brings P (c.ver b.ts) t) :
    c.replayProposal k d b = c.replayProposal k' d b := by
  unfold replayProposal
  rw [replays_congr H b.txns (begin_db d _ _) hb]

/-- From the words of the specification. -/
theorem SameTime.clocks {d : ZWork} {v : EngineVersion} {txns : List (ETxn F)} {k k' : Nat} (h : c.SameTime d v txns k k') :
    let P : UInt32 → Prop := fun x => (decide (UInt32.ofNat k < x) = decide (UInt32.ofNat k' < x))
    c.Clocks P k k' v d.admit.chain.db ∧ ∀ t ∈ txns, c.Brings P v t := by
  refine ⟨⟨fun x h => h, ?_, by simp only [decide_eq_decide]; exact h.loans, ?_⟩, ?_⟩
  · simp only [decide_eq_decide]
    constructor <;> intro h <;> simp [UInt32.lt_iff_toNat_lt] at h
  · intro fid rents hr e he s hs
    exact h.stored fid rents hr e he s hs
  · intro t ht sm hsm e he s hs
    exact h.brought t ht sm hsm e he s hs

/-! ## The numbers of events -/

theorem begin_same {d d' : ZWork} (h : SameTables d d') {v : EngineVersion} (hv : v.isEnabled .eventIdBugFix = true) (n : Nat) :
    c.begin d' v n = c.begin d v n := by
  obtain ⟨g, rfl⟩ := h
  unfold ZeroCfg.begin
  simp only [hv, if_true, IdGen.setHeight]

theorem SameTables.refl (d : ZWork) : SameTables d d := ⟨d.st.store.pend.gen, rfl⟩

theorem SameTables.symm {d d' : ZWork} (h : SameTables d d') : SameTables d' d := by
  obtain ⟨g, rfl⟩ := h
  exact ⟨d.st.store.pend.gen, rfl⟩

theorem SameTables.trans {d d' d'' : ZWork} (h : SameTables d d') (h' : SameTables d' d'') : SameTables d d'' := by
  obtain ⟨g, rfl⟩ := h
  obtain ⟨g', rfl⟩ := h'
  exact ⟨g', rfl⟩

theorem dropped_same (d w : ZWork) : SameTables d (dropped d w) := ⟨_, rfl⟩

theorem renumbered_fix {v : EngineVersion} (h : Renumbered v) (hw : v.isEnabled .writeDataToShardZero = true) :
    v.isEnabled .eventIdBugFix = true := by
  unfold Renumbered at h
  revert h hw
  cases v <;> decide

theorem commit_same {d d' : ZWork} (h : SameTables d d') {b : ZBlock F} (hv : Renumbered (c.ver b.ts)) {k k' : Nat}
    (ht : c.SameTime d (c.ver b.ts) b.txns k k') :
    (c.commit k d b = none ∧ c.commit k' d' b = none) ∨
      ∃ d1 d1', c.commit k d b = some d1 ∧ c.commit k' d' b = some d1' ∧ SameTables d1 d1' := by
  unfold commit
  split
  · rename_i hw
    have e : c.replayProposal k' d' b = c.replayProposal k d b := by
      rw [replayProposal_congr ht.clocks.1 ht.clocks.2]
      unfold replayProposal
      rw [begin_same h (renumbered_fix hv hw)]
    rw [e]
    cases hr : c.replayProposal k d b with
    | error _ => exact .inl ⟨rfl, rfl⟩
    | ok w =>
      simp only
      cases hf : c.finish w with
      | none => exact .inl ⟨rfl, rfl⟩
      | some d1 => exact .inr ⟨d1, d1, rfl, rfl, SameTables.refl _⟩
  · exact .inr ⟨d, d', rfl, rfl, h⟩

theorem validate_same {d d' : ZWork} (h : SameTables d d') {b : ZBlock F} (hv : Renumbered (c.ver b.ts)) {k k' : Nat}
    (ht : c.SameTime d (c.ver b.ts) b.txns k k') :
    (c.validate k' d' b).map (·.1) = (c.validate k d b).map (·.1) := by
  unfold validate
  split
  · rename_i hw
    have e : c.replayProposal k' d' b = c.replayProposal k d b := by
      rw [replayProposal_congr ht.clocks.1 ht.clocks.2]
      unfold replayProposal
      rw [begin_same h (renumbered_fix hv hw)]
    rw [e]
    cases hr : c.replayProposal k d b with
    | error x => cases x <;> rfl
    | ok w => rfl
  · rfl

/-- Calls other than commits. -/
theorem step_same {d d1 : ZWork} {x : ZCall F} (hx : c.step d x = some d1) (hn : ∀ k b, x ≠ .commit k b) : SameTables d d1 := by
  cases x with
  | propose clock n ts txns =>
    simp only [step, Option.map_eq_some_iff] at hx
    obtain ⟨⟨b, w⟩, hp, rfl⟩ := hx
    unfold propose at hp
    split at hp
    · split at hp
      · cases hp
      · cases hp; exact dropped_same _ _
    · cases hp; exact SameTables.refl _
  | validate clock b =>
    simp only [step, Option.map_eq_some_iff] at hx
    obtain ⟨⟨ok, w⟩, hp, rfl⟩ := hx
    unfold validate at hp
    split at hp
    · split at hp
      · cases hp; exact dropped_same _ _
      · cases hp
      · cases hp; exact SameTables.refl _
    · cases hp; exact SameTables.refl _
  | commit clock b => exact absurd rfl (hn clock b)
  | simulate clock m =>
    simp only [step, Option.map_eq_some_iff] at hx
    obtain ⟨⟨ok, w⟩, hp, rfl⟩ := hx
    unfold simulate at hp
    simp only at hp
    split at hp
    · cases hp
    · cases hp; exact SameTables.refl _
    · split at hp <;> cases hp <;> exact dropped_same _ _

theorem sameTime_tables {d d' : ZWork} (h : SameTables d d') {v : EngineVersion} {txns : List (ETxn F)} {k k' : Nat}
    (ht : c.SameTime d v txns k k') : c.SameTime d' v txns k k' := by
  obtain ⟨g, rfl⟩ := h
  exact ⟨ht.stored, ht.brought, ht.loans⟩

theorem sameTime_refl (d : ZWork) (v : EngineVersion) (txns : List (ETxn F)) (k : Nat) : c.SameTime d v txns k k :=
  ⟨fun _ _ _ _ _ _ _ => rfl, fun _ _ _ _ _ _ _ _ => rfl, Iff.rfl⟩

theorem inStep_same : ∀ (bs : List (Nat × Nat × ZBlock F)) (d d' : ZWork), SameTables d d' → c.InStep d bs → c.InStep d' bs
  | [], _, _, _, _ => trivial
  | (k, k', b) :: bs, d, d', h, ⟨hv, ht, hn⟩ => by
    refine ⟨hv, sameTime_tables h ht, fun d1' e => ?_⟩
    rcases commit_same h hv (sameTime_refl d _ b.txns k) with ⟨_, a⟩ | ⟨d2, d2', a, a', hs⟩
    · rw [a] at e; cases e
    · rw [a'] at e; cases e
      exact inStep_same bs d2 _ hs (hn d2 a)

theorem run_same : ∀ (calls calls' : List (ZCall F)) (bs : List (Nat × Nat × ZBlock F)) (d d' d1 d1' : ZWork), SameTables d d' →
    commits calls = bs.map (fun x => (x.1, x.2.2)) → commits calls' = bs.map (fun x => x.2) → c.InStep d bs →
    c.run calls d = some d1 → c.run calls' d' = some d1' → SameTables d1 d1'
  | x :: xs, calls', bs, d, d', d1, d1', h, e, e', hs, hr, hr' => by
    by_cases hx : ∃ k b, x = .commit k b
    · obtain ⟨k, b, rfl⟩ := hx
      cases bs with
      | nil => simp [commits] at e
      | cons y bs =>
        obtain ⟨k0, k', b0⟩ := y
        simp only [commits, List.map_cons, List.cons.injEq, Prod.mk.injEq] at e
        obtain ⟨⟨rfl, rfl⟩, e⟩ := e
        -- the other side
        cases calls' with
        | nil => simp [commits] at e'
        | cons x' xs' =>
          by_cases hx' : ∃ k b, x' = .commit k b
          · obtain ⟨k1, b1, rfl⟩ := hx'
            simp only [commits, List.map_cons, List.cons.injEq, Prod.mk.injEq] at e'
            obtain ⟨⟨rfl, rfl⟩, e'⟩ := e'
            obtain ⟨hv, ht, hnext⟩ := hs
            simp only [run, step] at hr hr'
            rcases commit_same h hv ht with ⟨a, _⟩ | ⟨d2, d2', a, a', hsame⟩
            · rw [a] at hr; simp at hr
            · rw [a] at hr; rw [a'] at hr'
              exact run_same xs xs' bs d2 d2' d1 d1' hsame e e' (hnext d2 a) hr hr'
          · unfold run at hr'
            split at hr'
            · cases hr'
            · rename_i d2 h2
              have hn : ∀ k b, x' ≠ .commit k b := fun k b e => hx' ⟨k, b, e⟩
              have e2 : commits (x' :: xs') = commits xs' := by
                cases x' <;> first | rfl | exact absurd rfl (hn _ _)
              exact run_same (.commit k b :: xs) xs' ((k, k', b) :: bs) d d2 d1 d1' (h.trans (step_same h2 hn)) (by simp [commits, e])
                (e2 ▸ e') hs hr hr'
    · unfold run at hr
      split at hr
      · cases hr
      · rename_i d2 h2
        have hn : ∀ k b, x ≠ .commit k b := fun k b e => hx ⟨k, b, e⟩
        have e2 : commits (x :: xs) = commits xs := by
          cases x <;> first | rfl | exact absurd rfl (hn _ _)
        have h3 := step_same h2 hn
        exact run_same xs calls' bs d2 d' d1 d1' (h3.symm.trans h) (e2 ▸ e) e' (inStep_same bs _ _ h3 hs) hr hr'
  | [], x' :: xs', bs, d, d', d1, d1', h, e, e', hs, hr, hr' => by
    cases hr
    cases bs with
    | cons y bs => simp [commits] at e
    | nil =>
      unfold run at hr'
      split at hr'
      · cases hr'
      · rename_i d2 h2
        have hn : ∀ k b, x' ≠ .commit k b := by rintro k b rfl; simp [commits] at e'
        have e2 : commits (x' :: xs') = commits xs' := by
          cases x' <;> first | rfl | exact absurd rfl (hn _ _)
        exact run_same [] xs' [] d d2 d d1' (h.trans (step_same h2 hn)) rfl (e2 ▸ e') trivial rfl hr'
  | [], [], bs, d, d', d1, d1', h, _, _, _, hr, hr' => by cases hr; cases hr'; exact h
  termination_by calls calls' => calls.length + calls'.length

/-! ## Honest proposals -/

theorem replay_root (k : Nat) (v : EngineVersion) (ts : Nat) (w : ZWork) (t : ETxn F) (r : Bytes) :
    c.replay k v ts w { t with root := r } = c.replay k v ts w t := rfl

theorem replays_claimed {k : Nat} {v : EngineVersion} {ts : Nat} : ∀ (l : List (ETxn F)) (w w' : ZWork) (rs : List Bytes) (es : List ZEv),
    c.replays k v ts false l w = .ok (rs, w', es) →
    c.replays k v ts true ((l.zip rs).map (fun p => { p.1 with root := p.2 })) w = .ok (rs, w', es)
  | [], _, _, _, _, h => by cases h; rfl
  | t :: l, w, w', rs, es, h => by
    unfold replays at h
    split at h
    · cases h
    · rename_i r x hx
      simp only [Bool.false_eq_true, false_and, if_false] at h
      split at h
      · cases h
      · rename_i rs' w2 es' hl
        cases h
        simp only [List.zip_cons_cons, List.map_cons]
        unfold replays
        rw [replay_root, hx]
        simp only [ne_eq, not_true, and_false, if_false]
        rw [replays_claimed l _ _ _ _ hl]

/-- A transaction without the root it names. -/
def unrooted (t : ETxn F) : ETxn F := { t with root := [] }

theorem replays_true {k : Nat} {v : EngineVersion} {ts : Nat} : ∀ (l : List (ETxn F)) (w w' : ZWork) (rs : List Bytes) (es : List ZEv),
    c.replays k v ts true l w = .ok (rs, w', es) → c.replays k v ts false l w = .ok (rs, w', es) ∧ rs = l.map (·.root)
  | [], _, _, _, _, h => by cases h; exact ⟨rfl, rfl⟩
  | t :: l, w, w', rs, es, h => by
    unfold replays at h
    split at h
    · cases h
    · rename_i r x hx
      split at h
      · cases h
      · rename_i hr
        split at h
        · cases h
        · rename_i rs' w2 es' hl
          cases h
          obtain ⟨h1, h2⟩ := replays_true l _ _ _ _ hl
          unfold replays
          rw [hx]
          simp only [Bool.false_eq_true, false_and, if_false, h1]
          refine ⟨trivial, ?_⟩
          simp only [true_and, Decidable.not_not] at hr
          rw [List.map_cons, h2, hr]

theorem replays_unrooted {k : Nat} {v : EngineVersion} {ts : Nat} : ∀ (l l' : List (ETxn F)) (w : ZWork),
    l.map unrooted = l'.map unrooted → c.replays k v ts false l w = c.replays k v ts false l' w
  | [], [], _, _ => rfl
  | [], _ :: _, _, h => by simp at h
  | _ :: _, [], _, h => by simp at h
  | t :: l, t' :: l', w, h => by
    simp only [List.map_cons, List.cons.injEq] at h
    have e : c.replay k v ts w t = c.replay k v ts w t' := by
      rw [← replay_root k v ts w t [], ← replay_root k v ts w t' []]
      exact congrArg _ h.1
    unfold replays
    rw [e]
    split
    · rfl
    · rename_i r x hx
      rw [replays_unrooted l l' x.w h.2]
      rfl

theorem txns_of_roots : ∀ (l l' : List (ETxn F)), l.map unrooted = l'.map unrooted → l.map (·.root) = l'.map (·.root) → l = l'
  | [], [], _, _ => rfl
  | [], _ :: _, h, _ => by simp at h
  | _ :: _, [], h, _ => by simp at h
  | t :: l, t' :: l', h, h' => by
    simp only [List.map_cons, List.cons.injEq] at h h'
    rw [txns_of_roots l l' h.2 h'.2]
    congr 1
    obtain ⟨a, b, e, r⟩ := t
    obtain ⟨a', b', e', r'⟩ := t'
    simp only [unrooted, ETxn.mk.injEq] at h
    obtain ⟨⟨rfl, rfl, rfl, _⟩, _⟩ := h
    simp only at h'
    rw [h'.1]

/-- What a replayed block names is what the replay gives. -/
theorem replayProposal_unique {k : Nat} {d w w' : ZWork} {b b' : ZBlock F} (hx : c.replayProposal k d b = .ok w)
    (hx' : c.replayProposal k d b' = .ok w') (hh : b.height = b'.height) (ht : b.ts = b'.ts)
    (htx : b.txns.map unrooted = b'.txns.map unrooted) :
    b.txns = b'.txns ∧ b.eventsHash = b'.eventsHash ∧ b.root = b'.root ∧ w = w' := by
  unfold replayProposal at hx hx'
  split at hx
  · cases hx
  · rename_i rs w1 es hr
    split at hx'
    · cases hx'
    · rename_i rs' w1' es' hr'
      obtain ⟨h1, e1⟩ := replays_true _ _ _ _ _ hr
      obtain ⟨h1', e1'⟩ := replays_true _ _ _ _ _ hr'
      rw [← ht, ← hh, ← replays_unrooted _ _ _ htx, h1] at h1'
      cases h1'
      have et := txns_of_roots _ _ htx (e1.symm.trans e1')
      rw [← ht, ← hh] at hx'
      split at hx
      · cases hx
      · rename_i w2 bs he
        rw [he] at hx'
        simp only at hx'
        split at hx
        · cases hx
        · rename_i n1
          split at hx'
          · cases hx'
          · rename_i n1'
            split at hx
            · cases hx
            · rename_i r hroot
              rw [hroot] at hx'
              simp only at hx'
              split at hx
              · cases hx
              · rename_i n2
                split at hx'
                · cases hx'
                · rename_i n2'
                  cases hx; cases hx'
                  simp only [ne_eq, Decidable.not_not] at n1 n1' n2 n2'
                  exact ⟨et, n1.symm.trans n1', n2.symm.trans n2', rfl⟩

theorem prepare_replayed {k h ts : Nat} {d w : ZWork} {txns : List (ETxn F)} {b : ZBlock F}
    (hx : c.prepare k h ts (c.ver ts) d txns = .ok (b, w)) :
    c.replayProposal k d b = .ok w ∧ c.root w = .ok b.root ∧ b.ts = ts ∧ b.height = h := by
  unfold prepare at hx
  simp only at hx
  split at hx
  · cases hx
  · rename_i rs w1 es hr
    split at hx
    · cases hx
    · rename_i w2 bs he
      split at hx
      · cases hx
      · rename_i r hroot
        cases hx
        refine ⟨?_, hroot, rfl, rfl⟩
        unfold replayProposal
        simp only
        rw [replays_claimed _ _ _ _ _ hr]
        simp only [he, ne_eq, not_true, if_false, hroot]

theorem map_root_zip : ∀ (l : List (ETxn F)) (rs : List Bytes), ∀ t ∈ (l.zip rs).map (fun p => { p.1 with root := p.2 }),
    ∃ t0 ∈ l, t.fid = t0.fid ∧ t.sys = t0.sys ∧ t.user = t0.user := by
  intro l rs t ht
  obtain ⟨⟨t0, r⟩, hp, rfl⟩ := List.mem_map.1 ht
  exact ⟨t0, (List.of_mem_zip hp).1, rfl, rfl, rfl⟩

/-- The transactions of a proposal. -/
theorem prepare_screened {k h ts : Nat} {v : EngineVersion} {d w : ZWork} {txns : List (ETxn F)} {b : ZBlock F}
    (hx : c.prepare k h ts v d txns = .ok (b, w)) : ∀ t ∈ b.txns, ∃ t0 ∈ txns, t.fid = t0.fid ∧ t.sys = t0.sys ∧
      (t.user = [] ∨ t.user = t0.user ∧ ∃ s, c.txnSlot k v d t0 true = some s ∧ s.isActive (UInt32.ofNat k) = true) ∧
      (t.sys ≠ [] ∨ t.user ≠ []) := by
  unfold prepare at hx
  simp only at hx
  split at hx
  · cases hx
  · split at hx
    · cases hx
    · split at hx
      · cases hx
      · cases hx
        intro t ht
        obtain ⟨t1, h1, e1, e2, e3⟩ := map_root_zip _ _ t ht
        obtain ⟨t0, h0, hs⟩ := List.mem_filterMap.1 h1
        unfold screen at hs
        split at hs
        · cases hs
        · rename_i s hslot
          by_cases ha : s.isActive (UInt32.ofNat k) = true
          · simp only [ha, if_true] at hs
            split at hs
            · cases hs
            · rename_i hne
              cases hs
              refine ⟨t1, h0, e1, e2, .inr ⟨e3, s, hslot, ha⟩, ?_⟩
              rw [e2, e3]
              simp only [Bool.and_eq_true, List.isEmpty_iff, not_and] at hne
              by_cases hsys : t1.sys = []
              · exact .inr (hne hsys)
              · exact .inl hsys
          · simp only [ha, Bool.false_eq_true, if_false] at hs
            split at hs
            · cases hs
            · rename_i hne
              cases hs
              refine ⟨t0, h0, e1, e2, .inl e3, .inl ?_⟩
              rw [e2]
              simpa using hne

end ZeroCfg
end Verif
