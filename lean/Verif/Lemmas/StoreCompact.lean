import Verif.Lemmas.StoreSafe
import Verif.Spec.Links
/-! Link compaction. -/
namespace Verif
namespace StoreDef
variable {D : StoreDef} {ok : Msg → Prop} {ctx : Nat → MergeCtx}

/-- Deleting live messages one after the other. -/
theorem deleteAll_holds (H : D.Lawful ok) {db : Db SVal} (S : List Msg) :
    ∀ {L : List Msg} {t : Txn SVal}, D.Holds ok ctx L (viewOf db t) → (∀ m ∈ S, m ∈ L) → S.Nodup →
      D.Holds ok ctx (L.filter (fun x => x ∉ S)) (viewOf db (stageAll t (dels (S.flatMap D.delKeys)))) ∧
      Frame D ok (viewOf db t) (viewOf db (stageAll t (dels (S.flatMap D.delKeys)))) := by
  induction S with
  | nil =>
    intro L t h _ _
    refine ⟨?_, Frame.refl _⟩
    rw [filter_all _ (by simp)]; exact h
  | cons a S ih =>
    intro L t h hS hnd
    have haL := hS a List.mem_cons_self
    have hao := h.valid a haL
    have hv : ∀ k, viewOf db (stageAll t (dels (D.delKeys a))) k = if k ∈ D.delKeys a then none else viewOf db t k :=
      fun k => view_dels _ _ _ _
    have h1 : D.Holds ok ctx (L.filter (fun x => x ≠ a)) (viewOf db (stageAll t (dels (D.delKeys a)))) := by
      rw [← filter_congr_ak h.items haL]
      exact h.delete H haL (fun k _ => hv k)
    have f1 : Frame D ok (viewOf db t) (viewOf db (stageAll t (dels (D.delKeys a)))) := by
      intro k hk _
      rw [hv, if_neg]
      intro hd
      refine hk ?_
      rw [mem_delKeys] at hd
      rcases hd with e | ⟨_, e | e⟩ | ⟨b, e⟩
      · rw [e]; exact Space.prim a
      · rw [e]; exact Space.ak hao
      · exact Space.aux hao e
      · rw [e]; exact Space.rk hao (H.remove_of_not_add hao b).2
    obtain ⟨ha, hnd⟩ := List.nodup_cons.1 hnd
    obtain ⟨h2, f2⟩ := ih h1 (fun m hm => List.mem_filter.2 ⟨hS m (List.mem_cons_of_mem _ hm), by
      simp; rintro rfl; exact ha hm⟩) hnd
    have e : stageAll t (dels ((a :: S).flatMap D.delKeys)) =
        stageAll (stageAll t (dels (D.delKeys a))) (dels (S.flatMap D.delKeys)) := by
      rw [← stageAll_append]; simp [dels]
    rw [e]
    refine ⟨?_, f1.trans f2⟩
    have : L.filter (fun x => x ∉ a :: S) = (L.filter (fun x => x ≠ a)).filter (fun x => x ∉ S) := by
      rw [List.filter_filter]
      apply List.filter_congr
      intro x _
      simp [List.mem_cons, not_or, Bool.and_comm]
    rw [this]; exact h2

/-- The scan of a compaction over messages sorted by time. -/
theorem compactionLoop (D : StoreDef) (g : MergeCtx) (m : Msg) (l : List Msg)
    (hs : l.Pairwise (fun a b => a.ts ≤ b.ts)) (acc : List Msg) (c : Nat) :
    ∃ b, iterate none (D.compactionStep g m) (msgRows D l) c acc =
      .ok (acc ++ l.filter (fun x => x.ts ≤ m.ts && D.compactionConflict g x m), b) := by
  induction l generalizing acc c with
  | nil => exact ⟨true, by simp [msgRows, iterate]⟩
  | cons a l ih =>
    obtain ⟨h1, h2⟩ := List.pairwise_cons.1 hs
    simp only [msgRows, List.map_cons, iterate]
    rw [show D.compactionStep g m acc (D.prim a) (.msg a) = if a.ts > m.ts then .ok (acc, true)
      else if D.compactionConflict g a m then .ok (acc ++ [a], false) else .ok (acc, false) from rfl]
    by_cases ha : a.ts > m.ts
    · refine ⟨false, ?_⟩
      rw [if_pos ha]
      simp only
      have : (a :: l).filter (fun x => x.ts ≤ m.ts && D.compactionConflict g x m) = [] := by
        rw [List.filter_eq_nil_iff]
        intro x hx
        rcases List.mem_cons.1 hx with rfl | hx
        · simp; intro; omega
        · have := h1 x hx; simp; intro; omega
      simp [this]
    · rw [if_neg ha]
      by_cases hc : D.compactionConflict g a m = true
      · rw [if_pos hc]
        obtain ⟨b, hb⟩ := ih h2 (acc ++ [a]) c
        refine ⟨b, ?_⟩
        rw [List.filter_cons_of_pos (by simp [hc]; omega)]
        simpa [msgRows] using hb
      · rw [if_neg hc]
        obtain ⟨b, hb⟩ := ih h2 acc c
        refine ⟨b, ?_⟩
        rw [List.filter_cons_of_neg (by simp [hc])]
        simpa [msgRows] using hb

theorem stored_by_ts (H : D.Lawful ok) {db : Db SVal} {L : List Msg}
    (h : D.Holds ok ctx L (viewOf db OMap.empty)) {fid : Nat} (hf : fid < 2 ^ 32) :
    (storedMessages D db fid).Pairwise (fun a b => a.ts ≤ b.ts) := by
  refine (stored_sorted H h hf).imp_of_mem ?_
  intro a b ha hb hlt
  have ha' := (mem_stored H h hf a).1 ha
  have hb' := (mem_stored H h hf b).1 hb
  simp only [prim, makeMessagePrimaryKey, ha'.2, hb'.2] at hlt
  rw [Bytes.blt_append_left] at hlt
  have hlt' : Bytes.blt (tsh a) (tsh b) = true := by simpa [Bytes.blt] using hlt
  have ha4 : a.ts < 256 ^ 4 := by have := H.ts (h.valid _ ha'.1); omega
  have hb4 : b.ts < 256 ^ 4 := by have := H.ts (h.valid _ hb'.1); omega
  rcases Bytes.blt_of_append (by simp) hlt' with h | ⟨h, _⟩
  · exact Nat.le_of_lt ((be_blt_iff ha4 hb4).1 h)
  · exact Nat.le_of_eq (be_inj ha4 hb4 h)

theorem compactionScan_eq (H : D.Lawful ok) {db : Db SVal} {L : List Msg}
    (h : D.Holds ok ctx L (viewOf db OMap.empty)) (hset : D.set ≠ 255) (g : MergeCtx) {m : Msg} (hf : m.fid < 2 ^ 32) :
    D.compactionScan db g m =
      .ok ((storedMessages D db m.fid).filter (fun x => x.ts ≤ m.ts && D.compactionConflict g x m)) := by
  obtain ⟨b, hb⟩ := compactionLoop D g m _ (stored_by_ts H h hf) [] 0
  unfold compactionScan forEachByPrefix forEachPaged
  have e := scan_stored H h hf hset
  have hb' : iterBounds (some (makeMessagePrimaryKey m.fid D.set none))
      (some (incrementVec (makeMessagePrimaryKey m.fid D.set none)))
      { ({} : PageOptions) with pageSize := none } = iterBounds (some (makeMessagePrimaryKey m.fid D.set none))
      (some (incrementVec (makeMessagePrimaryKey m.fid D.set none))) {} := rfl
  simp only [hb']
  rw [e, hb]
  simp

end StoreDef

open StoreDef
variable {U : Msg → Prop} {ctx : Nat → MergeCtx}

/-- The row of a compaction. -/
def ckey (c : Msg) : Bytes := (RowKey.linkCompact c.fid (padLinkType c.linkType)).bytes

theorem compactKey_eq {c : Msg} (h : c.IsCompaction) : linkStore.compactKey c = .ok (ckey c) := by
  obtain ⟨_, _, _, _, _, ty, ts, hb, _⟩ := h
  simp [linkStore, linkCompactKey, hb, ckey, Msg.linkType, RowKey.bytes]

theorem compactKey_link {m : Msg} (h : okIn .links U m) : linkStore.compactKey m = .ok (ckey m) := by
  obtain ⟨ty, t, hb, _⟩ := h.1.2.2.2.2.2
  simp [linkStore, linkCompactKey, hb, ckey, Msg.linkType, RowKey.bytes]


theorem ckey_out (hU : HashesIdentify U) {c : Msg} (h : c.IsCompaction) :
    ¬ linkStore.Space (okIn .links U) (ckey c) ∧ ∀ id, ckey c ≠ eventKey id :=
  linkCompact_row_out hU h.2.1 _

/-- Outside the link rows and the events there are only compactions, each under its own key. -/
def OnlyCompactions (U : Msg → Prop) (V : View) : Prop :=
  ∀ k, ¬ linkStore.Space (okIn .links U) k → (∀ id, k ≠ eventKey id) → ∀ v, V k = some v →
    ∃ c, c.IsCompaction ∧ k = ckey c ∧ v = .msg c

/-- No stored link is one an older-link check would reject. -/
def Enforced (L : List Msg) (V : View) : Prop :=
  ∀ c, c.IsCompaction → V (ckey c) = some (.msg c) → ∀ m ∈ L, m.fid = c.fid → m.linkType = c.linkType →
    m.ts < c.ts → ¬ c.Unlisted m

structure CompView (U : Msg → Prop) (ctx : Nat → MergeCtx) (L : List Msg) (V : View) : Prop where
  holds : linkStore.Holds (okIn .links U) ctx L V
  only : OnlyCompactions U V
  enforced : Enforced L V

structure CompInv (U : Msg → Prop) (ctx : Nat → MergeCtx) (L0 L : List Msg) (st : StoreState) : Prop where
  old : CompView U ctx L0 (viewOf st.db OMap.empty)
  now : CompView U ctx L st.view

theorem CompInv.pair {L0 L : List Msg} {st : StoreState} (h : CompInv U ctx L0 L st) :
    PairInv linkStore (okIn .links U) ctx L0 L st := ⟨h.old.holds, h.now.holds⟩

theorem CompView.congr {L : List Msg} {V V' : View} (h : CompView U ctx L V) (e : ∀ k, V' k = V k) :
    CompView U ctx L V' := by
  have : V' = V := funext e
  rw [this]; exact h

theorem CompView.shrink (hU : HashesIdentify U) {L L' : List Msg} {V V' : View} (h : CompView U ctx L V)
    (hh : linkStore.Holds (okIn .links U) ctx L' V') (hf : Frame linkStore (okIn .links U) V V')
    (hs : ∀ m ∈ L', m ∈ L) : CompView U ctx L' V' where
  holds := hh
  only k hk he v hv := h.only k hk he v (by rw [← hf k hk he]; exact hv)
  enforced c hc hv m hm := h.enforced c hc (by
    rw [← hf _ (ckey_out hU hc).1 (ckey_out hU hc).2]; exact hv) m (hs m hm)

/-- The store's own rule for what a compaction supersedes. -/
theorem compactionConflict_iff {g : MergeCtx} {x c : Msg} (hx : okIn .links U x) (hc : c.IsCompaction) :
    linkStore.compactionConflict g x c = true ↔
      (g.typedCompaction = true → x.linkType = c.linkType) ∧ c.Unlisted x := by
  obtain ⟨ty, t, hb, _⟩ := hx.1.2.2.2.2.2
  obtain ⟨_, _, _, _, _, cty, ts, hcb, _⟩ := hc
  have hty := hx.1.2.2.2.2.1
  simp only [linkStore, linkCompactionConflict, hb, hcb, Msg.linkType, Msg.Unlisted, Msg.linkTo, Msg.listed, Msg.isRemoval]
  rcases hty with e | e <;> simp [e] <;> by_cases hg : g.typedCompaction = true <;> simp [hg]

/-- The store's own rule for rejecting an older link. -/
theorem compactAdd_iff {x c : Msg} (hx : okIn .links U x) (ha : x.ty = .linkAdd) (hc : c.IsCompaction) :
    linkStore.compactAddConflict x c = true ↔ x.ts < c.ts ∧ c.Unlisted x := by
  obtain ⟨ty, t, hb, _⟩ := hx.1.2.2.2.2.2
  obtain ⟨_, _, _, _, _, cty, ts, hcb, _⟩ := hc
  simp [linkStore, linkCompactAddConflict, hb, hcb, Msg.Unlisted, Msg.linkTo, Msg.listed, Msg.isRemoval, ha]

theorem isAdd_link {x : Msg} : linkStore.isAdd x = true ↔ x.ty = .linkAdd := by simp [isAdd, linkStore]

/-- A link either passes the check against the compaction in force or is rejected without effect. -/
theorem link_compact_check (hU : HashesIdentify U) {db : Db SVal} {s : SSt} (ho : OnlyCompactions U (viewOf db s.txn))
    {m : Msg} (hm : okIn .links U m) :
    CompactFree linkStore m (viewOf db s.txn) ∨
      ∃ c, c.IsCompaction ∧ viewOf db s.txn (ckey m) = some (.msg c) ∧ m.ts < c.ts ∧ c.Unlisted m ∧
        linkStore.merge db (ctx m.ts) m s = (.error .conflict, s) := by
  have hk := compactKey_link hm
  have hout : ¬ linkStore.Space (okIn .links U) (ckey m) ∧ ∀ id, ckey m ≠ eventKey id :=
    linkCompact_row_out hU hm.1.2.1 _
  cases hv : viewOf db s.txn (ckey m) with
  | none => exact .inl (fun _ => ⟨_, hk, .inl hv⟩)
  | some v =>
    obtain ⟨c, hc, _, rfl⟩ := ho _ hout.1 hout.2 v hv
    have H := linkStore_lawful hU
    have hsc : linkStore.storedCompact db m s = (.ok (some c), s) := by
      unfold storedCompact
      have hs : linkStore.compactSupported = true := rfl
      rw [if_pos hs, SM.bind_ok (SM.lift_ok hk s), SM.bind_ok (read_eq db _ s), hv]
      rfl
    rcases hm.1.2.2.2.2.1 with e | e
    · have ha : linkStore.isAdd m = true := isAdd_link.2 e
      by_cases hcc : linkStore.compactAddConflict m c = true
      · right
        obtain ⟨h1, h2⟩ := (compactAdd_iff hm e hc).1 hcc
        refine ⟨c, hc, rfl, h1, h2, ?_⟩
        unfold merge
        rw [if_neg (by simp [ha]), SM.bind_ok (SM.lift_ok (makeTsHash_ok (H.hash hm)) s),
          if_neg (by simp [H.notCompact hm]), if_pos ha]
        unfold mergeAdd
        rw [SM.bind_ok hsc]
        simp only [checkCompactAdd, hcc, if_true]
        rfl
      · left
        exact fun _ => ⟨_, hk, .inr ⟨c, hv, by rw [if_pos ha]; simpa using hcc⟩⟩
    · have ha : linkStore.isAdd m = false := by simp [isAdd, linkStore, e]
      have hr : linkStore.isRemove m = true := by simp [isRemove, removeSupported, linkStore, e]
      by_cases hcc : m.ts < c.ts
      · right
        refine ⟨c, hc, rfl, hcc, .inl (.inr (.inr (.inl e))), ?_⟩
        unfold merge
        rw [if_neg (by simp [hr]), SM.bind_ok (SM.lift_ok (makeTsHash_ok (H.hash hm)) s),
          if_neg (by simp [H.notCompact hm]), if_neg (by simp [ha])]
        unfold mergeRemove
        rw [SM.bind_ok hsc]
        simp only [checkCompactRemove, hcc, if_true]
        rfl
      · left
        exact fun _ => ⟨_, hk, .inr ⟨c, hv, by rw [if_neg (by simp [ha])]; exact hcc⟩⟩

/-- The messages a compaction deletes. -/
def superseded (g : MergeCtx) (db : Db SVal) (c : Msg) : List Msg :=
  (storedMessages linkStore db c.fid).filter (fun x => x.ts ≤ c.ts && linkStore.compactionConflict g x c)

theorem deleteOne_compaction {c : Msg} (h : c.IsCompaction) :
    Stages (linkStore.deleteOne c) [(ckey c, none)] () := by
  have ht : c.ty = .linkCompactState := h.2.2.2.2.1
  have h1 : Stages (linkStore.deleteCompactOrAdd c) [(ckey c, none)] () := by
    have e : linkStore.deleteCompactOrAdd c = (SM.lift (linkStore.compactKey c) >>= fun k => SM.del k) := by
      simp [deleteCompactOrAdd, isCompact, compactSupported, linkStore, ht, deleteCompact]
    rw [e]
    exact Stages.bind (Stages.lift (compactKey_eq h)) (Stages.del _)
  have h2 : Stages (linkStore.deleteIfRemove c) [] () := by
    have e : linkStore.deleteIfRemove c = pure () := by simp [deleteIfRemove, isRemove, linkStore, ht]
    rw [e]; exact Stages.pure ()
  exact Stages.cast (Stages.bind h1 (f := fun _ => linkStore.deleteIfRemove c) h2) (by simp)

theorem compact_spec (hU : HashesIdentify U) {L0 L : List Msg} {st : StoreState} (h : CompInv U ctx L0 L st)
    {c : Msg} (hc : c.IsCompaction) (hq : st.Quiet linkStore c.fid) :
    (∃ c0, c0.IsCompaction ∧ st.view (ckey c) = some (.msg c0) ∧ c.ts ≤ c0.ts ∧
      linkStore.merge st.db (ctx c.ts) c st.pend = (.error .conflict, st.pend)) ∨
    ((∀ c0, st.view (ckey c) = some (.msg c0) → c0.ts < c.ts) ∧
      ∃ old s', (∀ x, x ∈ old ↔ st.view (ckey c) = some (.msg x)) ∧
        (linkStore.merge st.db (ctx c.ts) c st.pend =
            (.ok (.merge c (old ++ superseded (ctx c.ts) st.db c)), s') ∨
          linkStore.merge st.db (ctx c.ts) c st.pend = (.error .invalidParameter, s')) ∧
        linkStore.Holds (okIn .links U) ctx (L.filter (fun x => x ∉ superseded (ctx c.ts) st.db c))
          (viewOf st.db s'.txn) ∧
        viewOf st.db s'.txn (ckey c) = some (.msg c) ∧
        ∀ k, ¬ linkStore.Space (okIn .links U) k → (∀ id, k ≠ eventKey id) → k ≠ ckey c →
          viewOf st.db s'.txn k = st.view k) := by
  have H := linkStore_lawful hU
  have ht : c.ty = .linkCompactState := hc.2.2.2.2.1
  have hout := ckey_out hU hc
  have hS : ∀ m ∈ superseded (ctx c.ts) st.db c, m ∈ L := by
    intro m hm
    have hm' := (List.mem_filter.1 hm).1
    have hf := ((mem_stored H h.old.holds hc.2.1 m).1 hm').2
    exact (h.pair.has_iff H m).1 ((hq m hf).2 hm')
  have hnd : (superseded (ctx c.ts) st.db c).Nodup := (stored_nodup H h.old.holds hc.2.1).filter _
  have hscan := compactionScan_eq H h.old.holds (by decide) (ctx c.ts) (m := c) hc.2.1
  have hmerge : linkStore.merge st.db (ctx c.ts) c st.pend = linkStore.mergeCompact st.db (ctx c.ts) c st.pend := by
    unfold merge
    have h3 : linkStore.isCompact c = true := by simp [isCompact, compactSupported, linkStore, ht]
    rw [if_neg (by simp [h3]), SM.bind_ok (SM.lift_ok (makeTsHash_ok hc.2.2.2.1) _), if_pos h3]
  rw [hmerge]
  unfold mergeCompact
  rw [SM.bind_ok (SM.lift_ok (compactKey_eq hc) _), SM.bind_ok (read_eq _ _ _)]
  have hview : viewOf st.db st.pend.txn (ckey c) = st.view (ckey c) := rfl
  rw [hview]
  -- the tail, once the older compaction is known
  have tail : ∀ (old : List Msg) (oldKeys : List Bytes),
      Stages (linkStore.deleteMany (old ++ superseded (ctx c.ts) st.db c))
        (dels (oldKeys ++ (superseded (ctx c.ts) st.db c).flatMap linkStore.delKeys)) () →
      (∀ k ∈ oldKeys, k = ckey c) →
      ∃ s', ((do
          let superseded ← SM.lift (linkStore.compactionScan st.db (ctx c.ts) c)
          linkStore.deleteMany (old ++ superseded)
          linkStore.putCompact c
          SM.event (.merge c (old ++ superseded)) : SM StoreEvent) st.pend =
            (.ok (.merge c (old ++ superseded (ctx c.ts) st.db c)), s') ∨
          (do
          let superseded ← SM.lift (linkStore.compactionScan st.db (ctx c.ts) c)
          linkStore.deleteMany (old ++ superseded)
          linkStore.putCompact c
          SM.event (.merge c (old ++ superseded)) : SM StoreEvent) st.pend = (.error .invalidParameter, s')) ∧
        linkStore.Holds (okIn .links U) ctx (L.filter (fun x => x ∉ superseded (ctx c.ts) st.db c))
          (viewOf st.db s'.txn) ∧
        viewOf st.db s'.txn (ckey c) = some (.msg c) ∧
        ∀ k, ¬ linkStore.Space (okIn .links U) k → (∀ id, k ≠ eventKey id) → k ≠ ckey c →
          viewOf st.db s'.txn k = st.view k := by
    intro old oldKeys hst hkeys
    rw [SM.bind_ok (SM.lift_ok hscan _)]
    rw [show (storedMessages linkStore st.db c.fid).filter (fun x => x.ts ≤ c.ts && linkStore.compactionConflict (ctx c.ts) x c)
      = superseded (ctx c.ts) st.db c from rfl]
    rw [SM.bind_ok (hst _)]
    have hput : Stages (linkStore.putCompact c) [(ckey c, some (.msg c))] () := by
      have e : linkStore.putCompact c = (SM.lift (linkStore.compactKey c) >>= fun k => SM.put k (.msg c)) := by
        simp [putCompact, compactSupported, linkStore]
      rw [e]
      exact Stages.bind (Stages.lift (compactKey_eq hc)) (Stages.put _ _)
    rw [SM.bind_ok (hput _)]
    -- the views
    obtain ⟨hd, fd⟩ := deleteAll_holds H (superseded (ctx c.ts) st.db c) (t := st.pend.txn) h.now.holds hS hnd
    let t := stageAll (stageAll st.pend.txn
      (dels (oldKeys ++ (superseded (ctx c.ts) st.db c).flatMap linkStore.delKeys))) [(ckey c, some (.msg c))]
    have hv : ∀ k, viewOf st.db t k = if k = ckey c then some (.msg c) else
        if k ∈ oldKeys ++ (superseded (ctx c.ts) st.db c).flatMap linkStore.delKeys then none else st.view k := by
      intro k
      have e1 : viewOf st.db t k = if k = ckey c then some (.msg c) else viewOf st.db (stageAll st.pend.txn
        (dels (oldKeys ++ (superseded (ctx c.ts) st.db c).flatMap linkStore.delKeys))) k :=
        view_stage_one _ _ _ _ _
      rw [e1, view_dels]
      rfl
    have hv2 : ∀ k, viewOf st.db (stageAll st.pend.txn (dels ((superseded (ctx c.ts) st.db c).flatMap linkStore.delKeys))) k =
        if k ∈ (superseded (ctx c.ts) st.db c).flatMap linkStore.delKeys then none else st.view k := by
      intro k; rw [view_dels]; rfl
    have hne : ∀ k, linkStore.Space (okIn .links U) k → k ≠ ckey c := fun k hk e => hout.1 (e ▸ hk)
    have hH : linkStore.Holds (okIn .links U) ctx (L.filter (fun x => x ∉ superseded (ctx c.ts) st.db c)) (viewOf st.db t) := by
      refine hd.congr ?_
      intro k hk
      rw [hv, hv2, if_neg (hne k hk)]
      have : k ∉ oldKeys := fun hm => hne k hk (hkeys k hm)
      simp [this]
    have hF : ∀ k, ¬ linkStore.Space (okIn .links U) k → (∀ id, k ≠ eventKey id) → k ≠ ckey c →
        viewOf st.db t k = st.view k := by
      intro k hk he hkc
      have := fd k hk he
      rw [hv2] at this
      rw [hv, if_neg hkc]
      have h1 : k ∉ oldKeys := fun hm => hkc (hkeys k hm)
      simp only [List.mem_append, h1, false_or]
      exact this
    rcases event_cases (.merge c (old ++ superseded (ctx c.ts) st.db c)) { st.pend with txn := t } with ⟨id, g, he⟩ | ⟨g, he⟩
    · refine ⟨_, .inl he, ?_, ?_, ?_⟩
      · exact hH.congr (fun k hk => view_putEvent _ _ _ _ _ (H.event_free hk))
      · refine (view_putEvent _ _ _ _ _ hout.2).trans ?_
        rw [hv, if_pos rfl]
      · intro k hk he' hkc
        exact (view_putEvent _ _ _ _ _ he').trans (hF k hk he' hkc)
    · refine ⟨_, .inr he, hH, ?_, hF⟩
      rw [hv, if_pos rfl]
  cases hv : st.view (ckey c) with
  | none =>
    right
    refine ⟨fun _ h => by simp at h, ?_⟩
    have e : olderCompact c none = pure [] := rfl
    rw [e, SM.bind_ok (rfl : (pure [] : SM (List Msg)) st.pend = (.ok [], st.pend))]
    obtain ⟨s', h1, h2⟩ := tail [] [] (by simpa using deleteMany_stages H (fun m hm => h.now.holds.valid m (hS m hm))) (by simp)
    exact ⟨[], s', by simp, h1, h2⟩
  | some v =>
    obtain ⟨c0, hc0, hk0, rfl⟩ := h.now.only _ hout.1 hout.2 v hv
    by_cases hlt : c0.ts < c.ts
    · right
      refine ⟨fun x hx => by cases hx; exact hlt, ?_⟩
      have e : olderCompact c (some (.msg c0)) = pure [c0] := by simp [olderCompact, SVal.decodeMsg, hlt]
      rw [e, SM.bind_ok (rfl : (pure [c0] : SM (List Msg)) st.pend = (.ok [c0], st.pend))]
      have hst : Stages (linkStore.deleteMany ([c0] ++ superseded (ctx c.ts) st.db c))
          (dels ([ckey c0] ++ (superseded (ctx c.ts) st.db c).flatMap linkStore.delKeys)) () := by
        have := Stages.bind (deleteOne_compaction hc0) (f := fun _ => linkStore.deleteMany (superseded (ctx c.ts) st.db c))
          (deleteMany_stages H (fun m hm => h.now.holds.valid m (hS m hm)))
        exact Stages.cast this (by simp [dels])
      obtain ⟨s', h1, h2⟩ := tail [c0] [ckey c0] hst (by simp [hk0])
      exact ⟨[c0], s', by simp [eq_comm], h1, h2⟩
    · left
      refine ⟨c0, hc0, rfl, by omega, ?_⟩
      have e : olderCompact c (some (.msg c0)) = SM.fail .conflict := by simp [olderCompact, SVal.decodeMsg, hlt]
      rw [e]; rfl

theorem mem_superseded (hU : HashesIdentify U) {L0 L : List Msg} {st : StoreState} (h : CompInv U ctx L0 L st)
    {c : Msg} (hc : c.IsCompaction) (hq : st.Quiet linkStore c.fid) {g : MergeCtx} (x : Msg) :
    x ∈ superseded g st.db c ↔ x ∈ L ∧ c.Supersedes g.typedCompaction x := by
  have H := linkStore_lawful hU
  unfold superseded
  rw [List.mem_filter]
  have hm := mem_stored H h.old.holds hc.2.1 x
  constructor
  · rintro ⟨h1, h2⟩
    have hf := (hm.1 h1).2
    have hL := (h.pair.has_iff H x).1 ((hq x hf).2 h1)
    have hok := h.now.holds.valid x hL
    simp only [Bool.and_eq_true, decide_eq_true_eq] at h2
    obtain ⟨h3, h4⟩ := (compactionConflict_iff hok hc).1 h2.2
    exact ⟨hL, hf, h3, h2.1, h4⟩
  · rintro ⟨hL, hf, h3, h1, h4⟩
    have hok := h.now.holds.valid x hL
    refine ⟨(hq x hf).1 ((h.pair.has_iff H x).2 hL), ?_⟩
    simp only [Bool.and_eq_true, decide_eq_true_eq]
    exact ⟨h1, (compactionConflict_iff hok hc).2 ⟨h3, h4⟩⟩

theorem mem_filter_notMem {L S : List Msg} {x : Msg} : x ∈ L.filter (fun x => x ∉ S) ↔ x ∈ L ∧ x ∉ S := by
  rw [List.mem_filter, decide_eq_true_iff]

/-- One call on the link store keeps the invariant. -/
theorem comp_step (hU : HashesIdentify U) {L0 L : List Msg} {st : StoreState} (h : CompInv U ctx L0 L st)
    {o : StoreOp} (ho : LinkProper U st o) : ∃ L0' L', CompInv U ctx L0' L' (st.exec linkStore ctx o) := by
  have H := linkStore_lawful hU
  have shrinkTo : ∀ {L' : List Msg} {s' : SSt}, linkStore.Holds (okIn .links U) ctx L' (viewOf st.db s'.txn) →
      Frame linkStore (okIn .links U) st.view (viewOf st.db s'.txn) → (∀ m ∈ L', m ∈ L) →
      CompInv U ctx L0 L' { st with pend := s' } :=
    fun hh hf hs => ⟨h.old, h.now.shrink hU hh hf hs⟩
  cases o with
  | merge m =>
    rcases ho with ⟨hv, hu⟩ | ⟨hc, hq⟩
    · have hm : okIn .links U m := ⟨hv, hu⟩
      rcases link_compact_check (ctx := ctx) hU (s := st.pend) h.now.only hm with hfree | ⟨c, _, _, _, _, hr⟩
      · rcases merge_spec H h.now.holds hm hfree with ⟨e, hl, _, hr⟩ | ⟨old, s', hl, hr, hh, hf⟩
        · have : st.exec linkStore ctx (.merge m) = st := by
            simp only [StoreState.exec, StoreState.after, hr]
          rw [this]; exact ⟨L0, L, h⟩
        · have : st.exec linkStore ctx (.merge m) = { st with pend := s' } := by
            simp only [StoreState.exec, StoreState.after]
            rcases hr with hr | hr <;> rw [hr]
          rw [this]
          refine ⟨L0, _, h.old, hh, ?_, ?_⟩
          · intro k hk he v hv
            exact h.now.only k hk he v ((hf k hk he).symm.trans hv)
          · intro c hc hv x hx hfid hty hlt
            have hv' : st.view (ckey c) = some (.msg c) :=
              (hf _ (ckey_out hU hc).1 (ckey_out hU hc).2).symm.trans hv
            rcases List.mem_cons.1 hx with rfl | hx
            · obtain ⟨k, hk, hcase⟩ := hfree rfl
              rw [compactKey_link hm] at hk
              cases hk
              have hkey : ckey x = ckey c := by simp [ckey, hfid, hty]
              rw [hkey] at hcase
              rcases hcase with hn | ⟨c', hc', hcond⟩
              · have := hn.symm.trans hv'; cases this
              · have := hc'.symm.trans hv'; cases this
                rcases hm.1.2.2.2.2.1 with e | e
                · rw [if_pos (isAdd_link.2 e)] at hcond
                  intro hun
                  have := (compactAdd_iff hm e hc).2 ⟨hlt, hun⟩
                  rw [hcond] at this; cases this
                · rw [if_neg (by simp [isAdd, linkStore, e])] at hcond
                  exact absurd hlt hcond
            · exact h.now.enforced c hc hv' x (List.mem_filter.1 hx).1 hfid hty hlt
      · have : st.exec linkStore ctx (.merge m) = st := by
          simp only [StoreState.exec, StoreState.after, hr]
        rw [this]; exact ⟨L0, L, h⟩
    · rcases compact_spec hU h hc hq with ⟨c0, _, _, _, hr⟩ | ⟨hold, old, s', _, hr, hh, hk, hf⟩
      · have : st.exec linkStore ctx (.merge m) = st := by
          simp only [StoreState.exec, StoreState.after, hr]
        rw [this]; exact ⟨L0, L, h⟩
      · have : st.exec linkStore ctx (.merge m) = { st with pend := s' } := by
          simp only [StoreState.exec, StoreState.after]
          rcases hr with hr | hr <;> rw [hr]
        rw [this]
        refine ⟨L0, _, h.old, hh, ?_, ?_⟩
        · intro k hko he v hv
          by_cases hkc : k = ckey m
          · subst hkc
            have hv' : some v = some (.msg m) := hv.symm.trans hk
            cases hv'
            exact ⟨m, hc, rfl, rfl⟩
          · exact h.now.only k hko he v ((hf k hko he hkc).symm.trans hv)
        · intro c hc' hv x hx hfid hty hlt hun
          obtain ⟨hxL, hxS⟩ := mem_filter_notMem.1 hx
          by_cases hkc : ckey c = ckey m
          · have hv' : viewOf st.db s'.txn (ckey c) = some (.msg c) := hv
            rw [hkc, hk] at hv'
            cases hv'
            exact hxS ((mem_superseded hU h hc hq x).2 ⟨hxL, hfid, fun _ => hty, by omega, hun⟩)
          · have hv' : st.view (ckey c) = some (.msg c) := by
              rw [← hf _ (ckey_out hU hc').1 (ckey_out hU hc').2 hkc]; exact hv
            exact h.now.enforced c hc' hv' x hxL hfid hty hlt hun
  | force m =>
    have hr : linkStore.mergeForce st.db (ctx m.ts) m st.pend = (.error .invalidParameter, st.pend) := rfl
    have : st.exec linkStore ctx (.force m) = st := by
      simp only [StoreState.exec, StoreState.after, hr]
    rw [this]; exact ⟨L0, L, h⟩
  | revokeAdd item =>
    have hm : okIn .links U item := ho
    have h0 : item.fid ≠ 0 := by have := hm.1.1; omega
    rcases getAdd_eq (t := st.pend.txn) H h.now.holds hm h0 with ⟨x, hx, _, _, hg⟩ | ⟨_, hg⟩
    · obtain ⟨s', hr, hh, hf⟩ := revoke_spec H h.now.holds hx
      have : st.exec linkStore ctx (.revokeAdd item) = { st with pend := s' } := by
        simp only [StoreState.exec, StoreState.after, hg]
        rcases hr with hr | hr <;> rw [hr]
      rw [this]; exact ⟨L0, _, shrinkTo hh hf (fun m hm => (List.mem_filter.1 hm).1)⟩
    · have : st.exec linkStore ctx (.revokeAdd item) = st := by
        simp only [StoreState.exec, hg]
      rw [this]; exact ⟨L0, L, h⟩
  | prune fid cur max =>
    obtain ⟨n, s', _, hh, hf, hr⟩ := prune_spec (cur := cur) (max := max) H (by decide) h.pair ho.1 ho.2
    have : st.exec linkStore ctx (.prune fid cur max) = { st with pend := s' } := by
      simp only [StoreState.exec, StoreState.after]
      rcases hr with ⟨hr, _⟩ | hr <;> rw [hr]
    rw [this]; exact ⟨L0, _, shrinkTo hh hf (fun m hm => (List.mem_filter.1 hm).1)⟩
  | revokeSigner fid signer =>
    obtain ⟨es, s', hr, hh, hf, _⟩ := revokeSigner_spec (signer := signer) H (by decide) h.pair ho.1 ho.2
    have : st.exec linkStore ctx (.revokeSigner fid signer) = { st with pend := s' } := by
      simp only [StoreState.exec, StoreState.after, hr]
    rw [this]; exact ⟨L0, _, shrinkTo hh hf (fun m hm => (List.mem_filter.1 hm).1)⟩
  | commit =>
    exact ⟨L, L, h.now.congr (fun k => view_commit (D := linkStore) (ctx := ctx) st k),
      h.now.congr (fun k => view_commit (D := linkStore) (ctx := ctx) st k)⟩
  | drop => exact ⟨L0, L0, h.old, h.old⟩
  | block n => exact ⟨L0, L, h.old, h.now⟩

theorem comp_init : CompInv U ctx [] [] {} := by
  have e : ∀ k, ({} : StoreState).view k = none := fun k => by simp [StoreState.view, getFromDbOrTxn]
  have : CompView U ctx [] ({} : StoreState).view :=
    ⟨holds_empty, fun k _ _ v hv => (by rw [e] at hv; cases hv), fun c _ hv => (by rw [e] at hv; cases hv)⟩
  exact ⟨this, this⟩

theorem comp_run (hU : HashesIdentify U) (ops : List StoreOp) :
    ∀ {L0 L : List Msg} {st : StoreState}, CompInv U ctx L0 L st → LinkProperRun ctx U st ops →
    ∃ L0' L', CompInv U ctx L0' L' (st.run linkStore ctx ops) := by
  induction ops with
  | nil => intro L0 L st h _; exact ⟨L0, L, h⟩
  | cons o ops ih =>
    intro L0 L st h ho
    obtain ⟨L0', L', h'⟩ := comp_step hU h ho.1
    exact ih h' ho.2

end Verif
