import Verif.Lemmas.Channel
/-! The effect of a channel merge. -/
namespace Verif

theorem view_notin (db : Db SVal) (t : Txn SVal) (ops : List (Bytes × Option SVal)) (j : Bytes)
    (h : j ∉ ops.map (·.1)) : viewOf db (stageAll t ops) j = viewOf db t j := by
  induction ops generalizing t with
  | nil => rfl
  | cons a l ih =>
    simp only [List.map_cons, List.mem_cons, not_or] at h
    show viewOf db (stageAll (OMap.put t a.1 a.2) l) j = _
    rw [ih _ h.2, view_stage_one, if_neg h.1]

theorem view_last (db : Db SVal) (t : Txn SVal) (a b : List (Bytes × Option SVal)) (j : Bytes) (o : Option SVal)
    (h : j ∉ b.map (·.1)) : viewOf db (stageAll t (a ++ (j, o) :: b)) j = o := by
  rw [stageAll_append]
  show viewOf db (stageAll (OMap.put (stageAll t a) j o) b) j = o
  rw [view_notin _ _ _ _ h, view_stage_one, if_pos rfl]

theorem get_stageAll (t : Txn SVal) (ops : List (Bytes × Option SVal)) (j : Bytes) :
    (stageAll t ops).get j = match (stageAll OMap.empty ops).get j with | some v => some v | none => t.get j := by
  induction ops generalizing t with
  | nil => simp [stageAll]
  | cons a l ih =>
    show (stageAll (OMap.put t a.1 a.2) l).get j = match (stageAll (OMap.put OMap.empty a.1 a.2) l).get j with
      | some v => some v
      | none => t.get j
    rw [ih (OMap.put t a.1 a.2), ih (OMap.put OMap.empty a.1 a.2)]
    cases (stageAll OMap.empty l).get j with
    | some v => rfl
    | none =>
      simp only [OMap.get_put]
      by_cases h : j = a.1 <;> simp [h]

theorem view_nested (db : Db SVal) (t : Txn SVal) (ops : List (Bytes × Option SVal)) (j : Bytes) :
    viewOf db (t.merge (stageAll OMap.empty ops)) j = viewOf db (stageAll t ops) j := by
  unfold viewOf getFromDbOrTxn
  rw [Txn.get_merge, get_stageAll t ops]
  cases (stageAll OMap.empty ops).get j <;> rfl

/-- The author's own index row of a message in a channel store. -/
def ChanKind.authorKey (K : ChanKind) (m : Msg) : Bytes :=
  match K.slotSuffix m with
  | .ok x => makeUserKey m.fid ++ K.adds :: x
  | .error _ => []

theorem addKey_good {m : Msg} {s : ChanSlot} (h : ChanGood m s) :
    s.kind.store.addKey m = .ok (s.kind.authorKey m) := by
  obtain ⟨x, hx, _⟩ := slotSuffix_good h
  simp [ChanKind.store, ChanKind.authorKey, hx]

theorem authorKey_good {m : Msg} {s : ChanSlot} (h : ChanGood m s) :
    ∃ x, s.kind.authorKey m = makeUserKey m.fid ++ s.kind.adds :: x := by
  obtain ⟨x, hx, _⟩ := slotSuffix_good h
  exact ⟨x, by simp [ChanKind.authorKey, hx]⟩

/-- The rows deleted for the superseded message. -/
def oldOps (K : ChanKind) : Option Msg → List (Bytes × Option SVal)
  | some o => [(K.authorKey o, none), (K.prim o, none)]
  | none => []

theorem stages_deleteOne {m : Msg} {s : ChanSlot} (h : ChanGood m s) :
    Stages (s.kind.store.deleteOne m) [(s.kind.authorKey m, none), (s.kind.prim m, none)] () := by
  have hc : s.kind.store.isCompact m = false := by
    simp [StoreDef.isCompact, StoreDef.compactSupported, ChanKind.store]
  have hr : s.kind.store.removeSupported = false := by
    simp [StoreDef.removeSupported, ChanKind.store]
  have ha : s.kind.store.isAdd m = true := by
    simp [StoreDef.isAdd, ChanKind.store, h.ty]
  unfold StoreDef.deleteOne
  have h2 : Stages (s.kind.store.deleteIfRemove m) [] () := by
    unfold StoreDef.deleteIfRemove
    rw [hr]
    exact Stages.pure ()
  have h1 : Stages (s.kind.store.deleteCompactOrAdd m) [(s.kind.authorKey m, none), (s.kind.prim m, none)] () := by
    unfold StoreDef.deleteCompactOrAdd
    rw [hc, ha]
    refine (Stages.bind (Stages.lift (makeTsHash_ok h.hash)) ?_).cast (List.nil_append _)
    unfold StoreDef.deleteAdd
    refine (Stages.bind (Stages.lift (show s.kind.store.indexKeys (tsh m) m = .ok [] from rfl)) ?_).cast (List.nil_append _)
    refine (Stages.bind (Stages.forEach_del []) ?_).cast (List.nil_append _)
    refine (Stages.bind (Stages.forEach_del []) ?_).cast (List.nil_append _)
    refine (Stages.bind (Stages.lift (addKey_good h)) ?_).cast (List.nil_append _)
    refine (Stages.bind (Stages.del _) ?_).cast rfl
    unfold StoreDef.deleteMessage
    exact (Stages.bind (Stages.lift (makeTsHash_ok h.hash)) (b := ()) (o₂ := [(s.kind.prim m, none)]) (fun _ => rfl)).cast (List.nil_append _)
  exact (Stages.bind h1 h2).cast (List.append_nil _)

theorem stages_deleteMany {s : ChanSlot} {o : Option Msg} (h : ∀ m, o = some m → ChanGood m s) :
    Stages (s.kind.store.deleteMany o.toList) (oldOps s.kind o) () := by
  cases o with
  | none => exact Stages.pure ()
  | some m =>
    exact (Stages.bind (stages_deleteOne (h m rfl)) (Stages.pure ())).cast (List.append_nil _)

/-- The writes of the slot counter. -/
def cntOps : Option (Bytes × Nat) → List (Bytes × Option SVal)
  | some (k, n) => [(k, some (.raw (be 4 n)))]
  | none => []

/-- The writes of the moderator counter. -/
def modOps : Option (Bytes × Nat) → List (Bytes × Option SVal)
  | some (k, n) => [(k, counterVal n)]
  | none => []

theorem stages_putSlotCount (o : Option (Bytes × Nat)) : Stages (putSlotCount o) (cntOps o) () := by
  cases o with
  | none => exact Stages.pure ()
  | some p => exact Stages.put _ _

theorem stages_putModeratorCount (o : Option (Bytes × Nat)) : Stages (putModeratorCount o) (modOps o) () := by
  cases o with
  | none => exact Stages.pure ()
  | some p =>
    obtain ⟨k, n⟩ := p
    simp only [putModeratorCount, modOps, counterVal]
    by_cases h : n = 0
    · rw [if_pos h, if_pos h]; exact Stages.del _
    · rw [if_neg h, if_neg h]; exact Stages.put _ _

theorem stages_putAdd {m : Msg} {s : ChanSlot} (h : ChanGood m s) :
    Stages (s.kind.store.putAdd {} (tsh m) m)
      [(s.kind.prim m, some (.msg m)), (s.kind.authorKey m, some (.raw (tsh m)))] () := by
  unfold StoreDef.putAdd
  have h1 : Stages (s.kind.store.putMessage m) [(s.kind.prim m, some (.msg m))] () := by
    unfold StoreDef.putMessage
    exact (Stages.bind (Stages.lift (makeTsHash_ok h.hash)) (Stages.put _ _)).cast (List.nil_append _)
  refine (Stages.bind h1 (b := ()) (o₂ := [(s.kind.authorKey m, some (.raw (tsh m)))]) ?_).cast rfl
  refine (Stages.bind (Stages.lift (addKey_good h)) ?_).cast (List.nil_append _)
  refine (Stages.bind (Stages.put _ _) ?_).cast (List.append_nil _)
  refine (Stages.bind (Stages.lift (show s.kind.store.indexRows (tsh m) m = .ok [] from rfl)) ?_).cast (List.nil_append _)
  refine (Stages.bind (Stages.forEach_put []) ?_).cast (List.nil_append _)
  exact Stages.forEach_put []

/-- All writes of a merge. -/
def slotOps (caps : SlotCaps) (log : List Msg) (s : ChanSlot) (m : Msg) (id : Nat) (e : StoreEvent)
    (rows : List (Bytes × SVal)) : List (Bytes × Option SVal) :=
  oldOps s.kind (newestFor log s) ++ ((s.key, some (slotPointer m)) ::
    (cntOps (slotCountChange s.kind caps log s) ++ (modOps (modCountChange log s m) ++
      ((s.kind.prim m, some (.msg m)) :: (s.kind.authorKey m, some (.raw (tsh m))) ::
        (eventKey id, some (.event id e)) :: puts rows))))

theorem gatedRows_ok {K : ChanKind} {w : Bool} {m : Msg} {rows : List (Bytes × SVal)}
    (h : K.gatedRows w m = .ok rows) : ∀ r ∈ rows, ∃ x, r.1 = 24 :: 8 :: x := by
  unfold ChanKind.gatedRows at h
  split at h
  · split at h
    · cases h; intro r hr; simp at hr; subst hr; exact ⟨_, rfl⟩
    · cases h
  · cases h
  · cases h; simp

/-- A merge that fails leaves the batch as it was. -/
theorem mergeSlot_error {K : ChanKind} {caps : SlotCaps} {db : Db SVal} {w : Bool} {m : Msg} {st st' : SSt}
    {e : HubErr} (h : mergeSlot K caps db w m st = (.error e, st')) : st'.txn = st.txn := by
  unfold mergeSlot at h
  split at h
  · cases h; rfl
  · unfold SM.nested at h
    split at h
    · cases h
    · cases h; rfl

/-- A merge that succeeds. -/
theorem mergeSlot_ok {U : Msg → Prop} {caps : SlotCaps} {log : List Msg} {db : Db SVal} {st st' : SSt}
    (hi : ChanInv U caps log (viewOf db st.txn)) {K : ChanKind} {w : Bool} {m : Msg} {e : StoreEvent}
    (ht : m.ts < 2 ^ 32) (h : mergeSlot K caps db w m st = (.ok e, st')) :
    ∃ s, ChanGood m s ∧ s.kind = K ∧ isIncumbent m (newestFor log s) = false ∧
      (newestFor log s = none → ∀ cap key, K.slotCap caps = some cap → K.countKey s.channel = some key →
        nLive log (inChan K s.channel) < cap ∧ nLive log (inChan K s.channel) + 1 < 2 ^ 32) ∧
      (oldMod log s ≠ isMod s.channel m → isMod s.channel m = true → nLive log (isMod s.channel) + 1 < 2 ^ 32) ∧
      ∃ id rows, (∀ r ∈ rows, ∃ x, r.1 = 24 :: 8 :: x) ∧
        ∀ j, viewOf db st'.txn j = viewOf db (stageAll st.txn (slotOps caps log s m id e rows)) j := by
  unfold mergeSlot at h
  split at h
  · cases h
  rename_i p hp
  by_cases hf : m.fid < 2 ^ 32
  · obtain ⟨s, hg, hk, h1, h2, h3, h4, h5, h6, h7, h8⟩ := planSlot_ok hi hp hf ht
    subst hk
    refine ⟨s, hg, rfl, h4, h6, h8, ?_⟩
    unfold SM.nested at h
    split at h
    · rename_i a s1 hrun
      cases h
      unfold stageSlot at hrun
      have hold : ∀ o, newestFor log s = some o → ChanGood o s := by
        intro o ho
        obtain ⟨hm, hs⟩ := newestFor_mem ho
        obtain ⟨_, s', hg'⟩ := hi.good o hm
        have := hg'.unique hs; subst this; exact hg'
      rw [h1, h2, h3, h5, h7] at hrun
      rw [SM.bind_ok (stages_deleteMany hold _)] at hrun
      rw [SM.bind_ok (SM.lift_ok (show encodeSlotPointer m (tsh m) = .ok (be 4 m.fid ++ tsh m) by
        unfold encodeSlotPointer; rw [if_pos hf]) _)] at hrun
      rw [SM.bind_ok (Stages.put _ _ _), SM.bind_ok (stages_putSlotCount _ _),
        SM.bind_ok (stages_putModeratorCount _ _)] at hrun
      unfold StoreDef.mergeAddWithConflicts at hrun
      simp only [← stageAll_append] at hrun
      generalize hops : (oldOps s.kind (newestFor log s) ++ [(s.key, some (SVal.raw (be 4 m.fid ++ tsh m)))] ++
        cntOps (slotCountChange s.kind caps log s) ++ modOps (modCountChange log s m)) = ops at hrun
      have hadd := stages_putAdd hg ⟨stageAll OMap.empty ops, st.gen⟩
      rcases event_cases (.merge m (newestFor log s).toList)
        ⟨stageAll (stageAll OMap.empty ops) [(s.kind.prim m, some (.msg m)), (s.kind.authorKey m, some (.raw (tsh m)))], st.gen⟩ with
        ⟨id, g, hev⟩ | ⟨g, hev⟩
      · rw [SM.bind_ok (a := StoreEvent.merge m (newestFor log s).toList)
          (s' := ⟨putEvent (stageAll (stageAll OMap.empty ops) [(s.kind.prim m, some (.msg m)), (s.kind.authorKey m, some (.raw (tsh m)))])
            id (.event id (.merge m (newestFor log s).toList)), g⟩) (by rw [SM.bind_ok hadd]; exact hev)] at hrun
        cases hgr : s.kind.gatedRows w m with
        | error er =>
          rw [hgr] at hrun
          rw [SM.bind_error (show SM.lift (Except.error er : Except HubErr (List (Bytes × SVal))) _ = (.error er, _) from rfl)] at hrun
          cases hrun
        | ok rows =>
          rw [hgr] at hrun
          rw [SM.bind_ok (SM.lift_ok rfl _), SM.bind_ok (Stages.forEach_put rows _)] at hrun
          cases hrun
          refine ⟨id, rows, gatedRows_ok hgr, fun j => ?_⟩
          have hfin : stageAll (putEvent (stageAll (stageAll OMap.empty ops) [(s.kind.prim m, some (.msg m)), (s.kind.authorKey m, some (.raw (tsh m)))])
            id (.event id (.merge m (newestFor log s).toList))) (puts rows) =
            stageAll OMap.empty (slotOps caps log s m id (.merge m (newestFor log s).toList) rows) := by
            unfold slotOps
            rw [← hops]
            simp [stageAll, putEvent, Txn.stagePut, slotPointer]
          show viewOf db (st.txn.merge (stageAll (putEvent _ id _) (puts rows))) j = _
          rw [hfin, view_nested]
      · rw [SM.bind_error (e := .invalidParameter)
          (s' := ⟨stageAll (stageAll OMap.empty ops) [(s.kind.prim m, some (.msg m)), (s.kind.authorKey m, some (.raw (tsh m)))], g⟩)
          (by rw [SM.bind_ok hadd]; exact hev)] at hrun
        cases hrun
    · cases h
  · exfalso
    unfold SM.nested at h
    split at h
    · rename_i a s1 hrun
      unfold stageSlot at hrun
      rw [SM.bind_def] at hrun
      unfold SM.bind at hrun
      split at hrun
      · simp only [] at hrun
        rw [SM.bind_error (show SM.lift (encodeSlotPointer m p.tsHash) _ = (.error .invalidParameter, _) by
          unfold encodeSlotPointer; rw [if_neg hf]; rfl)] at hrun
        cases hrun
      · cases hrun
    · cases h

end Verif
