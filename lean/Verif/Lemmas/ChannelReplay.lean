import Verif.Lemmas.ChannelHist
/-!
A channel message merged on one node is merged by every node that has merged the same ones before.
-/
namespace Verif

variable {U U' : Msg → Prop} {caps : SlotCaps} {log : List Msg} {db db' : Db SVal} {t t' : Txn SVal}

theorem slotKey_good {m : Msg} {s : ChanSlot} (h : ChanGood m s) : s.kind.slotKey m = .ok s.key := by
  obtain ⟨x, hx, hk⟩ := slotSuffix_good h
  unfold ChanKind.slotKey
  rw [hx, hk]

theorem nextSlotCount_same (hi : ChanInv U caps log (viewOf db t)) (hi' : ChanInv U' caps log (viewOf db' t')) (K : ChanKind)
    {c : Bytes} (hc : c.length = 32) (o : Option Msg) : nextSlotCount K caps db t c o = nextSlotCount K caps db' t' c o := by
  unfold nextSlotCount
  split
  · rename_i cap key h1 h2
    obtain ⟨a, _, b⟩ := hi.count K c key cap hc h2 h1
    obtain ⟨a', _, b'⟩ := hi'.count K c key cap hc h2 h1
    rw [readCounter_val a b, readCounter_val a' b']
  · rfl

theorem nextModeratorCount_same (hi : ChanInv U caps log (viewOf db t)) (hi' : ChanInv U' caps log (viewOf db' t')) (K : ChanKind)
    {c : Bytes} (hc : c.length = 32) (o : Option Msg) (m : Msg) :
    nextModeratorCount K db t c o m = nextModeratorCount K db' t' c o m := by
  obtain ⟨a, b⟩ := hi.mods c hc
  obtain ⟨a', b'⟩ := hi'.mods c hc
  unfold nextModeratorCount moderatorCountStep
  rw [readCounter_val a b, readCounter_val a' b']

/-- Both nodes work out the same. -/
theorem planSlot_same (hi : ChanInv U caps log (viewOf db t)) (hi' : ChanInv U' caps log (viewOf db' t')) {m : Msg} {s : ChanSlot}
    (hg : ChanGood m s) : planSlot s.kind caps db t m = planSlot s.kind caps db' t' m := by
  have hc := channel_length hg.wf
  unfold planSlot
  simp only [slotKey_good hg, channelId_good hg.slot, loadSlot_inv hi hg.wf, loadSlot_inv hi' hg.wf,
    nextSlotCount_same hi hi' s.kind hc, nextModeratorCount_same hi hi' s.kind hc]

theorem gatedRows_good {m : Msg} {s : ChanSlot} (hg : ChanGood m s) (w : Bool) : ∃ rows, s.kind.gatedRows w m = .ok rows := by
  obtain ⟨f, ty, ts, hash, sg, body⟩ := m
  have hs := hg.slot
  have hw := hg.wf
  simp only [Msg.chanSlot] at hs
  split at hs <;> cases hs
  · exact ⟨[], by cases w <;> rfl⟩
  · cases w
    · exact ⟨[], rfl⟩
    · exact ⟨_, if_pos hw.2⟩
  · exact ⟨[], by cases w <;> rfl⟩
  · exact ⟨[], by cases w <;> rfl⟩

/-- There is an event number left. -/
def IdGen.HasNext (g : IdGen) : Prop := ∃ id g', g.generateId false = (.ok id, g')

theorem event_next (e : StoreEvent) {s : SSt} (h : s.gen.HasNext) :
    ∃ id g, SM.event e s = (.ok e, ⟨putEvent s.txn id (.event id e), g⟩) := by
  obtain ⟨id, g, h⟩ := h
  exact ⟨id, g, by simp only [SM.event, commitEvent, h]⟩

/-- What one node merged, another one that has merged the same before merges too. -/
theorem mergeSlot_replays {st st' q : SSt} (hi : ChanInv U caps log (viewOf db st.txn)) (hi' : ChanInv U' caps log (viewOf db' st'.txn))
    {K : ChanKind} {w w' : Bool} {m : Msg} {e : StoreEvent} (ht : m.ts < 2 ^ 32) (h : mergeSlot K caps db w m st = (.ok e, q))
    (hn : st'.gen.HasNext) : ∃ e' q', mergeSlot K caps db' w' m st' = (.ok e', q') := by
  obtain ⟨s, hg, rfl, _⟩ := mergeSlot_ok hi ht h
  have hpl := planSlot_same hi hi' hg
  unfold mergeSlot at h
  split at h
  · cases h
  rename_i p hp
  unfold mergeSlot
  rw [← hpl, hp]
  obtain ⟨s', hg', hk, h1, h2, h3, _, h5, _, h7, _⟩ := planSlot_ok hi hp hg.fid ht
  have : s = s' := Option.some.inj (hg.slot.symm.trans hg'.slot)
  subst this
  have hold : ∀ o, newestFor log s = some o → ChanGood o s := by
    intro o ho
    obtain ⟨hm, hs⟩ := newestFor_mem ho
    obtain ⟨_, s', ho'⟩ := hi.good o hm
    have := ho'.unique hs; subst this; exact ho'
  obtain ⟨rows, hgr⟩ := gatedRows_good hg w'
  simp only
  unfold SM.nested
  suffices hs : ∃ e' q', stageSlot s.kind w' m p ⟨OMap.empty, st'.gen⟩ = (.ok e', q') by
    obtain ⟨e', q', hs⟩ := hs
    rw [hs]
    exact ⟨_, _, rfl⟩
  unfold stageSlot
  rw [h1, h2, h3, h5, h7, hgr]
  rw [SM.bind_ok (stages_deleteMany hold _)]
  rw [SM.bind_ok (SM.lift_ok (show encodeSlotPointer m (tsh m) = .ok (be 4 m.fid ++ tsh m) by
    unfold encodeSlotPointer; rw [if_pos hg.fid]) _)]
  rw [SM.bind_ok (Stages.put _ _ _), SM.bind_ok (stages_putSlotCount _ _), SM.bind_ok (stages_putModeratorCount _ _)]
  unfold StoreDef.mergeAddWithConflicts
  simp only [← stageAll_append]
  generalize (oldOps s.kind (newestFor log s) ++ [(s.key, some (SVal.raw (be 4 m.fid ++ tsh m)))] ++
    cntOps (slotCountChange s.kind caps log s) ++ modOps (modCountChange log s m)) = ops
  have hadd := stages_putAdd hg ⟨stageAll OMap.empty ops, st'.gen⟩
  obtain ⟨id, g, hev⟩ := event_next (.merge m (newestFor log s).toList)
    (s := ⟨stageAll (stageAll OMap.empty ops) [(s.kind.prim m, some (.msg m)), (s.kind.authorKey m, some (.raw (tsh m)))], st'.gen⟩) hn
  rw [SM.bind_ok (a := StoreEvent.merge m (newestFor log s).toList)
    (s' := ⟨putEvent (stageAll (stageAll OMap.empty ops) [(s.kind.prim m, some (.msg m)), (s.kind.authorKey m, some (.raw (tsh m)))])
      id (.event id (.merge m (newestFor log s).toList)), g⟩) (by rw [SM.bind_ok hadd]; exact hev)]
  rw [SM.bind_ok (SM.lift_ok rfl _), SM.bind_ok (Stages.forEach_put rows _)]
  exact ⟨_, _, rfl⟩

end Verif
