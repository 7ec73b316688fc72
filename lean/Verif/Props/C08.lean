import Verif.Lemmas.StoreReject
import Verif.Lemmas.StoreSafe
import Verif.Case.Store
/-!
C08: rejected and repeated merges change nothing.
-/
namespace Verif

/-- A merge rejected because of what is stored leaves the pending batch as it was, in every state whatever
and for every message whatever (well formed or not, link compactions included). -/
theorem C08_rejected_unchanged (kind : StoreKind) (channelOf : Bytes → Option Bytes) (ctx : MergeCtx)
    (db : Db SVal) (m : Msg) (s s' : SSt) (e : HubErr) (he : e = .conflict ∨ e = .duplicate)
    (h : (kind.store channelOf).merge db ctx m s = (.error e, s')) : s' = s := by
  have := StoreDef.merge_rejectsClean (kind_quiet kind channelOf) db ctx m s e (by rw [h]) he
  rw [h] at this
  exact this

/-- In every state the calls lead to, those are the only rejections of a valid message: any other failure
means the block ran out of event numbers. -/
theorem C08_outcomes (kind : StoreKind) (channelOf : Bytes → Option Bytes) (hch : ChannelNaming channelOf)
    (ctx : Nat → MergeCtx) (U : Msg → Prop) (hU : HashesIdentify U) (ops : List StoreOp)
    (hr : kind.ProperRun channelOf ctx U {} ops) (m : Msg) (hm : kind.Valid m) (hu : U m) :
    let st := ({} : StoreState).run (kind.store channelOf) ctx ops
    let r := (kind.store channelOf).merge st.db (ctx m.ts) m st.pend
    (∃ old, r.1 = .ok (.merge m old)) ∨ r = (.error .conflict, st.pend) ∨ r = (.error .duplicate, st.pend) ∨
      r.1 = .error .invalidParameter := by
  intro st r
  obtain ⟨L0, L, h⟩ := kind_run kind hch hU ops (kind_init kind) hr
  have H := kind_lawful (channelOf := channelOf) kind hch hU
  have hc := kind_compactOut (channelOf := channelOf) kind hU
  rcases StoreDef.merge_spec H h.holds (⟨hm, hu⟩ : okIn kind U m) (StoreDef.CompactFree.of_blank hc h.blank ⟨hm, hu⟩) with
    ⟨e, _, he, hr⟩ | ⟨old, s', _, hr, _⟩
  · rcases he with rfl | rfl
    · exact .inr (.inl hr)
    · exact .inr (.inr (.inl hr))
  · rcases hr with hr | hr
    · exact .inl ⟨old, congrArg Prod.fst hr⟩
    · exact .inr (.inr (.inr (congrArg Prod.fst hr)))

/-- Merging a message that is stored is rejected as a duplicate and changes nothing. -/
theorem C08_duplicate (kind : StoreKind) (channelOf : Bytes → Option Bytes) (hch : ChannelNaming channelOf)
    (ctx : Nat → MergeCtx) (U : Msg → Prop) (hU : HashesIdentify U) (ops : List StoreOp)
    (hr : kind.ProperRun channelOf ctx U {} ops) (m : Msg) :
    let st := ({} : StoreState).run (kind.store channelOf) ctx ops
    st.Has (kind.store channelOf) m →
      (kind.store channelOf).merge st.db (ctx m.ts) m st.pend = (.error .duplicate, st.pend) := by
  intro st hm
  obtain ⟨L0, L, h⟩ := kind_run kind hch hU ops (kind_init kind) hr
  have H := kind_lawful (channelOf := channelOf) kind hch hU
  have hc := kind_compactOut (channelOf := channelOf) kind hU
  have hL : m ∈ L := (h.has_iff H m).1 hm
  have hmo := h.holds.valid m hL
  have hl : (kind.store channelOf).liveMerge L m = (.error .duplicate, L) := by
    unfold StoreDef.liveMerge
    cases hf : L.find? (fun x => (kind.store channelOf).ak x = (kind.store channelOf).ak m) with
    | none => exact absurd (List.find?_eq_none.1 hf m hL) (by simp)
    | some x =>
      have hx : x ∈ L := List.mem_of_find?_eq_some hf
      have hxe : (kind.store channelOf).ak x = (kind.store channelOf).ak m := by simpa using List.find?_some hf
      rw [h.holds.unique hx hL hxe]
      simp [H.cmpSelf]
  rcases StoreDef.merge_spec H h.holds hmo (StoreDef.CompactFree.of_blank hc h.blank hmo) with
    ⟨e, he, _, hr⟩ | ⟨old, s', he, _⟩
  · rw [hl] at he
    cases he
    exact hr
  · rw [hl] at he; cases he

/-- A history with a conflict and a duplicate: unfollow, then the older follow, then the unfollow again. -/
example :
    let st := ({} : StoreState).run linkStore Case.allOn [.merge Case.follow9, .merge Case.unfollow8, .commit]
    StoreKind.links.ProperRun Case.noChannels Case.allOn (· ∈ Case.links) {}
      [.merge Case.follow9, .merge Case.unfollow8, .commit] ∧
    st.Has linkStore Case.unfollow8 ∧
    (linkStore.merge st.db {} Case.unfollow8 st.pend).1 = .error .duplicate ∧
    (linkStore.merge st.db {} Case.follow8 st.pend).1 = .error .conflict := by
  refine ⟨⟨⟨Case.links_valid _ (by decide), by decide⟩, ⟨Case.links_valid _ (by decide), by decide⟩, trivial, trivial⟩,
    ?_, ?_, ?_⟩
  · unfold StoreState.Has; decide +kernel
  · decide +kernel
  · decide +kernel

/-- The remaining failure does not leave the batch alone: when the event numbers of the block are used up
the caller gets an error although the message has been staged. -/
theorem C08_exhausted_keeps_writes : ∃ (s s' : SSt) (e : HubErr),
    linkStore.merge OMap.empty {} Case.follow8 s = (.error e, s') ∧ s.txn = OMap.empty ∧
      getFromDbOrTxn OMap.empty s'.txn (makeMessagePrimaryKey 7 2 (some Case.follow8.tsHash)) = some (.msg Case.follow8) := by
  refine ⟨⟨OMap.empty, ⟨5, 16384⟩⟩, (linkStore.merge OMap.empty {} Case.follow8 ⟨OMap.empty, ⟨5, 16384⟩⟩).2,
    .invalidParameter, ?_, rfl, ?_⟩
  · have : (linkStore.merge OMap.empty {} Case.follow8 ⟨OMap.empty, ⟨5, 16384⟩⟩).1 = .error .invalidParameter := by
      decide +kernel
    exact Prod.ext this rfl
  · decide +kernel

end Verif
