import Verif.Lemmas.StoreSafe
/-! The rows of a stored message, in the vocabulary of the specification. -/
namespace Verif
open StoreDef
variable {U : Msg → Prop} {channelOf : Bytes → Option Bytes} {ctx : Nat → MergeCtx}

theorem kind_rowsOf (kind : StoreKind) {m : Msg} (h : okIn kind U m) :
    (kind.store channelOf).rowsOf ctx m =
      (kind.rows channelOf (ctx m.ts).follows m).map (fun r => (r.1.bytes, r.2)) := by
  have h0 : m.fid > 0 := h.1.1
  have hne : ¬ m.fid = 0 := by omega
  have hl := h.1.2.2.2.1
  have e : tsh m = m.tsHash := rfl
  cases kind
  · rcases h.1.2.2.2.2 with ⟨t, p, ms, e', _⟩ | ⟨t, c, e', hc⟩
    · cases p <;> simp [StoreKind.rows, rowsOf, isAdd, StoreKind.store, castStore, t, e', prim, ak, idxRows, castItem, castKey,
        castIndexKeys, castByParentKey, castByMentionKey, fidSuffix, h0, hl, RowKey.bytes, e, bind, Except.bind, pure, Except.pure,
        trueValue, Function.comp_def]
    · simp [StoreKind.rows, rowsOf, isAdd, StoreKind.store, castStore, t, e', prim, rk, castItem, castKey, hc, RowKey.bytes, e,
        bind, Except.bind, pure, Except.pure]
  · obtain ⟨ty, t, e', h1, h2⟩ := h.1.2.2.2.2.2
    have hz : ¬ ty = 0 := by omega
    rcases h.1.2.2.2.2.1 with t' | t'
    · cases t with
      | castId f b =>
        simp [StoreKind.rows, rowsOf, isAdd, StoreKind.store, reactionStore, t', e', prim, ak, idxRows, reactionParts,
          reactionKey, reactionIndex, followChannelId, fidSuffix, h0, h1, hz, RowKey.bytes, e, bind, Except.bind, pure,
          Except.pure]
      | url u =>
        by_cases h3 : ty = 1
        · subst h3
          cases hf : (ctx m.ts).follows <;> cases hc : channelOf u <;>
          simp [StoreKind.rows, rowsOf, isAdd, StoreKind.store, reactionStore, t', e', prim, ak, idxRows, reactionParts,
            reactionKey, reactionIndex, followChannelId, fidSuffix, h0, RowKey.bytes, e, bind, Except.bind, pure,
            Except.pure, hf, hc, followByFidKey, followByChannelKey]
        · simp [StoreKind.rows, rowsOf, isAdd, StoreKind.store, reactionStore, t', e', prim, ak, idxRows, reactionParts,
            reactionKey, reactionIndex, followChannelId, fidSuffix, h0, h1, h3, hz, RowKey.bytes, e, bind, Except.bind, pure,
            Except.pure]
    · simp [StoreKind.rows, rowsOf, isAdd, StoreKind.store, reactionStore, t', e', prim, rk, reactionParts,
        reactionKey, h1, hz, RowKey.bytes, e, bind, Except.bind]
  · obtain ⟨ty, t, e', h1, h2, h3⟩ := h.1.2.2.2.2.2
    have h2' : ¬ 8 < ty.length := by omega
    rcases h.1.2.2.2.2.1 with t' | t'
    · simp [StoreKind.rows, rowsOf, isAdd, StoreKind.store, linkStore, t', e', prim, ak, idxRows, linkKey, linkIndex, h1, h2', hne,
        RowKey.bytes, e, bind, Except.bind, pure, Except.pure]
    · simp [StoreKind.rows, rowsOf, isAdd, StoreKind.store, linkStore, t', e', prim, rk, linkKey, h1, h2',
        RowKey.bytes, e]
  · rcases h.1.2.2.2.2 with ⟨t, a, e', ha⟩ | ⟨t, a, e', ha⟩
    · simp [StoreKind.rows, rowsOf, isAdd, StoreKind.store, verificationStore, t, e', prim, ak, idxRows, verificationAddress,
        verificationIndexKey, ha, RowKey.bytes, e, bind, Except.bind, pure, Except.pure]
    · simp [StoreKind.rows, rowsOf, isAdd, StoreKind.store, verificationStore, t, e', prim, rk, verificationAddress,
        RowKey.bytes, e, bind, Except.bind, pure, Except.pure]
  · obtain ⟨ty, v, e', h1, h2⟩ := h.1.2.2.2.2.2
    have t := h.1.2.2.2.2.1
    simp [StoreKind.rows, rowsOf, isAdd, StoreKind.store, userDataStore, t, e', prim, ak, idxRows, h1, RowKey.bytes, e]
  · obtain ⟨to, u, uty, e', h1⟩ := h.1.2.2.2.2.2
    have t := h.1.2.2.2.2.1
    simp [StoreKind.rows, rowsOf, isAdd, StoreKind.store, lendStore, t, e', prim, ak, idxRows, RowKey.bytes, e, trueValue]

/-- The whole database but the event log, in terms of the stored messages. -/
theorem kind_view (kind : StoreKind) (hch : ChannelNaming channelOf) (hU : HashesIdentify U) {L0 L : List Msg}
    {st : StoreState} (h : KindInv kind channelOf ctx U L0 L st) (k : Bytes) (hk : ∀ id, k ≠ eventKey id) (v : SVal) :
    st.view k = some v ↔ ∃ m, kind.Valid m ∧ U m ∧ st.Has (kind.store channelOf) m ∧
      ∃ r, (r, v) ∈ kind.rows channelOf (ctx m.ts).follows m ∧ k = r.bytes := by
  have H := kind_lawful (channelOf := channelOf) kind hch hU
  have hrows : ∀ m, okIn kind U m → ((k, v) ∈ (kind.store channelOf).rowsOf ctx m ↔
      ∃ r, (r, v) ∈ kind.rows channelOf (ctx m.ts).follows m ∧ k = r.bytes) := by
    intro m hm
    rw [kind_rowsOf kind hm, List.mem_map]
    constructor
    · rintro ⟨⟨r, v'⟩, hr, e⟩
      simp only [Prod.mk.injEq] at e
      exact ⟨r, e.2 ▸ hr, e.1.symm⟩
    · rintro ⟨r, hr, e⟩
      exact ⟨(r, v), hr, by rw [e]⟩
  by_cases hs : (kind.store channelOf).Space (okIn kind U) k
  · rw [h.holds.rows k hs]
    constructor
    · rintro ⟨m, hm, hr⟩
      have hmo := h.holds.valid m hm
      exact ⟨m, hmo.1, hmo.2, (h.has_iff H m).2 hm, (hrows m hmo).1 hr⟩
    · rintro ⟨m, h1, h2, h3, h4⟩
      exact ⟨m, (h.has_iff H m).1 h3, (hrows m ⟨h1, h2⟩).2 h4⟩
  · rw [h.blank k hs hk]
    simp only [reduceCtorEq, false_iff]
    rintro ⟨m, h1, h2, h3, h4⟩
    exact hs (H.space_rows ⟨h1, h2⟩ ((hrows m ⟨h1, h2⟩).2 h4))

end Verif
