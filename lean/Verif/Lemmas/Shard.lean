import Verif.Lemmas.StoreNear
/-! The stores of a shard keep to their own tables. -/
namespace Verif
open StoreDef
variable {U : Msg → Prop} {channelOf : Bytes → Option Bytes} {ctx : Nat → MergeCtx}

theorem tableOf_user (fid : Nat) (p : UInt8) (t : Bytes) : tableOf (makeUserKey fid ++ p :: t) = some (3, some p) := by
  have : (makeFidKey fid).length = 4 := by simp [makeFidKey]
  simp only [tableOf, makeUserKey, List.cons_append, if_true]
  rw [List.getElem?_append_right (by omega), this]
  rfl

theorem tableOf_event (id : Nat) : tableOf (eventKey id) = some (9, none) := by
  simp [tableOf, eventKey]

/-- The keys of a store are in its tables. -/
theorem space_owns (kind : StoreKind) {k : Bytes} (h : (kind.store channelOf).Space (okIn kind U) k) : kind.Owns k := by
  have user : ∀ {fid p t}, (3, some p) ∈ kind.tables → kind.Owns (makeUserKey fid ++ p :: t) :=
    fun hp => ⟨_, hp, tableOf_user _ _ _⟩
  rcases h with ⟨f, t, rfl⟩ | ⟨m, hm, h⟩
  · simp only [prefixOf, makeMessagePrimaryKey, List.append_assoc, List.cons_append, List.nil_append]
    refine user ?_
    cases kind <;> simp [StoreKind.tables, StoreKind.store, castStore, reactionStore, linkStore, verificationStore, userDataStore, lendStore]
  · obtain ⟨h0, hf, ht, hl, hb⟩ := hm.1
    cases kind
    · rcases hb with ⟨t, p, ms, e', _⟩ | ⟨t, c, e', hc⟩
      · rcases h with rfl | ⟨_, rfl⟩ | h
        · simp only [ak, StoreKind.store, castStore, castItem, e', castKey, bind, Except.bind, pure, Except.pure]
          exact user (by decide)
        · simp only [rk, StoreKind.store, castStore, castItem, e', castKey, bind, Except.bind, pure, Except.pure]
          exact user (by decide)
        · simp only [auxKeys, idxRows, StoreKind.store, castStore, castIndexKeys, e', List.map_map, List.map_nil, List.append_nil] at h
          obtain ⟨k', hk', rfl⟩ := List.mem_map.1 h
          rcases List.mem_append.1 hk' with h | h
          · cases p with
            | none => simp at h
            | some p =>
              rw [List.mem_singleton] at h
              subst h
              exact ⟨(4, none), by decide, by simp [tableOf, castByParentKey]⟩
          · obtain ⟨x, _, rfl⟩ := List.mem_map.1 h
            exact ⟨(5, none), by decide, by simp [tableOf, castByMentionKey]⟩
      · rcases h with rfl | ⟨_, rfl⟩ | h
        · simp only [ak, StoreKind.store, castStore, castItem, e', castKey, bind, Except.bind, pure, Except.pure]
          exact user (by decide)
        · simp only [rk, StoreKind.store, castStore, castItem, e', castKey, bind, Except.bind, pure, Except.pure]
          exact user (by decide)
        · simp [auxKeys, idxRows, StoreKind.store, castStore, castIndexKeys, e'] at h
    · obtain ⟨_, ty, t, e', h1, h2⟩ := hb
      have hz : ¬ ty = 0 := by omega
      rcases h with rfl | ⟨_, rfl⟩ | h
      · simp only [ak, StoreKind.store, reactionStore, reactionParts, e', reactionKey, bind, Except.bind, hz, and_false, if_false]
        exact user (by decide)
      · simp only [rk, StoreKind.store, reactionStore, reactionParts, e', reactionKey, bind, Except.bind, hz, and_false, if_false]
        exact user (by decide)
      · simp only [auxKeys, idxRows, StoreKind.store, reactionStore, reactionIndex, e', bind, Except.bind, pure, Except.pure,
          List.map_cons, List.map_nil, List.cons_append, List.nil_append, List.mem_cons] at h
        rcases h with rfl | h
        · exact ⟨(7, none), by decide, by simp [tableOf]⟩
        · split at h
          · simp only [List.map_cons, List.map_nil, List.mem_cons, List.not_mem_nil, or_false] at h
            rcases h with rfl | rfl
            · exact ⟨(25, none), by decide, by simp [tableOf, followByFidKey]⟩
            · exact ⟨(25, none), by decide, by simp [tableOf, followByChannelKey]⟩
          · simp at h
    · obtain ⟨_, ty, t, e', h1, h2, h3⟩ := hb
      have h2' : ¬ 8 < ty.length := by omega
      have hne : ¬ m.fid = 0 := by omega
      rcases h with rfl | ⟨_, rfl⟩ | h
      · simp only [ak, StoreKind.store, linkStore, linkKey, e', h1, and_false, if_false, gt_iff_lt, h2']
        exact user (by decide)
      · simp only [rk, StoreKind.store, linkStore, linkKey, e', h1, and_false, if_false, gt_iff_lt, h2']
        exact user (by decide)
      · simp only [auxKeys, idxRows, StoreKind.store, linkStore, linkIndex, e', hne, if_false, bind, Except.bind, pure, Except.pure,
          List.map_cons, List.map_nil, List.append_nil, List.mem_singleton] at h
        subst h
        exact ⟨(6, none), by decide, by simp [tableOf]⟩
    · rcases hb with ⟨t, a, e', ha⟩ | ⟨t, a, e', ha⟩
      · rcases h with rfl | ⟨_, rfl⟩ | h
        · simp only [ak, StoreKind.store, verificationStore, verificationAddress, e', bind, Except.bind, pure, Except.pure]
          exact user (by decide)
        · simp only [rk, StoreKind.store, verificationStore, verificationAddress, e', bind, Except.bind, pure, Except.pure]
          exact user (by decide)
        · simp only [auxKeys, idxRows, StoreKind.store, verificationStore, verificationIndexKey, e', ha, if_false, bind, Except.bind,
            pure, Except.pure, List.map_cons, List.map_nil, List.append_nil, List.mem_singleton] at h
          subst h
          exact ⟨(14, none), by decide, by simp [tableOf]⟩
      · rcases h with rfl | ⟨_, rfl⟩ | h
        · simp only [ak, StoreKind.store, verificationStore, verificationAddress, e', bind, Except.bind, pure, Except.pure]
          exact user (by decide)
        · simp only [rk, StoreKind.store, verificationStore, verificationAddress, e', bind, Except.bind, pure, Except.pure]
          exact user (by decide)
        · simp [auxKeys, idxRows, StoreKind.store, verificationStore, verificationIndexKey, e', bind, Except.bind] at h
    · obtain ⟨_, ty, v, e', h1, h2⟩ := hb
      rcases h with rfl | ⟨hs, rfl⟩ | h
      · simp only [ak, StoreKind.store, userDataStore, e']
        exact user (by decide)
      · simp [removeSupported, StoreKind.store, userDataStore] at hs
      · simp [auxKeys, idxRows, StoreKind.store, userDataStore] at h
    · obtain ⟨_, to, u, uty, e', h1⟩ := hb
      rcases h with rfl | ⟨hs, rfl⟩ | h
      · simp only [ak, StoreKind.store, lendStore, e']
        exact user (by decide)
      · simp [removeSupported, StoreKind.store, lendStore] at hs
      · simp only [auxKeys, idxRows, StoreKind.store, lendStore, e', List.map_cons, List.map_nil, List.append_nil,
          List.mem_singleton] at h
        subst h
        exact ⟨(22, none), by decide, by simp [tableOf]⟩

/-- A table has one owner. -/
theorem owns_unique {a b : StoreKind} {k : Bytes} (ha : a.Owns k) (hb : b.Owns k) : a = b := by
  obtain ⟨t, h1, h2⟩ := ha
  obtain ⟨t', h3, h4⟩ := hb
  rw [h2] at h4
  cases h4
  have : ∀ a b : StoreKind, a ≠ b → ∀ t ∈ a.tables, t ∉ b.tables := by
    intro a b hab
    cases a <;> cases b <;> first | exact absurd rfl hab | decide
  by_cases e : a = b
  · exact e
  · exact absurd h3 (this a b e t h1)

theorem owns_not_event {kind : StoreKind} {k : Bytes} (h : kind.Owns k) (id : Nat) : k ≠ eventKey id := by
  rintro rfl
  obtain ⟨t, h1, h2⟩ := h
  rw [tableOf_event] at h2
  cases h2
  revert h1
  cases kind <;> decide

theorem kind_compactIn (kind : StoreKind) (hU : HashesIdentify U) :
    CompactOutIn (kind.store channelOf) (okIn kind U) kind.Owns := by
  intro hs m hm
  cases kind
  case links =>
    obtain ⟨k, h1, h2, h3⟩ := link_compact_out hU hm
    refine ⟨k, h1, h2, h3, (3, some 100), by decide, ?_⟩
    obtain ⟨_, ty, t, e', _⟩ := hm.1.2.2.2.2
    simp only [linkStore, linkCompactKey, e', Except.ok.injEq] at h1
    rw [← h1]
    exact tableOf_user _ _ _
  all_goals simp [StoreKind.store, compactSupported, castStore, reactionStore, verificationStore, userDataStore,
    lendStore] at hs

/-- The invariant of a store in a shard. -/
abbrev NearInv (channelOf : Bytes → Option Bytes) (ctx : Nat → MergeCtx) (U : Msg → Prop) (kind : StoreKind)
    (L0 L : List Msg) (st : StoreState) : Prop :=
  SafeIn (kind.store channelOf) (okIn kind U) ctx kind.Owns L0 L st

/-- The invariant of a shard. -/
def ShardInv (channelOf : Bytes → Option Bytes) (ctx : Nat → MergeCtx) (U : Msg → Prop) (L0 L : StoreKind → List Msg)
    (st : StoreState) : Prop := ∀ kind, NearInv channelOf ctx U kind (L0 kind) (L kind) st

/-- Writes elsewhere do not matter to a store. -/
theorem NearInv.elsewhere {kind : StoreKind} {L0 L : List Msg} {st : StoreState} (h : NearInv channelOf ctx U kind L0 L st)
    {s' : SSt} (hf : ∀ k, kind.Owns k → viewOf st.db s'.txn k = st.view k) :
    NearInv channelOf ctx U kind L0 L { st with pend := s' } :=
  ⟨⟨h.committed, h.holds.congr (fun k hk => hf k (space_owns kind hk))⟩, h.blank0,
    fun k a b c => (hf k c).trans (h.blank k a b c)⟩

/-- A call's writes are in the store's own tables and the event log. -/
theorem frame_owns {kind : StoreKind} {V V' : View} (hf : Frame (kind.store channelOf) (okIn kind U) V V') {k : Bytes}
    (hk : ¬ kind.Owns k) (he : ∀ id, k ≠ eventKey id) : V' k = V k :=
  hf k (fun hs => hk (space_owns kind hs)) he

theorem isCall_or (o : StoreOp) : o.isCall = true ∨ o = .commit ∨ o = .drop ∨ ∃ n, o = .block n := by
  cases o <;> simp [StoreOp.isCall]

theorem shard_init : ShardInv channelOf ctx U (fun _ => []) (fun _ => []) {} := fun kind => (kind_init kind).toIn

theorem put_view (st : StoreState) (k k' : Bytes) (v : SVal) (h : k' ≠ k) :
    (st.shardExec channelOf ctx (.put k v)).view k' = st.view k' := by
  simp only [StoreState.shardExec, StoreState.view, getFromDbOrTxn, Txn.stagePut, OMap.get_put, h, if_false]

theorem del_view (st : StoreState) (k k' : Bytes) (h : k' ≠ k) :
    (st.shardExec channelOf ctx (.del k)).view k' = st.view k' := by
  simp only [StoreState.shardExec, StoreState.view, getFromDbOrTxn, Txn.stageDel, OMap.get_put, h, if_false]

/-- A step of a shard. -/
theorem shard_step (hch : ChannelNaming channelOf) (hU : HashesIdentify U) {L0 L : StoreKind → List Msg} {st : StoreState}
    (h : ShardInv channelOf ctx U L0 L st) {o : ShardOp} (ho : st.ShardProper channelOf U o) :
    ∃ L0' L', ShardInv channelOf ctx U L0' L' (st.shardExec channelOf ctx o) ∧
      ((∀ kind f c m, o = .call kind (.prune f c m) → ∃ es, st.returned (kind.store channelOf) ctx (.prune f c m) = .ok es) →
        ∀ kind, match o.toward kind with
          | none => L0' kind = L0 kind ∧ L' kind = L kind
          | some .commit => L0' kind = L kind ∧ L' kind = L kind
          | some .drop => L0' kind = L0 kind ∧ L' kind = L0 kind
          | some c => L0' kind = L0 kind ∧ L' kind = (kind.store channelOf).effect st.db (L kind) c) := by
  cases o with
  | put k v =>
    refine ⟨L0, L, fun kind => (h kind).elsewhere (fun k' hk' => put_view (channelOf := channelOf) (ctx := ctx) st k k' v ?_), fun _ kind => ⟨rfl, rfl⟩⟩
    rintro rfl; exact ho kind hk'
  | del k =>
    refine ⟨L0, L, fun kind => (h kind).elsewhere (fun k' hk' => del_view (channelOf := channelOf) (ctx := ctx) st k k' ?_), fun _ kind => ⟨rfl, rfl⟩⟩
    rintro rfl; exact ho kind hk'
  | call kind o =>
    rcases isCall_or o with hc | rfl | rfl | ⟨n, rfl⟩
    · obtain ⟨L1, s', he, hh, hf, hL⟩ := kind_call kind hch hU (kind_compactIn kind hU) (h kind) hc ho
      refine ⟨L0, fun j => if j = kind then L1 else L j, ?_, ?_⟩
      · intro j
        simp only [StoreState.shardExec]
        rw [he]
        by_cases e : j = kind
        · subst e; rw [if_pos rfl]; exact safeIn_pend (h j) hh hf
        · rw [if_neg e]
          refine (h j).elsewhere (fun k hk => frame_owns hf ?_ (owns_not_event hk))
          exact fun hk' => e (owns_unique hk hk')
      · intro hp j
        have hL := hL (fun f c m e => by subst e; exact hp kind f c m rfl)
        have ht : (ShardOp.call kind o).toward j = if kind = j then some o else none := by
          cases o <;> first | rfl | (simp [StoreOp.isCall] at hc; done)
        rw [ht]
        by_cases e : kind = j
        · subst e
          rw [if_pos rfl]
          cases o <;> first | (exact ⟨rfl, (if_pos rfl).trans hL⟩) | (simp [StoreOp.isCall] at hc; done)
        · rw [if_neg e]
          exact ⟨rfl, if_neg (fun e' => e e'.symm)⟩
    · exact ⟨L, L, fun j => safeIn_commit (h j) (kind.store channelOf) ctx, fun _ j => ⟨rfl, rfl⟩⟩
    · exact ⟨L0, L0, fun j => safeIn_drop (h j) (kind.store channelOf) ctx, fun _ j => ⟨rfl, rfl⟩⟩
    · exact ⟨L0, L, fun j => safeIn_block (h j) (kind.store channelOf) ctx n, fun _ j => ⟨rfl, rfl⟩⟩

theorem shard_run (hch : ChannelNaming channelOf) (hU : HashesIdentify U) (ops : List ShardOp) :
    ∀ {L0 L : StoreKind → List Msg} {st : StoreState}, ShardInv channelOf ctx U L0 L st →
    st.ShardProperRun channelOf ctx U ops → ∃ L0' L', ShardInv channelOf ctx U L0' L' (st.shardRun channelOf ctx ops) := by
  induction ops with
  | nil => intro L0 L st h _; exact ⟨L0, L, h⟩
  | cons o ops ih =>
    intro L0 L st h ho
    obtain ⟨L0', L', h', _⟩ := shard_step hch hU h ho.1
    exact ih h' ho.2

theorem rowsOf_iff (kind : StoreKind) {k : Bytes} {v : SVal} {m : Msg} (hm : okIn kind U m) :
    (k, v) ∈ (kind.store channelOf).rowsOf ctx m ↔ ∃ r, (r, v) ∈ kind.rows channelOf (ctx m.ts).follows m ∧ k = r.bytes := by
  rw [kind_rowsOf kind hm, List.mem_map]
  constructor
  · rintro ⟨⟨r, v'⟩, hr, e⟩
    simp only [Prod.mk.injEq] at e
    exact ⟨r, e.2 ▸ hr, e.1.symm⟩
  · rintro ⟨r, hr, e⟩
    exact ⟨(r, v), hr, by rw [e]⟩

theorem near_rows (kind : StoreKind) (hch : ChannelNaming channelOf) (hU : HashesIdentify U) {L0 L : List Msg} {st : StoreState}
    (h : NearInv channelOf ctx U kind L0 L st) {k : Bytes} (hk : kind.Owns k) (v : SVal) :
    st.view k = some v ↔ ∃ m, kind.Valid m ∧ U m ∧ st.Has (kind.store channelOf) m ∧
      ∃ r, (r, v) ∈ kind.rows channelOf (ctx m.ts).follows m ∧ k = r.bytes := by
  have H := kind_lawful (channelOf := channelOf) kind hch hU
  by_cases hs : (kind.store channelOf).Space (okIn kind U) k
  · rw [h.holds.rows k hs]
    constructor
    · rintro ⟨m, hm, hr⟩
      have hmo := h.holds.valid m hm
      exact ⟨m, hmo.1, hmo.2, (h.has_iff H m).2 hm, (rowsOf_iff kind hmo).1 hr⟩
    · rintro ⟨m, h1, h2, h3, h4⟩
      exact ⟨m, (h.has_iff H m).1 h3, (rowsOf_iff kind ⟨h1, h2⟩).2 h4⟩
  · rw [h.blank k hs (owns_not_event hk) hk]
    simp only [reduceCtorEq, false_iff]
    rintro ⟨m, h1, h2, h3, h4⟩
    exact hs (H.space_rows ⟨h1, h2⟩ ((rowsOf_iff kind ⟨h1, h2⟩).2 h4))

theorem rows_owned (channelOf : Bytes → Option Bytes) (kind : StoreKind) (follows : Bool) (m : Msg) (hm : kind.Valid m)
    (r : RowKey) (v : SVal) (h : (r, v) ∈ kind.rows channelOf follows m) : kind.Owns r.bytes := by
  have hmo : okIn kind (fun x => x = m) m := ⟨hm, rfl⟩
  have hr : (r.bytes, v) ∈ (kind.store channelOf).rowsOf (fun _ => { ({} : MergeCtx) with follows := follows }) m :=
    (rowsOf_iff (ctx := fun _ => { ({} : MergeCtx) with follows := follows }) kind hmo).2 ⟨r, h, rfl⟩
  refine space_owns (channelOf := channelOf) (U := fun x => x = m) kind ?_
  rcases mem_rowsOf hr with e | e | e | e
  · rw [e.1]; exact Space.prim m
  · rw [e.2.1]; exact Space.ak hmo
  · rw [e.2.1]
    refine Space.rk hmo ?_
    rcases hk : (kind.store channelOf).removeSupported with _ | _
    · exfalso
      have ha := e.1
      obtain ⟨_, _, _, _, hb⟩ := hm
      cases kind <;> simp [StoreKind.store, removeSupported, castStore, reactionStore, linkStore, verificationStore] at hk
      · simp [isAdd, StoreKind.store, userDataStore, hb.1] at ha
      · simp [isAdd, StoreKind.store, lendStore, hb.1] at ha
    · rfl
  · exact Space.aux hmo e.2.1

theorem shardRun_append (st : StoreState) (a b : List ShardOp) :
    st.shardRun channelOf ctx (a ++ b) = (st.shardRun channelOf ctx a).shardRun channelOf ctx b := by
  simp [StoreState.shardRun]

theorem shardProperRun_append (a : List ShardOp) : ∀ {st : StoreState} {b : List ShardOp}, st.ShardProperRun channelOf ctx U (a ++ b) →
    st.ShardProperRun channelOf ctx U a ∧ (st.shardRun channelOf ctx a).ShardProperRun channelOf ctx U b := by
  induction a with
  | nil => intro st b h; exact ⟨trivial, h⟩
  | cons o a ih =>
    intro st b h
    obtain ⟨h1, h2⟩ := ih h.2
    exact ⟨⟨h.1, h1⟩, h2⟩

/-! ### A store in a shard does what it does alone -/

theorem near_view {kind : StoreKind} {L0 L : List Msg} {st st' : StoreState} (h : NearInv channelOf ctx U kind L0 L st)
    (h' : NearInv channelOf ctx U kind L0 L st') {k : Bytes} (hk : kind.Owns k) :
    st.view k = st'.view k ∧ st.db.get k = st'.db.get k := by
  by_cases hs : (kind.store channelOf).Space (okIn kind U) k
  · constructor
    · apply Option.ext; intro v
      rw [h.holds.rows k hs, h'.holds.rows k hs]
    · apply Option.ext; intro v
      exact (h.committed.rows k hs v).trans (h'.committed.rows k hs v).symm
  · exact ⟨(h.blank k hs (owns_not_event hk) hk).trans (h'.blank k hs (owns_not_event hk) hk).symm,
      (h.blank0 k hs (owns_not_event hk) hk).trans (h'.blank0 k hs (owns_not_event hk) hk).symm⟩

theorem owns_prefix (kind : StoreKind) {f : Nat} {k : Bytes}
    (h : makeMessagePrimaryKey f (kind.store channelOf).set none <+: k) : kind.Owns k :=
  space_owns (channelOf := channelOf) (U := fun _ => True) kind (.inl ⟨f, h⟩)

theorem near_stored {kind : StoreKind} {L0 L : List Msg} {st st' : StoreState} (h : NearInv channelOf ctx U kind L0 L st)
    (h' : NearInv channelOf ctx U kind L0 L st') (fid : Nat) :
    storedMessages (kind.store channelOf) st.db fid = storedMessages (kind.store channelOf) st'.db fid := by
  unfold storedMessages rowsStartingWith
  congr 1
  have s1 := List.Pairwise.filter (fun r : Bytes × SVal => (makeMessagePrimaryKey fid (kind.store channelOf).set none).isPrefixOf r.1) st.db.sorted
  have s2 := List.Pairwise.filter (fun r : Bytes × SVal => (makeMessagePrimaryKey fid (kind.store channelOf).set none).isPrefixOf r.1) st'.db.sorted
  apply OMapL.ext s1 s2
  intro k
  apply Option.ext
  intro v
  rw [OMapL.get_eq_some_iff s1, OMapL.get_eq_some_iff s2, List.mem_filter, List.mem_filter]
  simp only [← OMap.get_eq_some_iff]
  constructor
  · rintro ⟨a, b⟩
    rw [(near_view h h' (owns_prefix kind (List.isPrefixOf_iff_prefix.1 b))).2] at a
    exact ⟨a, b⟩
  · rintro ⟨a, b⟩
    rw [← (near_view h h' (owns_prefix kind (List.isPrefixOf_iff_prefix.1 b))).2] at a
    exact ⟨a, b⟩

theorem near_has {kind : StoreKind} {L0 L : List Msg} {st st' : StoreState} (h : NearInv channelOf ctx U kind L0 L st)
    (h' : NearInv channelOf ctx U kind L0 L st') (m : Msg) : st.Has (kind.store channelOf) m ↔ st'.Has (kind.store channelOf) m := by
  unfold StoreState.Has
  rw [(near_view h h' (owns_prefix (channelOf := channelOf) kind (f := m.fid) ⟨m.tsHash, by simp [makeMessagePrimaryKey]⟩)).1]

theorem near_proper {kind : StoreKind} {L0 L : List Msg} {st st' : StoreState} (h : NearInv channelOf ctx U kind L0 L st)
    (h' : NearInv channelOf ctx U kind L0 L st') {o : StoreOp} (ho : kind.Proper channelOf U st o) :
    kind.Proper channelOf U st' o := by
  cases o with
  | force m => exact ⟨ho.1, ho.2.1, fun x hx => ho.2.2 x ((near_has h h' x).2 hx)⟩
  | prune f c m =>
    refine ⟨ho.1, fun x hx => (near_has h h' x).1 (ho.2 x ?_)⟩
    rwa [near_stored h h']
  | revokeSigner f s =>
    refine ⟨ho.1, fun x hx => (near_has h h' x).1 ∘ ho.2 x ?_⟩
    rwa [near_stored h h']
  | _ => exact ho

/-- One of its own calls, alone. -/
theorem alone_step (kind : StoreKind) (hch : ChannelNaming channelOf) (hU : HashesIdentify U) {L0 L : List Msg} {st : StoreState}
    (h : NearInv channelOf ctx U kind L0 L st) {o : StoreOp} (ho : kind.Proper channelOf U st o)
    (hp : ∀ f c m, o = .prune f c m → ∃ es, st.returned (kind.store channelOf) ctx o = .ok es) {L0' L' : List Msg}
    (hL : match o with
          | .commit => L0' = L ∧ L' = L
          | .drop => L0' = L0 ∧ L' = L0
          | c => L0' = L0 ∧ L' = (kind.store channelOf).effect st.db L c) :
    NearInv channelOf ctx U kind L0' L' (st.exec (kind.store channelOf) ctx o) := by
  rcases isCall_or o with hc | rfl | rfl | ⟨n, rfl⟩
  · obtain ⟨L1, s', he, hh, hf, hL1⟩ := kind_call kind hch hU (kind_compactIn kind hU) h hc ho
    have hL1 := hL1 hp
    have : L0' = L0 ∧ L' = L1 := by
      rw [hL1]
      cases o <;> first | exact hL | (simp [StoreOp.isCall] at hc; done)
    rw [this.1, this.2, he]
    exact safeIn_pend h hh hf
  · rw [hL.1, hL.2]; exact safeIn_commit h _ _
  · rw [hL.1, hL.2]; exact safeIn_drop h _ _
  · rw [hL.1, hL.2]; exact safeIn_block h _ _ n

theorem effect_congr (D : StoreDef) {db db' : Db SVal} (h : ∀ f, storedMessages D db f = storedMessages D db' f) (L : List Msg)
    (o : StoreOp) : D.effect db L o = D.effect db' L o := by
  cases o <;> simp only [effect, h]

theorem alone_run (kind : StoreKind) (hch : ChannelNaming channelOf) (hU : HashesIdentify U) (ops : List ShardOp) :
    ∀ {L0 L : StoreKind → List Msg} {st st' : StoreState}, ShardInv channelOf ctx U L0 L st →
    NearInv channelOf ctx U kind (L0 kind) (L kind) st' → st.ShardProperRun channelOf ctx U ops →
    st.ShardPrunesSucceed channelOf ctx ops →
    st'.PrunesSucceed (kind.store channelOf) ctx (ops.filterMap (ShardOp.toward kind)) →
    kind.ProperRun channelOf ctx U st' (ops.filterMap (ShardOp.toward kind)) ∧
    ∃ L0' L', ShardInv channelOf ctx U L0' L' (st.shardRun channelOf ctx ops) ∧
      NearInv channelOf ctx U kind (L0' kind) (L' kind) (st'.run (kind.store channelOf) ctx (ops.filterMap (ShardOp.toward kind))) := by
  induction ops with
  | nil => intro L0 L st st' h h' _ _ _; exact ⟨trivial, L0, L, h, h'⟩
  | cons o ops ih =>
    intro L0 L st st' h h' ho hs hs'
    obtain ⟨L0', L', h1, hL⟩ := shard_step hch hU h ho.1
    have hL := hL hs.1 kind
    rcases ht : o.toward kind with _ | c
    · rw [ht] at hL
      have e : (o :: ops).filterMap (ShardOp.toward kind) = ops.filterMap (ShardOp.toward kind) := by
        rw [List.filterMap_cons, ht]
      rw [e] at hs' ⊢
      exact ih h1 (by rw [hL.1, hL.2]; exact h') ho.2 hs.2 hs'
    · have e : (o :: ops).filterMap (ShardOp.toward kind) = c :: ops.filterMap (ShardOp.toward kind) := by
        rw [List.filterMap_cons, ht]
      rw [e] at hs' ⊢
      have hpr : kind.Proper channelOf U st c := by
        cases o with
        | put k v => simp [ShardOp.toward] at ht
        | del k => simp [ShardOp.toward] at ht
        | call j o =>
          cases o
          case commit => cases ht; trivial
          case drop => cases ht; trivial
          case block n => cases ht; trivial
          all_goals
            simp only [ShardOp.toward] at ht
            split at ht
            · rename_i e; subst e; cases ht; exact ho.1
            · cases ht
      have hpr' := near_proper (h kind) h' hpr
      have h2 : NearInv channelOf ctx U kind (L0' kind) (L' kind) (st'.exec (kind.store channelOf) ctx c) := by
        refine alone_step kind hch hU h' hpr' hs'.1 ?_
        rw [ht] at hL
        have he := effect_congr _ (near_stored (h kind) h') (L kind) c
        cases c <;> first | exact ⟨hL.1, hL.2.trans he⟩ | exact hL
      obtain ⟨h3, h4⟩ := ih h1 h2 ho.2 hs.2 hs'.2
      exact ⟨⟨hpr', h3⟩, h4⟩

end Verif
