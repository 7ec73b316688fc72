import Verif.Spec.Replication
import Verif.Lemmas.StoreTrie
import Verif.Lemmas.Lending
import Verif.Props.C04
/-! Replication, the store's part: merges without conflicts, and the messages the server finds. -/
namespace Verif
open StoreDef

namespace StoreDef
variable {D : StoreDef} {ok : Msg → Prop} {ctx : Nat → MergeCtx}

/-- A merge without conflict checks puts the message beside the others. -/
theorem free_spec (H : D.Lawful ok) {db : Db SVal} {L : List Msg} {s : SSt}
    (h : D.Holds ok ctx L (viewOf db s.txn)) {m : Msg} (hm : ok m) (hcov : ∀ x ∈ L, D.ak x = D.ak m → x = m) :
    ∃ s', D.mergeFree db (ctx m.ts) m s = (.ok (.merge m []), s') ∧
      D.Holds ok ctx (m :: L.filter (fun x => D.ak x ≠ D.ak m)) (viewOf db s'.txn) ∧
      Frame D ok (viewOf db s.txn) (viewOf db s'.txn) := by
  have hput : Stages (D.writeRows ctx m) (puts (D.rowsOf ctx m)) () := by
    unfold writeRows
    cases ha : D.isAdd m
    · exact putRemove_stages H hm ha
    · exact putAdd_stages H hm ha
  let t := stageAll s.txn (puts (D.rowsOf ctx m))
  have hin : ∀ k v, (k, v) ∈ D.rowsOf ctx m → viewOf db t k = some v := fun k v hr =>
    view_puts_in _ _ _ _ _ hr (fun v' hv' => H.rows_fun hm hv' hr)
  have hout : ∀ k, k ∉ (D.rowsOf ctx m).map (·.1) → viewOf db t k = viewOf db s.txn k := fun k hk =>
    view_puts_notin _ _ _ _ hk
  have hmid : D.Holds ok ctx (L.filter (fun x => D.ak x ≠ D.ak m))
      (fun k => if k ∈ D.delKeys m then none else viewOf db s.txn k) := by
    refine ⟨fun x hx => h.valid x (List.mem_filter.1 hx).1, h.items.filter _, ?_⟩
    intro k hk v
    have hne : ∀ x ∈ L.filter (fun x => D.ak x ≠ D.ak m), D.ak x ≠ D.ak m := by
      intro x hx; simpa using (List.mem_filter.1 hx).2
    by_cases hd : k ∈ D.delKeys m
    · rw [if_pos hd]
      constructor
      · intro e; cases e
      · rintro ⟨x, hx, hr⟩
        exact absurd (H.disj (h.valid x (List.mem_filter.1 hx).1) hm (rows_sub_delKeys hr) hd) (hne x hx)
    · rw [if_neg hd, h.rows k hk]
      constructor
      · rintro ⟨x, hx, hr⟩
        refine ⟨x, List.mem_filter.2 ⟨hx, ?_⟩, hr⟩
        simp only [ne_eq, decide_not, Bool.not_eq_eq_eq_not, Bool.not_true, decide_eq_false_iff_not]
        intro e
        have := hcov x hx e
        subst this
        exact hd (rows_sub_delKeys hr)
      · rintro ⟨x, hx, hr⟩
        exact ⟨x, (List.mem_filter.1 hx).1, hr⟩
  have hfin : D.Holds ok ctx (m :: L.filter (fun x => D.ak x ≠ D.ak m)) (viewOf db t) := by
    refine hmid.insert H hm (fun x hx => by simpa using (List.mem_filter.1 hx).2) hin ?_
    intro k hk hr
    rw [hout k hr]
    by_cases hd : k ∈ D.delKeys m
    · rw [if_pos hd]
      cases hv : viewOf db s.txn k with
      | none => rfl
      | some v =>
        obtain ⟨x, hx, hxr⟩ := (h.rows k hk v).1 hv
        have := hcov x hx (H.disj (h.valid x hx) hm (rows_sub_delKeys hxr) hd)
        subst this
        exact absurd (List.mem_map.2 ⟨_, hxr, rfl⟩) hr
    · rw [if_neg hd]
  have hframe : Frame D ok (viewOf db s.txn) (viewOf db t) := by
    intro k hk _
    apply hout
    intro hr
    obtain ⟨⟨k', v⟩, hr', rfl⟩ := List.mem_map.1 hr
    exact hk (H.space_rows hm hr')
  refine ⟨{ s with txn := t }, ?_, hfin, hframe⟩
  have hw : D.writeRows ctx m s = (.ok (), { s with txn := t }) := hput s
  unfold mergeFree
  rcases H.kind hm with ⟨ha, hr⟩ | ⟨ha, hr⟩
  · rw [if_neg (by simp [ha]), SM.bind_ok (SM.lift_ok (makeTsHash_ok (H.hash hm)) s), if_neg (by simp [H.notCompact hm]),
      if_pos ha]
    unfold mergeAddFree
    simp only [writeRows, ha, if_true] at hw
    rw [SM.bind_ok hw]; rfl
  · rw [if_neg (by simp [hr]), SM.bind_ok (SM.lift_ok (makeTsHash_ok (H.hash hm)) s), if_neg (by simp [H.notCompact hm]),
      if_neg (by simp [ha])]
    unfold mergeRemoveFree
    simp only [writeRows, ha, Bool.false_eq_true, if_false] at hw
    rw [SM.bind_ok hw]; rfl

/-! ### The messages of a user -/

theorem page_all {V M : Type} (decode : V → Option M) (filter : M → Bool) (lim : Nat) (rows : List (Bytes × V))
    (hd : ∀ r ∈ rows, (decode r.2).isSome) :
    ∀ (acc : List M) (lk : Bytes) (c : Nat), acc.length + rows.length < lim →
    iterate none (pageStep decode filter lim) rows c (acc, lk) =
      .ok ((acc ++ (rows.filterMap (fun r => decode r.2)).filter filter, lk), true) := by
  induction rows with
  | nil => intro acc lk c _; simp [iterate]
  | cons a rows ih =>
    intro acc lk c hl
    obtain ⟨k, v⟩ := a
    obtain ⟨m, hm⟩ := Option.isSome_iff_exists.1 (hd (k, v) List.mem_cons_self)
    have ih := ih (fun r hr => hd r (List.mem_cons_of_mem _ hr))
    simp only [List.length_cons] at hl
    simp only at hm
    simp only [iterate, pageStep, hm, List.filterMap_cons, List.filter_cons]
    by_cases hf : filter m = true
    · simp only [hf, if_true]
      rw [if_neg (by simp only [List.length_append, List.length_singleton]; omega)]
      simp only
      rw [ih _ _ _ (by simp only [List.length_append, List.length_singleton]; omega)]
      simp
    · simp only [Bool.not_eq_true] at hf
      simp only [hf, Bool.false_eq_true, if_false]
      rw [ih _ _ _ (by omega)]

theorem full_page (H : D.Lawful ok) {db : Db SVal} {L : List Msg}
    (h : D.Holds ok ctx L (viewOf db OMap.empty)) {fid : Nat} (hf : fid < 2 ^ 32) (hset : D.set ≠ 255)
    (hn : (storedMessages D db fid).length < usizeMax) (filter : Msg → Bool) :
    getMessagesPageByPrefix SVal.decodeMsg db (makeMessagePrimaryKey fid D.set none) { pageSize := some usizeMax } filter =
      .ok { messages := (storedMessages D db fid).filter filter, nextPageToken := none } := by
  have e : scanRows db (iterBounds (some (makeMessagePrimaryKey fid D.set none))
        (some (incrementVec (makeMessagePrimaryKey fid D.set none))) { pageSize := some usizeMax }).1
      (iterBounds (some (makeMessagePrimaryKey fid D.set none))
        (some (incrementVec (makeMessagePrimaryKey fid D.set none))) { pageSize := some usizeMax }).2 false
      = msgRows D (storedMessages D db fid) := scan_stored H h hf hset
  have hfm : ∀ l : List Msg, (msgRows D l).filterMap (fun r => SVal.decodeMsg r.2) = l := by
    intro l
    unfold msgRows
    rw [List.filterMap_map]
    exact List.filterMap_some
  rw [getMessagesPage_eq]
  simp only [Option.getD_some]
  rw [e, page_all]
  · rw [hfm]; simp
  · intro r hr
    obtain ⟨m, _, rfl⟩ := List.mem_map.1 hr
    rfl
  · simpa [msgRows] using hn

end StoreDef

/-! ### Loans by borrower -/

section lends
variable {U : Msg → Prop} {ctx : Nat → MergeCtx}

theorem lendToRow_eq (hU : HashesIdentify U) {db : Db SVal} {L : List Msg}
    (h : lendStore.Holds (okIn .lends U) ctx L (viewOf db OMap.empty)) {m : Msg} (hm : m ∈ L) :
    lendToRow db (lendIdx m) = some m := by
  have H := l_lawful (U := U) hU
  have hmo := h.valid m hm
  obtain ⟨to, u, t, e, h1⟩ := l_body hmo.1
  have ea : lendTo m = to := by simp [lendTo, e]
  obtain ⟨p1, p2⟩ := lendIdx_partial hmo.1
  unfold lendToRow
  rw [p1, p2]
  simp only []
  have hg : lendStore.getAdd db OMap.empty (lendPartial m.fid (lendTo m)) = lendStore.getAdd db OMap.empty m := by
    have : lendStore.addKey (lendPartial m.fid (lendTo m)) = lendStore.addKey m := by
      simp [lendStore, lendPartial, e, ea]
    unfold getAdd
    rw [this]; rfl
  rw [hg]
  have h0 : m.fid ≠ 0 := by have := hmo.1.1; omega
  rcases getAdd_eq (t := OMap.empty) H h hmo h0 with ⟨z, hz, ez, _, hr⟩ | ⟨hn, _⟩
  · have := h.unique hz hm ez; subst this
    rw [hr]
  · have := hn m hm rfl
    rw [l_isAdd hmo.1] at this; cases this

theorem mem_lendsTo (hU : HashesIdentify U) {L0 L : List Msg} {st : StoreState}
    (h : SafeInv lendStore (okIn .lends U) ctx L0 L st) {f : Nat} (hf : f < 2 ^ 32) (m : Msg) :
    m ∈ lendsTo st.db f ↔ m ∈ L0 ∧ lendTo m = f := by
  have hp : ∃ b ∈ (22 :: makeFidKey f : Bytes), b ≠ 255 := ⟨22, by simp, by decide⟩
  have hscan : scanRows st.db (22 :: makeFidKey f) (incrementVec (22 :: makeFidKey f)) false =
      rowsStartingWith st.db (22 :: makeFidKey f) := lend_scan hU h f
  unfold lendsTo
  rw [hscan]
  simp only [List.mem_filterMap, rowsStartingWith, List.mem_filter, List.isPrefixOf_iff_prefix]
  constructor
  · rintro ⟨⟨k, v⟩, ⟨hr, hpre⟩, e⟩
    have hk : (k : Bytes).head? = some 22 := by
      obtain ⟨t, ht⟩ := hpre
      simp only [] at ht
      rw [← ht]; rfl
    obtain ⟨x, hx, rfl⟩ := (lendIdx_rows hU h k hk).1 ⟨v, (OMap.get_eq_some_iff st.db).mpr hr⟩
    simp only [] at e
    rw [lendToRow_eq hU h.committed hx] at e
    cases e
    refine ⟨hx, ?_⟩
    obtain ⟨to, u, t, eb, h1⟩ := l_body (h.committed.valid m hx).1
    have ea : lendTo m = to := by simp [lendTo, eb]
    obtain ⟨tl, ht⟩ := hpre
    simp only [lendIdx, List.cons_append, List.cons.injEq, true_and] at ht
    have := (List.append_inj ht (by simp [makeFidKey, be_length])).1
    exact (be_inj (w := 4) hf (by omega) this).symm
  · rintro ⟨hm, rfl⟩
    obtain ⟨v, hv⟩ := (lendIdx_rows hU h (lendIdx m) rfl).2 ⟨m, hm, rfl⟩
    refine ⟨(lendIdx m, v), ⟨(OMap.get_eq_some_iff st.db).mp hv, ⟨makeFidKey m.fid, ?_⟩⟩, lendToRow_eq hU h.committed hm⟩
    simp [lendIdx]

end lends

/-! ### Serving one key -/

section serve
variable {kind : StoreKind} {channelOf : Bytes → Option Bytes} {ctx : Nat → MergeCtx} {U : Msg → Prop}

theorem entry_fid {m : Msg} {x : TrieEntry} (h : x ∈ m.entries) : ∃ f, x = .message f m.ty.num m.hash ∧
    (f = m.fid ∨ ∃ u t, m.body = .lend f u t) := by
  simp only [Msg.entries, List.mem_map, List.mem_cons] at h
  obtain ⟨f, hf, rfl⟩ := h
  refine ⟨f, rfl, ?_⟩
  rcases hf with rfl | hf
  · exact .inl rfl
  · cases hb : m.body <;> rw [hb] at hf <;> simp at hf
    subst hf
    exact .inr ⟨_, _, rfl⟩

theorem served_all (hch : ChannelNaming channelOf) (hU : HashesAlone U) {L0 L : List Msg} {st : StoreState}
    (h : KindInv kind channelOf ctx U L0 L st) (hn : ∀ f, (storedMessages (kind.store channelOf) st.db f).length < usizeMax)
    {m : Msg} (hm : m ∈ L0) {f : Nat} (hf : f < 2 ^ 32) (hfm : f = m.fid ∨ ∃ u t, m.body = .lend f u t) :
    (kind.store channelOf).hasType m.ty.num = true ∧
    ∃ ms, (kind.store channelOf).messagesOfType st.db f m.ty.num = .ok ms ∧ m ∈ ms ∧ ∀ y ∈ ms, y ∈ L0 := by
  have H := kind_lawful (channelOf := channelOf) kind hch hU.identify
  have hset := (kind_set (channelOf := channelOf) kind).1
  have hmo := h.committed.valid m hm
  have hmem := mem_stored H h.committed hf
  have hp := full_page H h.committed hf hset (hn f)
  have hadds : (kind.store channelOf).getAddsByFid st.db f { pageSize := some usizeMax } =
      .ok { messages := (storedMessages (kind.store channelOf) st.db f).filter (kind.store channelOf).isAdd, nextPageToken := none } :=
    hp _
  have hlend : (kind.store channelOf).addType = .lendStorage → kind = .lends := by
    cases kind <;> simp [StoreKind.store, castStore, reactionStore, linkStore, verificationStore, userDataStore, lendStore]
  rcases H.kind hmo with ⟨ha, _⟩ | ⟨ha, hr⟩
  · have hty : m.ty = (kind.store channelOf).addType := by
      simp only [isAdd, Bool.and_eq_true, decide_eq_true_eq] at ha
      simp_all
    refine ⟨by rw [hasType, hty]; simp, ?_⟩
    unfold messagesOfType
    rw [hty, if_pos rfl, hadds]
    refine ⟨_, rfl, ?_, ?_⟩
    · rw [List.mem_append]
      rcases hfm with rfl | ⟨u, t, hb⟩
      · exact .inl (List.mem_filter.2 ⟨(hmem m).2 ⟨hm, rfl⟩, ha⟩)
      · right
        have hk : kind = .lends := by
          have hv := hmo.1
          cases kind <;> simp [StoreKind.Valid, hb] at hv ⊢
        subst hk
        rw [if_pos (by rfl)]
        exact (mem_lendsTo hU.identify h hf m).2 ⟨hm, by simp [lendTo, hb]⟩
    · intro y hy
      rw [List.mem_append] at hy
      rcases hy with hy | hy
      · exact ((hmem y).1 (List.mem_filter.1 hy).1).1
      · split at hy
        · next hl =>
          have := hlend hl
          subst this
          exact ((mem_lendsTo hU.identify h hf y).1 hy).1
        · cases hy
  · have hsup := removeSupported_of_isRemove hr
    have hty : m.ty = (kind.store channelOf).removeType := by
      simp only [isRemove, Bool.and_eq_true, decide_eq_true_eq] at hr
      simp_all
    have hne : (kind.store channelOf).removeType.num ≠ (kind.store channelOf).addType.num := by
      cases kind <;> simp [StoreKind.store, castStore, reactionStore, linkStore, verificationStore, userDataStore, lendStore] at hsup ⊢ <;> decide
    refine ⟨by rw [hasType, hty, hsup]; simp, ?_⟩
    have hrem : (kind.store channelOf).getRemovesByFid st.db f { pageSize := some usizeMax } =
        .ok { messages := (storedMessages (kind.store channelOf) st.db f).filter (kind.store channelOf).isRemove, nextPageToken := none } := by
      unfold getRemovesByFid
      rw [hsup]
      exact hp _
    unfold messagesOfType
    rw [hty, if_neg hne, if_pos rfl, hrem]
    refine ⟨_, rfl, ?_, ?_⟩
    · rcases hfm with rfl | ⟨u, t, hb⟩
      · exact List.mem_filter.2 ⟨(hmem m).2 ⟨hm, rfl⟩, hr⟩
      · have hk : kind = .lends := by
          have hv := hmo.1
          cases kind <;> simp [StoreKind.Valid, hb] at hv ⊢
        subst hk
        exact absurd hsup (by simp [StoreKind.store, lendStore, removeSupported])
    · intro y hy
      exact ((hmem y).1 (List.mem_filter.1 hy).1).1

theorem num_toNat {ty : Nat} (h : ty < 32) : (UInt8.ofNat ty).toNat = ty := by
  simp; omega

theorem serve_message (hch : ChannelNaming channelOf) (hU : HashesAlone U) {L0 L : List Msg} {st : StoreState}
    (h : KindInv kind channelOf ctx U L0 L st) (hn : ∀ f, (storedMessages (kind.store channelOf) st.db f).length < usizeMax)
    (c : ReplCfg) (hD : c.D = kind.store channelOf) {m : Msg} (hm : m ∈ L0) {x : TrieEntry} (hx : x ∈ m.entries)
    (hv : x.Valid) (hs : m.ty.num ∈ servedTypes c.channels) :
    serveItem c st.db (fidShard c.sha256 x.fid) (x.key c.sha256) = .ok (x.fid, ⟨x.key c.sha256, .message m⟩) := by
  obtain ⟨f, rfl, hfm⟩ := entry_fid hx
  obtain ⟨ht, ms, h1, h2, h3⟩ := served_all hch hU h hn hm hv.1 hfm
  have hd := C25_decode_message c.sha256 f m.ty.num m.hash hv
  unfold serveItem
  simp only [TrieEntry.key, TrieEntry.fid, hd, ne_eq, not_true, if_false, num_toNat hv.2.2.1, hD, ht, h1, hs, if_true]
  have hfind : ms.reverse.find? (fun y => decide (y.hash = m.hash)) = some m := by
    cases hq : ms.reverse.find? (fun y => decide (y.hash = m.hash)) with
    | none =>
      rw [List.find?_eq_none] at hq
      exact absurd (hq m (by simpa using h2)) (by simp)
    | some y =>
      have e := List.find?_some hq
      have hy := h3 y (by simpa using List.mem_of_find?_eq_some hq)
      rw [hU y m (h.committed.valid y hy).2 (h.committed.valid m hm).2 (by simpa using e)]
  rw [hfind]

theorem owned_type (hch : Bytes → Option Bytes) {f ty : Nat} {hash : Bytes} (hv : (TrieEntry.message f ty hash).Valid) (hf : 0 < f)
    (hc : kind = .links → ty ≠ 14) (ht : (kind.store hch).hasType ty = true) :
    ∃ m, kind.Valid m ∧ TrieEntry.message f ty hash ∈ m.entries := by
  obtain ⟨h1, h2, h3, h4⟩ := hv
  have key : ∀ (t : MessageType) (b : Body), kind.Valid ⟨f, t, 0, hash, [], b⟩ → ty = t.num →
      ∃ m, kind.Valid m ∧ TrieEntry.message f ty hash ∈ m.entries := by
    intro t b hv e
    exact ⟨_, hv, by simp [Msg.entries, e]⟩
  cases kind <;> simp [hasType, StoreKind.store, castStore, reactionStore, linkStore, verificationStore, userDataStore, lendStore,
    removeSupported, compactSupported] at ht hc
  · rcases ht with e | e
    · exact key .castAdd (.castAdd none []) ⟨hf, h1, by simp, h4, .inl ⟨rfl, none, [], rfl, by simp⟩⟩ e
    · exact key .castRemove (.castRemove (List.replicate 20 0)) (by simp [StoreKind.Valid, hf, h1, h4]) e
  · rcases ht with e | e
    · exact key .reactionAdd (.reaction 1 (some (.url []))) (by simp [StoreKind.Valid, hf, h1, h4]) e
    · exact key .reactionRemove (.reaction 1 (some (.url []))) (by simp [StoreKind.Valid, hf, h1, h4]) e
  · rcases ht with (e | e) | e
    · exact key .linkAdd (.link [1] (some 0)) ⟨hf, h1, by simp, h4, .inl rfl, [1], 0, rfl, by simp, by simp, by decide⟩ e
    · exact key .linkRemove (.link [1] (some 0)) ⟨hf, h1, by simp, h4, .inr rfl, [1], 0, rfl, by simp, by simp, by decide⟩ e
    · exact absurd e hc
  · rcases ht with e | e
    · exact key .verificationAdd (.verificationAdd [1]) (by simp [StoreKind.Valid, hf, h1, h4]) e
    · exact key .verificationRemove (.verificationRemove [1]) (by simp [StoreKind.Valid, hf, h1, h4]) e
  · exact key .userDataAdd (.userData 1 []) (by simp [StoreKind.Valid, hf, h1, h4]) ht
  · exact key .lendStorage (.lend 0 0 .legacy) (by simp [StoreKind.Valid, hf, h1, h4]) (of_decide_eq_true ht)

theorem served_type {channels : Bool} {ty : Nat} (h : ∃ t : MessageType, t.num = ty ∧ Replicated channels t) : ty ∈ servedTypes channels := by
  obtain ⟨t, rfl, h1, h2, h3, h4, h5⟩ := h
  cases channels <;> cases t <;> simp_all [servedTypes, MessageType.num]

theorem serve_foreign (c : ReplCfg) (hD : c.D = kind.store channelOf) {E : TrieEntry → Prop} (hs : EntriesServed kind c.channels E)
    {x : TrieEntry} (hx : E x) (hv : x.Valid) (hf : ∀ m, kind.Valid m → x ∉ m.entries) (db : Db SVal) :
    serveItem c db (fidShard c.sha256 x.fid) (x.key c.sha256) = .ok (x.fid, ⟨x.key c.sha256, .other [x.key c.sha256]⟩) := by
  unfold serveItem
  cases x with
  | onchain f ty tx log => simp only [TrieEntry.key, TrieEntry.fid, C25_decode_onchain c.sha256 f ty tx log hv, ne_eq, not_true, if_false]
  | fname f name => simp only [TrieEntry.key, TrieEntry.fid, C25_decode_fname c.sha256 f name hv, ne_eq, not_true, if_false]
  | message f ty hash =>
    obtain ⟨h1, h2, h3⟩ := hs f ty hash hx
    have h2 := served_type h2
    have ht : c.D.hasType ty = false := by
      cases hq : c.D.hasType ty with
      | false => rfl
      | true =>
        rw [hD] at hq
        obtain ⟨m, hm, he⟩ := owned_type channelOf hv h1 h3 hq
        exact absurd he (hf m hm)
    simp only [TrieEntry.key, TrieEntry.fid, C25_decode_message c.sha256 f ty hash hv, ne_eq, not_true, if_false,
      num_toNat hv.2.2.1, h2, ht, Bool.false_eq_true]

end serve
end Verif
