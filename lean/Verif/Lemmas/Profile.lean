import Verif.Spec.Profile
import Verif.Lemmas.Shard
import Verif.Lemmas.Fnames
import Verif.Lemmas.ReplStore
import Verif.Lemmas.Migrations
/-! Usernames and primary addresses. -/
namespace Verif
open StoreDef

namespace StoreDef
variable {D : StoreDef} {ok : Msg → Prop} {ctx : Nat → MergeCtx}

theorem page_few {V M : Type} (decode : V → Option M) (filter : M → Bool) (lim : Nat) (rows : List (Bytes × V))
    (hd : ∀ r ∈ rows, (decode r.2).isSome) :
    ∀ (acc : List M) (lk : Bytes) (c : Nat), acc.length + ((rows.filterMap (fun r => decode r.2)).filter filter).length < lim →
    iterate none (pageStep decode filter lim) rows c (acc, lk) =
      .ok ((acc ++ (rows.filterMap (fun r => decode r.2)).filter filter, lk), true) := by
  induction rows with
  | nil => intro acc lk c _; simp [iterate]
  | cons a rows ih =>
    intro acc lk c hl
    obtain ⟨k, v⟩ := a
    obtain ⟨m, hm⟩ := Option.isSome_iff_exists.1 (hd (k, v) List.mem_cons_self)
    have ih := ih (fun r hr => hd r (List.mem_cons_of_mem _ hr))
    simp only at hm
    simp only [iterate, pageStep, hm, List.filterMap_cons, List.filter_cons] at hl ⊢
    by_cases hf : filter m = true
    · simp only [hf, if_true, List.length_cons] at hl ⊢
      rw [if_neg (by simp only [List.length_append, List.length_singleton]; omega)]
      simp only
      rw [ih _ _ _ (by simp only [List.length_append, List.length_singleton]; omega)]
      simp
    · simp only [Bool.not_eq_true] at hf
      simp only [hf, Bool.false_eq_true, if_false] at hl ⊢
      rw [ih _ _ _ hl]

/-- A page without options when few messages match. -/
theorem few_page (H : D.Lawful ok) {db : Db SVal} {L : List Msg}
    (h : D.Holds ok ctx L (viewOf db OMap.empty)) {fid : Nat} (hf : fid < 2 ^ 32) (hset : D.set ≠ 255) (filter : Msg → Bool)
    (hn : ((storedMessages D db fid).filter filter).length < pageSizeMax) :
    getMessagesPageByPrefix SVal.decodeMsg db (makeMessagePrimaryKey fid D.set none) {} filter =
      .ok { messages := (storedMessages D db fid).filter filter, nextPageToken := none } := by
  have e := scan_stored H h hf hset
  have hfm : ∀ l : List Msg, (msgRows D l).filterMap (fun r => SVal.decodeMsg r.2) = l := by
    intro l
    unfold msgRows
    rw [List.filterMap_map]
    exact List.filterMap_some
  rw [getMessagesPage_eq]
  simp only [Option.getD_none]
  rw [e, page_few]
  · rw [hfm]; simp
  · intro r hr
    obtain ⟨m, _, rfl⟩ := List.mem_map.1 hr
    rfl
  · rw [hfm]; simpa using hn

/-- Deleting the rows of a message whose item nobody holds and recording it. -/
theorem deleteAbsent (H : D.Lawful ok) {db : Db SVal} {L : List Msg} {s : SSt}
    (h : D.Holds ok ctx L (viewOf db s.txn)) {m : Msg} (hmo : ok m) (hn : ∀ x ∈ L, D.ak x ≠ D.ak m) {x : SM Unit}
    (hx : Stages x (dels (D.delKeys m)) ()) (e : StoreEvent) :
    ∃ s', ((x >>= fun _ => SM.event e) s = (.ok e, s') ∨
        (x >>= fun _ => SM.event e) s = (.error .invalidParameter, s')) ∧
      D.Holds ok ctx L (viewOf db s'.txn) ∧
      Frame D ok (viewOf db s.txn) (viewOf db s'.txn) := by
  let t := stageAll s.txn (dels (D.delKeys m))
  have hv : ∀ k, viewOf db t k = if k ∈ D.delKeys m then none else viewOf db s.txn k := fun k => view_dels _ _ _ _
  have hfin : D.Holds ok ctx L (viewOf db t) := by
    refine h.congr (fun k hk => ?_)
    rw [hv]
    split
    · next hd =>
      cases hq : viewOf db s.txn k with
      | none => rfl
      | some v =>
        obtain ⟨y, hy, hr⟩ := (h.rows k hk v).1 hq
        exact absurd (H.disj (h.valid y hy) hmo (rows_sub_delKeys hr) hd) (hn y hy)
    · rfl
  have hframe : Frame D ok (viewOf db s.txn) (viewOf db t) := by
    intro k hk _
    rw [hv, if_neg]
    intro hd
    refine hk ?_
    rw [mem_delKeys] at hd
    rcases hd with e | ⟨_, e | e⟩ | ⟨a, e⟩
    · rw [e]; exact Space.prim m
    · rw [e]; exact Space.ak hmo
    · exact Space.aux hmo e
    · rw [e]; exact Space.rk hmo (H.remove_of_not_add hmo a).2
  rw [SM.bind_ok (hx s)]
  rcases event_cases e { s with txn := t } with ⟨id, g, he⟩ | ⟨g, he⟩
  · refine ⟨_, .inl he, ?_, ?_⟩
    · exact hfin.congr (fun k hk => view_putEvent _ _ _ _ _ (H.event_free hk))
    · exact hframe.trans (fun k _ he => view_putEvent _ _ _ _ _ he)
  · exact ⟨_, .inr he, hfin, hframe⟩

/-- Revoking a message that is live, or whose item nobody holds. -/
theorem revoke_any (H : D.Lawful ok) {db : Db SVal} {L : List Msg} {s : SSt}
    (h : D.Holds ok ctx L (viewOf db s.txn)) {m : Msg} (hmo : ok m) (hc : m ∈ L ∨ ∀ x ∈ L, D.ak x ≠ D.ak m) :
    ∃ s', (D.revoke m s = (.ok (.revoke m), s') ∨ D.revoke m s = (.error .invalidParameter, s')) ∧
      D.Holds ok ctx (L.filter (fun x => x ≠ m)) (viewOf db s'.txn) ∧
      Frame D ok (viewOf db s.txn) (viewOf db s'.txn) := by
  rcases hc with hm | hn
  · exact revoke_spec H h hm
  · have hst : Stages (D.revokeDelete (tsh m) m) (dels (D.delKeys m)) () := by
      unfold revokeDelete
      rw [if_neg (by simp [H.notCompact hmo])]
      rcases H.kind hmo with ⟨ha, hr⟩ | ⟨ha, hr⟩
      · rw [if_pos ha]; exact deleteAdd_stages H hmo ha
      · rw [if_neg (by simp [ha]), if_pos hr]; exact deleteRemove_stages H hmo ha
    have hr : D.revoke m s = (D.revokeDelete (tsh m) m >>= fun _ => SM.event (.revoke m)) s := by
      unfold revoke
      rw [SM.bind_ok (SM.lift_ok (makeTsHash_ok (H.hash hmo)) s)]
    rw [hr]
    have hL : L.filter (fun x => x ≠ m) = L := List.filter_eq_self.2 (fun x hx => by
      simp only [ne_eq, decide_not, Bool.not_eq_eq_eq_not, Bool.not_true, decide_eq_false_iff_not]
      rintro rfl; exact hn x hx rfl)
    rw [hL]
    exact deleteAbsent H h hmo hn hst _

end StoreDef

variable {U : Msg → Prop} {e : ProfileEnv}

theorem setsField_iff (m : Msg) (ty : Nat) : m.setsField ty = true ↔ ∃ v, m.body = .userData ty v := by
  unfold Msg.setsField
  cases m.body <;> simp

/-- User data of one type competes. -/
theorem field_ak {a b : Msg} (ha : okIn .userData U a) (hb : okIn .userData U b) {ty : Nat} {x y : Bytes}
    (hf : a.fid = b.fid) (hx : a.body = .userData ty x) (hy : b.body = .userData ty y) : userDataStore.ak a = userDataStore.ak b :=
  (kind_rivals (channelOf := fun _ => none) .userData ha hb).2 ⟨hf, by simp [Msg.item, hx, hy]⟩

theorem ak_field {a b : Msg} (ha : okIn .userData U a) (hb : okIn .userData U b) {ty : Nat} {y : Bytes}
    (h : userDataStore.ak a = userDataStore.ak b) (hy : b.body = .userData ty y) : a.fid = b.fid ∧ ∃ x, a.body = .userData ty x := by
  obtain ⟨h1, h2⟩ := (kind_rivals (channelOf := fun _ => none) .userData ha hb).1 h
  obtain ⟨_, t, v, hb', _⟩ := ha.1.2.2.2.2
  refine ⟨h1, v, ?_⟩
  simp only [Msg.item, hy, hb', Option.some.injEq, Prod.mk.injEq, and_true] at h2
  rw [hb', h2]

/-- What the lookup of a committed field finds. -/
theorem userDataOf_iff (hch : ChannelNaming e.channelOf) (hU : HashesIdentify U) {L0 L : StoreKind → List Msg} {st : StoreState}
    (h : ShardInv e.channelOf e.ctx U L0 L st) {fid ty : Nat} (hf : fid < 2 ^ 32) (u : Msg) :
    userDataOf st.db fid ty = some u ↔ u ∈ L0 .userData ∧ u.fid = fid ∧ ∃ v, u.body = .userData ty v := by
  have H : userDataStore.Lawful (okIn .userData U) := kind_lawful (channelOf := e.channelOf) .userData hch hU
  have hc : userDataStore.Holds (okIn .userData U) e.ctx (L0 .userData) (viewOf st.db OMap.empty) := (h .userData).committed
  let fl : Msg → Bool := fun m => userDataStore.isAdd m && m.setsField ty
  have hmem : ∀ x, x ∈ (storedMessages userDataStore st.db fid).filter fl ↔
      x ∈ L0 .userData ∧ x.fid = fid ∧ ∃ v, x.body = .userData ty v := by
    intro x
    rw [List.mem_filter, mem_stored H hc hf]
    simp only [fl, Bool.and_eq_true, setsField_iff]
    constructor
    · rintro ⟨⟨h1, h2⟩, _, h3⟩; exact ⟨h1, h2, h3⟩
    · rintro ⟨h1, h2, h3⟩
      refine ⟨⟨h1, h2⟩, ?_, h3⟩
      have hx := hc.valid x h1
      exact (kind_isAdd (channelOf := e.channelOf) .userData hx).2 (by
        have := hx.1.2.2.2.2.1
        simp [Msg.isRemoval, this])
  have huniq : ∀ x ∈ (storedMessages userDataStore st.db fid).filter fl, ∀ y ∈ (storedMessages userDataStore st.db fid).filter fl, x = y := by
    intro x hx y hy
    obtain ⟨h1, h2, v, h3⟩ := (hmem x).1 hx
    obtain ⟨h4, h5, w, h6⟩ := (hmem y).1 hy
    exact hc.unique h1 h4 (field_ak (hc.valid x h1) (hc.valid y h4) (h2.trans h5.symm) h3 h6)
  have hnd : ((storedMessages userDataStore st.db fid).filter fl).Nodup := (stored_nodup H hc hf).filter _
  have hshape : (storedMessages userDataStore st.db fid).filter fl = [] ∨
      ∃ x, (storedMessages userDataStore st.db fid).filter fl = [x] := by
    match hq : (storedMessages userDataStore st.db fid).filter fl with
    | [] => exact .inl rfl
    | [x] => exact .inr ⟨x, rfl⟩
    | x :: y :: l =>
      rw [hq] at huniq hnd
      have := huniq x (by simp) y (by simp)
      subst this
      simp at hnd
  have hp := few_page H hc hf (by decide) fl (by
    rcases hshape with hs | ⟨x, hs⟩ <;> rw [hs] <;> simp [pageSizeMax])
  unfold userDataOf
  rw [show getMessagesPageByPrefix SVal.decodeMsg st.db (makeMessagePrimaryKey fid userDataStore.set none) {}
    (fun m => userDataStore.isAdd m && m.setsField ty) = _ from hp, ← hmem]
  rcases hshape with hs | ⟨x, hs⟩ <;> rw [hs] <;> simp
  exact eq_comm

/-- Revoking the committed value of a field when the batch sets none. -/
theorem revoke_step (hch : ChannelNaming e.channelOf) (hU : HashesIdentify U) {L0 L : StoreKind → List Msg} {st : StoreState}
    (h : ShardInv e.channelOf e.ctx U L0 L st) {fid ty : Nat} {u : Msg} (hu0 : u ∈ L0 .userData) (huf : u.fid = fid) {w : Bytes}
    (hub : u.body = .userData ty w)
    (hn : ∀ x ∈ L .userData, ∀ v, x.fid = fid → x.body = .userData ty v → x ∈ L0 .userData) :
    ∃ L', ShardInv e.channelOf e.ctx U L0 L' (st.after (userDataStore.revoke u st.pend)) ∧
      (∀ k, k ≠ .userData → L' k = L k) ∧ L' .userData = (L .userData).filter (fun x => x ≠ u) := by
  have H : userDataStore.Lawful (okIn .userData U) := kind_lawful (channelOf := e.channelOf) .userData hch hU
  have hc : userDataStore.Holds (okIn .userData U) e.ctx (L0 .userData) (viewOf st.db OMap.empty) := (h .userData).committed
  have hl : userDataStore.Holds (okIn .userData U) e.ctx (L .userData) (viewOf st.db st.pend.txn) := (h .userData).holds
  have hcase : u ∈ L .userData ∨ ∀ x ∈ L .userData, userDataStore.ak x ≠ userDataStore.ak u := by
    by_cases hq : u ∈ L .userData
    · exact .inl hq
    · right
      intro x hx hak
      obtain ⟨h1, v, h2⟩ := ak_field (hl.valid x hx) (hc.valid u hu0) hak hub
      have := hc.unique (hn x hx v (h1.trans huf) h2) hu0 hak
      exact hq (this ▸ hx)
  obtain ⟨s', hr, hh, hfr⟩ := revoke_any H hl (hc.valid u hu0) hcase
  have hst : st.after (userDataStore.revoke u st.pend) = { st with pend := s' } := by
    unfold StoreState.after
    rcases hr with hr | hr <;> rw [hr]
  refine ⟨fun k => if k = .userData then (L .userData).filter (fun x => x ≠ u) else L k, ?_, ?_, ?_⟩
  · intro k
    rw [hst]
    by_cases hk : k = .userData
    · subst hk; simp only [if_true]; exact safeIn_pend (h .userData) hh hfr
    · simp only [hk, if_false]
      refine (h k).elsewhere (fun key ho => frame_owns (channelOf := e.channelOf) (U := U) (kind := .userData) hfr ?_ (owns_not_event ho))
      exact fun h' => hk (owns_unique ho h')
  · intro k hk; simp [hk]
  · simp

/-- A call leaves the other stores alone. -/
theorem shard_call (hch : ChannelNaming e.channelOf) (hU : HashesIdentify U) {L0 L : StoreKind → List Msg} {st : StoreState}
    (h : ShardInv e.channelOf e.ctx U L0 L st) {kind : StoreKind} {o : StoreOp} (hc : o.isCall = true)
    (ho : kind.Proper e.channelOf U st o) :
    ∃ L', ShardInv e.channelOf e.ctx U L0 L' (st.shardExec e.channelOf e.ctx (.call kind o)) ∧ (∀ k, k ≠ kind → L' k = L k) ∧
      ((∀ m, o ≠ .merge m) → (∀ m, o ≠ .force m) → ∀ x ∈ L' kind, x ∈ L kind) ∧
      ((∀ f c m, o ≠ .prune f c m) → L' kind = (kind.store e.channelOf).effect st.db (L kind) o) := by
  have key : ∃ L1 s', st.exec (kind.store e.channelOf) e.ctx o = { st with pend := s' } ∧
      (kind.store e.channelOf).Holds (okIn kind U) e.ctx L1 (viewOf st.db s'.txn) ∧
      Frame (kind.store e.channelOf) (okIn kind U) st.view (viewOf st.db s'.txn) ∧
      ((∀ m, o ≠ .merge m) → (∀ m, o ≠ .force m) → ∀ x ∈ L1, x ∈ L kind) ∧
      ((∀ f c m, o ≠ .prune f c m) → L1 = (kind.store e.channelOf).effect st.db (L kind) o) := by
    by_cases hp : ∃ f c m, o = .prune f c m
    · obtain ⟨f, c, m, rfl⟩ := hp
      obtain ⟨n, s', _, hh, hf, hr⟩ := prune_spec (cur := c) (max := m) (kind_lawful (channelOf := e.channelOf) kind hch hU)
        (kind_set (channelOf := e.channelOf) kind).1 (h kind).toPairInv ho.1 ho.2
      refine ⟨_, s', ?_, hh, hf, fun _ _ x hx => (List.mem_filter.1 hx).1, fun hn => absurd rfl (hn f c m)⟩
      simp only [StoreState.exec, StoreState.after]
      rcases hr with ⟨hr, _⟩ | hr <;> rw [hr]
    · have hp' : ∀ f c m, o ≠ .prune f c m := fun f c m e' => hp ⟨f, c, m, e'⟩
      obtain ⟨L1, s', he, hh, hf, hL⟩ := kind_call kind hch hU (kind_compactIn kind hU) (h kind) hc ho
      have hL := hL (fun f c m e' => absurd e' (hp' f c m))
      refine ⟨L1, s', he, hh, hf, ?_, fun _ => hL⟩
      intro h1 h2 x hx
      rw [hL] at hx
      cases o with
      | merge m => exact absurd rfl (h1 m)
      | force m => exact absurd rfl (h2 m)
      | revokeAdd item =>
        simp only [effect] at hx
        split at hx
        · exact (List.mem_filter.1 hx).1
        · exact hx
      | prune f c m => exact absurd rfl (hp' f c m)
      | revokeSigner f g => exact (List.mem_filter.1 hx).1
      | commit => exact hx
      | drop => exact hx
      | block n => exact hx
  obtain ⟨L1, s', he, hh, hf, hs, hL⟩ := key
  refine ⟨fun j => if j = kind then L1 else L j, ?_, fun k hk => if_neg hk, fun h1 h2 => by simpa using hs h1 h2,
    fun hp => by simpa using hL hp⟩
  intro j
  simp only [StoreState.shardExec]
  rw [he]
  by_cases e' : j = kind
  · subst e'; rw [if_pos rfl]; exact safeIn_pend (h j) hh hf
  · rw [if_neg e']
    refine (h j).elsewhere (fun k hk => frame_owns hf ?_ (owns_not_event hk))
    exact fun hk' => e' (owns_unique hk hk')

theorem mem_liveMerge {D : StoreDef} {L : List Msg} {m x : Msg} (h : x ∈ (D.liveMerge L m).2) : x = m ∨ x ∈ L := by
  unfold liveMerge at h
  split at h
  · simpa using h
  · split at h
    · exact .inr h
    · split at h
      · exact .inr h
      · simp only [List.mem_cons, List.mem_filter] at h
        rcases h with h | h
        · exact .inl h
        · exact .inr h.1

/-- Other calls of the stores only take user data away. -/
theorem other_step (hch : ChannelNaming e.channelOf) (hU : HashesIdentify U) {L0 L : StoreKind → List Msg} {st : StoreState}
    (h : ShardInv e.channelOf e.ctx U L0 L st) {o : ShardOp} (ha : o.Apart) (ho : st.ShardProper e.channelOf U o) :
    ∃ L', ShardInv e.channelOf e.ctx U L0 L' (st.shardExec e.channelOf e.ctx o) ∧ ∀ x ∈ L' .userData, x ∈ L .userData := by
  cases o with
  | put k v =>
    obtain ⟨L0', L', h', hL⟩ := shard_step hch hU h (o := .put k v) ho
    have hL := hL (fun _ _ _ _ e' => by cases e')
    have e0 : L0' = L0 := funext fun k => (hL k).1
    have e1 : L' = L := funext fun k => (hL k).2
    subst e0 e1
    exact ⟨_, h', fun x hx => hx⟩
  | del k =>
    obtain ⟨L0', L', h', hL⟩ := shard_step hch hU h (o := .del k) ho
    have hL := hL (fun _ _ _ _ e' => by cases e')
    have e0 : L0' = L0 := funext fun k => (hL k).1
    have e1 : L' = L := funext fun k => (hL k).2
    subst e0 e1
    exact ⟨_, h', fun x hx => hx⟩
  | call kind c =>
    have hc : c.isCall = true := by
      cases c <;> first | rfl | exact (ha.elim)
    obtain ⟨L', h1, h2, h3, _⟩ := shard_call hch hU h hc ho
    refine ⟨L', h1, ?_⟩
    by_cases hk : kind = .userData
    · subst hk
      exact h3 (fun m e' => by subst e'; exact ha) (fun m e' => by subst e'; exact ha)
    · rw [h2 _ (fun e' => hk e'.symm)]; exact fun x hx => hx

/-- The invariant of the tables. -/
structure ProfInv (e : ProfileEnv) (U : Msg → Prop) (L0 L : StoreKind → List Msg) (own0 own : Bytes → Option FProof)
    (idx0 idx : Nat → Option Bytes) (n : ProfileNode) : Prop where
  shard : ShardInv e.channelOf e.ctx U L0 L n.store
  names : Fnames.Inv n.names own0 own idx0 idx
  gone : ∀ m ∈ n.deleted, okIn .verifications U m

theorem ProfInv.has (hch : ChannelNaming e.channelOf) (hU : HashesIdentify U) {L0 L own0 own idx0 idx} {n : ProfileNode}
    (h : ProfInv e U L0 L own0 own idx0 idx n) (kind : StoreKind) (m : Msg) :
    n.store.Has (kind.store e.channelOf) m ↔ m ∈ L kind :=
  (h.shard kind).has_iff (kind_lawful kind hch hU) m

theorem ProfInv.committed {L0 L own0 own idx0 idx} {n : ProfileNode} (h : ProfInv e U L0 L own0 own idx0 idx n) :
    ProfInv e U L0 L0 own0 own0 idx0 idx0 n.committed :=
  ⟨fun k => safeIn_drop (h.shard k) userDataStore e.ctx, ⟨h.names.rep0, h.names.good0, h.names.rep0, h.names.good0⟩,
    fun m hm => (by cases hm)⟩

theorem ProfInv.nothingNew (hch : ChannelNaming e.channelOf) (hU : HashesIdentify U) {L0 L own0 own idx0 idx} {n : ProfileNode}
    (h : ProfInv e U L0 L own0 own idx0 idx n) {fid ty : Nat} (hn : n.NothingNew fid ty) :
    ∀ x ∈ L .userData, ∀ v, x.fid = fid → x.body = .userData ty v → x ∈ L0 .userData :=
  fun x hx v hf hb => (h.committed.has hch hU .userData x).1 (hn x v ((h.has hch hU .userData x).2 hx) hf hb)

/-- Revoking the username of the user a name is taken from. -/
theorem revokeUsername_step (hch : ChannelNaming e.channelOf) (hU : HashesIdentify U) {L0 L own0 own idx0 idx} {n : ProfileNode}
    (h : ProfInv e U L0 L own0 own idx0 idx n) {source : Nat} (hs : source < 2 ^ 32)
    (hn : ∀ x ∈ L .userData, ∀ v, x.fid = source → x.body = .userData 6 v → x ∈ L0 .userData) :
    ∃ L', ProfInv e U L0 L' own0 own idx0 idx (n.revokeUsername source) ∧ (∀ k, k ≠ .userData → L' k = L k) ∧
      (∀ x ∈ L' .userData, x ∈ L .userData ∧ (source ≠ 0 → x.fid = source → ∀ v, x.body ≠ .userData 6 v)) ∧
      (n.revokeUsername source).deleted = n.deleted := by
  unfold ProfileNode.revokeUsername
  by_cases h0 : source > 0
  · rw [if_pos h0]
    cases hq : userDataOf n.store.db source 6 with
    | none =>
      refine ⟨L, h, fun _ _ => rfl, fun x hx => ⟨hx, fun _ hf v hb => ?_⟩, rfl⟩
      have := (userDataOf_iff hch hU h.shard hs x).2 ⟨hn x hx v hf hb, hf, v, hb⟩
      rw [hq] at this; cases this
    | some u =>
      obtain ⟨hu0, huf, w, hub⟩ := (userDataOf_iff hch hU h.shard hs u).1 hq
      obtain ⟨L', h1, h2, h3⟩ := revoke_step hch hU h.shard hu0 huf hub hn
      refine ⟨L', ⟨h1, h.names, h.gone⟩, h2, fun x hx => ?_, rfl⟩
      rw [h3, List.mem_filter] at hx
      refine ⟨hx.1, fun _ hf v hb => ?_⟩
      have := (userDataOf_iff hch hU h.shard hs x).2 ⟨hn x hx.1 v hf hb, hf, v, hb⟩
      rw [hq] at this
      cases this
      simp at hx
  · rw [if_neg h0]
    exact ⟨L, h, fun _ _ => rfl, fun x hx => ⟨hx, fun h1 => absurd h1 (by omega)⟩, rfl⟩

/-- The work at the end of a transaction, from the messages still to be looked at. -/
theorem sideEffects_step (hch : ChannelNaming e.channelOf) (hU : HashesIdentify U) {L0 own0 own idx0 idx} (ms : List Msg) :
    ∀ {L : StoreKind → List Msg} {n : ProfileNode}, ProfInv e U L0 L own0 own idx0 idx n → (∀ m ∈ ms, m.fid < 2 ^ 32) →
    (∀ m ∈ ms, ∀ x ∈ L .userData, ∀ v, x.fid = m.fid → x.body = .userData (ProfileNode.fieldOf (e.protocol m)) v → x ∈ L0 .userData) →
    ∃ L', ProfInv e U L0 L' own0 own idx0 idx (n.sideEffects e ms).2 ∧ (∀ k, k ≠ .userData → L' k = L k) ∧
      (∀ x ∈ L' .userData, x ∈ L .userData) ∧
      ((n.sideEffects e ms).1 = .ok () → ∀ x ∈ L' .userData, ∀ m ∈ ms, ∀ a ty text, m.body = .verificationAdd a →
        m.fid = x.fid → ProfileNode.primaryField e m a = some (ty, text) → x.body ≠ .userData ty text) := by
  induction ms with
  | nil => intro L n h _ _; exact ⟨L, h, fun _ _ => rfl, fun x hx => hx, fun _ x _ m hm => by cases hm⟩
  | cons m ms ih =>
    intro L n h hf hn
    have hf' : ∀ m ∈ ms, m.fid < 2 ^ 32 := fun y hy => hf y (List.mem_cons_of_mem _ hy)
    have hn' : ∀ {L1 : StoreKind → List Msg}, (∀ x ∈ L1 .userData, x ∈ L .userData) → ∀ y ∈ ms, ∀ x ∈ L1 .userData, ∀ v, x.fid = y.fid →
        x.body = .userData (ProfileNode.fieldOf (e.protocol y)) v → x ∈ L0 .userData :=
      fun hs y hy x hx => hn y (List.mem_cons_of_mem _ hy) x (hs x hx)
    have skip : (∀ x ∈ L .userData, ∀ a ty text, m.body = .verificationAdd a → m.fid = x.fid →
        ProfileNode.primaryField e m a = some (ty, text) → x.body ≠ .userData ty text) →
        ∃ L', ProfInv e U L0 L' own0 own idx0 idx (n.sideEffects e ms).2 ∧ (∀ k, k ≠ .userData → L' k = L k) ∧
      (∀ x ∈ L' .userData, x ∈ L .userData) ∧
      ((n.sideEffects e ms).1 = .ok () → ∀ x ∈ L' .userData, ∀ y ∈ m :: ms, ∀ a ty text, y.body = .verificationAdd a →
        y.fid = x.fid → ProfileNode.primaryField e y a = some (ty, text) → x.body ≠ .userData ty text) := by
      intro hm
      obtain ⟨L', h1, h2, h3, h4⟩ := ih h hf' (hn' (fun x hx => hx))
      refine ⟨L', h1, h2, h3, fun hok x hx y hy => ?_⟩
      rcases List.mem_cons.1 hy with rfl | hy
      · exact hm x (h3 x hx)
      · exact h4 hok x hx y hy
    by_cases hb : ∃ a, m.body = .verificationAdd a
    · obtain ⟨a, hb⟩ := hb
      simp only [ProfileNode.sideEffects, hb, ProfileNode.revokePrimary]
      cases hp : ProfileNode.primaryField e m a with
      | none =>
        simp only
        exact ⟨L, h, fun _ _ => rfl, fun x hx => hx, fun hok => by cases hok⟩
      | some tt =>
        obtain ⟨ty, text⟩ := tt
        have hty : ty = ProfileNode.fieldOf (e.protocol m) := by
          unfold ProfileNode.primaryField at hp
          unfold ProfileNode.fieldOf
          split at hp
          · next h0 => cases hp; rw [if_pos h0]
          · next h0 =>
            rw [if_neg h0]
            split at hp <;> cases hp
            rfl
        have hmn := hn m List.mem_cons_self
        rw [← hty] at hmn
        simp only
        cases hq : userDataOf n.store.db m.fid ty with
        | none =>
          simp only
          refine skip (fun x hx a' ty' text' hb' hf'' hp' hxb => ?_)
          rw [hb] at hb'; cases hb'
          rw [hp] at hp'; cases hp'
          have := (userDataOf_iff hch hU h.shard (hf m List.mem_cons_self) x).2 ⟨hmn x hx _ hf''.symm hxb, hf''.symm, _, hxb⟩
          rw [hq] at this; cases this
        | some u =>
          simp only
          obtain ⟨hu0, huf, w, hub⟩ := (userDataOf_iff hch hU h.shard (hf m List.mem_cons_self) u).1 hq
          by_cases hut : u.body = .userData ty text
          · rw [if_pos hut]
            obtain ⟨L1, g1, g2, g3⟩ := revoke_step hch hU h.shard hu0 huf hub hmn
            have gi : ProfInv e U L0 L1 own0 own idx0 idx (n.revoke u).2 := ⟨g1, h.names, h.gone⟩
            have gs : ∀ x ∈ L1 .userData, x ∈ L .userData := fun x hx => by rw [g3] at hx; exact (List.mem_filter.1 hx).1
            cases hr : n.revoke u with
            | mk r n' =>
              rw [hr] at gi
              cases r with
              | error err => exact ⟨L1, gi, g2, gs, fun hok => by cases hok⟩
              | ok ev =>
                simp only
                obtain ⟨L', h1, h2, h3, h4⟩ := ih gi hf' (hn' gs)
                refine ⟨L', h1, fun k hk => (h2 k hk).trans (g2 k hk), fun x hx => gs x (h3 x hx), fun hok x hx y hy => ?_⟩
                rcases List.mem_cons.1 hy with rfl | hy
                · intro a' ty' text' hb' hf'' hp' hxb
                  rw [hb] at hb'; cases hb'
                  rw [hp] at hp'; cases hp'
                  have hx1 := h3 x hx
                  have := (userDataOf_iff hch hU h.shard (hf y List.mem_cons_self) x).2
                    ⟨hmn x (gs x hx1) _ hf''.symm hxb, hf''.symm, _, hxb⟩
                  rw [hq] at this; cases this
                  rw [g3] at hx1
                  simp at hx1
                · exact h4 hok x hx y hy
          · rw [if_neg hut]
            simp only
            refine skip (fun x hx a' ty' text' hb' hf'' hp' hxb => ?_)
            rw [hb] at hb'; cases hb'
            rw [hp] at hp'; cases hp'
            have := (userDataOf_iff hch hU h.shard (hf m List.mem_cons_self) x).2 ⟨hmn x hx _ hf''.symm hxb, hf''.symm, _, hxb⟩
            rw [hq] at this; cases this
            exact hut hxb
    · have : n.sideEffects e (m :: ms) = n.sideEffects e ms := by
        show (match m.body with | .verificationAdd address => _ | _ => n.sideEffects e ms) = _
        cases hm : m.body <;> first | rfl | exact absurd ⟨_, hm⟩ hb
      rw [this]
      exact skip (fun x _ a ty text hb' => absurd ⟨a, hb'⟩ hb)

/-- Merging a verification: what disappears is reported. -/
theorem verification_step (hch : ChannelNaming e.channelOf) (hU : HashesIdentify U) {L0 L : StoreKind → List Msg} {st : StoreState}
    (h : ShardInv e.channelOf e.ctx U L0 L st) {f : Bool} {m : Msg}
    (ho : StoreKind.verifications.Proper e.channelOf U st (ProfileNode.verificationOp f m)) :
    ∃ L', ShardInv e.channelOf e.ctx U L0 L' (st.shardExec e.channelOf e.ctx (.call .verifications (ProfileNode.verificationOp f m))) ∧
      (∀ k, k ≠ .verifications → L' k = L k) ∧
      (∀ x ∈ ProfileNode.deletedBy (st.returned verificationStore e.ctx (ProfileNode.verificationOp f m)), x ∈ L .verifications) ∧
      ((∃ es, st.returned verificationStore e.ctx (ProfileNode.verificationOp f m) = .ok es) → ∀ x ∈ L .verifications,
        x ∈ L' .verifications ∨ x ∈ ProfileNode.deletedBy (st.returned verificationStore e.ctx (ProfileNode.verificationOp f m))) := by
  have H : verificationStore.Lawful (okIn .verifications U) := kind_lawful (channelOf := e.channelOf) .verifications hch hU
  have hl : verificationStore.Holds (okIn .verifications U) e.ctx (L .verifications) (viewOf st.db st.pend.txn) := (h .verifications).holds
  have hc : (ProfileNode.verificationOp f m).isCall = true := by cases f <;> rfl
  obtain ⟨L', h1, h2, _, h4⟩ := shard_call hch hU h hc ho
  have h4 : L' .verifications = verificationStore.effect st.db (L .verifications) (ProfileNode.verificationOp f m) :=
    h4 (fun a b c e' => by cases f <;> cases e')
  refine ⟨L', h1, h2, ?_⟩
  rw [h4]
  cases f with
  | false =>
    have hm : okIn .verifications U m := ho
    simp only [ProfileNode.verificationOp, Bool.false_eq_true, if_false, effect, StoreState.returned]
    rcases merge_spec H hl hm (fun hs => by simp [compactSupported, verificationStore] at hs) with
      ⟨err, e1, _, e3⟩ | ⟨old, s', e1, e2, _, _⟩
    · rw [e3]
      simp only [ProfileNode.deletedBy]
      exact ⟨fun x hx => (by cases hx), fun ⟨es, he⟩ => (by cases he)⟩
    · rcases e2 with e2 | e2
      · rw [e2]
        simp only [ProfileNode.deletedBy, StoreEvent.deleted, List.flatMap_cons, List.flatMap_nil, List.append_nil, e1]
        have hold : ∀ x, x ∈ old ↔ x ∈ L .verifications ∧ verificationStore.ak x = verificationStore.ak m := by
          intro x
          unfold liveMerge at e1
          split at e1
          · next hq =>
            simp only [Prod.mk.injEq, Except.ok.injEq] at e1
            obtain ⟨rfl, _⟩ := e1
            simp only [List.not_mem_nil, false_iff, not_and]
            intro hx
            simpa using List.find?_eq_none.1 hq x hx
          · next y hq =>
            split at e1
            · simp at e1
            · split at e1
              · simp at e1
              · simp only [Prod.mk.injEq, Except.ok.injEq, and_true] at e1
                subst e1
                have hy := List.mem_of_find?_eq_some hq
                have hy' : verificationStore.ak y = verificationStore.ak m := by simpa using List.find?_some hq
                simp only [List.mem_singleton]
                constructor
                · rintro rfl; exact ⟨hy, hy'⟩
                · rintro ⟨hx, hx'⟩; exact hl.unique hx hy (hx'.trans hy'.symm)
        refine ⟨fun x hx => ((hold x).1 hx).1, fun _ x hx => ?_⟩
        by_cases hk : verificationStore.ak x = verificationStore.ak m
        · exact .inr ((hold x).2 ⟨hx, hk⟩)
        · exact .inl (List.mem_cons_of_mem _ (List.mem_filter.2 ⟨hx, by simpa using hk⟩))
      · rw [e2]
        simp only [ProfileNode.deletedBy]
        exact ⟨fun x hx => (by cases hx), fun ⟨es, he⟩ => (by cases he)⟩
  | true =>
    obtain ⟨hv, hu, hx⟩ := ho
    have hm : okIn .verifications U m := ⟨hv, hu⟩
    have hcs : verificationStore.compactSupported = false := by simp [compactSupported, verificationStore]
    simp only [ProfileNode.verificationOp, if_true, effect, StoreState.returned, hcs, Bool.false_eq_true, if_false]
    rcases force_spec (ctx := e.ctx) H hl hm (fun x hxL => hx x (((h .verifications).has_iff H x).2 hxL)) with
      ⟨hcs', _⟩ | ⟨old, s', e2, hold, _, _⟩
    · rw [hcs] at hcs'; cases hcs'
    · rcases e2 with e2 | e2
      · rw [e2]
        simp only [ProfileNode.deletedBy, StoreEvent.deleted, List.flatMap_cons, List.flatMap_nil, List.append_nil]
        refine ⟨fun x hx => ((hold x).1 hx).1, fun _ x hx => ?_⟩
        by_cases hxm : x = m
        · exact .inl (hxm ▸ List.mem_cons_self)
        · by_cases hk : verificationStore.ak x = verificationStore.ak m
          · exact .inr ((hold x).2 ⟨hx, hk, hxm⟩)
          · exact .inl (List.mem_cons_of_mem _ (List.mem_filter.2 ⟨hx, by simpa using hk⟩))
      · rw [e2]
        simp only [ProfileNode.deletedBy]
        exact ⟨fun x hx => (by cases hx), fun ⟨es, he⟩ => (by cases he)⟩

/-- What a lookup of a verification by address finds. -/
theorem getVerification (hch : ChannelNaming e.channelOf) (hU : HashesIdentify U) {L0 L : StoreKind → List Msg} {st : StoreState}
    (h : ShardInv e.channelOf e.ctx U L0 L st) {fid : Nat} (hf0 : 0 < fid) (hf : fid < 2 ^ 32) {a : Bytes} {x : Msg}
    (hg : verificationStore.getAdd st.db st.pend.txn ⟨fid, .verificationAdd, 0, [], [], .verificationAdd a⟩ = .ok (some x)) :
    x ∈ L .verifications ∧ x.fid = fid ∧ x.body = .verificationAdd a := by
  have H : verificationStore.Lawful (okIn .verifications U) := kind_lawful (channelOf := e.channelOf) .verifications hch hU
  have hl : verificationStore.Holds (okIn .verifications U) e.ctx (L .verifications) (viewOf st.db st.pend.txn) := (h .verifications).holds
  have hne : ∃ v, st.view (RowKey.verificationAdd fid a).bytes = some v := by
    cases hv : st.view (RowKey.verificationAdd fid a).bytes with
    | some v => exact ⟨v, rfl⟩
    | none =>
      exfalso
      have hr : ∀ k s, SM.read st.db k s = (.ok (viewOf st.db s.txn k), s) := fun _ _ => rfl
      have hk : verificationStore.addKey ⟨fid, .verificationAdd, 0, [], [], .verificationAdd a⟩ = .ok (RowKey.verificationAdd fid a).bytes := rfl
      unfold getAdd at hg
      rw [if_neg (by simp; omega), SM.bind_ok (SM.lift_ok hk _), SM.bind_ok (hr _ _)] at hg
      rw [show viewOf st.db st.pend.txn (RowKey.verificationAdd fid a).bytes = none from hv] at hg
      cases hg
  obtain ⟨v, hv⟩ := hne
  obtain ⟨m, hmv, hmu, hmh, r, hr, er⟩ := (near_rows .verifications hch hU (h .verifications)
    ⟨(3, some 93), by decide, tableOf_user _ _ _⟩ v).1 hv
  have hmf := hmv.2.1
  have hwf : (RowKey.verificationAdd fid a).WF := ⟨by intro x hx; simp [RowKey.fids] at hx; omega, trivial⟩
  have hm : m.fid = fid ∧ m.body = .verificationAdd a := by
    have hr : (r, v) ∈ StoreKind.verifications.rows (fun _ => none) (e.ctx m.ts).follows m := by
      rcases hmv.2.2.2.2 with ⟨ht, b, hb, _⟩ | ⟨ht, b, hb, _⟩ <;> simpa only [StoreKind.rows, StoreKind.store, ht, hb] using hr
    rcases v_rows hmv hr with rfl | ⟨a', ha, hb, rfl, rfl | rfl⟩ | ⟨a', rfl⟩
    · exfalso
      have := RowKey.bytes_inj hwf (r' := .message m.fid 4 m.tsHash)
        ⟨by intro x hx; simp [RowKey.fids] at hx; omega, by simp [Msg.tsHash, hmv.2.2.2.1]⟩ er
      cases this
    · have := RowKey.bytes_inj hwf (r' := .verificationAdd m.fid a')
        ⟨by intro x hx; simp [RowKey.fids] at hx; omega, trivial⟩ er
      simp only [RowKey.verificationAdd.injEq] at this
      exact ⟨this.1.symm, by rw [hb, this.2]⟩
    · simp [RowKey.bytes, makeUserKey] at er
    · exfalso
      have := RowKey.bytes_inj hwf (r' := .verificationRemove m.fid a')
        ⟨by intro x hx; simp [RowKey.fids] at hx; omega, trivial⟩ er
      cases this
  have hmo : okIn .verifications U m := ⟨hmv, hmu⟩
  have hgm : verificationStore.getAdd st.db st.pend.txn m = .ok (some x) := by
    rw [← hg]
    have : verificationStore.addKey m = verificationStore.addKey ⟨fid, .verificationAdd, 0, [], [], .verificationAdd a⟩ := by
      simp [verificationStore, verificationAddress, hm.1, hm.2]
    unfold getAdd
    rw [this, hm.1]
  rcases getAdd_eq (t := st.pend.txn) H hl hmo (by have := hmv.1; omega) with ⟨y, hy, hya, hadd, hgy⟩ | ⟨_, hgy⟩
  · rw [hgy] at hgm; cases hgm
    obtain ⟨h1, h2⟩ := (kind_rivals (channelOf := e.channelOf) .verifications (hl.valid x hy) hmo).1 hya
    refine ⟨hy, h1.trans hm.1, ?_⟩
    have hxr := (kind_isAdd (channelOf := e.channelOf) .verifications (hl.valid x hy)).1 hadd
    rcases (hl.valid x hy).1.2.2.2.2 with ⟨_, b, hb, _⟩ | ⟨ht, b, hb, _⟩
    · simp only [Msg.item, hm.2, hb, Option.some.injEq, Prod.mk.injEq, true_and] at h2
      rw [hb, h2]
    · exact absurd (.inr (.inr (.inr ht))) hxr
  · rw [hgy] at hgm; cases hgm

end Verif
