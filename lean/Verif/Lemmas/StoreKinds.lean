import Verif.Lemmas.StoreInst
import Verif.Lemmas.StoreHist
/-! The laws of all stores at once, in the vocabulary of the specification. -/
namespace Verif
open StoreDef
variable {U : Msg → Prop} {channelOf : Bytes → Option Bytes}

theorem kind_lawful (kind : StoreKind) (hch : ChannelNaming channelOf) (hU : HashesIdentify U) :
    (kind.store channelOf).Lawful (okIn kind U) := by
  cases kind
  · exact castStore_lawful hU
  · exact reactionStore_lawful hch hU
  · exact linkStore_lawful hU
  · exact verificationStore_lawful hU
  · exact userDataStore_lawful hU
  · exact lendStore_lawful hU

/-- The item key as a logical row. -/
def itemRow (kind : StoreKind) (m : Msg) : RowKey :=
  match kind with
  | .casts => .castAdd m.fid (castOf m)
  | .reactions => .reactionAdd m.fid (reactionTy m) (reactionTarget m)
  | .links => .linkAdd m.fid (padLinkType (linkTy m)) (linkTarget m)
  | .verifications => .verificationAdd m.fid (verifAddr m)
  | .userData => .userData m.fid (UInt8.ofNat (userDataTy m))
  | .lends => .lend m.fid (lendTo m)

theorem kind_ak (kind : StoreKind) {m : Msg} (h : okIn kind U m) :
    (kind.store channelOf).ak m = (itemRow kind m).bytes ∧ (itemRow kind m).WF := by
  have hfid := h.1.2.1
  cases kind
  · simp [ak, itemRow, StoreKind.store, castStore, castItem_ok h, RowKey.bytes, castKey, castOf_length h, bind,
      Except.bind, pure, Except.pure, RowKey.WF, RowKey.fids, hfid]
  · obtain ⟨ty, t, e, h1, h2⟩ := h.1.2.2.2.2.2
    have : ¬ ty = 0 := by omega
    simp [ak, itemRow, StoreKind.store, reactionStore, reactionParts, reactionKey, reactionTy, reactionTarget, e, h1,
      this, bind, Except.bind, RowKey.bytes, RowKey.WF, RowKey.fids, hfid]
  · obtain ⟨ty, t, e, h1, h2, h3⟩ := h.1.2.2.2.2.2
    have : ¬ 8 < ty.length := by omega
    simp [ak, itemRow, StoreKind.store, linkStore, linkKey, linkTy, linkTarget, e, h1, this, RowKey.bytes, RowKey.WF,
      RowKey.fids, hfid, padLinkType_length h2]
    omega
  · rcases h.1.2.2.2.2 with ⟨_, a, e, _⟩ | ⟨_, a, e, _⟩ <;>
      simp [ak, itemRow, StoreKind.store, verificationStore, verificationAddress, e, verifAddr, RowKey.bytes, bind,
        Except.bind, pure, Except.pure, RowKey.WF, RowKey.fids, hfid]
  · obtain ⟨ty, v, e, h1, h2⟩ := h.1.2.2.2.2.2
    simp [ak, itemRow, StoreKind.store, userDataStore, e, h1, userDataTy, RowKey.bytes, RowKey.WF, RowKey.fids, hfid]
  · obtain ⟨to, u, uty, e, h1⟩ := h.1.2.2.2.2.2
    simp [ak, itemRow, StoreKind.store, lendStore, e, lendTo, RowKey.bytes, RowKey.WF, RowKey.fids, hfid]
    omega

theorem ofNat_inj {a b : Nat} (ha : a < 256) (hb : b < 256) (h : UInt8.ofNat a = UInt8.ofNat b) : a = b := by
  have := congrArg UInt8.toNat h
  simp only [UInt8.toNat_ofNat'] at this
  omega

/-- Sharing the item key is what the specification calls rivalry. -/
theorem kind_rivals (kind : StoreKind) {a b : Msg} (ha : okIn kind U a) (hb : okIn kind U b) :
    (kind.store channelOf).ak a = (kind.store channelOf).ak b ↔ a.Rivals b := by
  obtain ⟨ea, wa⟩ := kind_ak (channelOf := channelOf) kind ha
  obtain ⟨eb, wb⟩ := kind_ak (channelOf := channelOf) kind hb
  rw [ea, eb]
  have : (itemRow kind a).bytes = (itemRow kind b).bytes ↔ itemRow kind a = itemRow kind b :=
    ⟨RowKey.bytes_inj wa wb, fun e => by rw [e]⟩
  rw [this]
  unfold Msg.Rivals Msg.item
  cases kind
  · simp only [itemRow, RowKey.castAdd.injEq, castOf]
    rcases ha.1.2.2.2.2 with ⟨_, p, ms, e, _⟩ | ⟨_, t, e, e'⟩ <;>
      rcases hb.1.2.2.2.2 with ⟨_, p', ms', f, _⟩ | ⟨_, t', f, f'⟩ <;> simp [e, f]
  · obtain ⟨ty, t, e, h1, h2⟩ := ha.1.2.2.2.2.2
    obtain ⟨ty', t', e', h1', h2'⟩ := hb.1.2.2.2.2.2
    simp only [itemRow, RowKey.reactionAdd.injEq, reactionTy, reactionTarget, e, e', Option.some.injEq, Prod.mk.injEq]
    constructor
    · rintro ⟨h, h', h''⟩; exact ⟨h, ofNat_inj h2 h2' h', h''⟩
    · rintro ⟨h, h', h''⟩; exact ⟨h, by rw [h'], h''⟩
  · obtain ⟨ty, t, e, h1, h2, h3⟩ := ha.1.2.2.2.2.2
    obtain ⟨ty', t', e', h1', h2', h3'⟩ := hb.1.2.2.2.2.2
    simp only [itemRow, RowKey.linkAdd.injEq, linkTy, linkTarget, e, e', Option.some.injEq, Prod.mk.injEq]
    constructor
    · rintro ⟨h, h', h''⟩; exact ⟨h, h'', h'⟩
    · rintro ⟨h, h', h''⟩; exact ⟨h, h'', h'⟩
  · simp only [itemRow, RowKey.verificationAdd.injEq, verifAddr]
    rcases ha.1.2.2.2.2 with ⟨_, x, e, _⟩ | ⟨_, x, e, _⟩ <;>
      rcases hb.1.2.2.2.2 with ⟨_, y, f, _⟩ | ⟨_, y, f, _⟩ <;> simp [e, f]
  · obtain ⟨ty, v, e, h1, h2⟩ := ha.1.2.2.2.2.2
    obtain ⟨ty', v', e', h1', h2'⟩ := hb.1.2.2.2.2.2
    simp only [itemRow, RowKey.userData.injEq, userDataTy, e, e', Option.some.injEq, Prod.mk.injEq, and_true]
    constructor
    · rintro ⟨h, h'⟩; exact ⟨h, ofNat_inj h2 h2' h'⟩
    · rintro ⟨h, h'⟩; exact ⟨h, by rw [h']⟩
  · obtain ⟨to, u, uty, e, h1⟩ := ha.1.2.2.2.2.2
    obtain ⟨to', u', uty', e', h1'⟩ := hb.1.2.2.2.2.2
    simp [itemRow, lendTo, e, e']

theorem kind_isAdd (kind : StoreKind) {m : Msg} (h : okIn kind U m) :
    (kind.store channelOf).isAdd m = true ↔ ¬ m.isRemoval := by
  unfold Msg.isRemoval isAdd
  cases kind
  · rcases cast_types h with e | e <;> simp [StoreKind.store, castStore, e]
  · rcases h.1.2.2.2.2.1 with e | e <;> simp [StoreKind.store, reactionStore, e]
  · rcases h.1.2.2.2.2.1 with e | e <;> simp [StoreKind.store, linkStore, e]
  · rcases h.1.2.2.2.2 with ⟨e, _⟩ | ⟨e, _⟩ <;> simp [StoreKind.store, verificationStore, e]
  · have e := h.1.2.2.2.2.1; simp [StoreKind.store, userDataStore, e]
  · have e := h.1.2.2.2.2.1; simp [StoreKind.store, lendStore, e]

/-- The comparison functions implement the winner order. -/
theorem kind_beats (kind : StoreKind) {a b : Msg} (ha : okIn kind U a) (hb : okIn kind U b) :
    (kind.store channelOf).cmp a b > 0 ↔ kind.beats a b := by
  cases kind
  · have laws := (cast_laws (ok := okIn .casts U) (fun h => h.sized) (fun h => cast_types h)).2.2.2.2 ha hb
    have : (StoreKind.casts.store channelOf).cmp a b = castStore.cmp a b := rfl
    rw [this, laws]
    unfold castWins StoreKind.beats Msg.newer Msg.isRemoval
    rcases cast_types ha with e | e <;> rcases cast_types hb with f | f <;> simp [e, f]
  · have ta := ha.1.2.2.2.2.1
    have tb := hb.1.2.2.2.2.1
    have laws := (default_laws (D := reactionStore channelOf) (ok := okIn .reactions U) (by simp [reactionStore]) rfl
      (fun h => h.sized) (fun h => h.1.2.2.2.2.1)).2.2.2.2 ha hb
    have : (StoreKind.reactions.store channelOf).cmp a b = (reactionStore channelOf).cmp a b := rfl
    rw [this, laws]
    unfold wins StoreKind.beats Msg.isRemoval
    rcases ta with e | e <;> rcases tb with f | f <;> simp [e, f, reactionStore]
  · have ta := ha.1.2.2.2.2.1
    have tb := hb.1.2.2.2.2.1
    have laws := (default_laws (D := linkStore) (ok := okIn .links U) (by simp [linkStore]) rfl
      (fun h => h.sized) (fun h => h.1.2.2.2.2.1)).2.2.2.2 ha hb
    have : (StoreKind.links.store channelOf).cmp a b = linkStore.cmp a b := rfl
    rw [this, laws]
    unfold wins StoreKind.beats Msg.isRemoval
    rcases ta with e | e <;> rcases tb with f | f <;> simp [e, f, linkStore]
  · have ty : ∀ {m}, okIn .verifications U m → m.ty = .verificationAdd ∨ m.ty = .verificationRemove :=
      fun h => h.1.2.2.2.2.imp (·.1) (·.1)
    have laws := (default_laws (D := verificationStore) (ok := okIn .verifications U) (by simp [verificationStore]) rfl
      (fun h => h.sized) ty).2.2.2.2 ha hb
    have : (StoreKind.verifications.store channelOf).cmp a b = verificationStore.cmp a b := rfl
    rw [this, laws]
    unfold wins StoreKind.beats Msg.isRemoval
    rcases ty ha with e | e <;> rcases ty hb with f | f <;> simp [e, f, verificationStore]
  · have ty : ∀ {m}, okIn .userData U m → m.ty = .userDataAdd ∨ m.ty = .none := fun h => .inl h.1.2.2.2.2.1
    have laws := (default_laws (D := userDataStore) (ok := okIn .userData U) (by simp [userDataStore]) rfl
      (fun h => h.sized) ty).2.2.2.2 ha hb
    have : (StoreKind.userData.store channelOf).cmp a b = userDataStore.cmp a b := rfl
    rw [this, laws]
    unfold wins StoreKind.beats Msg.isRemoval
    simp [ha.1.2.2.2.2.1, hb.1.2.2.2.2.1, userDataStore]
  · have ty : ∀ {m}, okIn .lends U m → m.ty = .lendStorage ∨ m.ty = .none := fun h => .inl h.1.2.2.2.2.1
    have laws := (default_laws (D := lendStore) (ok := okIn .lends U) (by simp [lendStore]) rfl
      (fun h => h.sized) ty).2.2.2.2 ha hb
    have : (StoreKind.lends.store channelOf).cmp a b = lendStore.cmp a b := rfl
    rw [this, laws]
    unfold wins StoreKind.beats Msg.isRemoval
    simp [ha.1.2.2.2.2.1, hb.1.2.2.2.2.1, lendStore]

/-- The compact-state row of a link is not one of the store's other rows. -/
theorem linkCompact_row_out (hU : HashesIdentify U) {fid : Nat} (hfid : fid < 2 ^ 32) (ty : Bytes) :
    ¬ linkStore.Space (okIn .links U) (RowKey.linkCompact fid (padLinkType ty)).bytes ∧
      ∀ id, (RowKey.linkCompact fid (padLinkType ty)).bytes ≠ eventKey id := by
  have H := linkStore_lawful hU
  have hw : (RowKey.linkCompact fid (padLinkType ty)).WF := by
    simp [RowKey.WF, RowKey.fids, hfid]
  refine ⟨?_, RowKey.ne_event rfl⟩
  rintro (⟨f, hp⟩ | ⟨x, hx, h | ⟨hs, h⟩ | h⟩)
  · exact RowKey.not_prefix hw rfl (by decide) f hp
  · obtain ⟨ex, wx⟩ := kind_ak (channelOf := fun _ => none) .links hx
    have ex' : linkStore.ak x = (itemRow .links x).bytes := ex
    rw [ex'] at h
    have := RowKey.bytes_inj hw wx h
    simp [itemRow] at this
  · have hk := H.removeKey hs hx
    obtain ⟨ty', t', e', h1', h2', h3'⟩ := hx.1.2.2.2.2.2
    have hfx := hx.1.2.1
    have hr : linkStore.rk x = (RowKey.linkRemove x.fid (padLinkType ty') t').bytes := by
      have : ¬ 8 < ty'.length := by omega
      simp [rk, linkStore, linkKey, e', h1', this, RowKey.bytes]
    rw [hr] at h
    have hwx : (RowKey.linkRemove x.fid (padLinkType ty') t').WF := by
      have := padLinkType_length h2'
      simp_all [RowKey.WF, RowKey.fids]
    have := RowKey.bytes_inj hw hwx h
    cases this
  · obtain ⟨ty', t', e', h1', h2', h3'⟩ := hx.1.2.2.2.2.2
    have hfx := hx.1.2.1
    have hnz : ¬ x.fid = 0 := by have := hx.1.1; omega
    have hr : linkStore.auxKeys x = [(RowKey.linkByTarget t' (tsh x) x.fid).bytes] := by
      simp [auxKeys, idxRows, linkStore, linkIndex, e', hnz, RowKey.bytes, bind, Except.bind, pure, Except.pure]
    rw [hr, List.mem_singleton] at h
    have hwx : (RowKey.linkByTarget t' (tsh x) x.fid).WF := by
      have := tsh_sized hx.sized
      simp_all [RowKey.WF, RowKey.fids]
    have := RowKey.bytes_inj hw hwx h
    cases this

theorem link_compact_out (hU : HashesIdentify U) {m : Msg} (hm : okIn .links U m) :
    ∃ k, linkStore.compactKey m = .ok k ∧ ¬ linkStore.Space (okIn .links U) k ∧ ∀ id, k ≠ eventKey id := by
  obtain ⟨ty, t, e, h1, h2, h3⟩ := hm.1.2.2.2.2.2
  exact ⟨_, by simp [linkStore, linkCompactKey, e, RowKey.bytes], linkCompact_row_out hU hm.1.2.1 ty⟩

theorem kind_compactOut (kind : StoreKind) (hU : HashesIdentify U) :
    CompactOut (kind.store channelOf) (okIn kind U) := by
  intro hs m hm
  cases kind
  case links => exact link_compact_out hU hm
  all_goals simp [StoreKind.store, compactSupported, castStore, reactionStore, verificationStore, userDataStore,
    lendStore] at hs

/-! ### Reads -/

section Reads
variable {D : StoreDef} {ok : Msg → Prop} {ctx : Nat → MergeCtx}

theorem getMessage_live (H : D.Lawful ok) {db : Db SVal} {t : Txn SVal} {g : IdGen} {L : List Msg}
    (h : D.Holds ok ctx L (viewOf db t)) {x : Msg} (hx : x ∈ L) {fid : Nat} (hf : fid = x.fid) :
    D.getMessage db fid (tsh x) ⟨t, g⟩ = (.ok (some x), ⟨t, g⟩) := by
  subst hf
  exact getMessage_eq (h.get_prim H hx)

theorem getAdd_eq (H : D.Lawful ok) {db : Db SVal} {t : Txn SVal} {L : List Msg}
    (h : D.Holds ok ctx L (viewOf db t)) {m : Msg} (hm : ok m) (h0 : m.fid ≠ 0) :
    (∃ x ∈ L, D.ak x = D.ak m ∧ D.isAdd x = true ∧ D.getAdd db t m = .ok (some x)) ∨
    ((∀ x ∈ L, D.ak x = D.ak m → D.isAdd x = false) ∧ D.getAdd db t m = .ok none) := by
  have hr : ∀ k s, SM.read db k s = (.ok (viewOf db s.txn k), s) := fun _ _ => rfl
  unfold getAdd
  rw [if_neg h0, SM.bind_ok (SM.lift_ok (H.addKey hm) _), SM.bind_ok (hr _ _)]
  rcases h.get_ak H hm with ⟨x, hx, e, ha, hv⟩ | ⟨hn, hv⟩
  · refine .inl ⟨x, hx, e, ha, ?_⟩
    simp only [hv]
    have hx' := h.valid x hx
    rw [SM.bind_ok (SM.lift_ok (asTsHash_raw (H.hash hx')) _),
      getMessage_live H h hx (H.itemFid hm hx' e.symm)]
  · refine .inr ⟨hn, ?_⟩
    simp only [hv]; rfl

theorem getRemove_eq (H : D.Lawful ok) {db : Db SVal} {t : Txn SVal} {L : List Msg}
    (h : D.Holds ok ctx L (viewOf db t)) {m : Msg} (hm : ok m) (h0 : m.fid ≠ 0) (hs : D.removeSupported = true) :
    (∃ x ∈ L, D.ak x = D.ak m ∧ D.isAdd x = false ∧ D.getRemove db t m = .ok (some x)) ∨
    ((∀ x ∈ L, D.ak x = D.ak m → D.isAdd x = true) ∧ D.getRemove db t m = .ok none) := by
  have hr : ∀ k s, SM.read db k s = (.ok (viewOf db s.txn k), s) := fun _ _ => rfl
  unfold getRemove
  rw [if_neg (by simp [hs]), if_neg h0, SM.bind_ok (SM.lift_ok (H.removeKey hs hm) _), SM.bind_ok (hr _ _)]
  rcases h.get_rk H hm hs with ⟨x, hx, e, ha, hv⟩ | ⟨hn, hv⟩
  · refine .inl ⟨x, hx, e, ha, ?_⟩
    simp only [hv]
    have hx' := h.valid x hx
    rw [SM.bind_ok (SM.lift_ok (asTsHash_raw (H.hash hx')) _),
      getMessage_live H h hx (H.itemFid hm hx' e.symm)]
  · refine .inr ⟨hn, ?_⟩
    simp only [hv]; rfl
end Reads

end Verif
