import Verif.Lemmas.StoreLaws
/-! The concrete stores satisfy the laws. -/
namespace Verif
open StoreDef

theorem padLinkType_length {t : Bytes} (h : t.length ≤ 8) : (padLinkType t).length = 8 := by
  simp [padLinkType]; omega

variable {U : Msg → Prop}

/-- The messages a store is used with: valid ones from `U`. -/
def okIn (kind : StoreKind) (U : Msg → Prop) (m : Msg) : Prop := kind.Valid m ∧ U m

theorem okIn.sized {kind : StoreKind} {m : Msg} (h : okIn kind U m) : m.Sized := ⟨h.1.2.2.1, h.1.2.2.2.1⟩

/-- Comparison laws of a store with the default comparison. -/
theorem default_laws {D : StoreDef} {ok : Msg → Prop} (hne : D.addType ≠ D.removeType)
    (hcmp : D.compare = defaultCompare D.addType D.removeType)
    (hs : ∀ {m}, ok m → m.Sized) (ht : ∀ {m}, ok m → m.ty = D.addType ∨ m.ty = D.removeType) :
    (∀ m, D.cmp m m = 0) ∧ (∀ {a b}, ok a → ok b → (D.cmp a b < 0 ↔ D.cmp b a > 0)) ∧
    (∀ {a b}, ok a → ok b → D.cmp a b = 0 → a.ts = b.ts ∧ a.hash = b.hash) ∧
    (∀ {a b c}, ok a → ok b → ok c → D.cmp a b > 0 → D.cmp b c > 0 → D.cmp a c > 0) ∧
    (∀ {a b}, ok a → ok b → (D.cmp a b > 0 ↔ wins D.addType D.removeType a b)) := by
  have C : ∀ {a b}, ok a → ok b → _ := fun {a b} (ha : ok a) (hb : ok b) =>
    default_cases (a := a) (b := b) hne (hs ha) (hs hb) (ht ha) (ht hb)
  have ec : ∀ a b, D.cmp a b = defaultCompare D.addType D.removeType a.ty (tsh a) b.ty (tsh b) := by
    intro a b; unfold cmp; rw [hcmp]
  have gt : ∀ {a b}, ok a → ok b → (D.cmp a b > 0 ↔ wins D.addType D.removeType a b) := by
    intro a b ha hb; rw [ec]
    rcases C ha hb with ⟨h1, h2, h3⟩ | ⟨h1, _, _, _, h2, h3⟩ | ⟨h1, h2, h3⟩
    · exact ⟨fun h => by omega, fun h => absurd h h3⟩
    · exact ⟨fun h => by omega, fun h => absurd h h2⟩
    · exact ⟨fun _ => h2, fun _ => h1⟩
  refine ⟨?_, ?_, ?_, ?_, gt⟩
  · intro m
    rw [ec]
    unfold defaultCompare
    simp only [bytesCompare_self]
    by_cases h : m.ty = D.addType
    · simp [h, hne]
    · simp [h]
  · intro a b ha hb
    rw [gt hb ha, ec]
    rcases C ha hb with ⟨h1, h2, h3⟩ | ⟨h1, _, _, _, h2, h3⟩ | ⟨h1, h2, h3⟩
    · exact ⟨fun _ => h2, fun _ => h1⟩
    · exact ⟨fun h => by omega, fun h => absurd h h3⟩
    · exact ⟨fun h => by omega, fun h => absurd h h3⟩
  · intro a b ha hb h0
    rw [ec] at h0
    rcases C ha hb with ⟨h1, _⟩ | ⟨_, h1, h2, _⟩ | ⟨h1, _⟩
    · omega
    · exact ⟨h1, h2⟩
    · omega
  · intro a b c ha hb hc h1 h2
    rw [gt ha hb] at h1; rw [gt hb hc] at h2; rw [gt ha hc]
    exact wins_trans hne h1 h2

/-- Comparison laws of the cast store. -/
theorem cast_laws {ok : Msg → Prop} (hs : ∀ {m}, ok m → m.Sized)
    (ht : ∀ {m}, ok m → m.ty = .castAdd ∨ m.ty = .castRemove) :
    (∀ m, castStore.cmp m m = 0) ∧ (∀ {a b}, ok a → ok b → (castStore.cmp a b < 0 ↔ castStore.cmp b a > 0)) ∧
    (∀ {a b}, ok a → ok b → castStore.cmp a b = 0 → a.ts = b.ts ∧ a.hash = b.hash) ∧
    (∀ {a b c}, ok a → ok b → ok c → castStore.cmp a b > 0 → castStore.cmp b c > 0 → castStore.cmp a c > 0) ∧
    (∀ {a b}, ok a → ok b → (castStore.cmp a b > 0 ↔ castWins a b)) := by
  have C : ∀ {a b}, ok a → ok b → _ := fun {a b} (ha : ok a) (hb : ok b) =>
    cast_cases (a := a) (b := b) (hs ha) (hs hb) (ht ha) (ht hb)
  have ec : ∀ a b, castStore.cmp a b = castCompare a.ty (tsh a) b.ty (tsh b) := fun a b => rfl
  have gt : ∀ {a b}, ok a → ok b → (castStore.cmp a b > 0 ↔ castWins a b) := by
    intro a b ha hb; rw [ec]
    rcases C ha hb with ⟨h1, h2, h3⟩ | ⟨h1, _, _, _, h2, h3⟩ | ⟨h1, h2, h3⟩
    · exact ⟨fun h => by omega, fun h => absurd h h3⟩
    · exact ⟨fun h => by omega, fun h => absurd h h2⟩
    · exact ⟨fun _ => h2, fun _ => h1⟩
  refine ⟨?_, ?_, ?_, ?_, gt⟩
  · intro m
    rw [ec]
    unfold castCompare
    simp only [bytesCompare_self]
    by_cases h : m.ty = .castAdd
    · simp [h]
    · simp [h]
  · intro a b ha hb
    rw [gt hb ha, ec]
    rcases C ha hb with ⟨h1, h2, h3⟩ | ⟨h1, _, _, _, h2, h3⟩ | ⟨h1, h2, h3⟩
    · exact ⟨fun _ => h2, fun _ => h1⟩
    · exact ⟨fun h => by omega, fun h => absurd h h3⟩
    · exact ⟨fun h => by omega, fun h => absurd h h3⟩
  · intro a b ha hb h0
    rw [ec] at h0
    rcases C ha hb with ⟨h1, _⟩ | ⟨_, h1, h2, _⟩ | ⟨h1, _⟩
    · omega
    · exact ⟨h1, h2⟩
    · omega
  · intro a b c ha hb hc h1 h2
    rw [gt ha hb] at h1; rw [gt hb hc] at h2; rw [gt ha hc]
    exact castWins_trans h1 h2

theorem fidSuffix_pos {f : Nat} (h : 0 < f) : fidSuffix f = makeFidKey f := by simp [fidSuffix, h]

theorem tsh_sized {m : Msg} (h : m.Sized) : (tsh m).length = 24 := tsh_length h.hash

theorem tsh_inj {a b : Msg} (ha : a.Sized) (hb : b.Sized) (h : tsh a = tsh b) : a.ts = b.ts ∧ a.hash = b.hash := by
  unfold tsh at h
  obtain ⟨h1, h2⟩ := List.append_inj h (by simp)
  exact ⟨be_inj (by have := ha.ts; omega) (by have := hb.ts; omega) h1, h2⟩

/-! ### Casts -/

def castOf (m : Msg) : Bytes := match m.body with | .castAdd _ _ => m.hash | .castRemove t => t | _ => []

def castRowKeys : StoreRows castStore (okIn .casts U) where
  akR m := .castAdd m.fid (castOf m)
  rkR m := .castRemove m.fid (castOf m)
  idxR m := match m.body with
    | .castAdd p ms => (match p with | some t => [(.castByParent t.key (tsh m) m.fid, trueValue)] | none => []) ++
        ms.map (fun x => (.castByMention x (tsh m) m.fid, trueValue))
    | _ => []
  folR _ := []

theorem cast_types {m : Msg} (h : okIn .casts U m) : m.ty = .castAdd ∨ m.ty = .castRemove := by
  rcases h.1.2.2.2.2 with h | h
  · exact .inl h.1
  · exact .inr h.1

theorem castOf_length {m : Msg} (h : okIn .casts U m) : (castOf m).length = 20 := by
  unfold castOf
  rcases h.1.2.2.2.2 with ⟨_, p, ms, e, _⟩ | ⟨_, t, e, e'⟩
  · rw [e]; exact h.sized.hash
  · rw [e]; exact e'

theorem castItem_ok {m : Msg} (h : okIn .casts U m) : castItem m = .ok (castOf m) := by
  unfold castItem castOf
  rcases h.1.2.2.2.2 with ⟨_, p, ms, e, _⟩ | ⟨_, t, e, e'⟩ <;> rw [e]

theorem cast_idx {m : Msg} (h : okIn .casts U m) :
    ∀ r ∈ (castRowKeys (U := U)).idxR m, (∃ p, r.1 = .castByParent p (tsh m) m.fid ∧ r.2 = trueValue) ∨
      (∃ x, x < 2 ^ 32 ∧ r.1 = .castByMention x (tsh m) m.fid ∧ r.2 = trueValue) := by
  intro r hr
  simp only [castRowKeys] at hr
  rcases h.1.2.2.2.2 with ⟨_, p, ms, e, hms⟩ | ⟨_, t, e, e'⟩
  · simp only [e] at hr
    rcases List.mem_append.1 hr with hr | hr
    · cases p with
      | none => simp at hr
      | some t => simp only [List.mem_singleton] at hr; exact .inl ⟨t.key, by simp [hr], by simp [hr]⟩
    · obtain ⟨x, hx, rfl⟩ := List.mem_map.1 hr
      exact .inr ⟨x, hms x hx, rfl, rfl⟩
  · simp [e] at hr

theorem castStore_lawful (hU : HashesIdentify U) : castStore.Lawful (okIn .casts U) := by
  have laws := cast_laws (ok := okIn .casts U) (fun h => h.sized) (fun h => cast_types h)
  have th24 : ∀ {m}, okIn .casts U m → (tsh m).length = 24 := fun h => tsh_sized h.sized
  refine Lawful.ofRows castRowKeys (by decide) (fun h => h.sized.hash) (fun h => h.1.2.1) (fun h => h.sized.ts)
    ?_ ?_ (fun h h' => hU _ _ h.2 h'.2) ?_ ?_ ?_ ?_ ?_ ?_ ?_ ?_ ?_ ?_ ?_ ?_ ?_ laws.1 laws.2.1 laws.2.2.1 laws.2.2.2.1
  · intro m h
    rcases cast_types h with e | e <;> simp [isAdd, isRemove, removeSupported, castStore, e]
  · intro m h; simp [isCompact, compactSupported, castStore]
  · intro m h
    refine ⟨?_, ?_, rfl⟩
    · simp [castStore, castItem_ok h, castRowKeys, RowKey.bytes, castKey, castOf_length h, bind, Except.bind, pure,
        Except.pure]
    · have := h.1.2.1
      simp [castRowKeys, RowKey.WF, RowKey.fids, castOf_length h, this]
  · intro _ m h
    refine ⟨?_, ?_, rfl⟩
    · simp [castStore, castItem_ok h, castRowKeys, RowKey.bytes, castKey, castOf_length h, bind, Except.bind, pure,
        Except.pure]
    · have := h.1.2.1
      simp [castRowKeys, RowKey.WF, RowKey.fids, castOf_length h, this]
  · intro m h
    left
    simp only [castStore, castIndexKeys, castRowKeys]
    rcases h.1.2.2.2.2 with ⟨_, p, ms, e, hms⟩ | ⟨_, t, e, e'⟩
    · cases p <;> simp [e, RowKey.bytes, castByParentKey, castByMentionKey, fidSuffix_pos h.1.1, Function.comp_def]
    · simp [e]
  · intro m h _
    simp only [castStore, castIndexKeys, castRowKeys]
    rcases h.1.2.2.2.2 with ⟨_, p, ms, e, hms⟩ | ⟨_, t, e, e'⟩
    · cases p <;> simp [e, RowKey.bytes, castByParentKey, castByMentionKey, fidSuffix_pos h.1.1, Function.comp_def]
    · simp [e]
  · intro m h; simp [castStore, castRowKeys]
  · intro m h r hr
    have hfid := h.1.2.1
    have := th24 h
    rcases List.mem_append.1 hr with hr | hr
    · rcases cast_idx h r hr with ⟨p, e, _⟩ | ⟨x, hx, e, _⟩ <;> rw [e] <;>
        simp_all [RowKey.WF, RowKey.fids, RowKey.isAux]
    · simp [castRowKeys] at hr
  · intro m m' _ _ e; simp only [castRowKeys, RowKey.castAdd.injEq] at e; exact e.1
  · intro _ m m' _ _; simp [castRowKeys]
  · intro _ m m'; simp [castRowKeys]
  · intro m m' _ h' r hr
    rcases List.mem_append.1 hr with hr | hr
    · rcases cast_idx h' r hr with ⟨p, e, _⟩ | ⟨x, hx, e, _⟩ <;> rw [e] <;> simp [castRowKeys]
    · simp [castRowKeys] at hr
  · intro _ m m' _ h' r hr
    rcases List.mem_append.1 hr with hr | hr
    · rcases cast_idx h' r hr with ⟨p, e, _⟩ | ⟨x, hx, e, _⟩ <;> rw [e] <;> simp [castRowKeys]
    · simp [castRowKeys] at hr
  · intro m m' h h' r hr r' hr' e
    rw [List.mem_append] at hr hr'
    simp only [castRowKeys, List.not_mem_nil, or_false] at hr hr'
    have key : tsh m = tsh m' ∧ m.fid = m'.fid := by
      rcases cast_idx h r hr with ⟨p, er, _⟩ | ⟨x, hx, er, _⟩ <;>
        rcases cast_idx h' r' hr' with ⟨p', er', _⟩ | ⟨x', hx', er', _⟩ <;> rw [er, er'] at e <;> simp at e
      · exact e.2
      · exact e.2
    obtain ⟨h1, h2⟩ := tsh_inj h.sized h'.sized key.1
    rw [hU _ _ h.2 h'.2 key.2 h1 h2]
  · intro m h r hr r' hr' _
    rw [List.mem_append] at hr hr'
    simp only [castRowKeys, List.not_mem_nil, or_false] at hr hr'
    rcases cast_idx h r hr with ⟨p, er, e1⟩ | ⟨x, hx, er, e1⟩ <;>
      rcases cast_idx h r' hr' with ⟨p', er', e2⟩ | ⟨x', hx', er', e2⟩ <;> rw [e1, e2]

/-! ### Reactions -/

def reactionTy (m : Msg) : UInt8 := match m.body with | .reaction ty _ => UInt8.ofNat ty | _ => 0
def reactionTarget (m : Msg) : Bytes := match m.body with | .reaction _ (some t) => t.key | _ => []

def reactionRowKeys (channelOf : Bytes → Option Bytes) : StoreRows (reactionStore channelOf) (okIn .reactions U) where
  akR m := .reactionAdd m.fid (reactionTy m) (reactionTarget m)
  rkR m := .reactionRemove m.fid (reactionTy m) (reactionTarget m)
  idxR m := [(.reactionByTarget (reactionTarget m) (tsh m) m.fid, .raw [reactionTy m])]
  folR m := match followChannelId channelOf m with
    | some c => [(.followByFid m.fid c, .raw (be 4 m.ts)), (.followByChannel c m.fid, .raw (be 4 m.ts))]
    | none => []

theorem reaction_fol {channelOf : Bytes → Option Bytes} (hch : ChannelNaming channelOf) {m : Msg}
    (r) (hr : r ∈ (reactionRowKeys (U := U) channelOf).folR m) :
    ∃ u c, m.body = .reaction 1 (some (.url u)) ∧ channelOf u = some c ∧ c.length = 32 ∧
      r.2 = .raw (be 4 m.ts) ∧ (r.1 = .followByFid m.fid c ∨ r.1 = .followByChannel c m.fid) := by
  simp only [reactionRowKeys] at hr
  cases hf : followChannelId channelOf m with
  | none => simp [hf] at hr
  | some c =>
    unfold followChannelId at hf
    split at hf
    · rename_i ty u hb
      split at hf
      · rename_i h1
        subst h1
        refine ⟨u, c, hb, hf, hch.1 u c hf, ?_⟩
        have hf' : followChannelId channelOf m = some c := by simp [followChannelId, hb, hf]
        simp only [hf', List.mem_cons, List.not_mem_nil, or_false] at hr
        rcases hr with rfl | rfl <;> simp
      · cases hf
    · cases hf

theorem reactionStore_lawful {channelOf : Bytes → Option Bytes} (hch : ChannelNaming channelOf)
    (hU : HashesIdentify U) : (reactionStore channelOf).Lawful (okIn .reactions U) := by
  have types : ∀ {m}, okIn .reactions U m → m.ty = .reactionAdd ∨ m.ty = .reactionRemove := fun h => h.1.2.2.2.2.1
  have laws := default_laws (D := reactionStore channelOf) (ok := okIn .reactions U) (by simp [reactionStore]) rfl
    (fun h => h.sized) types
  have body : ∀ {m}, okIn .reactions U m → ∃ ty t, m.body = .reaction ty (some t) ∧ 0 < ty ∧ ty < 256 :=
    fun h => h.1.2.2.2.2.2
  have th24 : ∀ {m}, okIn .reactions U m → (tsh m).length = 24 := fun h => tsh_sized h.sized
  have key : ∀ {m} (p : UInt8), okIn .reactions U m →
      (do let x ← reactionParts m; reactionKey p m.fid x.1 x.2 : Except HubErr Bytes) =
        .ok (makeUserKey m.fid ++ p :: reactionTy m :: reactionTarget m) := by
    intro m p h
    obtain ⟨ty, t, e, h1, h2⟩ := body h
    have : ¬ ty = 0 := by omega
    simp [reactionParts, reactionKey, reactionTy, reactionTarget, e, h1, this, bind, Except.bind]
  refine Lawful.ofRows (reactionRowKeys channelOf) (by simp [reactionStore]) (fun h => h.sized.hash) (fun h => h.1.2.1)
    (fun h => h.sized.ts)
    ?_ ?_ (fun h h' => hU _ _ h.2 h'.2) ?_ ?_ ?_ ?_ ?_ ?_ ?_ ?_ ?_ ?_ ?_ ?_ ?_ laws.1 laws.2.1 laws.2.2.1 laws.2.2.2.1
  · intro m h
    rcases types h with e | e <;> simp [isAdd, isRemove, removeSupported, reactionStore, e]
  · intro m h; simp [isCompact, compactSupported, reactionStore]
  · intro m h
    refine ⟨key 91 h, ?_, rfl⟩
    have := h.1.2.1
    simp [reactionRowKeys, RowKey.WF, RowKey.fids, this]
  · intro _ m h
    refine ⟨key 92 h, ?_, rfl⟩
    have := h.1.2.1
    simp [reactionRowKeys, RowKey.WF, RowKey.fids, this]
  · intro m h
    left
    obtain ⟨ty, t, e, h1, h2⟩ := body h
    simp [reactionStore, reactionIndex, e, reactionRowKeys, RowKey.bytes, reactionTarget, reactionTy, bind,
      Except.bind, pure, Except.pure, fidSuffix_pos h.1.1]
  · intro m h _
    obtain ⟨ty, t, e, h1, h2⟩ := body h
    simp [reactionStore, reactionIndex, e, reactionRowKeys, RowKey.bytes, reactionTarget, bind,
      Except.bind, pure, Except.pure, fidSuffix_pos h.1.1]
  · intro m h
    simp only [reactionStore, reactionRowKeys]
    cases followChannelId channelOf m <;> simp [RowKey.bytes, followByFidKey, followByChannelKey]
  · intro m h r hr
    have hfid := h.1.2.1
    have := th24 h
    rcases List.mem_append.1 hr with hr | hr
    · simp only [reactionRowKeys, List.mem_singleton] at hr
      subst hr
      simp_all [RowKey.WF, RowKey.fids, RowKey.isAux]
    · obtain ⟨u, c, _, _, hc, _, e | e⟩ := reaction_fol hch r hr <;> rw [e] <;>
        simp_all [RowKey.WF, RowKey.fids, RowKey.isAux]
  · intro m m' _ _ e; simp only [reactionRowKeys, RowKey.reactionAdd.injEq] at e; exact e.1
  · intro _ m m' _ _; simp [reactionRowKeys]
  · intro _ m m'; simp [reactionRowKeys]
  · intro m m' _ h' r hr
    rcases List.mem_append.1 hr with hr | hr
    · simp only [reactionRowKeys, List.mem_singleton] at hr
      subst hr; simp [reactionRowKeys]
    · obtain ⟨u, c, _, _, hc, _, e | e⟩ := reaction_fol hch r hr <;> rw [e] <;> simp [reactionRowKeys]
  · intro _ m m' _ h' r hr
    rcases List.mem_append.1 hr with hr | hr
    · simp only [reactionRowKeys, List.mem_singleton] at hr
      subst hr; simp [reactionRowKeys]
    · obtain ⟨u, c, _, _, hc, _, e | e⟩ := reaction_fol hch r hr <;> rw [e] <;> simp [reactionRowKeys]
  · intro m m' h h' r hr r' hr' e
    rcases List.mem_append.1 hr with hr | hr <;> rcases List.mem_append.1 hr' with hr' | hr'
    · simp only [reactionRowKeys, List.mem_singleton] at hr hr'
      subst hr hr'
      simp only [RowKey.reactionByTarget.injEq] at e
      obtain ⟨h1, h2⟩ := tsh_inj h.sized h'.sized e.2.1
      rw [hU _ _ h.2 h'.2 e.2.2 h1 h2]
    · simp only [reactionRowKeys, List.mem_singleton] at hr
      subst hr
      obtain ⟨u, c, _, _, hc, _, e' | e'⟩ := reaction_fol hch r' hr' <;> rw [e'] at e <;> simp at e
    · simp only [reactionRowKeys, List.mem_singleton] at hr'
      subst hr'
      obtain ⟨u, c, _, _, hc, _, e' | e'⟩ := reaction_fol hch r hr <;> rw [e'] at e <;> simp at e
    · obtain ⟨u, c, hb, hu, hc, _, e1⟩ := reaction_fol hch r hr
      obtain ⟨u', c', hb', hu', hc', _, e2⟩ := reaction_fol hch r' hr'
      have : m.fid = m'.fid ∧ c = c' := by
        rcases e1 with e1 | e1 <;> rcases e2 with e2 | e2 <;> rw [e1, e2] at e <;> simp at e
        · exact e
        · exact ⟨e.2, e.1⟩
      obtain ⟨hf, rfl⟩ := this
      have hu2 := hch.2 u u' c hu hu'
      subst hu2
      simp [reactionRowKeys, reactionTy, reactionTarget, hb, hb', hf]
  · intro m h r hr r' hr' e
    rcases List.mem_append.1 hr with hr | hr <;> rcases List.mem_append.1 hr' with hr' | hr'
    · simp only [reactionRowKeys, List.mem_singleton] at hr hr'
      subst hr hr'
      rfl
    · simp only [reactionRowKeys, List.mem_singleton] at hr
      subst hr
      obtain ⟨u, c, _, _, hc, _, e' | e'⟩ := reaction_fol hch r' hr' <;> rw [e'] at e <;> simp at e
    · simp only [reactionRowKeys, List.mem_singleton] at hr'
      subst hr'
      obtain ⟨u, c, _, _, hc, _, e' | e'⟩ := reaction_fol hch r hr <;> rw [e'] at e <;> simp at e
    · obtain ⟨u, c, hb, hu, hc, e1, _⟩ := reaction_fol hch r hr
      obtain ⟨u', c', hb', hu', hc', e2, _⟩ := reaction_fol hch r' hr'
      rw [e1, e2]

/-! ### Links -/

def linkTy (m : Msg) : Bytes := match m.body with | .link ty _ => ty | _ => []
def linkTarget (m : Msg) : Nat := match m.body with | .link _ (some t) => t | _ => 0

def linkRowKeys : StoreRows linkStore (okIn .links U) where
  akR m := .linkAdd m.fid (padLinkType (linkTy m)) (linkTarget m)
  rkR m := .linkRemove m.fid (padLinkType (linkTy m)) (linkTarget m)
  idxR m := [(.linkByTarget (linkTarget m) (tsh m) m.fid, .raw (linkTy m))]
  folR _ := []

theorem linkStore_lawful (hU : HashesIdentify U) : linkStore.Lawful (okIn .links U) := by
  have types : ∀ {m}, okIn .links U m → m.ty = .linkAdd ∨ m.ty = .linkRemove := fun h => h.1.2.2.2.2.1
  have laws := default_laws (D := linkStore) (ok := okIn .links U) (by simp [linkStore]) rfl
    (fun h => h.sized) types
  have body : ∀ {m}, okIn .links U m → ∃ ty t, m.body = .link ty (some t) ∧ ty ≠ [] ∧ ty.length ≤ 8 ∧ t < 2 ^ 32 :=
    fun h => h.1.2.2.2.2.2
  have th24 : ∀ {m}, okIn .links U m → (tsh m).length = 24 := fun h => tsh_sized h.sized
  have key : ∀ {m} (p : UInt8), okIn .links U m →
      linkKey p m = .ok (makeUserKey m.fid ++ p :: (padLinkType (linkTy m) ++ makeFidKey (linkTarget m))) := by
    intro m p h
    obtain ⟨ty, t, e, h1, h2, h3⟩ := body h
    have : ¬ 8 < ty.length := by omega
    simp [linkKey, linkTy, linkTarget, e, h1, this]
  have wf : ∀ {m}, okIn .links U m → (padLinkType (linkTy m)).length = 8 ∧ linkTarget m < 2 ^ 32 := by
    intro m h
    obtain ⟨ty, t, e, h1, h2, h3⟩ := body h
    simp only [linkTy, linkTarget, e]
    exact ⟨padLinkType_length h2, h3⟩
  have fidnz : ∀ {m}, okIn .links U m → ¬ m.fid = 0 := fun h => by have := h.1.1; omega
  refine Lawful.ofRows linkRowKeys (by decide) (fun h => h.sized.hash) (fun h => h.1.2.1) (fun h => h.sized.ts)
    ?_ ?_ (fun h h' => hU _ _ h.2 h'.2) ?_ ?_ ?_ ?_ ?_ ?_ ?_ ?_ ?_ ?_ ?_ ?_ ?_ laws.1 laws.2.1 laws.2.2.1 laws.2.2.2.1
  · intro m h
    rcases types h with e | e <;> simp [isAdd, isRemove, removeSupported, linkStore, e]
  · intro m h; rcases types h with e | e <;> simp [isCompact, compactSupported, linkStore, e]
  · intro m h
    refine ⟨key 89 h, ?_, rfl⟩
    have := h.1.2.1
    have := wf h
    simp_all [linkRowKeys, RowKey.WF, RowKey.fids]
  · intro _ m h
    refine ⟨key 90 h, ?_, rfl⟩
    have := h.1.2.1
    have := wf h
    simp_all [linkRowKeys, RowKey.WF, RowKey.fids]
  · intro m h
    left
    obtain ⟨ty, t, e, h1, h2, h3⟩ := body h
    simp [linkStore, linkIndex, e, linkRowKeys, RowKey.bytes, linkTarget, linkTy, bind,
      Except.bind, pure, Except.pure, fidnz h]
  · intro m h _
    obtain ⟨ty, t, e, h1, h2, h3⟩ := body h
    simp [linkStore, linkIndex, e, linkRowKeys, RowKey.bytes, linkTarget, linkTy, bind,
      Except.bind, pure, Except.pure, fidnz h]
  · intro m h; simp [linkStore, linkRowKeys]
  · intro m h r hr
    have hfid := h.1.2.1
    have := th24 h
    have := wf h
    simp only [linkRowKeys, List.append_nil, List.mem_singleton] at hr
    subst hr
    simp_all [RowKey.WF, RowKey.fids, RowKey.isAux]
  · intro m m' _ _ e; simp only [linkRowKeys, RowKey.linkAdd.injEq] at e; exact e.1
  · intro _ m m' _ _; simp [linkRowKeys]
  · intro _ m m'; simp [linkRowKeys]
  · intro m m' _ h' r hr
    simp only [linkRowKeys, List.append_nil, List.mem_singleton] at hr
    subst hr; simp [linkRowKeys]
  · intro _ m m' _ h' r hr
    simp only [linkRowKeys, List.append_nil, List.mem_singleton] at hr
    subst hr; simp [linkRowKeys]
  · intro m m' h h' r hr r' hr' e
    simp only [linkRowKeys, List.append_nil, List.mem_singleton] at hr hr'
    subst hr hr'
    simp only [RowKey.linkByTarget.injEq] at e
    obtain ⟨h1, h2⟩ := tsh_inj h.sized h'.sized e.2.1
    rw [hU _ _ h.2 h'.2 e.2.2 h1 h2]
  · intro m h r hr r' hr' e
    simp only [linkRowKeys, List.append_nil, List.mem_singleton] at hr hr'
    subst hr hr'
    rfl

/-! ### Verifications -/

def verifAddr (m : Msg) : Bytes := match m.body with | .verificationAdd a | .verificationRemove a => a | _ => []

def verifRowKeys : StoreRows verificationStore (okIn .verifications U) where
  akR m := .verificationAdd m.fid (verifAddr m)
  rkR m := .verificationRemove m.fid (verifAddr m)
  idxR m := match m.body with
    | .verificationAdd a => [(.verificationByAddress a m.fid, .raw (tsh m))]
    | _ => []
  folR _ := []

theorem verificationStore_lawful (hU : HashesIdentify U) : verificationStore.Lawful (okIn .verifications U) := by
  have body : ∀ {m}, okIn .verifications U m → (m.ty = .verificationAdd ∧ ∃ a, m.body = .verificationAdd a ∧ a ≠ []) ∨
      (m.ty = .verificationRemove ∧ ∃ a, m.body = .verificationRemove a ∧ a ≠ []) := fun h => h.1.2.2.2.2
  have types : ∀ {m}, okIn .verifications U m → m.ty = .verificationAdd ∨ m.ty = .verificationRemove :=
    fun h => (body h).imp (·.1) (·.1)
  have laws := default_laws (D := verificationStore) (ok := okIn .verifications U) (by simp [verificationStore]) rfl
    (fun h => h.sized) types
  have idx : ∀ {m} (_ : okIn .verifications U m), ∀ r ∈ (verifRowKeys (U := U)).idxR m ++ (verifRowKeys (U := U)).folR m,
      r = (.verificationByAddress (verifAddr m) m.fid, .raw (tsh m)) := by
    intro m h r hr
    simp only [verifRowKeys, List.append_nil] at hr
    rcases body h with ⟨_, a, e, _⟩ | ⟨_, a, e, _⟩ <;> simp_all [verifAddr]
  refine Lawful.ofRows verifRowKeys (by decide) (fun h => h.sized.hash) (fun h => h.1.2.1) (fun h => h.sized.ts)
    ?_ ?_ (fun h h' => hU _ _ h.2 h'.2) ?_ ?_ ?_ ?_ ?_ ?_ ?_ ?_ ?_ ?_ ?_ ?_ ?_ laws.1 laws.2.1 laws.2.2.1 laws.2.2.2.1
  · intro m h
    rcases types h with e | e <;> simp [isAdd, isRemove, removeSupported, verificationStore, e]
  · intro m h; simp [isCompact, compactSupported, verificationStore]
  · intro m h
    refine ⟨?_, ?_, rfl⟩
    · rcases body h with ⟨_, a, e, _⟩ | ⟨_, a, e, _⟩ <;>
        simp [verificationStore, verificationAddress, e, verifRowKeys, verifAddr, RowKey.bytes, bind, Except.bind,
          pure, Except.pure]
    · have := h.1.2.1
      simp [verifRowKeys, RowKey.WF, RowKey.fids, this]
  · intro _ m h
    refine ⟨?_, ?_, rfl⟩
    · rcases body h with ⟨_, a, e, _⟩ | ⟨_, a, e, _⟩ <;>
        simp [verificationStore, verificationAddress, e, verifRowKeys, verifAddr, RowKey.bytes, bind, Except.bind,
          pure, Except.pure]
    · have := h.1.2.1
      simp [verifRowKeys, RowKey.WF, RowKey.fids, this]
  · intro m h
    rcases body h with ⟨_, a, e, ha⟩ | ⟨ht, a, e, ha⟩
    · left
      simp [verificationStore, verificationIndexKey, e, ha, verifRowKeys, RowKey.bytes, bind, Except.bind, pure,
        Except.pure]
    · right
      refine ⟨by simp [isAdd, verificationStore, ht], ⟨.invalidParameter, ?_⟩, by simp [verifRowKeys, e]⟩
      simp [verificationStore, verificationIndexKey, e, bind, Except.bind]
  · intro m h hadd
    rcases body h with ⟨_, a, e, ha⟩ | ⟨ht, a, e, ha⟩
    · simp [verificationStore, verificationIndexKey, e, ha, verifRowKeys, RowKey.bytes, bind, Except.bind, pure,
        Except.pure]
    · simp [isAdd, verificationStore, ht] at hadd
  · intro m h; simp [verificationStore, verifRowKeys]
  · intro m h r hr
    rw [idx h r hr]
    have := h.1.2.1
    simp [RowKey.WF, RowKey.fids, RowKey.isAux, this]
  · intro m m' _ _ e; simp only [verifRowKeys, RowKey.verificationAdd.injEq] at e; exact e.1
  · intro _ m m' _ _; simp [verifRowKeys]
  · intro _ m m'; simp [verifRowKeys]
  · intro m m' _ h' r hr; rw [idx h' r hr]; simp [verifRowKeys]
  · intro _ m m' _ h' r hr; rw [idx h' r hr]; simp [verifRowKeys]
  · intro m m' h h' r hr r' hr' e
    rw [idx h r hr, idx h' r' hr'] at e
    simp only [RowKey.verificationByAddress.injEq] at e
    simp [verifRowKeys, e]
  · intro m h r hr r' hr' e
    rw [idx h r hr, idx h r' hr']

/-! ### User data -/

def userDataTy (m : Msg) : Nat := match m.body with | .userData ty _ => ty | _ => 0

def userDataRowKeys : StoreRows userDataStore (okIn .userData U) where
  akR m := .userData m.fid (UInt8.ofNat (userDataTy m))
  rkR m := .schemaVersion
  idxR _ := []
  folR _ := []

theorem userDataStore_lawful (hU : HashesIdentify U) : userDataStore.Lawful (okIn .userData U) := by
  have types : ∀ {m}, okIn .userData U m → m.ty = .userDataAdd ∨ m.ty = .none := fun h => .inl h.1.2.2.2.2.1
  have laws := default_laws (D := userDataStore) (ok := okIn .userData U) (by simp [userDataStore]) rfl
    (fun h => h.sized) types
  have nors : ¬ userDataStore.removeSupported = true := by decide
  refine Lawful.ofRows userDataRowKeys (by decide) (fun h => h.sized.hash) (fun h => h.1.2.1) (fun h => h.sized.ts)
    ?_ ?_ (fun h h' => hU _ _ h.2 h'.2) ?_ (fun h => absurd h nors) ?_ ?_ ?_ ?_ ?_ (fun h => absurd h nors)
    (fun h => absurd h nors) ?_ (fun h => absurd h nors) ?_ ?_ laws.1 laws.2.1 laws.2.2.1 laws.2.2.2.1
  · intro m h
    have e := h.1.2.2.2.2.1
    simp [isAdd, isRemove, removeSupported, userDataStore, e]
  · intro m h; simp [isCompact, compactSupported, userDataStore]
  · intro m h
    obtain ⟨ty, v, e, h1, h2⟩ := h.1.2.2.2.2.2
    have := h.1.2.1
    refine ⟨?_, ?_, rfl⟩
    · simp [userDataStore, e, h1, userDataRowKeys, userDataTy, RowKey.bytes]
    · simp [userDataRowKeys, RowKey.WF, RowKey.fids, this]
  · intro m h; left; simp [userDataStore, userDataRowKeys]
  · intro m h _; simp [userDataStore, userDataRowKeys]
  · intro m h; simp [userDataStore, userDataRowKeys]
  · intro m h r hr; simp [userDataRowKeys] at hr
  · intro m m' _ _ e; simp only [userDataRowKeys, RowKey.userData.injEq] at e; exact e.1
  · intro m m' _ h' r hr; simp [userDataRowKeys] at hr
  · intro m m' h h' r hr r' hr' e; simp [userDataRowKeys] at hr
  · intro m h r hr r' hr' e; simp [userDataRowKeys] at hr

/-! ### Storage lends -/

def lendTo (m : Msg) : Nat := match m.body with | .lend to _ _ => to | _ => 0

def lendRowKeys : StoreRows lendStore (okIn .lends U) where
  akR m := .lend m.fid (lendTo m)
  rkR m := .schemaVersion
  idxR m := [(.lendByRecipient (lendTo m) m.fid, trueValue)]
  folR _ := []

theorem lendStore_lawful (hU : HashesIdentify U) : lendStore.Lawful (okIn .lends U) := by
  have types : ∀ {m}, okIn .lends U m → m.ty = .lendStorage ∨ m.ty = .none := fun h => .inl h.1.2.2.2.2.1
  have laws := default_laws (D := lendStore) (ok := okIn .lends U) (by simp [lendStore]) rfl
    (fun h => h.sized) types
  have nors : ¬ lendStore.removeSupported = true := by decide
  have body : ∀ {m}, okIn .lends U m → ∃ to u ty, m.body = .lend to u ty ∧ to < 2 ^ 32 := fun h => h.1.2.2.2.2.2
  have wf : ∀ {m}, okIn .lends U m → lendTo m < 2 ^ 32 := by
    intro m h; obtain ⟨to, u, uty, e, h1⟩ := body h; simpa [lendTo, e] using h1
  refine Lawful.ofRows lendRowKeys (by decide) (fun h => h.sized.hash) (fun h => h.1.2.1) (fun h => h.sized.ts)
    ?_ ?_ (fun h h' => hU _ _ h.2 h'.2) ?_ (fun h => absurd h nors) ?_ ?_ ?_ ?_ ?_ (fun h => absurd h nors)
    (fun h => absurd h nors) ?_ (fun h => absurd h nors) ?_ ?_ laws.1 laws.2.1 laws.2.2.1 laws.2.2.2.1
  · intro m h
    have e := h.1.2.2.2.2.1
    simp [isAdd, isRemove, removeSupported, lendStore, e]
  · intro m h; simp [isCompact, compactSupported, lendStore]
  · intro m h
    obtain ⟨to, u, uty, e, h1⟩ := body h
    have := h.1.2.1
    have := wf h
    refine ⟨?_, ?_, rfl⟩
    · simp [lendStore, e, lendRowKeys, lendTo, RowKey.bytes]
    · simp_all [lendRowKeys, RowKey.WF, RowKey.fids]
  · intro m h; left; obtain ⟨to, u, uty, e, h1⟩ := body h; simp [lendStore, lendRowKeys, e, RowKey.bytes, lendTo]
  · intro m h _; obtain ⟨to, u, uty, e, h1⟩ := body h; simp [lendStore, lendRowKeys, e, RowKey.bytes, lendTo]
  · intro m h; simp [lendStore, lendRowKeys]
  · intro m h r hr
    have := h.1.2.1
    have := wf h
    simp only [lendRowKeys, List.append_nil, List.mem_singleton] at hr
    subst hr
    simp_all [RowKey.WF, RowKey.fids, RowKey.isAux]
  · intro m m' _ _ e; simp only [lendRowKeys, RowKey.lend.injEq] at e; exact e.1
  · intro m m' _ h' r hr
    simp only [lendRowKeys, List.append_nil, List.mem_singleton] at hr
    subst hr; simp [lendRowKeys]
  · intro m m' h h' r hr r' hr' e
    simp only [lendRowKeys, List.append_nil, List.mem_singleton] at hr hr'
    subst hr hr'
    simp only [RowKey.lendByRecipient.injEq] at e
    simp [lendRowKeys, e]
  · intro m h r hr r' hr' e
    simp only [lendRowKeys, List.append_nil, List.mem_singleton] at hr hr'
    subst hr hr'
    rfl

end Verif
