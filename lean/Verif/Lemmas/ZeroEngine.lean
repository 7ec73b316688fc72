import Verif.Lemmas.ZeroAdmit
import Verif.Lemmas.ShardReport
import Verif.Lemmas.BlockEvents
/-! Where everything on shard 0 comes from: the invariant of its engine. -/
namespace Verif
open Spec

namespace ZeroCfg
variable {F : Type} {c : ZeroCfg}

/-- The message passed validation, and shard 0 does `Q` with such messages. -/
def Origin (c : ZeroCfg) (Q : Nat → Nat → Prop) (posts : List ZPost) (m : Msg) : Prop :=
  ∃ p ∈ posts, p.msg = m ∧ Q (c.ver p.ts).num m.ty.num

/-- Hub events have a source. -/
def EvOk (c : ZeroCfg) (E : OEvent → Prop) (posts : List ZPost) : ZEv → Prop
  | .store (.merge m _) => c.Origin HandedOn posts m
  | .store _ => True
  | .key m _ => c.Origin HandedOn posts m
  | .onchain e _ => E e
  | .failed _ => True

/-- Block events have a source. -/
def BevOk (c : ZeroCfg) (E : OEvent → Prop) (posts : List ZPost) (b : BEvent) : Prop :=
  (∀ m, b.Brings m → c.Origin HandedOn posts m) ∧
  ∀ d o, b.data = some d → d.body = some (.onchain (some o)) → E o ∧ o.ty = 6

structure ZInv (c : ZeroCfg) (E : OEvent → Prop) (U : Nat → Msg → Prop) (w : ZWork) : Prop where
  admit : AdmitInv c.env c.crypto w.admit
  log : ∀ e ∈ w.admit.chain.log, E e
  posts : ∀ p ∈ w.posts, U p.ts p.msg ∧ c.Authorised p ∧ p.node.chain.log <+: w.admit.chain.log ∧
    p.node.keyLog <+: w.admit.keyLog
  rows : w.st.store.From (c.Origin Kept w.posts)
  bev : ∀ k e, w.bev.get k = some e → c.BevOk E w.posts e
  bpend : ∀ k e, w.bpend.get k = some (some e) → c.BevOk E w.posts e

theorem Origin.mono {Q : Nat → Nat → Prop} {l l' : List ZPost} (h : l <+: l') {m : Msg} (ho : c.Origin Q l m) : c.Origin Q l' m := by
  obtain ⟨p, hp, h1, h2⟩ := ho
  exact ⟨p, h.subset hp, h1, h2⟩

theorem Origin.handed {l : List ZPost} {m : Msg} (ho : c.Origin Kept l m) : c.Origin HandedOn l m := by
  obtain ⟨p, hp, h1, h2⟩ := ho
  exact ⟨p, hp, h1, .inl h2⟩

theorem BevOk.mono {E : OEvent → Prop} {l l' : List ZPost} (h : l <+: l') {b : BEvent} (hb : c.BevOk E l b) : c.BevOk E l' b :=
  ⟨fun m hm => (hb.1 m hm).mono h, hb.2⟩

theorem EvOk.mono {E : OEvent → Prop} {l l' : List ZPost} (h : l <+: l') {e : ZEv} (he : c.EvOk E l e) : c.EvOk E l' e := by
  rcases e with (⟨m, d⟩ | m | m) | ⟨m, e⟩ | ⟨o, x⟩ | m
  · exact Origin.mono h he
  · trivial
  · trivial
  · exact Origin.mono h he
  · exact he
  · trivial

theorem From.mono {G G' : Msg → Prop} (h : ∀ m, G m → G' m) {st : StoreState} (hs : st.From G) : st.From G' :=
  ⟨fun k m hk => h m (hs.db k m hk), fun k m hk => h m (hs.pend k m hk)⟩

section
variable {E : OEvent → Prop} {U : Nat → Msg → Prop}

theorem zinv_stage {w : ZWork} (h : c.ZInv E U w) {s : SSt} (hs : s.From (c.Origin Kept w.posts)) : c.ZInv E U (stage w s) :=
  ⟨h.admit, h.log, h.posts, ⟨h.rows.db, hs⟩, h.bev, h.bpend⟩

theorem zinv_posted (hU : ∀ ts m, U ts m → c.Carries m ∧ m.fid < 2 ^ 32) {clock : Nat} {ts : Nat}
    {w : ZWork} {slot : Slot} {counts : VCounts} {m : Msg} (h : c.ZInv E U w) (hm : U ts m) {t : Txn GVal} {k : Option ChanKind}
    (hv : c.validateUser clock (c.ver ts) ts w slot counts m = .ok (t, k)) : c.ZInv E U (c.posted w (c.ver ts) ts t m) := by
  obtain ⟨hc, hf⟩ := hU ts m hm
  have hp : w.posts <+: (c.posted w (c.ver ts) ts t m).posts := List.prefix_append _ _
  refine ⟨admitInv_posted h.admit hc hf hv, h.log, ?_, From.mono (fun m hm => hm.mono hp) h.rows,
    fun k e he => (h.bev k e he).mono hp, fun k e he => (h.bpend k e he).mono hp⟩
  intro p hp
  rcases List.mem_append.1 hp with hp | hp
  · obtain ⟨h1, h2, h3, h4⟩ := h.posts p hp
    exact ⟨h1, h2, h3, h4.trans (List.prefix_append _ _)⟩
  · simp only [List.mem_singleton] at hp
    subst hp
    exact ⟨hm, validated_authorised h.admit hc hf hv, List.prefix_refl _, List.prefix_append _ _⟩

theorem zinv_admit {w : ZWork} (h : c.ZInv E U w) {n : AdmitNode} (hn : AdmitInv c.env c.crypto n) (hl : ∀ e ∈ n.chain.log, E e)
    (h1 : w.admit.chain.log <+: n.chain.log) (h2 : w.admit.keyLog <+: n.keyLog) : c.ZInv E U { w with admit := n } :=
  ⟨hn, hl, fun p hp => by obtain ⟨a, b, x, y⟩ := h.posts p hp; exact ⟨a, b, x.trans h1, y.trans h2⟩, h.rows, h.bev, h.bpend⟩

/-- The invariant within a transaction, from `w0` on. -/
structure LInv (c : ZeroCfg) (E : OEvent → Prop) (U : Nat → Msg → Prop) (w0 : ZWork) (w : ZWork) (es : List ZEv) : Prop where
  inv : c.ZInv E U w
  events : ∀ e ∈ es, c.EvOk E w.posts e
  posts : w0.posts <+: w.posts

theorem LInv.add {w0 w w' : ZWork} {es es' : List ZEv} (h : c.LInv E U w0 w es) (h1 : c.ZInv E U w')
    (hp : w.posts <+: w'.posts) (h2 : ∀ e ∈ es', c.EvOk E w'.posts e) : c.LInv E U w0 w' (es ++ es') := by
  refine ⟨h1, ?_, h.posts.trans hp⟩
  intro e he
  rcases List.mem_append.1 he with he | he
  · exact (h.events e he).mono hp
  · exact h2 e he

theorem LInv.quiet {w0 w w' : ZWork} {es : List ZEv} (h : c.LInv E U w0 w es) (h1 : c.ZInv E U w')
    (hp : w.posts <+: w'.posts) : c.LInv E U w0 w' es := by
  have := h.add (es' := []) h1 hp (by simp)
  rwa [List.append_nil] at this

theorem chain_log_step (env : VEnv) (n : ChainNode) (e : OEvent) :
    n.log <+: (n.step env.keccak (.merge e)).log ∧ ∀ x ∈ (n.step env.keccak (.merge e)).log, x ∈ n.log ∨ x = e := by
  unfold ChainNode.step
  simp only
  split
  · exact ⟨List.prefix_append _ _, fun x hx => by simpa using hx⟩
  · exact ⟨List.prefix_refl _, fun x hx => .inl hx⟩

theorem linv_doSys (hE : ∀ e, E e → Spec.OEvent.Fits e) {v : EngineVersion} {w0 w : ZWork} {es : List ZEv}
    (h : c.LInv E U w0 w es) {m : SysMsg F} (hm : ∀ e, m.onchain = some e → E e) :
    c.LInv E U w0 (c.doSys v w m).1 (es ++ (c.doSys v w m).2) := by
  unfold doSys
  cases ho : m.onchain with
  | none => simpa using h
  | some e =>
    have he := hm e ho
    simp only
    split
    · simpa using h
    · have hl := chain_log_step c.env w.admit.chain e
      refine h.add (zinv_admit h.inv (admitInv_step h.inv.admit c.net (.chain e) ⟨fun x hx => ?_, by simp, by simp⟩) ?_ hl.1
        (List.prefix_refl _)) (List.prefix_refl _) ?_
      · simp at hx; exact hx ▸ hE e he
      · intro x hx
        rcases hl.2 x hx with hx | rfl
        · exact h.inv.log x hx
        · exact he
      · intro x hx
        split at hx
        · simp at hx; subst hx; exact he
        · simp at hx

theorem linv_doSyss (hE : ∀ e, E e → Spec.OEvent.Fits e) {v : EngineVersion} {w0 : ZWork} :
    ∀ (l : List (SysMsg F)) (w : ZWork) (es : List ZEv), c.LInv E U w0 w es → (∀ m ∈ l, ∀ e, m.onchain = some e → E e) →
      c.LInv E U w0 (c.doSyss v l w es).1 (c.doSyss v l w es).2
  | [], w, es, h, _ => h
  | m :: l, w, es, h, hm => linv_doSyss hE l _ _ (linv_doSys hE h (hm m (by simp))) (fun x hx => hm x (by simp [hx]))

theorem lend_events {db : Db SVal} {ctx : MergeCtx} {m : Msg} {s s' : SSt} {evs : List StoreEvent}
    (h : lendMerge db ctx m s = (.ok evs, s')) : ∀ e ∈ evs, (∃ old, e = .merge m old) ∨ StoreDef.Silent e := by
  unfold lendMerge at h
  have h : SM.bind (lendStore.merge db ctx m) (lendPruneZero m) s = (.ok evs, s') := h
  unfold SM.bind at h
  split at h
  · rename_i e s1 h1
    have he := StoreDef.merge_returns (D := lendStore) (db := db) (ctx := ctx) (m := m) s e (by rw [h1])
    have hp := StoreDef.pruneMessage_returns (D := lendStore) (m := m) s1
    unfold lendPruneZero at h
    intro x hx
    split at h
    · split at h
      · rename_i e' s2 h2
        rw [h2] at hp
        cases h
        simp at hx
        rcases hx with rfl | rfl
        · exact .inl he
        · exact .inr (hp _ rfl _ (by simp))
      · cases h; simp at hx; subst hx; exact .inl he
    · cases h; simp at hx; subst hx; exact .inl he
  · cases h

theorem returns_bind2 {α β : Type} {Q : β → Prop} {P : α → Prop} {x : SM β} {f : β → SM α} (hx : x.Returns Q)
    (hf : ∀ b, Q b → (f b).Returns P) : (x >>= f).Returns P := by
  intro s a h
  have h : (SM.bind x f s).1 = .ok a := h
  unfold SM.bind at h
  split at h
  · rename_i b s' hb
    exact hf b (hx s b (by rw [hb])) _ _ h
  · cases h

theorem slot_event {K : ChanKind} {caps : SlotCaps} {db : Db SVal} {w : Bool} {m : Msg} {s s' : SSt} {ev : StoreEvent}
    (h : mergeSlot K caps db w m s = (.ok ev, s')) : ∃ old, ev = .merge m old := by
  unfold mergeSlot at h
  split at h
  · cases h
  · rename_i p _
    have hr : (stageSlot K w m p).Returns (fun e => ∃ old, e = .merge m old) := by
      unfold stageSlot
      refine returns_bind fun _ => returns_bind fun _ => returns_bind fun _ =>
        returns_bind fun _ => returns_bind fun _ => returns_bind2 (Q := fun e => ∃ old, e = .merge m old) ?_ ?_
      · unfold StoreDef.mergeAddWithConflicts
        exact returns_bind fun _ s a h => ⟨_, returns_event _ s a h⟩
      · intro e he
        exact returns_bind fun _ => returns_bind fun _ => returns_pure he
    unfold SM.nested at h
    split at h
    · rename_i a s1 h1
      cases h
      exact hr _ _ (by rw [h1])
    · cases h

theorem posted_origin {w : ZWork} {ts : Nat} {t : Txn GVal} {m : Msg} {v : EngineVersion} {Q : Nat → Nat → Prop}
    (hq : Q (c.ver ts).num m.ty.num) : c.Origin Q (c.posted w v ts t m).posts m :=
  ⟨⟨ts, w.admit, m, w.st.store⟩, by simp [posted], rfl, hq⟩

theorem linv_lend {clock ts : Nat} {w0 w : ZWork} {x : ZLoop} {m : Msg} (h : c.LInv E U w0 w x.events)
    (hty : m.ty = .lendStorage) (ho : ∀ Q : Nat → Nat → Prop, Q (c.ver ts).num m.ty.num → c.Origin Q w.posts m) :
    c.LInv E U w0 (c.mergeLend clock (c.ver ts) x w m).w (c.mergeLend clock (c.ver ts) x w m).events := by
  unfold mergeLend
  split
  · rename_i hv
    have hk : Kept (c.ver ts).num m.ty.num := by
      rw [hty]; exact .inl ⟨lending_since hv, rfl⟩
    have hp := lendMerge_puts (G := c.Origin Kept w.posts) w.st.store.db (c.ctx m.ts) (ho _ hk) w.st.store.pend h.inv.rows.pend
    split
    · rename_i hr; rw [hr] at hp
      exact h.quiet (zinv_stage h.inv hp) (List.prefix_refl _)
    · rename_i hr
      have hev := lend_events hr
      rw [hr] at hp
      refine h.add (zinv_stage h.inv hp) (List.prefix_refl _) ?_
      intro e he
      obtain ⟨e', he', rfl⟩ := List.mem_map.1 he
      rcases hev e' he' with ⟨old, rfl⟩ | ⟨y, rfl⟩ | ⟨y, rfl⟩
      · exact (ho _ hk).handed
      · trivial
      · trivial
  · exact h

theorem linv_key {ts : Nat} {w0 w : ZWork} {x : ZLoop} {m : Msg} (h : c.LInv E U w0 w x.events)
    (hty : m.ty = .keyAdd ∨ m.ty = .keyRemove) (ho : ∀ Q : Nat → Nat → Prop, Q (c.ver ts).num m.ty.num → c.Origin Q w.posts m)
    (hc : c.Carries m) (hf : m.fid < 2 ^ 32) :
    c.LInv E U w0 (c.mergeKeyArm (c.ver ts) x w m).w (c.mergeKeyArm (c.ver ts) x w m).events := by
  unfold mergeKeyArm
  split
  · rename_i hv
    have hk : HandedOn (c.ver ts).num m.ty.num := by
      refine .inr ⟨keys_since hv, ?_⟩
      rcases hty with e | e <;> rw [e] <;> simp [MessageType.num]
    have hn := admitInv_mergeKey (c := c) h.inv.admit (m := c.wire m) (fun d hd => by
      obtain ⟨d', hd', hfid, _⟩ := hc
      rw [hd] at hd'; cases hd'; rw [hfid]; exact hf)
    have hch := mergeKey_chain (c := c) w.admit (c.wire m)
    have hlg := mergeKey_log (c := c) w.admit (c.wire m)
    split <;> rename_i hr <;> rw [hr] at hn hch hlg
    · refine h.add (zinv_admit h.inv hn ?_ ?_ hlg) (List.prefix_refl _) ?_
      · rw [hch]; exact h.inv.log
      · rw [hch]; exact List.prefix_refl _
      · intro e he; simp at he; subst he; exact ho _ hk
    · refine h.quiet (zinv_admit h.inv hn ?_ ?_ hlg) (List.prefix_refl _)
      · rw [hch]; exact h.inv.log
      · rw [hch]; exact List.prefix_refl _
  · exact h

theorem linv_verification {ts : Nat} {w0 w : ZWork} {x x' : ZLoop} {m : Msg} (h : c.LInv E U w0 w x.events)
    (hty : m.ty = .verificationAdd ∨ m.ty = .verificationRemove)
    (ho : ∀ Q : Nat → Nat → Prop, Q (c.ver ts).num m.ty.num → c.Origin Q w.posts m)
    (hx : c.mergeVerification (c.ver ts) x w m = .ok x') : c.LInv E U w0 x'.w x'.events := by
  unfold mergeVerification at hx
  split at hx
  · rename_i hv
    have hk : Kept (c.ver ts).num m.ty.num := by
      refine .inr ⟨verifications_since hv, ?_⟩
      rcases hty with e | e <;> rw [e] <;> simp [MessageType.num]
    have hp := StoreDef.merge_puts (G := c.Origin Kept w.posts) (kind_rawRows .verifications (fun _ => none)) w.st.store.db (c.ctx m.ts) (ho _ hk)
      w.st.store.pend h.inv.rows.pend
    have hp : (verificationStore.merge w.st.store.db (c.ctx m.ts) m w.st.store.pend).2.From (c.Origin Kept w.posts) := hp
    split at hx <;> rename_i hr
    · rw [hr] at hp
      cases hx
      refine h.add (zinv_stage h.inv hp) (List.prefix_refl _) ?_
      intro e he; simp at he; subst he; trivial
    · obtain ⟨old, rfl⟩ := StoreDef.merge_returns (D := verificationStore) (db := w.st.store.db) (ctx := c.ctx m.ts) (m := m)
        w.st.store.pend _ (by rw [hr])
      rw [hr] at hp
      split at hx
      · cases hx
      · cases hx
        refine h.add (zinv_stage h.inv hp) (List.prefix_refl _) ?_
        intro e he; simp at he; subst he; exact (ho _ hk).handed
  · cases hx; exact h

theorem linv_channel {ts : Nat} {w0 w : ZWork} {x x' : ZLoop} {m : Msg} {k : Option ChanKind} (h : c.LInv E U w0 w x.events)
    (hk : k.isSome → Kept (c.ver ts).num m.ty.num)
    (ho : ∀ Q : Nat → Nat → Prop, Q (c.ver ts).num m.ty.num → c.Origin Q w.posts m)
    (hx : c.mergeChannel (c.ver ts) x w k m = .ok x') : c.LInv E U w0 x'.w x'.events := by
  unfold mergeChannel at hx
  split at hx
  · cases hx
  · rename_i K
    have hk := hk rfl
    have hp := mergeSlot_puts (G := c.Origin Kept w.posts) K c.caps w.st.store.db ((c.ver ts).isEnabled .channelMessages) (ho _ hk)
      w.st.store.pend h.inv.rows.pend
    split at hx <;> rename_i hr
    · rw [hr] at hp
      cases hx
      refine h.add (zinv_stage h.inv hp) (List.prefix_refl _) ?_
      intro e he; simp at he; subst he; trivial
    · obtain ⟨old, rfl⟩ := slot_event hr
      rw [hr] at hp
      cases hx
      refine h.add (zinv_stage h.inv hp) (List.prefix_refl _) ?_
      intro e he; simp at he; subst he; exact (ho _ hk).handed

theorem linv_doUser (hU : ∀ ts m, U ts m → c.Carries m ∧ m.fid < 2 ^ 32) {clock ts : Nat} {w0 : ZWork} {x x' : ZLoop} {m : Msg}
    (h : c.LInv E U w0 x.w x.events) (hm : U ts m) (hx : c.doUser clock (c.ver ts) ts x m = .ok x') :
    c.LInv E U w0 x'.w x'.events := by
  unfold doUser at hx
  split at hx
  · cases hx; exact h
  · rename_i t k hv
    obtain ⟨hc, hf⟩ := hU ts m hm
    have hw : c.LInv E U w0 (c.posted x.w (c.ver ts) ts t m) x.events :=
      h.quiet (zinv_posted hU h.inv hm hv) (List.prefix_append _ _)
    have ho : ∀ Q : Nat → Nat → Prop, Q (c.ver ts).num m.ty.num → c.Origin Q (c.posted x.w (c.ver ts) ts t m).posts m :=
      fun Q hq => posted_origin hq
    have hch : ShardCfg.isChannelType m.ty = true → k.isSome → Kept (c.ver ts).num m.ty.num := by
      intro hty hk
      obtain ⟨K, rfl⟩ := Option.isSome_iff_exists.1 hk
      obtain ⟨d, hd, _⟩ := id hc
      obtain ⟨_, _, _, _, _, _, _, ha, _⟩ := validated_cases hd hv
      refine .inr ⟨channels_since (arm_channel ha), ?_⟩
      unfold ShardCfg.isChannelType at hty
      split at hty <;> rename_i e <;> simp_all [MessageType.num]
    simp only at hx
    split at hx <;> rename_i hty
    · cases hx; exact linv_lend hw hty ho
    · cases hx; exact linv_key hw (.inl hty) ho hc hf
    · cases hx; exact linv_key hw (.inr hty) ho hc hf
    · exact linv_verification hw (.inl hty) ho hx
    · exact linv_verification hw (.inr hty) ho hx
    · exact linv_channel hw (hch (by rw [hty]; rfl)) ho hx
    · exact linv_channel hw (hch (by rw [hty]; rfl)) ho hx
    · exact linv_channel hw (hch (by rw [hty]; rfl)) ho hx
    · exact linv_channel hw (hch (by rw [hty]; rfl)) ho hx
    · cases hx; exact hw

theorem linv_doUsers (hU : ∀ ts m, U ts m → c.Carries m ∧ m.fid < 2 ^ 32) {clock ts : Nat} {w0 : ZWork} :
    ∀ (l : List Msg) (x x' : ZLoop), c.LInv E U w0 x.w x.events → (∀ m ∈ l, U ts m) →
      c.doUsers clock (c.ver ts) ts l x = .ok x' → c.LInv E U w0 x'.w x'.events
  | [], x, x', h, _, hx => by cases hx; exact h
  | m :: l, x, x', h, hm, hx => by
    unfold doUsers at hx
    split at hx
    · cases hx
    · rename_i x1 h1
      exact linv_doUsers hU l x1 x' (linv_doUser hU h (hm m (by simp)) h1) (fun y hy => hm y (by simp [hy])) hx

/-- What a transaction must bring. -/
structure TxnOk (E : OEvent → Prop) (U : Nat → Msg → Prop) (ts : Nat) (t : ETxn F) : Prop where
  sys : ∀ s ∈ t.sys, ∀ e, s.onchain = some e → E e
  user : ∀ m ∈ t.user, U ts m

theorem mem_sysOrder {v : EngineVersion} {l : List (SysMsg F)} {s : SysMsg F} (h : s ∈ sysOrder v l) : s ∈ l := by
  unfold sysOrder at h
  split at h
  · exact (stableSort_perm _).mem_iff.1 h
  · exact h

theorem linv_replay (hE : ∀ e, E e → Spec.OEvent.Fits e) (hU : ∀ ts m, U ts m → c.Carries m ∧ m.fid < 2 ^ 32)
    {clock ts : Nat} {w : ZWork} {t : ETxn F} (ht : TxnOk E U ts t) (h : c.ZInv E U w) {r : Bytes} {x : ZLoop}
    (hx : c.replay clock (c.ver ts) ts w t = .ok (r, x)) : c.LInv E U w x.w x.events := by
  unfold replay at hx
  have h1 : c.LInv E U w (c.doSyss (c.ver ts) (sysOrder (c.ver ts) t.sys) w []).1 _ :=
    linv_doSyss hE _ w [] ⟨h, by simp, List.prefix_refl _⟩ (fun m hm => ht.sys m (mem_sysOrder hm))
  simp only at hx
  split at hx
  · cases hx
  · split at hx
    · cases hx
    · split at hx
      · cases hx
      · rename_i x1 hx1
        have h2 := linv_doUsers hU t.user _ _ h1 ht.user hx1
        unfold close at hx
        split at hx
        · cases hx
        · cases hx
          exact ⟨⟨h2.inv.admit, h2.inv.log, h2.inv.posts, h2.inv.rows, h2.inv.bev, h2.inv.bpend⟩, h2.events, h2.posts⟩

theorem linv_replays (hE : ∀ e, E e → Spec.OEvent.Fits e) (hU : ∀ ts m, U ts m → c.Carries m ∧ m.fid < 2 ^ 32)
    {clock ts : Nat} {b : Bool} : ∀ (l : List (ETxn F)) (w w' : ZWork) (rs : List Bytes) (es : List ZEv),
      (∀ t ∈ l, TxnOk E U ts t) → c.ZInv E U w → c.replays clock (c.ver ts) ts b l w = .ok (rs, w', es) → c.LInv E U w w' es
  | [], w, w', rs, es, _, h, hx => by cases hx; exact ⟨h, by simp, List.prefix_refl _⟩
  | t :: l, w, w', rs, es, ht, h, hx => by
    unfold replays at hx
    split at hx
    · cases hx
    · rename_i r x hr
      have h1 := linv_replay hE hU (ht t (by simp)) h hr
      split at hx
      · cases hx
      · split at hx
        · cases hx
        · rename_i rs' w1 es' hr'
          have h2 := linv_replays hE hU l x.w w1 rs' es' (fun t ht' => ht t (by simp [ht'])) h1.inv hr'
          cases hx
          refine ⟨h2.inv, ?_, h1.posts.trans h2.posts⟩
          intro e he
          rcases List.mem_append.1 he with he | he
          · exact (h1.events e he).mono h2.posts
          · exact h2.events e he

/-- A block event is a heartbeat or stands for a hub event. -/
theorem generated_source (H : Bytes → Bytes) (enc : BData → Bytes) (x : BlockCtx) (n : Nat) (hubs : List ZHub) {b : BEvent}
    (hb : b ∈ generateBlockEvents H enc x n hubs) :
    ∃ d body, b.data = some d ∧ d.body = some body ∧
      (body = .heartbeat ∨ ∃ hub ∈ hubs, ∃ ty, blockEventBody x.version hub = some (ty, body)) := by
  let P : BEvent → Prop := fun b => ∃ d body, b.data = some d ∧ d.body = some body ∧
      (body = .heartbeat ∨ ∃ hub ∈ hubs, ∃ ty, blockEventBody x.version hub = some (ty, body))
  have push : ∀ (s : Nat × List BEvent) (y : Nat × BBody), (∀ b ∈ s.2, P b) →
      (y.2 = .heartbeat ∨ ∃ hub ∈ hubs, ∃ ty, blockEventBody x.version hub = some (ty, y.2)) →
      ∀ b ∈ (pushBlockEvent H enc x s y).2, P b := by
    intro s y hs hy b hb
    unfold pushBlockEvent at hb
    simp only [List.mem_append, List.mem_singleton] at hb
    rcases hb with hb | rfl
    · exact hs b hb
    · exact ⟨_, y.2, rfl, rfl, hy⟩
  have fold : ∀ (l : List ZHub) (s : Nat × List BEvent), (∀ h ∈ l, h ∈ hubs) → (∀ b ∈ s.2, P b) →
      ∀ b ∈ (l.foldl (blockEventLoop H enc x) s).2, P b := by
    intro l
    induction l with
    | nil => intro s _ hs; exact hs
    | cons h l ih =>
      intro s hl hs
      refine ih _ (fun y hy => hl y (by simp [hy])) ?_
      unfold blockEventLoop
      split
      · exact hs
      · rename_i y hy
        exact push s y hs (.inr ⟨h, hl h (by simp), y.1, hy⟩)
  unfold generateBlockEvents at hb
  simp only at hb
  have h0 := fold hubs (n, []) (fun _ h => h) (by simp)
  split at hb
  · exact push _ _ h0 (.inl rfl) b hb
  · exact h0 b hb

theorem staged_source : ∀ (es : List BEvent) (t t' : Txn BEvent), stageBlockEvents t es = .ok t' → ∀ k e,
    t'.get k = some (some e) → t.get k = some (some e) ∨ e ∈ es
  | [], t, t', h, k, e, he => by cases h; exact .inl he
  | x :: es, t, t', h, k, e, he => by
    unfold stageBlockEvents at h
    split at h
    · cases h
    · rename_i t1 h1
      rcases staged_source es t1 t' h k e he with h2 | h2
      · unfold putBlockEvent at h1
        split at h1
        · cases h1
        · cases h1
          rw [Txn.get_stagePut] at h2
          split at h2
          · simp at h2; subst h2; exact .inr (by simp)
          · exact .inl h2
      · exact .inr (by simp [h2])

theorem bevOk_of {posts : List ZPost} {es : List ZEv} (h : ∀ e ∈ es, c.EvOk E posts e) {x : BlockCtx} {n : Nat} {b : BEvent}
    (hb : b ∈ generateBlockEvents c.HB c.encB x n (es.map ZEv.hub)) : c.BevOk E posts b := by
  obtain ⟨d, body, hd, hbody, hs⟩ := generated_source _ _ _ _ _ hb
  constructor
  · rintro m ⟨d', hd', hm⟩
    rw [hd] at hd'; cases hd'
    rw [hbody] at hm; cases hm
    rcases hs with hs | ⟨hub, hh, ty, hy⟩
    · cases hs
    · obtain ⟨ev, hev, rfl⟩ := List.mem_map.1 hh
      have hok := h ev hev
      rcases ev with (⟨m', o⟩ | m' | m') | ⟨m', e⟩ | ⟨o, z⟩ | m' <;> simp only [ZEv.hub, blockEventBody] at hy
      · split at hy <;> cases hy; exact hok
      · cases hy
      · cases hy
      · split at hy <;> cases hy; exact hok
      · split at hy <;> cases hy
      · cases hy
  · intro d' o hd' ho
    rw [hd] at hd'; cases hd'
    rw [hbody] at ho; cases ho
    rcases hs with hs | ⟨hub, hh, ty, hy⟩
    · cases hs
    · obtain ⟨ev, hev, rfl⟩ := List.mem_map.1 hh
      have hok := h ev hev
      rcases ev with (⟨m', o'⟩ | m' | m') | ⟨m', e⟩ | ⟨o', z⟩ | m' <;> simp only [ZEv.hub, blockEventBody] at hy
      · split at hy <;> cases hy
      · cases hy
      · cases hy
      · split at hy <;> cases hy
      · split at hy <;> cases hy
        rename_i hn
        exact ⟨hok, by simp at hn; exact hn.1⟩
      · cases hy

theorem zinv_events {h ts : Nat} {w0 w w' : ZWork} {es : List ZEv} {bs : List BEvent} (hl : c.LInv E U w0 w es)
    (hx : c.events h ts w es = .ok (w', bs)) : c.ZInv E U w' := by
  unfold events at hx
  split at hx
  · cases hx
  · simp only at hx
    split at hx
    · cases hx
    · rename_i t ht
      cases hx
      refine ⟨hl.inv.admit, hl.inv.log, hl.inv.posts, hl.inv.rows, hl.inv.bev, ?_⟩
      intro k e he
      rcases staged_source _ _ _ ht k e he with h1 | h1
      · exact hl.inv.bpend k e h1
      · exact bevOk_of hl.events h1

/-- The invariant between blocks: nothing is staged. -/
structure Settled (c : ZeroCfg) (E : OEvent → Prop) (U : Nat → Msg → Prop) (d : ZWork) : Prop where
  inv : c.ZInv E U d
  log : d.admit.chain.log = d.admit.chain.saved
  keys : d.admit.keyLog = d.admit.keySaved

theorem settled_new : c.Settled E U {} := by
  refine ⟨⟨admitInv_init _ _, ?_, ?_, StoreState.From.empty, ?_, ?_⟩, rfl, rfl⟩
  · intro e he; cases he
  · intro p hp; cases hp
  · intro k e he; simp [OMap.get_empty] at he
  · intro k e he; simp [OMap.get_empty] at he

theorem zinv_begin {d : ZWork} (h : c.Settled E U d) (v : EngineVersion) (n : Nat) : c.ZInv E U (c.begin d v n) := by
  refine ⟨admitInv_step h.inv.admit c.net .drop ⟨by simp, by simp, by simp⟩, ?_, ?_, ⟨h.inv.rows.db, ?_⟩, h.inv.bev, ?_⟩
  · show ∀ e ∈ d.admit.chain.saved, E e
    rw [← h.log]; exact h.inv.log
  · intro p hp
    show _ ∧ _ ∧ p.node.chain.log <+: d.admit.chain.saved ∧ p.node.keyLog <+: d.admit.keySaved
    rw [← h.log, ← h.keys]
    exact h.inv.posts p hp
  · intro k m hk; simp [begin, OMap.get_empty] at hk
  · intro k e hk; simp [begin, OMap.get_empty] at hk

theorem settled_dropped {d w : ZWork} (h : c.Settled E U d) : c.Settled E U (dropped d w) :=
  ⟨⟨h.inv.admit, h.inv.log, h.inv.posts, ⟨h.inv.rows.db, h.inv.rows.pend⟩, h.inv.bev, h.inv.bpend⟩, h.log, h.keys⟩

theorem zinv_replayProposal (hE : ∀ e, E e → Spec.OEvent.Fits e) (hU : ∀ ts m, U ts m → c.Carries m ∧ m.fid < 2 ^ 32)
    {clock : Nat} {d w : ZWork} {b : ZBlock F} (hb : ∀ t ∈ b.txns, TxnOk E U b.ts t) (h : c.Settled E U d)
    (hx : c.replayProposal clock d b = .ok w) : c.ZInv E U w := by
  unfold replayProposal at hx
  split at hx
  · cases hx
  · rename_i rs w1 es hr
    have h1 := linv_replays hE hU _ _ _ _ _ hb (zinv_begin h _ _) hr
    split at hx
    · cases hx
    · rename_i w2 bs he
      have h2 := zinv_events h1 he
      split at hx
      · cases hx
      · split at hx
        · cases hx
        · split at hx
          · cases hx
          · cases hx; exact h2

theorem settled_finish {w d' : ZWork} (h : c.ZInv E U w) (hx : c.finish w = some d') : c.Settled E U d' := by
  unfold finish at hx
  split at hx
  · cases hx
  · cases hx
    refine ⟨⟨admitInv_step h.admit c.net .commit ⟨by simp, by simp, by simp⟩, h.log, h.posts, ?_, ?_, ?_⟩, rfl, rfl⟩
    · exact h.rows.exec (kind_rawRows .casts (fun _ => none)) (ctx := c.ctx) (o := .commit) (by simp)
    · intro k e he
      rw [Db.get_commit] at he
      unfold getFromDbOrTxn at he
      split at he
      · rename_i hk; exact h.bpend k e (hk.trans (congrArg some he))
      · exact h.bev k e he
    · intro k e hk; simp [OMap.get_empty] at hk

theorem settled_step (hE : ∀ e, E e → Spec.OEvent.Fits e) (hU : ∀ ts m, U ts m → c.Carries m ∧ m.fid < 2 ^ 32)
    {d d' : ZWork} {x : ZCall F} (hb : ∀ clock b, x = .commit clock b → ∀ t ∈ b.txns, TxnOk E U b.ts t) (h : c.Settled E U d)
    (hx : c.step d x = some d') : c.Settled E U d' := by
  cases x with
  | propose clock n ts txns =>
    simp only [step, Option.map_eq_some_iff] at hx
    obtain ⟨⟨b, w⟩, hp, rfl⟩ := hx
    unfold propose at hp
    split at hp
    · split at hp
      · cases hp
      · cases hp; exact settled_dropped h
    · cases hp; exact h
  | validate clock b =>
    simp only [step, Option.map_eq_some_iff] at hx
    obtain ⟨⟨ok, w⟩, hp, rfl⟩ := hx
    unfold validate at hp
    split at hp
    · split at hp
      · cases hp; exact settled_dropped h
      · cases hp
      · cases hp; exact h
    · cases hp; exact h
  | commit clock b =>
    simp only [step] at hx
    unfold commit at hx
    split at hx
    · split at hx
      · cases hx
      · rename_i w hw
        exact settled_finish (zinv_replayProposal hE hU (hb clock b rfl) h hw) hx
    · cases hx; exact h
  | simulate clock m =>
    simp only [step, Option.map_eq_some_iff] at hx
    obtain ⟨⟨ok, w⟩, hp, rfl⟩ := hx
    unfold simulate at hp
    simp only at hp
    split at hp
    · cases hp
    · cases hp; exact h
    · split at hp <;> cases hp <;> exact settled_dropped h

theorem settled_run (hE : ∀ e, E e → Spec.OEvent.Fits e) (hU : ∀ ts m, U ts m → c.Carries m ∧ m.fid < 2 ^ 32) :
    ∀ (calls : List (ZCall F)) (d d' : ZWork),
      (∀ clock b, ZCall.commit clock b ∈ calls → ∀ t ∈ b.txns, TxnOk E U b.ts t) → c.Settled E U d →
      c.run calls d = some d' → c.Settled E U d'
  | [], d, d', _, h, hx => by cases hx; exact h
  | x :: xs, d, d', hb, h, hx => by
    unfold run at hx
    split at hx
    · cases hx
    · rename_i d1 h1
      exact settled_run hE hU xs d1 d' (fun k b hk => hb k b (by simp [hk]))
        (settled_step hE hU (fun k b hk => hb k b (by simp [hk])) h h1) hx

/-- The invariant holds for what the committed blocks bring. -/
theorem settled_history {calls : List (ZCall F)} (s : c.Sound calls) {d : ZWork} (hx : c.run calls {} = some d) :
    c.Settled (OnChainIn calls) (PostedIn calls) d := by
  refine settled_run s.chain s.user calls {} d ?_ settled_new hx
  intro clock b hb t ht
  exact ⟨fun sm hs e he => ⟨clock, b, hb, t, ht, sm, hs, he⟩, fun m hm => ⟨clock, b, hb, rfl, t, ht, hm⟩⟩

/-- A simulation that reports no error has validated the message on the committed tables. -/
theorem simulated_authorised {d d' : ZWork} (h : c.Settled E U d) {m : Msg} (hc : c.Carries m) (hf : m.fid < 2 ^ 32) {clock : Nat}
    (hx : c.simulate clock d m = some (.ok (), d')) :
    ∃ p : ZPost, p.msg = m ∧ p.ts = clock - farcasterEpoch / 1000 ∧ c.Authorised p ∧
      p.node.chain.log = d.admit.chain.log ∧ p.node.keyLog = d.admit.keyLog := by
  unfold simulate at hx
  generalize clock - farcasterEpoch / 1000 = ts at *
  simp only at hx
  split at hx
  · cases hx
  · cases hx
  · rename_i r x hr
    unfold replay at hr
    simp only at hr
    split at hr
    · cases hr
    · split at hr
      · cases hr
      · split at hr
        · cases hr
        · rename_i slot hslot q hq y hy
          have herr : x.errs = y.errs := by
            unfold close at hr
            split at hr <;> cases hr
            rfl
          have hi := (zinv_begin h .v0 0).admit
          unfold doUsers at hy
          split at hy
          · cases hy
          · rename_i z hz
            unfold doUsers at hy
            cases hy
            unfold doUser at hz
            split at hz
            · cases hz
              rw [herr] at hx
              simp at hx
            · rename_i t k hv
              have hs : sysOrder (F := Unit) (c.ver ts) [] = [] := by
                unfold sysOrder; split <;> rfl
              rw [hs] at hv
              have hau := validated_authorised (by exact hi) hc hf hv
              refine ⟨⟨ts, (d.admit.exec c.env c.crypto c.net .drop).2, m, _⟩, rfl, rfl, hau, ?_, ?_⟩
              · exact h.log.symm
              · exact h.keys.symm

end
end ZeroCfg
end Verif
