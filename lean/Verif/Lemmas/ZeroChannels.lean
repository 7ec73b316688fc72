import Verif.Lemmas.StoreWrites
import Verif.Lemmas.ZeroTold
import Verif.Lemmas.ZeroAgree
import Verif.Lemmas.ChannelHist
/-!
What the engine of shard 0 does to the tables of channels: a history of admitted messages.
-/
namespace Verif

theorem foreign_user (fid : Nat) (p : UInt8) (l : Bytes) (h : p ≠ 9 ∧ p ≠ 10 ∧ p ≠ 11 ∧ p ≠ 12) :
    ForeignKey (makeUserKey fid ++ p :: l) := by
  have e : (makeUserKey fid ++ p :: l)[5]? = some p := by
    rw [List.getElem?_append_right (by simp [makeUserKey, makeFidKey, be_length])]
    simp [makeUserKey, makeFidKey, be_length]
  refine ⟨by simp [makeUserKey], fun _ => ?_⟩
  rw [e]
  exact ⟨fun h' => h.1 (Option.some.inj h'), fun h' => h.2.1 (Option.some.inj h'), fun h' => h.2.2.1 (Option.some.inj h'),
    fun h' => h.2.2.2 (Option.some.inj h')⟩

theorem foreign_other (p : UInt8) (l : Bytes) (h : p ≠ 24 ∧ p ≠ 3) : ForeignKey (p :: l) :=
  ⟨fun h' => h.1 (Option.some.inj h'), fun h' => absurd (Option.some.inj h') h.2⟩

theorem lend_foreign : lendStore.Within ForeignKey where
  prim fid th := foreign_user fid 8 _ (by decide)
  add m k h := by
    simp only [lendStore] at h
    split at h <;> cases h
    exact foreign_user _ 101 _ (by decide)
  remove m k h := by simp [lendStore] at h
  compact m k h := by simp [lendStore] at h
  index th m rows h r hr := by
    simp only [lendStore] at h
    split at h <;> cases h
    · simp only [List.mem_singleton] at hr
      subst hr
      exact foreign_other 22 _ (by decide)
    · cases hr
  indexed th m ks h k hk := by
    simp only [lendStore] at h
    split at h <;> cases h
    · simp only [List.mem_singleton] at hk
      subst hk
      exact foreign_other 22 _ (by decide)
    · cases hk
  follow m r hr := by simp [lendStore] at hr
  followed m k hk := by simp [lendStore] at hk
  events id := foreign_other 9 _ (by decide)

theorem verification_foreign : verificationStore.Within ForeignKey where
  prim fid th := foreign_user fid 4 _ (by decide)
  add m k h := by
    simp only [verificationStore] at h
    cases ha : verificationAddress m with
    | error e => rw [ha] at h; cases h
    | ok a => rw [ha] at h; cases h; exact foreign_user _ 93 _ (by decide)
  remove m k h := by
    simp only [verificationStore] at h
    cases ha : verificationAddress m with
    | error e => rw [ha] at h; cases h
    | ok a => rw [ha] at h; cases h; exact foreign_user _ 94 _ (by decide)
  compact m k h := by simp [verificationStore] at h
  index th m rows h r hr := by
    simp only [verificationStore] at h
    cases ha : verificationIndexKey m with
    | error e => rw [ha] at h; cases h
    | ok a =>
      rw [ha] at h; cases h
      simp only [List.mem_singleton] at hr
      subst hr
      unfold verificationIndexKey at ha
      split at ha
      · split at ha <;> cases ha
        exact foreign_other 14 _ (by decide)
      · cases ha
  indexed th m ks h k hk := by
    simp only [verificationStore] at h
    cases ha : verificationIndexKey m with
    | error e => rw [ha] at h; cases h
    | ok a =>
      rw [ha] at h; cases h
      simp only [List.mem_singleton] at hk
      subst hk
      unfold verificationIndexKey at ha
      split at ha
      · split at ha <;> cases ha
        exact foreign_other 14 _ (by decide)
      · cases ha
  follow m r hr := by simp [verificationStore] at hr
  followed m k hk := by simp [verificationStore] at hk
  events id := foreign_other 9 _ (by decide)

theorem lendMerge_writes (db : Db SVal) (ctx : MergeCtx) (m : Msg) : (lendMerge db ctx m).Writes ForeignKey := by
  unfold lendMerge
  refine SM.writes_bind (StoreDef.merge_writes lend_foreign db ctx m) (fun e => ?_)
  intro s
  have h := StoreDef.pruneMessage_writes lend_foreign m s
  unfold lendPruneZero
  split
  · split <;> rename_i hr <;> (try rw [hr] at h) <;> exact h
  · exact ⟨[], by simp, rfl⟩

/-! ### Steps -/

/-- A step other than merging without checks and dropping the batch; other stores keep to their keys. -/
def ChanOp.Calm (o : ChanOp) : Prop := (∀ k v, o = .other k v → ForeignKey k) ∧ o.OnShardZero ∧ o ≠ .drop

theorem run_others (caps : SlotCaps) : ∀ (l : List (Bytes × Option SVal)) (n : ChanNode),
    (n.run caps (l.map (fun r => .other r.1 r.2))).st = { n.st with pend := { n.st.pend with txn := writeRows n.st.pend.txn l } }
  | [], n => rfl
  | r :: l, n => by
    have := run_others caps l (n.exec caps (.other r.1 r.2))
    exact this

theorem log_others (caps : SlotCaps) : ∀ (l : List (Bytes × Option SVal)) (n : ChanNode),
    (n.run caps (l.map (fun r => .other r.1 r.2))).log = n.log
  | [], n => rfl
  | r :: l, n => log_others caps l (n.exec caps (.other r.1 r.2))

theorem chan_run_append (caps : SlotCaps) (n : ChanNode) (a b : List ChanOp) : n.run caps (a ++ b) = (n.run caps a).run caps b := List.foldl_append

namespace ZeroCfg
variable {F : Type} {c : ZeroCfg}

/-- From `w` to `w'` the messages `new` were validated, and the tables moved by the steps `ops`; each message admitted in
`ops` is among the validated ones, was checked against the owner in the registry of that moment, and the tables noted with it
are those it was checked against.  The messages merged are `told`, in order. -/
structure Traces (c : ZeroCfg) (P : ZPost → Prop) (w w' : ZWork) (told : List Msg) (new : List ZPost) (ops : List ChanOp) : Prop where
  posts : w'.posts = w.posts ++ new
  fine : ∀ p ∈ new, P p
  calm : ∀ o ∈ ops, o.Calm
  moved : ∀ n : ChanNode, n.st = w.st.store → (n.run c.caps ops).st = w'.st.store
  admitted : ∀ n : ChanNode, n.st = w.st.store → ∀ pre owner m rest, ops = pre ++ .submit owner m :: rest →
    ∃ p ∈ new, p.msg = m ∧ owner = c.owner p.node p.store ∧ p.store = (n.run c.caps pre).st
  logged : ∀ n : ChanNode, n.st = w.st.store → (n.run c.caps ops).log = told.reverse ++ n.log

def Traced (c : ZeroCfg) (P : ZPost → Prop) (w w' : ZWork) (told : List Msg) : Prop := ∃ new ops, c.Traces P w w' told new ops

/-- The channel messages among the results of a block. -/
def chanNews (hubs : List ZHub) : List Msg := hubs.filterMap (fun
  | .mergeMessage (some m) => if ShardCfg.isChannelType m.ty then some m else none
  | _ => none)

theorem chanNews_append (a b : List ZHub) : chanNews (a ++ b) = chanNews a ++ chanNews b := List.filterMap_append

theorem chanNews_none {l : List ZHub} (h : ∀ x ∈ l, ∀ m, x = .mergeMessage (some m) → ShardCfg.isChannelType m.ty = false) :
    chanNews l = [] := by
  unfold chanNews
  rw [List.filterMap_eq_nil_iff]
  intro x hx
  split
  · rw [if_neg (by rw [h _ hx _ rfl]; decide)]
  · rfl

variable {P : ZPost → Prop}

theorem traced_still {w w' : ZWork} (hp : w'.posts = w.posts) (h : w'.st.store = w.st.store) : c.Traced P w w' [] :=
  ⟨[], [], by simpa using hp, by simp, by simp, fun n hn => by rw [h]; exact hn, fun _ _ pre _ _ _ h => by simp at h, fun _ _ => rfl⟩

theorem Traced.trans {w w1 w2 : ZWork} {l l' : List Msg} (h : c.Traced P w w1 l) (h' : c.Traced P w1 w2 l') :
    c.Traced P w w2 (l ++ l') := by
  obtain ⟨new, ops, a⟩ := h
  obtain ⟨new', ops', b⟩ := h'
  refine ⟨new ++ new', ops ++ ops', by rw [b.posts, a.posts, List.append_assoc], ?_, ?_, ?_, ?_, ?_⟩
  · intro p hp
    rcases List.mem_append.1 hp with hp | hp
    · exact a.fine p hp
    · exact b.fine p hp
  · intro p hp
    rcases List.mem_append.1 hp with hp | hp
    · exact a.calm p hp
    · exact b.calm p hp
  · intro n hn
    rw [chan_run_append]
    exact b.moved _ (a.moved n hn)
  · intro n hn pre owner m rest he
    rcases List.append_eq_append_iff.1 he with ⟨x, rfl, h2⟩ | ⟨x, h1, h2⟩
    · obtain ⟨p, hp, h3, h4, h5⟩ := b.admitted _ (a.moved n hn) _ _ _ _ h2
      exact ⟨p, by simp [hp], h3, h4, by rw [h5, chan_run_append]⟩
    · cases x with
      | nil =>
        simp only [List.append_nil] at h1
        simp only [List.nil_append] at h2
        subst h1
        obtain ⟨p, hp, h3, h4, h5⟩ := b.admitted _ (a.moved n hn) [] _ _ _ h2.symm
        exact ⟨p, by simp [hp], h3, h4, h5⟩
      | cons o x =>
        simp only [List.cons_append, List.cons.injEq] at h2
        obtain ⟨rfl, _⟩ := h2
        obtain ⟨p, hp, h3, h4, h5⟩ := a.admitted n hn _ _ _ _ h1
        exact ⟨p, by simp [hp], h3, h4, h5⟩
  · intro n hn
    rw [chan_run_append, b.logged _ (a.moved n hn), a.logged n hn]
    simp

/-- The store moves by rows of others and event numbers. -/
theorem traced_writes {w w' : ZWork} (hp : w'.posts = w.posts) (l : List (Bytes × Option SVal)) (hl : ∀ r ∈ l, ForeignKey r.1)
    (hdb : w'.st.store.db = w.st.store.db) (ht : w'.st.store.pend.txn = writeRows w.st.store.pend.txn l) : c.Traced P w w' [] := by
  refine ⟨[], l.map (fun r => .other r.1 r.2) ++ [.numbers w'.st.store.pend.gen], by simpa using hp, by simp, ?_, ?_, ?_, ?_⟩
  · intro o ho
    simp only [List.mem_append, List.mem_map, List.mem_singleton] at ho
    rcases ho with ⟨r, hr, rfl⟩ | rfl
    · exact ⟨fun k v e => by cases e; exact hl r hr, trivial, nofun⟩
    · exact ⟨nofun, trivial, nofun⟩
  · intro n hn
    rw [chan_run_append]
    show ((n.run c.caps _).exec c.caps (.numbers _)).st = _
    unfold ChanNode.exec
    simp only [run_others, hn]
    show (⟨w.st.store.db, ⟨writeRows w.st.store.pend.txn l, w'.st.store.pend.gen⟩⟩ : StoreState) = _
    rw [← ht, ← hdb]
  · intro n hn pre owner m rest he
    have hm : ChanOp.submit owner m ∈ l.map (fun r => ChanOp.other r.1 r.2) ++ [ChanOp.numbers w'.st.store.pend.gen] := by
      rw [he]; simp
    simp at hm
  · intro n _
    rw [chan_run_append]
    show (n.run c.caps _).log = n.log
    exact log_others c.caps l n

/-- A message admitted to the channel tables. -/
theorem traced_submit {w w' : ZWork} {p : ZPost} {told : List Msg} (hp : w'.posts = w.posts ++ [p]) (hP : P p) (hst : p.store = w.st.store)
    (hdb : w'.st.store.db = w.st.store.db)
    (hs : w'.st.store.pend = (submitChannel c.caps w.st.store.db (c.owner p.node p.store) p.msg w.st.store.pend).2)
    (htold : (∃ e, (submitChannel c.caps w.st.store.db (c.owner p.node p.store) p.msg w.st.store.pend).1 = .error e ∧ told = []) ∨
      (∃ e, (submitChannel c.caps w.st.store.db (c.owner p.node p.store) p.msg w.st.store.pend).1 = .ok e ∧ told = [p.msg])) :
    c.Traced P w w' told := by
  refine ⟨[p], [.submit (c.owner p.node p.store) p.msg], hp, by simpa using hP, ?_, ?_, ?_, ?_⟩
  · intro o ho
    simp only [List.mem_singleton] at ho
    subst ho
    exact ⟨nofun, trivial, nofun⟩
  · intro n hn
    show (n.after _ (submitChannel c.caps n.st.db _ _ n.st.pend)).st = _
    rw [hn]
    cases hr : submitChannel c.caps w.st.store.db (c.owner p.node p.store) p.msg w.st.store.pend with
    | mk r q =>
      rw [hr] at hs
      have hq : w'.st.store.pend = q := hs
      cases r <;> (unfold ChanNode.after; simp only [hn]; rw [← hq, ← hdb])
  · intro n hn pre owner m rest he
    cases pre with
    | nil =>
      simp only [List.nil_append, List.cons.injEq, ChanOp.submit.injEq] at he
      obtain ⟨⟨rfl, rfl⟩, _⟩ := he
      exact ⟨p, by simp, rfl, rfl, by rw [hst]; exact hn.symm⟩
    | cons a l => simp at he
  · intro n hn
    show (n.after _ (submitChannel c.caps n.st.db _ _ n.st.pend)).log = _
    rw [hn]
    cases hr : submitChannel c.caps w.st.store.db (c.owner p.node p.store) p.msg w.st.store.pend with
    | mk r q =>
      rw [hr] at htold
      rcases htold with ⟨e, h1, rfl⟩ | ⟨e, h1, rfl⟩
      · have h1 : r = .error e := h1
        subst h1; rfl
      · have h1 : r = .ok e := h1
        subst h1; rfl

/-- The post itself. -/
theorem traced_posted {w : ZWork} {v : EngineVersion} {ts : Nat} {t : Txn GVal} {m : Msg} (hP : P ⟨ts, w.admit, m, w.st.store⟩) :
    c.Traced P w (c.posted w v ts t m) [] :=
  ⟨[_], [], rfl, by simpa using hP, by simp, fun n hn => hn, fun _ _ pre _ _ _ h => by simp at h, fun _ _ => rfl⟩

theorem arm_checked {clock : Nat} {v : EngineVersion} {w : ZWork} {slot : Slot} {counts : VCounts} {m : Msg} {d : WData}
    {k : ChanKind} (h : c.arm clock v w slot counts m d = .ok (some k)) :
    validateChannel w.st.store.db w.st.store.pend.txn (c.owner w.admit w.st.store) m = .ok k := by
  unfold arm at h
  split at h
  · split at h
    · split at h <;> cases h
      assumption
    · cases h
  · split at h
    · cases hl : c.lendArm clock v w slot d.fid _ _ <;> rw [hl] at h <;> cases h
    · cases hl : c.verificationArm v w slot counts m <;> rw [hl] at h <;> cases h
    · cases hl : c.verificationArm v w slot counts m <;> rw [hl] at h <;> cases h
    · split at h
      · split at h <;> cases h
      · split at h <;> cases h
      · cases h

theorem lend_two {db : Db SVal} {ctx : MergeCtx} {m : Msg} {s s' : SSt} {evs : List StoreEvent}
    (h : lendMerge db ctx m s = (.ok evs, s')) : evs.length ≤ 2 := by
  unfold lendMerge at h
  have h : SM.bind (lendStore.merge db ctx m) (lendPruneZero m) s = (.ok evs, s') := h
  unfold SM.bind at h
  split at h
  · unfold lendPruneZero at h
    split at h
    · split at h
      · cases h; simp
      · cases h; simp
    · cases h; simp
  · cases h

/-- What a step of the loop adds to the events, at most `k`, and its channel messages merged. -/
def Step (c : ZeroCfg) (P : ZPost → Prop) (v : EngineVersion) (k : Nat) (w w' : ZWork) (es es' : List ZEv) : Prop :=
  ∃ new, es' = es ++ new ∧ new.length ≤ k ∧ c.Traced P w w' (chanNews (new.map ZEv.hub)) ∧
    (v.isEnabled .channelMessages = false → chanNews (new.map ZEv.hub) = [])

theorem Step.trans {v : EngineVersion} {k k' : Nat} {w w1 w2 : ZWork} {es es1 es2 : List ZEv} (h : c.Step P v k w w1 es es1)
    (h' : c.Step P v k' w1 w2 es1 es2) : c.Step P v (k + k') w w2 es es2 := by
  obtain ⟨a, rfl, a0, a1, a2⟩ := h
  obtain ⟨b, rfl, b0, b1, b2⟩ := h'
  refine ⟨a ++ b, by simp, by simp; omega, ?_, ?_⟩
  · rw [List.map_append, chanNews_append]; exact a1.trans b1
  · intro hv; rw [List.map_append, chanNews_append, a2 hv, b2 hv]; rfl

theorem Step.weaken {v : EngineVersion} {k k' : Nat} {w w1 : ZWork} {es es1 : List ZEv} (h : c.Step P v k w w1 es es1)
    (hk : k ≤ k') : c.Step P v k' w w1 es es1 :=
  let ⟨a, a1, a2, a3⟩ := h
  ⟨a, a1, by omega, a3⟩

/-- Without channel messages. -/
theorem step_plain {v : EngineVersion} {k : Nat} {w w' : ZWork} {es : List ZEv} (new : List ZEv) (hk : new.length ≤ k)
    (hn : ∀ x ∈ new, ∀ m, x.hub = .mergeMessage (some m) → ShardCfg.isChannelType m.ty = false) (h : c.Traced P w w' []) :
    c.Step P v k w w' es (es ++ new) := by
  have e : chanNews (new.map ZEv.hub) = [] := chanNews_none (by
    intro x hx m hm
    obtain ⟨y, hy, rfl⟩ := List.mem_map.1 hx
    exact hn y hy m hm)
  exact ⟨new, rfl, hk, by rw [e]; exact h, fun _ => e⟩

theorem step_quiet {v : EngineVersion} {k : Nat} {w w' : ZWork} {es : List ZEv} (h : c.Traced P w w' []) : c.Step P v k w w' es es := by
  have := step_plain (v := v) (es := es) (k := k) [] (by simp) (by simp) h
  rwa [List.append_nil] at this

theorem traced_doUser {clock ts : Nat} {v : EngineVersion} {x x' : ZLoop} {m : Msg}
    (hP : ∀ w : ZWork, P ⟨ts, w.admit, m, w.st.store⟩)
    (hx : c.doUser clock v ts x m = .ok x') : c.Step P v 2 x.w x'.w x.events x'.events := by
  unfold doUser at hx
  split at hx
  · cases hx; exact step_quiet (traced_still rfl rfl)
  · rename_i t k hv
    have hpost : c.Traced P x.w (c.posted x.w v ts t m) [] := traced_posted (hP x.w)
    have hch : ShardCfg.isChannelType m.ty = true → c.mergeChannel v x (c.posted x.w v ts t m) k m = .ok x' →
        c.Step P v 2 x.w x'.w x.events x'.events := by
      intro hty e
      unfold mergeChannel at e
      split at e
      · cases e
      · rename_i K
        have hen := told_validated hv
        have hK : validateChannel x.w.st.store.db x.w.st.store.pend.txn (c.owner x.w.admit x.w.st.store) m = .ok K := by
          cases hd : (c.wire m).data with
          | none => unfold validateUser at hv; rw [hd] at hv; cases hv
          | some d =>
            obtain ⟨_, _, _, _, _, _, _, ha, _⟩ := validated_cases hd hv
            exact arm_checked ha
        have hsub : submitChannel c.caps x.w.st.store.db (c.owner x.w.admit x.w.st.store) m x.w.st.store.pend =
            mergeSlot K c.caps x.w.st.store.db (v.isEnabled .channelMessages) m x.w.st.store.pend := by
          unfold submitChannel
          rw [hK, hen]
        split at e <;> rename_i hr
        · have hr' : mergeSlot K c.caps x.w.st.store.db (v.isEnabled .channelMessages) m x.w.st.store.pend = _ := hr
          cases e
          refine step_plain [_] (by simp) (by simp [ZEv.hub]) (traced_submit (p := ⟨ts, x.w.admit, m, x.w.st.store⟩) rfl (hP x.w) rfl rfl ?_ ?_)
          · show _ = (submitChannel c.caps x.w.st.store.db (c.owner x.w.admit x.w.st.store) m x.w.st.store.pend).2
            rw [hsub, hr']; rfl
          · exact .inl ⟨_, congrArg Prod.fst (hsub.trans hr'), rfl⟩
        · have hr' : mergeSlot K c.caps x.w.st.store.db (v.isEnabled .channelMessages) m x.w.st.store.pend = _ := hr
          obtain ⟨old, rfl⟩ := slot_event hr
          cases e
          have hnews : chanNews ([ZEv.store (.merge m old)].map ZEv.hub) = [m] := by
            simp [chanNews, ZEv.hub, hty]
          refine ⟨_, rfl, by simp, ?_, fun hv => by rw [hen] at hv; cases hv⟩
          rw [hnews]
          refine traced_submit (p := ⟨ts, x.w.admit, m, x.w.st.store⟩) rfl (hP x.w) rfl rfl ?_ ?_
          · show _ = (submitChannel c.caps x.w.st.store.db (c.owner x.w.admit x.w.st.store) m x.w.st.store.pend).2
            rw [hsub, hr']; rfl
          · exact .inr ⟨_, congrArg Prod.fst (hsub.trans hr'), rfl⟩
    have hver : ShardCfg.isChannelType m.ty = false → c.mergeVerification v x (c.posted x.w v ts t m) m = .ok x' →
        c.Step P v 2 x.w x'.w x.events x'.events := by
      intro hty e
      refine (step_quiet (k := 0) hpost).trans (k' := 2) ?_
      unfold mergeVerification at e
      obtain ⟨l, hl, ht⟩ := StoreDef.merge_writes verification_foreign (c.posted x.w v ts t m).st.store.db (c.ctx m.ts) m
        (c.posted x.w v ts t m).st.store.pend
      have hret := StoreDef.merge_returns (D := verificationStore) (db := (c.posted x.w v ts t m).st.store.db) (ctx := c.ctx m.ts)
        (m := m) (c.posted x.w v ts t m).st.store.pend
      split at e
      · split at e <;> rename_i hr <;> rw [hr] at ht hret
        · cases e
          exact step_plain [_] (by simp) (by simp [ZEv.hub]) (traced_writes rfl l hl rfl ht)
        · obtain ⟨old, rfl⟩ := hret _ rfl
          split at e
          · cases e
          · cases e
            refine step_plain [_] (by simp) ?_ (traced_writes rfl l hl rfl ht)
            intro y hy m' hm'
            simp only [List.mem_singleton] at hy
            subst hy
            cases hm'
            exact hty
      · cases e; exact step_quiet (traced_still rfl rfl)
    have hl : ShardCfg.isChannelType m.ty = false → c.Step P v 2 x.w (c.mergeLend clock v x (c.posted x.w v ts t m) m).w
        x.events (c.mergeLend clock v x (c.posted x.w v ts t m) m).events := by
      intro hty
      refine (step_quiet (k := 0) hpost).trans (k' := 2) ?_
      unfold mergeLend
      obtain ⟨l, hl, ht⟩ := lendMerge_writes (c.posted x.w v ts t m).st.store.db (c.ctx m.ts) m
        (c.posted x.w v ts t m).st.store.pend
      split
      · split <;> rename_i hr <;> rw [hr] at ht
        · exact step_quiet (traced_writes rfl l hl rfl ht)
        · refine step_plain _ (by rw [List.length_map]; exact lend_two hr) ?_ (traced_writes rfl l hl rfl ht)
          intro y hy m' hm'
          obtain ⟨ev, hev, rfl⟩ := List.mem_map.1 hy
          rcases lend_events hr ev hev with ⟨old, rfl⟩ | hs
          · cases hm'; exact hty
          · rcases hs with ⟨m2, rfl⟩ | ⟨m2, rfl⟩ <;> cases hm'
      · exact step_quiet (traced_still rfl rfl)
    have hk : ShardCfg.isChannelType m.ty = false → c.Step P v 2 x.w (c.mergeKeyArm v x (c.posted x.w v ts t m) m).w
        x.events (c.mergeKeyArm v x (c.posted x.w v ts t m) m).events := by
      intro hty
      refine (step_quiet (k := 0) hpost).trans (k' := 2) ?_
      unfold mergeKeyArm
      split
      · split
        · refine step_plain [_] (by simp) ?_ (traced_still rfl rfl)
          intro y hy m' hm'
          simp only [List.mem_singleton] at hy
          subst hy
          cases hm'
          exact hty
        · exact step_quiet (traced_still rfl rfl)
      · exact step_quiet (traced_still rfl rfl)
    simp only at hx
    split at hx <;> rename_i hty <;> first
      | exact hver (by rw [hty]; rfl) hx
      | exact hch (by rw [hty]; rfl) hx
      | (cases hx; first | exact hl (by rw [hty]; rfl) | exact hk (by rw [hty]; rfl) | exact step_quiet hpost)

theorem traced_doUsers {clock ts : Nat} {v : EngineVersion} : ∀ (l : List Msg) (x x' : ZLoop),
    (∀ m ∈ l, ∀ w : ZWork, P ⟨ts, w.admit, m, w.st.store⟩) → c.doUsers clock v ts l x = .ok x' →
    c.Step P v (2 * l.length) x.w x'.w x.events x'.events
  | [], x, x', _, hx => by cases hx; exact step_quiet (traced_still rfl rfl)
  | m :: l, x, x', hP, hx => by
    unfold doUsers at hx
    split at hx
    · cases hx
    · rename_i y hy
      exact ((traced_doUser (hP m (by simp)) hy).trans (traced_doUsers l y x' (fun m hm => hP m (by simp [hm])) hx)).weaken (by simp; omega)

theorem traced_doSyss {v : EngineVersion} : ∀ (l : List (SysMsg F)) (w : ZWork) (es : List ZEv),
    c.Step P v l.length w (c.doSyss v l w es).1 es (c.doSyss v l w es).2
  | [], _, _ => step_quiet (traced_still rfl rfl)
  | m :: l, w, es => by
    unfold doSyss
    refine (Step.trans (k := 1) ?_ (traced_doSyss l _ _)).weaken (by simp; omega)
    refine step_plain _ ?_ ?_ ?_
    · unfold doSys
      split
      · simp
      · split
        · simp
        · simp only
          split <;> simp
    · intro x hx m' hm'
      unfold doSys at hx
      split at hx
      · cases hx
      · split at hx
        · cases hx
        · simp only at hx
          split at hx
          · simp only [List.mem_singleton] at hx
            subst hx
            cases hm'
          · cases hx
    · unfold doSys
      split
      · exact traced_still rfl rfl
      · split <;> exact traced_still rfl rfl

theorem sysOrder_length (v : EngineVersion) (l : List (SysMsg F)) : (sysOrder v l).length ≤ l.length := by
  unfold sysOrder
  split
  · exact Nat.le_of_eq (stableSort_perm l).length_eq
  · exact Nat.le_refl _

theorem traced_replay {clock ts : Nat} {v : EngineVersion} {w : ZWork} {t : ETxn F} {r : Bytes} {x : ZLoop}
    (hP : ∀ m ∈ t.user, ∀ w : ZWork, P ⟨ts, w.admit, m, w.st.store⟩)
    (hx : c.replay clock v ts w t = .ok (r, x)) : c.Step P v t.size w x.w [] x.events := by
  unfold replay at hx
  simp only at hx
  have h1 := traced_doSyss (c := c) (P := P) (v := v) (sysOrder v t.sys) w []
  split at hx
  · cases hx
  · split at hx
    · cases hx
    · split at hx
      · cases hx
      · rename_i y hy
        have h2 := h1.trans (traced_doUsers _ _ _ hP hy)
        unfold close at hx
        split at hx
        · cases hx
        · cases hx
          refine Step.weaken (h2.trans (step_quiet (k := 0) (by exact traced_still rfl rfl))) ?_
          exact Nat.add_le_add_right (sysOrder_length v t.sys) _

theorem traced_replays {v : EngineVersion} {clock ts : Nat} {claimed : Bool} :
    ∀ (l : List (ETxn F)) (w w' : ZWork) (rs : List Bytes) (es : List ZEv),
      (∀ t ∈ l, ∀ m ∈ t.user, ∀ w : ZWork, P ⟨ts, w.admit, m, w.st.store⟩) →
      c.replays clock v ts claimed l w = .ok (rs, w', es) → c.Step P v (l.map ETxn.size).sum w w' [] es
  | [], w, w', rs, es, _, hx => by cases hx; exact step_quiet (traced_still rfl rfl)
  | t :: l, w, w', rs, es, hP, hx => by
    unfold replays at hx
    split at hx
    · cases hx
    · rename_i r x hr
      split at hx
      · cases hx
      · split at hx
        · cases hx
        · rename_i rs' w2 es' hl
          cases hx
          obtain ⟨b, hb, b0, b1, b2⟩ := traced_replays l _ _ _ _ (fun t ht => hP t (by simp [ht])) hl
          simp only [List.nil_append] at hb
          subst hb
          rw [List.map_cons, List.sum_cons]
          exact (traced_replay (hP t (by simp)) hr).trans ⟨_, rfl, b0, b1, b2⟩

/-- The batch is empty. -/
def Clean (d : ZWork) : Prop := d.st.store.pend.txn = OMap.empty

theorem traced_idle {k : Nat} {d d' : ZWork} {b : ZBlock F} (hw : (c.ver b.ts).isEnabled .writeDataToShardZero = false)
    (hx : c.commit k d b = some d') : d' = d := by
  unfold commit at hx
  rw [if_neg (by rw [hw]; decide)] at hx
  cases hx; rfl

theorem traced_commit {k : Nat} {d d' : ZWork} {b : ZBlock F} (hc : Clean d)
    (hw : (c.ver b.ts).isEnabled .writeDataToShardZero = true)
    (hP : ∀ t ∈ b.txns, ∀ m ∈ t.user, ∀ w : ZWork, P ⟨b.ts, w.admit, m, w.st.store⟩)
    (hx : c.commit k d b = some d') : Clean d' ∧ ∃ hubs es,
      commitBlockEvents c.HB c.encB d.bev ⟨c.net, b.height, b.ts, c.ver b.ts⟩ hubs b.eventsHash = some (d'.bev, es) ∧
      hubs.length ≤ (b.txns.map ETxn.size).sum ∧ c.Traced P d d' (chanNews hubs) ∧ ((c.ver b.ts).isEnabled .channelMessages = false → chanNews hubs = []) := by
  unfold commit at hx
  rw [if_pos hw] at hx
  split at hx
  · cases hx
  · rename_i w hr
    unfold replayProposal at hr
    split at hr
    · cases hr
    · rename_i rs w1 es hl
      have hb := replays_bev _ _ _ _ _ hl
      have h0 : c.Traced P d (c.begin d (c.ver b.ts) b.height) [] := traced_writes rfl [] (by simp) rfl hc.symm
      obtain ⟨new, hnew, hk, h1, h1'⟩ := traced_replays _ _ _ _ _ hP hl
      simp only [List.nil_append] at hnew
      subst hnew
      have h1 := h0.trans h1
      rw [List.nil_append] at h1
      split at hr
      · cases hr
      · rename_i w2 bs he
        split at hr
        · cases hr
        · rename_i hn
          simp only [ne_eq, Decidable.not_not] at hn
          have hw2 : w2 = w := by
            split at hr
            · cases hr
            · split at hr <;> cases hr
              rfl
          subst hw2
          unfold events at he
          split at he
          · cases he
          · rename_i n hmax
            simp only at he
            split at he
            · cases he
            · rename_i t ht'
              cases he
              have hbev : w1.bev = d.bev := hb.1
              have hbp : w1.bpend = OMap.empty := hb.2
              rw [hbp] at ht'
              rw [hbev] at hmax
              unfold finish at hx
              split at hx
              · cases hx
              · cases hx
                refine ⟨rfl, es.map ZEv.hub, generateBlockEvents c.HB c.encB ⟨c.net, b.height, b.ts, c.ver b.ts⟩ n (es.map ZEv.hub),
                  ?_, by rw [List.length_map]; exact hk, ?_, h1'⟩
                · unfold commitBlockEvents
                  rw [hmax]
                  simp only [ht']
                  rw [if_neg (by simpa using hn)]
                  simp only [hbev]
                · rw [← List.append_nil (chanNews _)]
                  refine h1.trans ⟨[], [.commit], by simp, by simp, ?_, ?_, ?_, fun _ _ => rfl⟩
                  · intro o ho
                    simp only [List.mem_singleton] at ho
                    subst ho
                    exact ⟨nofun, trivial, nofun⟩
                  · intro n hn
                    show (n.exec c.caps .commit).st = _
                    unfold ChanNode.exec
                    simp only [hn]
                    rfl
                  · intro n hn pre owner m rest he
                    cases pre with
                    | nil => simp at he
                    | cons a l => simp at he

/-- Any calls: the run as C38 sees it, and the channel messages of its blocks. -/
theorem traced_run : ∀ (calls : List (ZCall F)) (d d' : ZWork), Clean d →
    (∀ ts m, PostedIn calls ts m → ∀ w : ZWork, P ⟨ts, w.admit, m, w.st.store⟩) →
    c.run calls d = some d' → Clean d' ∧ ∃ bs ess, Spec.shard0Run c.HB c.encB bs d.bev = some (d'.bev, ess) ∧
      c.Traced P d d' (bs.flatMap (fun b => chanNews b.hubs)) ∧
      (bs.map (fun b => b.hubs.length + 1)).sum ≤ ((c.dataBlocks calls).map ZBlock.size).sum ∧
      ∀ b ∈ bs, b.ctx.version = c.ver b.ctx.ts ∧ (b.ctx.version.isEnabled .channelMessages = false → chanNews b.hubs = [])
  | [], d, d', hc, _, hx => by cases hx; exact ⟨hc, [], [], rfl, traced_still rfl rfl, by simp, by simp⟩
  | x :: xs, d, d', hc, hP, hx => by
    unfold run at hx
    split at hx
    · cases hx
    · rename_i d1 h1
      have hrest := fun hc1 => traced_run xs d1 d' hc1 (fun ts m ⟨k, b, hb, h⟩ => hP ts m ⟨k, b, by simp [hb], h⟩) hx
      by_cases hcm : ∃ k b, x = .commit k b
      · obtain ⟨k, b, rfl⟩ := hcm
        simp only [step] at h1
        cases hw : (c.ver b.ts).isEnabled .writeDataToShardZero with
        | true =>
          obtain ⟨h3, hubs, es, h4, h4', h5, h6⟩ := traced_commit hc hw (fun t ht m hm => hP b.ts m ⟨k, b, by simp, rfl, t, ht, hm⟩) h1
          obtain ⟨g1, bs, ess, g2, g3, g3', g4⟩ := hrest h3
          refine ⟨g1, c.resultsOf b hubs :: bs, es :: ess, ?_, ?_, ?_, ?_⟩
          · unfold Spec.shard0Run
            simp only [resultsOf, h4, g2]
          · rw [List.flatMap_cons]
            exact h5.trans g3
          · have e : c.dataBlocks (.commit k b :: xs) = b :: c.dataBlocks xs := by simp [dataBlocks, commits, hw]
            rw [e, List.map_cons, List.map_cons, List.sum_cons, List.sum_cons]
            exact Nat.add_le_add (Nat.add_le_add_right h4' 1) g3'
          · intro y hy
            rcases List.mem_cons.1 hy with rfl | hy
            · exact ⟨rfl, h6⟩
            · exact g4 y hy
        | false =>
          obtain rfl := traced_idle hw h1
          have e : c.dataBlocks (.commit k b :: xs) = c.dataBlocks xs := by simp [dataBlocks, commits, hw]
          rw [e]
          exact hrest hc
      · have hn : ∀ k b, x ≠ .commit k b := fun k b e => hcm ⟨k, b, e⟩
        obtain ⟨g, rfl⟩ := step_same h1 hn
        obtain ⟨g1, bs, ess, g2, g3, g3', g4⟩ := hrest hc
        have e : c.dataBlocks (x :: xs) = c.dataBlocks xs := by
          cases x <;> first | rfl | exact absurd rfl (hn _ _)
        refine ⟨g1, bs, ess, g2, ?_, e ▸ g3', g4⟩
        rw [← List.nil_append (bs.flatMap _)]
        exact Traced.trans (by exact traced_writes rfl [] (by simp) rfl rfl) g3

end ZeroCfg
end Verif
