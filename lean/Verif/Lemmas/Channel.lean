import Verif.Spec.Channel
import Verif.Spec.Store
import Verif.Lemmas.StoreExec
import Verif.Lemmas.Keys
/-! The channel slot stores: invariant and merge. -/
namespace Verif

/-- The row key of a slot. -/
def ChanSlot.key : ChanSlot → Bytes
  | .config c => 24 :: 1 :: c
  | .member c f => 24 :: 2 :: (c ++ be 4 f)
  | .pin c => 24 :: 3 :: c
  | .cast c h => 24 :: 4 :: (c ++ h)

theorem ChanSlot.key_inj {s s' : ChanSlot} (h : s.WF) (h' : s'.WF) (e : s.key = s'.key) : s = s' := by
  cases s <;> cases s' <;> simp [ChanSlot.key] at e <;> simp [ChanSlot.WF] at h h'
  · subst e; rfl
  · have := List.append_inj e (by omega)
    have hb := be_inj (w := 4) (by omega) (by omega) this.2
    simp [this.1, hb]
  · subst e; rfl
  · have := List.append_inj e (by omega)
    simp [this]

/-- The message row of a message in a channel store. -/
def ChanKind.prim (K : ChanKind) (m : Msg) : Bytes := makeMessagePrimaryKey m.fid K.set (some (tsh m))

/-- What a slot row holds. -/
def slotPointer (m : Msg) : SVal := .raw (be 4 m.fid ++ tsh m)

/-- What a counter row holds. -/
def counterVal (n : Nat) : Option SVal := if n = 0 then none else some (.raw (be 4 n))

/-- A message that a slot store accepts. -/
structure ChanGood (m : Msg) (s : ChanSlot) : Prop where
  slot : m.chanSlot = some s
  wf : s.WF
  ty : m.ty = s.kind.msgType
  fid : m.fid < 2 ^ 32
  ts : m.ts < 2 ^ 32
  hash : m.hash.length = 20
  valid : s.kind.validateSlot m = .ok ()

/-- The current messages, newest first. -/
def liveLog : List Msg → List Msg
  | [] => []
  | m :: log => m :: (liveLog log).filter (fun x => x.chanSlot ≠ m.chanSlot)

theorem mem_liveLog {log : List Msg} {x : Msg} : x ∈ liveLog log ↔
    log.find? (fun m => m.chanSlot = x.chanSlot) = some x := by
  induction log with
  | nil => simp [liveLog]
  | cons a l ih =>
    simp only [liveLog, List.mem_cons, List.mem_filter, List.find?_cons]
    by_cases h : a.chanSlot = x.chanSlot
    · simp [h]; exact eq_comm
    · simp only [h, decide_false, ← ih]
      constructor
      · rintro (rfl | h')
        · exact absurd rfl h
        · exact h'.1
      · intro h'; exact .inr ⟨h', by simpa using fun e => h e.symm⟩

theorem liveLog_pairwise (log : List Msg) : (liveLog log).Pairwise (fun a b => a.chanSlot ≠ b.chanSlot) := by
  induction log with
  | nil => simp [liveLog]
  | cons a l ih =>
    simp only [liveLog, List.pairwise_cons]
    refine ⟨fun x hx => ?_, ih.sublist List.filter_sublist⟩
    have := (List.mem_filter.1 hx).2
    simp at this
    exact fun e => this e.symm

/-- Leaving out the message of one slot. -/
theorem countP_without {L : List Msg} (hp : L.Pairwise (fun a b => a.chanSlot ≠ b.chanSlot)) (p : Msg → Bool)
    (o : Option ChanSlot) :
    (∀ x ∈ L, x.chanSlot = o → L.countP p = (L.filter (fun x => x.chanSlot ≠ o)).countP p + (if p x then 1 else 0)) ∧
    ((∀ x ∈ L, x.chanSlot ≠ o) → L.filter (fun x => x.chanSlot ≠ o) = L) := by
  refine ⟨?_, fun h => List.filter_eq_self.2 (by simpa using h)⟩
  induction L with
  | nil => simp
  | cons a l ih =>
    have hp' := List.pairwise_cons.1 hp
    intro x hx hxo
    rcases List.mem_cons.1 hx with rfl | hx
    · have hne : l.filter (fun y => y.chanSlot ≠ o) = l := List.filter_eq_self.2 (by
        intro y hy; have := hp'.1 y hy; rw [hxo] at this; simp; exact fun e => this e.symm)
      rw [List.filter_cons_of_neg (by simp [hxo]), hne, List.countP_cons]
    · have hne : a.chanSlot ≠ o := by rw [← hxo]; exact hp'.1 x hx
      rw [List.filter_cons_of_pos (by simp [hne]), List.countP_cons, List.countP_cons, ih hp'.2 x hx hxo]
      omega

/-- How many current messages satisfy `p`. -/
def nLive (log : List Msg) (p : Msg → Bool) : Nat := (liveLog log).countP p

theorem nLive_cons (log : List Msg) (m : Msg) (p : Msg → Bool) {s : ChanSlot} (hs : m.chanSlot = some s) :
    nLive (m :: log) p + (match newestFor log s with | some x => if p x then 1 else 0 | none => 0) =
      nLive log p + (if p m then 1 else 0) := by
  have hw := countP_without (liveLog_pairwise log) p m.chanSlot
  unfold nLive
  simp only [liveLog, List.countP_cons]
  cases hn : newestFor log s with
  | none =>
    have : ∀ x ∈ liveLog log, x.chanSlot ≠ m.chanSlot := by
      intro x hx e
      have h1 := mem_liveLog.1 hx
      rw [e, hs] at h1
      unfold newestFor at hn
      rw [hn] at h1; cases h1
    rw [hw.2 this]
    simp
  | some x =>
    unfold newestFor at hn
    have hx : x.chanSlot = some s := by simpa using List.find?_some hn
    have hx' : x ∈ liveLog log := by rw [mem_liveLog, hx]; exact hn
    have := hw.1 x hx' (by rw [hx, hs])
    simp only []
    omega

/-- The messages of a channel in one store. -/
def inChan (K : ChanKind) (c : Bytes) (m : Msg) : Bool :=
  match m.chanSlot with
  | some s => decide (s.kind = K) && decide (s.channel = c)
  | none => false

/-- The moderators of a channel. -/
def isMod (c : Bytes) (m : Msg) : Bool :=
  inChan .member c m && decide (memberStateForMessage m = .ok .moderator)

/-- The channel rows agree with the record of accepted messages. -/
structure ChanInv (U : Msg → Prop) (caps : SlotCaps) (log : List Msg) (V : View) : Prop where
  good : ∀ m ∈ log, U m ∧ ∃ s, ChanGood m s
  slot : ∀ s : ChanSlot, s.WF → V s.key = (newestFor log s).map slotPointer
  prim : ∀ s m, newestFor log s = some m → V (s.kind.prim m) = some (.msg m)
  count : ∀ (K : ChanKind) (c key : Bytes) (cap : Nat), c.length = 32 → K.countKey c = some key →
    K.slotCap caps = some cap →
    V key = counterVal (nLive log (inChan K c)) ∧ nLive log (inChan K c) ≤ cap ∧ nLive log (inChan K c) < 2 ^ 32
  mods : ∀ c : Bytes, c.length = 32 → V (moderatorCountKey c) = counterVal (nLive log (isMod c)) ∧
    nLive log (isMod c) < 2 ^ 32

theorem newestFor_mem {log : List Msg} {s : ChanSlot} {m : Msg} (h : newestFor log s = some m) :
    m ∈ log ∧ m.chanSlot = some s := by
  unfold newestFor at h
  exact ⟨List.mem_of_find?_eq_some h, by simpa using List.find?_some h⟩

theorem newestFor_cons (log : List Msg) (m : Msg) (s : ChanSlot) :
    newestFor (m :: log) s = if m.chanSlot = some s then some m else newestFor log s := by
  unfold newestFor
  rw [List.find?_cons]
  by_cases h : m.chanSlot = some s <;> simp [h]

theorem ChanGood.unique {m : Msg} {s s' : ChanSlot} (h : ChanGood m s) (h' : m.chanSlot = some s') : s = s' := by
  have := h.slot; rw [h'] at this; exact (Option.some.inj this).symm

theorem chan_set_inj {K K' : ChanKind} (h : K.set = K'.set) : K = K' := by
  cases K <;> cases K' <;> first | rfl | (exact absurd h (by decide))

theorem chan_prim_inj {K K' : ChanKind} {m m' : Msg} (h : m.fid < 2 ^ 32) (h' : m'.fid < 2 ^ 32)
    (ht : m.ts < 2 ^ 32) (ht' : m'.ts < 2 ^ 32) (e : K.prim m = K'.prim m') :
    K = K' ∧ m.fid = m'.fid ∧ m.ts = m'.ts ∧ m.hash = m'.hash := by
  unfold ChanKind.prim makeMessagePrimaryKey makeUserKey makeFidKey tsh at e
  simp only [List.cons_append, List.cons.injEq, true_and] at e
  have e1 := List.append_inj e (by simp [be_length])
  have e2 := List.cons.inj e1.2
  have e3 := List.append_inj e2.2 (by simp [be_length])
  exact ⟨chan_set_inj e2.1, be_inj (w := 4) (by omega) (by omega) e1.1, be_inj (w := 4) (by omega) (by omega) e3.1, e3.2⟩

theorem chan_prim_ne_add {K K' : ChanKind} {m m' : Msg} {x : Bytes} :
    K.prim m ≠ makeUserKey m'.fid ++ K'.adds :: x := by
  intro e
  unfold ChanKind.prim makeMessagePrimaryKey makeUserKey makeFidKey at e
  simp only [List.cons_append, List.cons.injEq, true_and] at e
  have e1 := List.append_inj e (by simp [be_length])
  have e2 := (List.cons.inj e1.2).1
  cases K <;> cases K' <;> exact absurd e2 (by decide)

theorem readCounter_val {db : Db SVal} {t : Txn SVal} {k : Bytes} {n : Nat} (h : viewOf db t k = counterVal n)
    (hn : n < 2 ^ 32) : readCounter db t k = .ok n := by
  unfold readCounter
  rw [show getFromDbOrTxn db t k = counterVal n from h]
  unfold counterVal
  by_cases h0 : n = 0
  · simp [h0]
  · simp only [h0, if_false, be_length, if_true]
    rw [fromBe_be_of_lt (by omega)]

theorem slotSuffix_good {m : Msg} {s : ChanSlot} (h : ChanGood m s) :
    ∃ x, s.kind.slotSuffix m = .ok x ∧ s.key = 24 :: s.kind.slotIndex :: x := by
  obtain ⟨f, ty, ts, hash, sg, body⟩ := m
  have hs := h.slot
  have hw := h.wf
  simp only [Msg.chanSlot] at hs
  split at hs <;> cases hs
  · exact ⟨_, rfl, rfl⟩
  · refine ⟨_, ?_, rfl⟩
    simp only [ChanSlot.kind, ChanKind.slotSuffix]
    rw [if_pos hw.2]
  · exact ⟨_, rfl, rfl⟩
  · exact ⟨_, rfl, rfl⟩

theorem loadSlot_inv {U : Msg → Prop} {caps : SlotCaps} {log : List Msg} {db : Db SVal} {t : Txn SVal}
    (hi : ChanInv U caps log (viewOf db t)) {s : ChanSlot} (hw : s.WF) :
    loadSlot s.kind db t s.key = .ok (newestFor log s) := by
  unfold loadSlot
  rw [show getFromDbOrTxn db t s.key = _ from hi.slot s hw]
  cases hn : newestFor log s with
  | none => rfl
  | some m =>
    obtain ⟨hm, hms⟩ := newestFor_mem hn
    obtain ⟨_, s', hg⟩ := hi.good m hm
    have := hg.unique hms; subst this
    simp only [Option.map_some, slotPointer, StoreDef.rawOf]
    unfold messageForSlotPointer
    have hl : (be 4 m.fid ++ tsh m).length = 28 := by simp [be_length, tsh_length hg.hash]
    rw [if_neg (by omega)]
    have h1 : (be 4 m.fid ++ tsh m).take 4 = be 4 m.fid := by simp [be_length]
    have h2 : (be 4 m.fid ++ tsh m).drop 4 = tsh m := by simp [be_length]
    rw [h1, h2, fromBe_be_of_lt (by have := hg.fid; omega)]
    rw [show getFromDbOrTxn db t (makeMessagePrimaryKey m.fid s'.kind.set (some (tsh m))) = _ from hi.prim s' m hn]
    rfl

theorem channelId_good {m : Msg} {s : ChanSlot} (h : m.chanSlot = some s) : s.kind.channelId m = .ok s.channel := by
  obtain ⟨f, ty, ts, hash, sg, body⟩ := m
  simp only [Msg.chanSlot] at h
  split at h <;> cases h <;> rfl

theorem channel_length {s : ChanSlot} (h : s.WF) : s.channel.length = 32 := by
  cases s <;> simp [ChanSlot.WF] at h <;> simp [ChanSlot.channel, h]

/-- The slot of a message a store takes. -/
theorem isMsg_slot {K : ChanKind} {m : Msg} (h : K.isMsg m = true) :
    ∃ s, m.chanSlot = some s ∧ s.kind = K ∧ m.ty = K.msgType := by
  obtain ⟨f, ty, ts, hash, sg, body⟩ := m
  simp only [ChanKind.isMsg, Bool.and_eq_true, decide_eq_true_eq] at h
  cases K <;> cases body <;> simp [ChanKind.bodyMatches] at h <;> simp [Msg.chanSlot, ChanSlot.kind, h]

theorem isMod_member {m : Msg} {s : ChanSlot} {b : Bool} (hs : m.chanSlot = some s) (h : s.kind.isLiveModerator m = .ok b) :
    isMod s.channel m = b := by
  obtain ⟨f, ty, ts, hash, sg, body⟩ := m
  unfold isMod inChan
  simp only [hs]
  simp only [Msg.chanSlot] at hs
  split at hs <;> cases hs
  · simp [ChanSlot.kind, ChanKind.isLiveModerator] at h ⊢; exact h
  · simp only [ChanSlot.kind, ChanKind.isLiveModerator] at h ⊢
    cases hm : memberStateForMessage ⟨f, ty, ts, hash, sg, _⟩ with
    | error e => rw [hm] at h; cases h
    | ok st =>
      rw [hm] at h
      simp only [Except.ok.injEq] at h
      subst h
      simp
  · simp [ChanSlot.kind, ChanKind.isLiveModerator] at h ⊢; exact h
  · simp [ChanSlot.kind, ChanKind.isLiveModerator] at h ⊢; exact h

/-- The change of the slot counter. -/
def slotCountChange (K : ChanKind) (caps : SlotCaps) (log : List Msg) (s : ChanSlot) : Option (Bytes × Nat) :=
  match newestFor log s, K.slotCap caps, K.countKey s.channel with
  | none, some _, some key => some (key, nLive log (inChan K s.channel) + 1)
  | _, _, _ => none

/-- Was the user of the slot a moderator. -/
def oldMod (log : List Msg) (s : ChanSlot) : Bool :=
  match newestFor log s with
  | some x => isMod s.channel x
  | none => false

/-- The change of the moderator counter. -/
def modCountChange (log : List Msg) (s : ChanSlot) (m : Msg) : Option (Bytes × Nat) :=
  if oldMod log s ≠ isMod s.channel m then
    some (moderatorCountKey s.channel,
      if isMod s.channel m then nLive log (isMod s.channel) + 1 else nLive log (isMod s.channel) - 1)
  else none

/-- What `merge_slot` works out. -/
theorem planSlot_ok {U : Msg → Prop} {caps : SlotCaps} {log : List Msg} {db : Db SVal} {t : Txn SVal}
    (hi : ChanInv U caps log (viewOf db t)) {K : ChanKind} {m : Msg} {p : SlotPlan}
    (h : planSlot K caps db t m = .ok p) (hf : m.fid < 2 ^ 32) (ht : m.ts < 2 ^ 32) :
    ∃ s, ChanGood m s ∧ s.kind = K ∧ p.slotKey = s.key ∧ p.tsHash = tsh m ∧ p.incumbent = newestFor log s ∧
      isIncumbent m (newestFor log s) = false ∧
      p.slotCount = slotCountChange K caps log s ∧
      (newestFor log s = none → ∀ cap key, K.slotCap caps = some cap → K.countKey s.channel = some key →
        nLive log (inChan K s.channel) < cap ∧ nLive log (inChan K s.channel) + 1 < 2 ^ 32) ∧
      p.moderatorCount = modCountChange log s m ∧
      (oldMod log s ≠ isMod s.channel m → isMod s.channel m = true → nLive log (isMod s.channel) + 1 < 2 ^ 32) := by
  unfold planSlot at h
  split at h
  · cases h
  rename_i hk
  obtain ⟨s, hs, hsk, hty⟩ := isMsg_slot (by simpa using hk)
  subst hsk
  rw [channelId_good hs] at h
  simp only [] at h
  split at h
  · cases h
  rename_i hlen
  have hlen : s.channel.length = 32 := by simpa [channelIdLength] using hlen
  split at h
  · cases h
  rename_i hval
  split at h
  · cases h
  rename_i th hth
  have hhash : m.hash.length = 20 := by
    unfold makeTsHash at hth
    split at hth
    · cases hth
    · rename_i hh; simpa using hh
  rw [makeTsHash_ok hhash] at hth
  cases hth
  split at h
  · cases h
  rename_i key hkey
  have hw : s.WF := by
    obtain ⟨f, ty, ts, hash, sg, body⟩ := m
    simp only [Msg.chanSlot] at hs
    split at hs <;> cases hs
    · exact hlen
    · refine ⟨hlen, ?_⟩
      simp only [ChanSlot.kind, ChanKind.slotKey, ChanKind.slotSuffix] at hkey
      by_cases hf' : ‹Nat› < 2 ^ 32
      · exact hf'
      · rw [if_neg hf'] at hkey; cases hkey
    · exact hlen
    · refine ⟨hlen, ?_⟩
      simp only [ChanSlot.kind, ChanKind.validateSlot] at hval
      split at hval
      · cases hval
      · cases hval
      · split at hval
        · assumption
        · cases hval
  have hg : ChanGood m s := ⟨hs, hw, hty, hf, ht, hhash, hval⟩
  obtain ⟨x, hx, hsx⟩ := slotSuffix_good hg
  have hkey' : key = s.key := by
    unfold ChanKind.slotKey at hkey
    rw [hx] at hkey
    cases hkey; exact hsx.symm
  subst hkey'
  rw [loadSlot_inv hi hw] at h
  simp only [] at h
  split at h
  · cases h
  rename_i hinc
  split at h
  · cases h
  rename_i sc hsc
  split at h
  · cases h
  rename_i mc hmc
  cases h
  refine ⟨s, hg, rfl, rfl, rfl, rfl, by simpa using hinc, ?_, ?_, ?_⟩
  · unfold nextSlotCount at hsc
    unfold slotCountChange
    split at hsc
    · rename_i cap key' hn hc hck
      rw [hn]
      have hcount := hi.count s.kind s.channel key' cap hlen hck hc
      rw [readCounter_val hcount.1 hcount.2.2] at hsc
      simp only [] at hsc
      split at hsc
      · cases hsc
      split at hsc
      · cases hsc
      cases hsc
      simp [hc, hck]
    · rename_i hno
      cases hsc
      split
      · rename_i hn hc hck
        exact absurd hck (by intro e; exact hno _ _ hn hc e)
      · rfl
  · intro hn cap key' hc hck
    unfold nextSlotCount at hsc
    rw [hn, hc, hck] at hsc
    have hcount := hi.count s.kind s.channel key' cap hlen hck hc
    simp only [readCounter_val hcount.1 hcount.2.2] at hsc
    split at hsc
    · cases hsc
    split at hsc
    · cases hsc
    omega
  · have hmods := hi.mods s.channel hlen
    unfold nextModeratorCount at hmc
    split at hmc
    · cases hmc
    rename_i old hold
    split at hmc
    · cases hmc
    rename_i new hnew
    have hnew' := isMod_member hs hnew
    have hold' : oldMod log s = old := by
      unfold oldMod
      cases hn : newestFor log s with
      | none => rw [hn] at hold; simp [wasModerator] at hold; exact hold.symm
      | some y =>
        rw [hn] at hold
        exact isMod_member (newestFor_mem hn).2 hold
    unfold modCountChange
    rw [hold', hnew']
    unfold moderatorCountStep at hmc
    by_cases hne : old ≠ new
    · rw [if_pos hne] at hmc
      rw [readCounter_val hmods.1 hmods.2] at hmc
      simp only [] at hmc
      by_cases hnw : new = true
      · rw [if_pos hnw] at hmc
        split at hmc
        · cases hmc
        cases hmc
        rw [if_pos hne, if_pos hnw]
        exact ⟨rfl, fun _ _ => by omega⟩
      · rw [if_neg hnw] at hmc
        split at hmc
        · cases hmc
        cases hmc
        rw [if_pos hne, if_neg hnw]
        exact ⟨rfl, fun _ h => absurd h hnw⟩
    · rw [if_neg hne] at hmc
      cases hmc
      simp [hne]

end Verif
