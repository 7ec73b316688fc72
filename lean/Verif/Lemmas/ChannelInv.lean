import Verif.Lemmas.ChannelMerge
import Verif.Lemmas.StoreHist
/-! The channel invariant over histories. -/
namespace Verif

variable {U : Msg → Prop} {caps : SlotCaps}

theorem ChanInv.congr {log : List Msg} {V V' : View} (h : ChanInv U caps log V)
    (e : ∀ j, (∃ x, j = 24 :: x) ∨ (∃ K m, j = ChanKind.prim K m) → V' j = V j) : ChanInv U caps log V' where
  good := h.good
  slot := fun s hs => by rw [e _ (.inl (by cases s <;> exact ⟨_, rfl⟩))]; exact h.slot s hs
  prim := fun s m hm => by rw [e _ (.inr ⟨_, _, rfl⟩)]; exact h.prim s m hm
  count := fun K c key cap hc hk hcap => by
    rw [e _ (.inl (by cases K <;> simp [ChanKind.countKey] at hk <;> subst hk <;> exact ⟨_, rfl⟩))]
    exact h.count K c key cap hc hk hcap
  mods := fun c hc => by rw [e (moderatorCountKey c) (.inl ⟨_, rfl⟩)]; exact h.mods c hc

theorem counterVal_zero : counterVal 0 = none := rfl

theorem chan_init : ChanInv U caps [] (viewOf OMap.empty OMap.empty) where
  good := by simp
  slot := fun s _ => rfl
  prim := by simp [newestFor]
  count := fun K c key cap _ _ _ => ⟨rfl, Nat.zero_le _, by simp [nLive, liveLog]⟩
  mods := fun c _ => ⟨rfl, by simp [nLive, liveLog]⟩

theorem prim_head (K : ChanKind) (m : Msg) : ∃ x, K.prim m = 3 :: x := ⟨_, rfl⟩
theorem slotkey_head (s : ChanSlot) : ∃ x, s.key = 24 :: s.kind.slotIndex :: x := by
  cases s <;> exact ⟨_, rfl⟩

theorem countKey_eq {K : ChanKind} {c key : Bytes} (h : K.countKey c = some key) :
    (K = .member ∧ key = 24 :: 5 :: c) ∨ (K = .moderate ∧ key = 24 :: 6 :: c) := by
  cases K <;> simp [ChanKind.countKey] at h <;> subst h <;> simp

/-- The keys a merge writes. -/
theorem slotOps_keys {log : List Msg} {s : ChanSlot} {m : Msg} {id : Nat} {e : StoreEvent}
    {rows : List (Bytes × SVal)} {j : Bytes} (hold : ∀ o, newestFor log s = some o → ChanGood o s)
    (hg : ChanGood m s)
    (hr : ∀ r ∈ rows, ∃ x, r.1 = 24 :: 8 :: x)
    (h : j ∈ (slotOps caps log s m id e rows).map (·.1)) :
    (∃ f x, j = makeUserKey f ++ s.kind.adds :: x) ∨ (∃ o, newestFor log s = some o ∧ j = s.kind.prim o) ∨
    j = s.key ∨ (∃ n, slotCountChange s.kind caps log s = some (j, n)) ∨ (∃ n, modCountChange log s m = some (j, n)) ∨
    j = s.kind.prim m ∨ (∃ x, j = 9 :: x) ∨ (∃ x, j = 24 :: 8 :: x) := by
  simp only [slotOps, List.map_append, List.map_cons, List.mem_append, List.mem_cons] at h
  rcases h with h | h | h | h | h | h | h | h
  · cases hn : newestFor log s with
    | none => rw [hn] at h; simp [oldOps] at h
    | some o =>
      rw [hn] at h
      simp [oldOps] at h
      rcases h with h | h
      · obtain ⟨x, hx⟩ := authorKey_good (hold o hn)
        exact .inl ⟨_, x, h.trans hx⟩
      · exact .inr (.inl ⟨o, rfl, h⟩)
  · exact .inr (.inr (.inl h))
  · cases hc : slotCountChange s.kind caps log s with
    | none => rw [hc] at h; simp [cntOps] at h
    | some p => rw [hc] at h; simp [cntOps] at h; exact .inr (.inr (.inr (.inl ⟨p.2, by rw [h]⟩)))
  · cases hc : modCountChange log s m with
    | none => rw [hc] at h; simp [modOps] at h
    | some p => rw [hc] at h; simp [modOps] at h; exact .inr (.inr (.inr (.inr (.inl ⟨p.2, by rw [h]⟩))))
  · exact .inr (.inr (.inr (.inr (.inr (.inl h)))))
  · obtain ⟨x, hx⟩ := authorKey_good hg
    exact .inl ⟨_, x, h.trans hx⟩
  · exact .inr (.inr (.inr (.inr (.inr (.inr (.inl ⟨_, h⟩))))))
  · simp only [puts, List.map_map, List.mem_map, Function.comp] at h
    obtain ⟨r, hrm, rfl⟩ := h
    exact .inr (.inr (.inr (.inr (.inr (.inr (.inr (hr r hrm)))))))

theorem slotCountChange_key {K : ChanKind} {log : List Msg} {s : ChanSlot} {j : Bytes} {n : Nat}
    (h : slotCountChange K caps log s = some (j, n)) :
    K.countKey s.channel = some j ∧ newestFor log s = none ∧ n = nLive log (inChan K s.channel) + 1 := by
  unfold slotCountChange at h
  split at h
  · rename_i h1 h2 h3; simp at h; exact ⟨by rw [h3, h.1], h1, h.2.symm⟩
  · cases h

theorem modCountChange_key {log : List Msg} {s : ChanSlot} {m : Msg} {j : Bytes} {n : Nat}
    (h : modCountChange log s m = some (j, n)) : j = moderatorCountKey s.channel := by
  unfold modCountChange at h
  split at h
  · simp at h; exact h.1.symm
  · cases h

theorem inChan_slot {m : Msg} {s : ChanSlot} (hs : m.chanSlot = some s) (K : ChanKind) (c : Bytes) :
    inChan K c m = (decide (s.kind = K) && decide (s.channel = c)) := by
  simp [inChan, hs]

theorem isMod_other {m : Msg} {s : ChanSlot} (hs : m.chanSlot = some s) {c : Bytes} (h : s.channel ≠ c) :
    isMod c m = false := by
  simp [isMod, inChan_slot hs, h]

theorem isMod_kind {m : Msg} {s : ChanSlot} (hs : m.chanSlot = some s) {c : Bytes} (h : s.kind ≠ .member) :
    isMod c m = false := by
  simp [isMod, inChan_slot hs, h]

/-- A successful merge keeps the invariant. -/
theorem chan_merge (hU : HashesIdentify U) {log : List Msg} {db : Db SVal} {st st' : SSt}
    (hi : ChanInv U caps log (viewOf db st.txn)) {K : ChanKind} {w : Bool} {m : Msg} {e : StoreEvent}
    (hm : U m) (ht : m.ts < 2 ^ 32) (h : mergeSlot K caps db w m st = (.ok e, st')) :
    ChanInv U caps (m :: log) (viewOf db st'.txn) := by
  obtain ⟨s, hg, hk, hinc, hcap, hmod, id, rows, hrows, hview⟩ := mergeSlot_ok hi ht h
  subst hk
  have hold : ∀ o, newestFor log s = some o → ChanGood o s := by
    intro o ho
    obtain ⟨hm, hs⟩ := newestFor_mem ho
    obtain ⟨_, s', hg'⟩ := hi.good o hm
    have := hg'.unique hs; subst this; exact hg'
  have hkeys := fun j => slotOps_keys (caps := caps) (id := id) (e := e) (j := j) hold hg hrows
  have hne : ∀ j, j ∉ (slotOps caps log s m id e rows).map (·.1) → viewOf db st'.txn j = viewOf db st.txn j :=
    fun j hj => by rw [hview, view_notin _ _ _ _ hj]
  have hadds : ∀ x f y, (24 :: x : Bytes) ≠ makeUserKey f ++ s.kind.adds :: y := by
    intro x f y; simp [makeUserKey]
  have hpr : ∀ (x : Bytes) (K : ChanKind) (y : Msg), (24 :: x : Bytes) ≠ K.prim y := by
    intro x K y; obtain ⟨z, hz⟩ := prim_head K y; rw [hz]; simp
  constructor
  · intro x hx
    rcases List.mem_cons.1 hx with rfl | hx
    · exact ⟨hm, s, hg⟩
    · exact hi.good x hx
  · intro s' hs'
    rw [newestFor_cons]
    by_cases hss : s = s'
    · subst hss
      rw [if_pos hg.slot, hview]
      unfold slotOps
      rw [view_last]
      · rfl
      · intro hj
        have hj : s.key ∈ (cntOps (slotCountChange s.kind caps log s)).map (·.1) ∨
            s.key ∈ (modOps (modCountChange log s m)).map (·.1) ∨ s.key = s.kind.prim m ∨ s.key = s.kind.authorKey m ∨
            s.key = eventKey id ∨ s.key ∈ (puts rows).map (·.1) := by
          simpa only [List.map_append, List.map_cons, List.mem_append, List.mem_cons] using hj
        obtain ⟨x, hx⟩ := slotkey_head s
        rcases hj with hj | hj | hj | hj | hj | hj
        · cases hc : slotCountChange s.kind caps log s with
          | none => rw [hc] at hj; simp [cntOps] at hj
          | some p =>
            rw [hc] at hj; simp [cntOps] at hj
            have := (slotCountChange_key (show _ = some (p.1, p.2) from hc)).1
            rw [← hj, hx] at this
            rcases countKey_eq this with ⟨hk, h2⟩ | ⟨hk, h2⟩ <;> rw [hk] at h2 <;> simp [ChanKind.slotIndex] at h2
        · cases hc : modCountChange log s m with
          | none => rw [hc] at hj; simp [modOps] at hj
          | some p =>
            rw [hc] at hj; simp [modOps] at hj
            have := modCountChange_key (show _ = some (p.1, p.2) from hc)
            rw [← hj, hx] at this
            cases hsk : s.kind <;> rw [hsk] at this <;> simp [moderatorCountKey, ChanKind.slotIndex] at this
        · rw [hx] at hj; exact hpr _ _ _ hj
        · obtain ⟨y, hy⟩ := authorKey_good hg
          rw [hx, hy] at hj; exact hadds _ _ _ hj
        · rw [hx] at hj; simp [eventKey] at hj
        · simp only [puts, List.map_map, List.mem_map, Function.comp] at hj
          obtain ⟨r, hrm, hr⟩ := hj
          obtain ⟨y, hy⟩ := hrows r hrm
          rw [hy, hx] at hr
          cases hsk : s.kind <;> rw [hsk] at hr <;> simp [ChanKind.slotIndex] at hr
    · have : m.chanSlot ≠ some s' := by rw [hg.slot]; simpa using hss
      rw [if_neg this, hne _ ?_, hi.slot s' hs']
      intro hj
      obtain ⟨x, hx⟩ := slotkey_head s'
      rcases hkeys _ hj with ⟨f, y, h1⟩ | ⟨o, _, h1⟩ | h1 | ⟨n, h1⟩ | ⟨n, h1⟩ | h1 | ⟨y, h1⟩ | ⟨y, h1⟩
      · rw [hx] at h1; exact hadds _ _ _ h1
      · rw [hx] at h1; exact hpr _ _ _ h1
      · exact hss (ChanSlot.key_inj hg.wf hs' h1.symm)
      · have := (slotCountChange_key h1).1
        rw [hx] at this
        rcases countKey_eq this with ⟨_, h2⟩ | ⟨_, h2⟩ <;>
          (cases hsk : s'.kind <;> rw [hsk] at h2 <;> simp [ChanKind.slotIndex] at h2)
      · have := modCountChange_key h1
        rw [hx] at this
        cases hsk : s'.kind <;> rw [hsk] at this <;> simp [moderatorCountKey, ChanKind.slotIndex] at this
      · rw [hx] at h1; exact hpr _ _ _ h1
      · rw [hx] at h1; simp at h1
      · rw [hx] at h1
        cases hsk : s'.kind <;> rw [hsk] at h1 <;> simp [ChanKind.slotIndex] at h1
  · intro s' m' hm'
    rw [newestFor_cons] at hm'
    by_cases hss : m.chanSlot = some s'
    · rw [if_pos hss] at hm'
      cases hm'
      have := hg.unique hss; subst this
      rw [hview]
      have hsplit : slotOps caps log s m id e rows = (oldOps s.kind (newestFor log s) ++ ((s.key, some (slotPointer m)) ::
          (cntOps (slotCountChange s.kind caps log s) ++ modOps (modCountChange log s m)))) ++
          (s.kind.prim m, some (.msg m)) :: ((s.kind.authorKey m, some (.raw (tsh m))) ::
            (eventKey id, some (.event id e)) :: puts rows) := by simp [slotOps]
      rw [hsplit, view_last]
      intro hj
      simp only [List.map_cons, List.mem_cons] at hj
      rcases hj with hj | hj | hj
      · obtain ⟨y, hy⟩ := authorKey_good hg
        rw [hy] at hj; exact chan_prim_ne_add hj
      · obtain ⟨z, hz⟩ := prim_head s.kind m
        rw [hz] at hj; simp [eventKey] at hj
      · simp only [puts, List.map_map, List.mem_map, Function.comp] at hj
        obtain ⟨r, hrm, hr⟩ := hj
        obtain ⟨y, hy⟩ := hrows r hrm
        rw [hy] at hr; exact hpr _ _ _ hr
    · rw [if_neg hss] at hm'
      have hs' := newestFor_mem hm'
      obtain ⟨hUm', s'', hg'⟩ := hi.good m' hs'.1
      have := hg'.unique hs'.2; subst this
      rw [hne _ ?_, hi.prim _ _ hm']
      intro hj
      have hp : ∀ x, U x → ChanGood x s → s''.kind.prim m' = s.kind.prim x → False := by
        intro x hUx hgx ex
        obtain ⟨_, e1, e2, e3⟩ := chan_prim_inj hg'.fid hgx.fid hg'.ts hgx.ts ex
        have := hU m' x hUm' hUx e1 e2 e3
        subst this
        exact hss (by rw [hg.slot, ← hgx.slot]; exact hg'.slot)
      obtain ⟨z, hz⟩ := prim_head s''.kind m'
      rcases hkeys _ hj with ⟨f, y, h1⟩ | ⟨o, ho, h1⟩ | h1 | ⟨n, h1⟩ | ⟨n, h1⟩ | h1 | ⟨y, h1⟩ | ⟨y, h1⟩
      · exact chan_prim_ne_add (m' := ⟨f, m.ty, m.ts, m.hash, m.signer, m.body⟩) h1
      · exact hp o (hi.good o (newestFor_mem ho).1).1 (hold o ho) h1
      · obtain ⟨x, hx⟩ := slotkey_head s
        rw [hx] at h1; exact hpr _ _ _ h1.symm
      · rcases countKey_eq (slotCountChange_key h1).1 with ⟨_, h2⟩ | ⟨_, h2⟩ <;> exact hpr _ _ _ h2.symm
      · exact hpr _ _ _ (modCountChange_key h1).symm
      · exact hp m hm hg h1
      · rw [hz] at h1; simp at h1
      · rw [hz] at h1; simp at h1
  · intro K c key cap hc hk hcp
    have hcount := hi.count K c key cap hc hk hcp
    have hn := nLive_cons log m (inChan K c) hg.slot
    rw [inChan_slot hg.slot] at hn
    obtain ⟨y, hy⟩ : ∃ y, key = 24 :: y := by
      rcases countKey_eq hk with ⟨_, h2⟩ | ⟨_, h2⟩ <;> exact ⟨_, h2⟩
    cases hsc : slotCountChange s.kind caps log s with
    | some p =>
      obtain ⟨k1, n1⟩ := p
      obtain ⟨hck, hnone, hn1⟩ := slotCountChange_key hsc
      rw [hnone] at hn
      by_cases hkk : k1 = key
      · subst hkk
        have hKc : s.kind = K ∧ s.channel = c := by
          rcases countKey_eq hk with ⟨h1, h2⟩ | ⟨h1, h2⟩ <;> rcases countKey_eq hck with ⟨h3, h4⟩ | ⟨h3, h4⟩ <;>
            rw [h2] at h4 <;> simp at h4
          · exact ⟨h3.trans h1.symm, h4.symm⟩
          · exact ⟨h3.trans h1.symm, h4.symm⟩
        obtain ⟨rfl, rfl⟩ := hKc
        simp only [decide_true, Bool.and_self, if_true, Nat.add_zero] at hn
        have hb := hcap hnone cap k1 hcp hk
        rw [hn]
        refine ⟨?_, by omega, by omega⟩
        rw [hview]
        have hsplit : slotOps caps log s m id e rows = (oldOps s.kind (newestFor log s) ++ [(s.key, some (slotPointer m))]) ++
            ((k1, some (.raw (be 4 n1))) ::
              (modOps (modCountChange log s m) ++ ((s.kind.prim m, some (.msg m)) :: (s.kind.authorKey m, some (.raw (tsh m))) ::
              (eventKey id, some (.event id e)) :: puts rows))) := by
          unfold slotOps; rw [hsc]; simp [cntOps]
        rw [hsplit, view_last]
        · unfold counterVal; rw [if_neg (by omega), hn1]
        · intro hj
          simp only [List.map_append, List.map_cons, List.mem_append, List.mem_cons] at hj
          rcases hj with hj | hj | hj | hj | hj
          · cases hmc : modCountChange log s m with
            | none => rw [hmc] at hj; simp [modOps] at hj
            | some p =>
              rw [hmc] at hj; simp [modOps] at hj
              have := modCountChange_key (show _ = some (p.1, p.2) from hmc)
              rw [← hj] at this
              rcases countKey_eq hk with ⟨_, h2⟩ | ⟨_, h2⟩ <;> rw [h2] at this <;> simp [moderatorCountKey] at this
          · rw [hy] at hj; exact hpr _ _ _ hj
          · obtain ⟨z, hz⟩ := authorKey_good hg
            rw [hy, hz] at hj; exact hadds _ _ _ hj
          · rw [hy] at hj; simp [eventKey] at hj
          · simp only [puts, List.map_map, List.mem_map, Function.comp] at hj
            obtain ⟨r, hrm, hr⟩ := hj
            obtain ⟨z, hz⟩ := hrows r hrm
            rw [hz] at hr
            rcases countKey_eq hk with ⟨_, h2⟩ | ⟨_, h2⟩ <;> rw [h2] at hr <;> simp at hr
      · have hKc : ¬ (s.kind = K ∧ s.channel = c) := by
          rintro ⟨rfl, rfl⟩
          rw [hk] at hck; exact hkk (Option.some.inj hck).symm
        have hd : (decide (s.kind = K) && decide (s.channel = c)) = false := by
          simpa using fun h h' => hKc ⟨h, h'⟩
        rw [hd] at hn
        simp only [Nat.add_zero] at hn
        rw [hn, hne _ ?_]
        · exact hcount
        · intro hj
          rcases hkeys _ hj with ⟨f, z, h1⟩ | ⟨o, _, h1⟩ | h1 | ⟨n, h1⟩ | ⟨n, h1⟩ | h1 | ⟨z, h1⟩ | ⟨z, h1⟩
          · rw [hy] at h1; exact hadds _ _ _ h1
          · rw [hy] at h1; exact hpr _ _ _ h1
          · obtain ⟨x, hx⟩ := slotkey_head s
            rw [hx] at h1
            rcases countKey_eq hk with ⟨_, h2⟩ | ⟨_, h2⟩ <;> rw [h2] at h1 <;>
              (cases hsk : s.kind <;> rw [hsk] at h1 <;> simp [ChanKind.slotIndex] at h1)
          · rw [hsc] at h1; simp at h1; exact hkk h1.1
          · have := modCountChange_key h1
            rcases countKey_eq hk with ⟨_, h2⟩ | ⟨_, h2⟩ <;> rw [h2] at this <;> simp [moderatorCountKey] at this
          · rw [hy] at h1; exact hpr _ _ _ h1
          · rw [hy] at h1; simp at h1
          · rcases countKey_eq hk with ⟨_, h2⟩ | ⟨_, h2⟩ <;> rw [h2] at h1 <;> simp at h1
    | none =>
      have hn' : nLive (m :: log) (inChan K c) = nLive log (inChan K c) := by
        cases hnw : newestFor log s with
        | some o =>
          rw [hnw] at hn
          simp only [inChan_slot (newestFor_mem hnw).2] at hn
          omega
        | none =>
          rw [hnw] at hn
          have hd : (decide (s.kind = K) && decide (s.channel = c)) = false := by
            simp only [Bool.and_eq_false_iff, decide_eq_false_iff_not]
            by_cases h1 : s.kind = K
            · right; rintro rfl
              subst h1
              unfold slotCountChange at hsc
              rw [hnw, hcp, hk] at hsc
              cases hsc
            · exact .inl h1
          rw [hd] at hn
          simpa using hn
      rw [hn', hne _ ?_]
      · exact hcount
      · intro hj
        rcases hkeys _ hj with ⟨f, z, h1⟩ | ⟨o, _, h1⟩ | h1 | ⟨n, h1⟩ | ⟨n, h1⟩ | h1 | ⟨z, h1⟩ | ⟨z, h1⟩
        · rw [hy] at h1; exact hadds _ _ _ h1
        · rw [hy] at h1; exact hpr _ _ _ h1
        · obtain ⟨x, hx⟩ := slotkey_head s
          rw [hx] at h1
          rcases countKey_eq hk with ⟨_, h2⟩ | ⟨_, h2⟩ <;> rw [h2] at h1 <;>
            (cases hsk : s.kind <;> rw [hsk] at h1 <;> simp [ChanKind.slotIndex] at h1)
        · rw [hsc] at h1; cases h1
        · have := modCountChange_key h1
          rcases countKey_eq hk with ⟨_, h2⟩ | ⟨_, h2⟩ <;> rw [h2] at this <;> simp [moderatorCountKey] at this
        · rw [hy] at h1; exact hpr _ _ _ h1
        · rw [hy] at h1; simp at h1
        · rcases countKey_eq hk with ⟨_, h2⟩ | ⟨_, h2⟩ <;> rw [h2] at h1 <;> simp at h1
  · intro c hc
    have hmods := hi.mods c hc
    have hn := nLive_cons log m (isMod c) hg.slot
    have hnotin : (∀ n, modCountChange log s m ≠ some (moderatorCountKey c, n)) →
        viewOf db st'.txn (moderatorCountKey c) = viewOf db st.txn (moderatorCountKey c) := by
      intro hno
      refine hne _ (fun hj => ?_)
      rcases hkeys _ hj with ⟨f, z, h1⟩ | ⟨o, _, h1⟩ | h1 | ⟨n, h1⟩ | ⟨n, h1⟩ | h1 | ⟨z, h1⟩ | ⟨z, h1⟩
      · exact hadds _ _ _ h1
      · exact hpr _ _ _ h1
      · obtain ⟨x, hx⟩ := slotkey_head s
        rw [hx] at h1
        cases hsk : s.kind <;> rw [hsk] at h1 <;> simp [ChanKind.slotIndex, moderatorCountKey] at h1
      · rcases countKey_eq (slotCountChange_key h1).1 with ⟨_, h2⟩ | ⟨_, h2⟩ <;> simp [moderatorCountKey] at h2
      · exact hno n h1
      · exact hpr _ _ _ h1
      · simp [moderatorCountKey] at h1
      · simp [moderatorCountKey] at h1
    by_cases hcc : s.channel = c
    · subst hcc
      have hn : nLive (m :: log) (isMod s.channel) + (if oldMod log s then 1 else 0) =
          nLive log (isMod s.channel) + (if isMod s.channel m then 1 else 0) := by
        rw [← hn]; unfold oldMod
        cases newestFor log s <;> simp
      by_cases hch : oldMod log s = isMod s.channel m
      · have hmc : modCountChange log s m = none := by unfold modCountChange; rw [if_neg (by simpa using hch)]
        rw [hnotin (by rw [hmc]; simp)]
        rw [hch] at hn
        have : nLive (m :: log) (isMod s.channel) = nLive log (isMod s.channel) := by omega
        rw [this]; exact hmods
      · have hmc : modCountChange log s m = some (moderatorCountKey s.channel,
            if isMod s.channel m then nLive log (isMod s.channel) + 1 else nLive log (isMod s.channel) - 1) := by
          unfold modCountChange; rw [if_pos hch]
        have hval : (if isMod s.channel m then nLive log (isMod s.channel) + 1 else nLive log (isMod s.channel) - 1) =
            nLive (m :: log) (isMod s.channel) := by
          cases hb : isMod s.channel m <;> rw [hb] at hn hch <;> simp at hch <;> rw [hch] at hn <;> simp at hn ⊢ <;> omega
        rw [hval] at hmc
        refine ⟨?_, ?_⟩
        · rw [hview]
          have hsplit : slotOps caps log s m id e rows = (oldOps s.kind (newestFor log s) ++ (s.key, some (slotPointer m)) ::
              cntOps (slotCountChange s.kind caps log s)) ++
              ((moderatorCountKey s.channel, counterVal (nLive (m :: log) (isMod s.channel))) ::
                ((s.kind.prim m, some (.msg m)) :: (s.kind.authorKey m, some (.raw (tsh m))) ::
                (eventKey id, some (.event id e)) :: puts rows)) := by
            unfold slotOps; rw [hmc]; simp [modOps]
          rw [hsplit, view_last]
          intro hj
          simp only [List.map_cons, List.mem_cons] at hj
          rcases hj with hj | hj | hj | hj
          · exact hpr _ _ _ hj
          · obtain ⟨z, hz⟩ := authorKey_good hg
            rw [hz] at hj; exact hadds _ _ _ hj
          · simp [eventKey, moderatorCountKey] at hj
          · simp only [puts, List.map_map, List.mem_map, Function.comp] at hj
            obtain ⟨r, hrm, hr⟩ := hj
            obtain ⟨z, hz⟩ := hrows r hrm
            rw [hz] at hr; simp [moderatorCountKey] at hr
        · have := hmod hch
          have := hmods.2
          cases hb : isMod s.channel m <;> rw [hb] at hn <;> simp_all <;> omega
    · rw [hnotin (by
        intro n hn'
        have := modCountChange_key hn'
        simp [moderatorCountKey] at this
        exact hcc this.symm)]
      have e1 : isMod c m = false := isMod_other hg.slot hcc
      rw [e1] at hn
      have : nLive (m :: log) (isMod c) = nLive log (isMod c) := by
        cases hnw : newestFor log s with
        | none => rw [hnw] at hn; simpa using hn
        | some o =>
          rw [hnw] at hn
          simp only [isMod_other (newestFor_mem hnw).2 hcc] at hn
          simpa using hn
      rw [this]; exact hmods

/-- The invariant of a node: pending and committed rows agree with their records. -/
structure NodeInv (U : Msg → Prop) (caps : SlotCaps) (n : ChanNode) : Prop where
  now : ChanInv U caps n.log (viewOf n.st.db n.st.pend.txn)
  saved : ChanInv U caps n.saved (viewOf n.st.db OMap.empty)

theorem node_init : NodeInv U caps {} := ⟨chan_init, chan_init⟩

theorem submit_cases {caps : SlotCaps} {db : Db SVal} {owner : Bytes → Option (Option Nat)} {m : Msg} {st : SSt} :
    (∃ K, validateChannel db st.txn owner m = .ok K ∧ submitChannel caps db owner m st = mergeSlot K caps db true m st) ∨
    (∃ e, submitChannel caps db owner m st = (.error e, st)) := by
  unfold submitChannel
  cases h : validateChannel db st.txn owner m with
  | error e => exact .inr ⟨e, rfl⟩
  | ok K => exact .inl ⟨K, rfl, rfl⟩

theorem submit_error {db : Db SVal} {owner : Bytes → Option (Option Nat)} {m : Msg} {st st' : SSt} {e : HubErr}
    (h : submitChannel caps db owner m st = (.error e, st')) : st'.txn = st.txn := by
  rcases submit_cases (caps := caps) (db := db) (owner := owner) (m := m) (st := st) with ⟨K, _, h'⟩ | ⟨e', h'⟩
  · rw [h'] at h; exact mergeSlot_error h
  · rw [h'] at h; cases h; rfl

theorem foreign_ne {k : Bytes} (h : ForeignKey k) {j : Bytes} (hj : (∃ x, j = 24 :: x) ∨ (∃ K m, j = ChanKind.prim K m)) :
    j ≠ k := by
  rintro rfl
  rcases hj with ⟨x, rfl⟩ | ⟨K, m, rfl⟩
  · exact h.1 rfl
  · have h2 := h.2 rfl
    have h5 : (K.prim m)[5]? = some K.set := by
      unfold ChanKind.prim makeMessagePrimaryKey makeUserKey makeFidKey
      simp [List.getElem?_append, be_length]
    rw [h5] at h2
    cases K <;> simp [ChanKind.set] at h2

/-- Every step keeps the invariant. -/
theorem node_step (hU : HashesIdentify U) {n : ChanNode} (hi : NodeInv U caps n) {op : ChanOp} (hf : op.Fair U) :
    NodeInv U caps (n.exec caps op) := by
  cases op with
  | submit owner m =>
    refine ⟨?_, ?_⟩
    · show ChanInv U caps (ChanNode.after n m (submitChannel caps n.st.db owner m n.st.pend)).log
        (viewOf (ChanNode.after n m (submitChannel caps n.st.db owner m n.st.pend)).st.db
          (ChanNode.after n m (submitChannel caps n.st.db owner m n.st.pend)).st.pend.txn)
      cases hr : submitChannel caps n.st.db owner m n.st.pend with
      | mk r p =>
        cases r with
        | error e =>
          simp only [ChanNode.after]
          rw [submit_error hr]; exact hi.now
        | ok e =>
          simp only [ChanNode.after]
          rcases submit_cases (caps := caps) (db := n.st.db) (owner := owner) (m := m) (st := n.st.pend) with ⟨K, _, h'⟩ | ⟨e', h'⟩
          · rw [h'] at hr
            exact chan_merge hU hi.now hf.1 hf.2 hr
          · rw [h'] at hr; cases hr
    · simp only [ChanNode.exec, ChanNode.after, ChanNode.submitResult]
      split <;> exact hi.saved
  | merge K w m =>
    refine ⟨?_, ?_⟩
    · show ChanInv U caps (ChanNode.after n m (mergeSlot K caps n.st.db w m n.st.pend)).log
        (viewOf (ChanNode.after n m (mergeSlot K caps n.st.db w m n.st.pend)).st.db
          (ChanNode.after n m (mergeSlot K caps n.st.db w m n.st.pend)).st.pend.txn)
      cases hr : mergeSlot K caps n.st.db w m n.st.pend with
      | mk r p =>
        cases r with
        | error e =>
          simp only [ChanNode.after]
          rw [mergeSlot_error hr]; exact hi.now
        | ok e =>
          simp only [ChanNode.after]
          exact chan_merge hU hi.now hf.1 hf.2 hr
    · simp only [ChanNode.exec, ChanNode.after]
      split <;> exact hi.saved
  | other k v =>
    refine ⟨hi.now.congr (fun j hj => ?_), hi.saved⟩
    show viewOf n.st.db (OMap.put n.st.pend.txn k v) j = _
    rw [view_stage_one, if_neg (foreign_ne hf hj)]
  | commit =>
    have he : ∀ j, viewOf (Db.commit n.st.db n.st.pend.txn) OMap.empty j = viewOf n.st.db n.st.pend.txn j := by
      intro j
      show (Db.commit n.st.db n.st.pend.txn).get j = _
      rw [Db.get_commit]; rfl
    exact ⟨hi.now.congr (fun j _ => he j), hi.now.congr (fun j _ => he j)⟩
  | drop => exact ⟨hi.saved, hi.saved⟩
  | block h => exact ⟨hi.now, hi.saved⟩
  | numbers g => exact ⟨hi.now, hi.saved⟩

theorem node_run (hU : HashesIdentify U) (ops : List ChanOp) (hf : ∀ o ∈ ops, o.Fair U) {n : ChanNode}
    (hi : NodeInv U caps n) : NodeInv U caps (n.run caps ops) := by
  induction ops generalizing n with
  | nil => exact hi
  | cons o l ih =>
    exact ih (fun x hx => hf x (List.mem_cons_of_mem _ hx)) (node_step hU hi (hf o (List.mem_cons_self ..)))

end Verif
