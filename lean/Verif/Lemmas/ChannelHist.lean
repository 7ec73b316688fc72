import Verif.Lemmas.ChannelAuth
/-! Reads of a channel node in terms of its record, and the moderator bound. -/
namespace Verif

variable {U : Msg → Prop} {caps : SlotCaps}

theorem node_slot {n : ChanNode} (hi : NodeInv U caps n) {s : ChanSlot} (hs : s.WF) :
    n.slot s = .ok (newestFor n.log s) := by
  have := loadSlot_inv hi.now hs
  cases s <;> exact this

theorem node_role {n : ChanNode} (hi : NodeInv U caps n) {c : Bytes} {f : Nat} (hc : c.length = 32) (hf : f < 2 ^ 32) :
    n.role c f = .ok ((newestFor n.log (.member c f)).bind stateIn) := memberState_eq hi.now hc hf

theorem node_mods {n : ChanNode} (hi : NodeInv U caps n) {c : Bytes} (hc : c.length = 32) :
    n.moderatorCounter c = .ok (nLive n.log (isMod c)) :=
  readCounter_val (hi.now.mods c hc).1 (hi.now.mods c hc).2

theorem node_slots {n : ChanNode} (hi : NodeInv U caps n) {K : ChanKind} {c key : Bytes} {cap : Nat}
    (hc : c.length = 32) (hk : K.countKey c = some key) (hcap : K.slotCap caps = some cap) :
    n.slotCounter K c = .ok (nLive n.log (inChan K c)) ∧ nLive n.log (inChan K c) ≤ cap := by
  obtain ⟨h1, h2, h3⟩ := hi.now.count K c key cap hc hk hcap
  refine ⟨?_, h2⟩
  unfold ChanNode.slotCounter slotCount
  rw [hk]
  exact readCounter_val h1 h3

/-- The occupied slots of the current messages that satisfy `p`. -/
def liveSlots (log : List Msg) (p : Msg → Bool) : List ChanSlot := ((liveLog log).filter p).filterMap Msg.chanSlot

theorem liveSlots_spec {log : List Msg} (hg : ∀ m ∈ log, ∃ s, m.chanSlot = some s) (p : Msg → Bool) :
    (liveSlots log p).Nodup ∧ (liveSlots log p).length = nLive log p ∧
      ∀ s, s ∈ liveSlots log p ↔ ∃ m, newestFor log s = some m ∧ p m = true := by
  have hmem : ∀ m ∈ liveLog log, ∃ s, m.chanSlot = some s := fun m hm =>
    hg m (List.mem_of_find?_eq_some (mem_liveLog.1 hm))
  refine ⟨?_, ?_, ?_⟩
  · unfold liveSlots List.Nodup
    rw [List.pairwise_filterMap]
    refine ((liveLog_pairwise log).sublist List.filter_sublist).imp ?_
    intro a b h s hs s' hs' e
    subst e
    exact h (hs.trans hs'.symm)
  · unfold liveSlots nLive
    rw [List.countP_eq_length_filter]
    have : ∀ l : List Msg, (∀ m ∈ l, ∃ s, m.chanSlot = some s) → (l.filterMap Msg.chanSlot).length = l.length := by
      intro l
      induction l with
      | nil => simp
      | cons a l ih =>
        intro h
        obtain ⟨s, hs⟩ := h a (List.mem_cons_self ..)
        rw [List.filterMap_cons_some hs]
        simp [ih (fun m hm => h m (List.mem_cons_of_mem _ hm))]
    exact this _ (fun m hm => hmem m (List.mem_filter.1 hm).1)
  · intro s
    unfold liveSlots
    simp only [List.mem_filterMap, List.mem_filter]
    constructor
    · rintro ⟨m, ⟨h1, h2⟩, h3⟩
      have := mem_liveLog.1 h1
      rw [h3] at this
      exact ⟨m, this, h2⟩
    · rintro ⟨m, h1, h2⟩
      obtain ⟨_, h3⟩ := newestFor_mem h1
      exact ⟨m, ⟨mem_liveLog.2 (by rw [h3]; exact h1), h2⟩, h3⟩

theorem slots_of_log {V : View} {log : List Msg} (hi : ChanInv U caps log V) : ∀ m ∈ log, ∃ s, m.chanSlot = some s :=
  fun m hm => let ⟨_, s, hg⟩ := hi.good m hm; ⟨s, hg.slot⟩

theorem newest_good {V : View} {log : List Msg} (hi : ChanInv U caps log V) {s : ChanSlot} {m : Msg}
    (h : newestFor log s = some m) : ChanGood m s := by
  obtain ⟨hm, hs⟩ := newestFor_mem h
  obtain ⟨_, s', hg⟩ := hi.good m hm
  have := hg.unique hs; subst this; exact hg

theorem isMod_iff {m : Msg} {c : Bytes} {f : Nat} (hs : m.chanSlot = some (.member c f)) :
    isMod c m = true ↔ stateIn m = some .moderator := by
  unfold isMod inChan stateIn
  rw [hs]
  simp only [ChanSlot.kind, ChanSlot.channel, decide_true, Bool.true_and, decide_eq_true_eq]
  cases memberStateForMessage m <;> simp

/-- The bound on moderators, for both records. -/
def ModBound (n : ChanNode) : Prop :=
  ∀ c : Bytes, c.length = 32 → nLive n.log (isMod c) ≤ 10 ∧ nLive n.saved (isMod c) ≤ 10

theorem modBound_init : ModBound {} := fun c _ => by simp [nLive, liveLog]

theorem modBound_step {n : ChanNode} (hi : NodeInv U caps n) (hb : ModBound n) {op : ChanOp}
    (hf : op.Fair U) (hz : op.OnShardZero) : ModBound (n.exec caps op) := by
  cases op with
  | merge K w m => exact hz.elim
  | other k v => exact hb
  | commit => exact fun c hc => ⟨(hb c hc).1, (hb c hc).1⟩
  | drop => exact fun c hc => ⟨(hb c hc).2, (hb c hc).2⟩
  | block h => exact hb
  | numbers g => exact hb
  | submit owner m =>
    intro c hc
    simp only [ChanNode.exec]
    cases hr : n.submitResult caps owner m with
    | mk r p =>
      cases r with
      | error e => exact hb c hc
      | ok e =>
        refine ⟨?_, (hb c hc).2⟩
        show nLive (m :: n.log) (isMod c) ≤ 10
        have hs : ∃ s, m.chanSlot = some s := by
          have hr' := hr
          unfold ChanNode.submitResult at hr'
          rcases submit_cases (caps := caps) (db := n.st.db) (owner := owner) (m := m) (st := n.st.pend) with ⟨K, _, h'⟩ | ⟨e', h'⟩
          · rw [h'] at hr'
            obtain ⟨s, hg, _⟩ := mergeSlot_ok hi.now hf.2 hr'
            exact ⟨s, hg.slot⟩
          · rw [h'] at hr'; cases hr'
        obtain ⟨s, hs⟩ := hs
        have hcount := nLive_cons n.log m (isMod c) hs
        have hle := (hb c hc).1
        by_cases hm : isMod c m = true
        · have hmem : ∃ f, s = .member c f := by
            unfold isMod inChan at hm
            rw [hs] at hm
            cases s <;> simp [ChanSlot.kind, ChanSlot.channel] at hm
            exact ⟨_, by rw [of_decide_eq_true hm.1]⟩
          obtain ⟨f, rfl⟩ := hmem
          obtain ⟨o, st, _, _, hst, _, hk⟩ := submit_member hi hf.2 hr hs
          have : st = .moderator := by
            have := (isMod_iff hs).1 hm
            rw [this] at hst; exact (Option.some.inj hst).symm
          obtain ⟨k, hk1, hk2⟩ := hk this
          rw [node_mods hi hc] at hk1
          cases hk1
          rw [if_pos hm] at hcount
          omega
        · rw [if_neg hm] at hcount
          omega

theorem modBound_run (hU : HashesIdentify U) (ops : List ChanOp) (hf : ∀ o ∈ ops, o.Fair U ∧ o.OnShardZero)
    {n : ChanNode} (hi : NodeInv U caps n) (hb : ModBound n) : ModBound (n.run caps ops) := by
  induction ops generalizing n with
  | nil => exact hb
  | cons o l ih =>
    have ho := hf o (List.mem_cons_self ..)
    exact ih (fun x hx => hf x (List.mem_cons_of_mem _ hx)) (node_step hU hi ho.1) (modBound_step hi hb ho.1 ho.2)

/-- What a step does to the record. -/
theorem log_step (n : ChanNode) (op : ChanOp) :
    (n.exec caps op).log = n.log ∨ (∃ m, (n.exec caps op).log = m :: n.log) ∨ op = .drop := by
  cases op with
  | submit owner m =>
    simp only [ChanNode.exec]
    cases n.submitResult caps owner m with
    | mk r p => cases r with
      | error e => exact .inl rfl
      | ok e => exact .inr (.inl ⟨m, rfl⟩)
  | merge K w m =>
    simp only [ChanNode.exec]
    cases mergeSlot K caps n.st.db w m n.st.pend with
    | mk r p => cases r with
      | error e => exact .inl rfl
      | ok e => exact .inr (.inl ⟨m, rfl⟩)
  | other k v => exact .inl rfl
  | commit => exact .inl rfl
  | drop => exact .inr (.inr rfl)
  | block h => exact .inl rfl
  | numbers g => exact .inl rfl

theorem newest_keeps {log : List Msg} {s : ChanSlot} (m : Msg) (h : (newestFor log s).isSome) :
    (newestFor (m :: log) s).isSome := by
  rw [newestFor_cons]; split <;> simp [h]

/-- Once a slot is in the committed record it stays in both records. -/
theorem saved_keeps {n : ChanNode} {s : ChanSlot} (h : (newestFor n.log s).isSome ∧ (newestFor n.saved s).isSome)
    (ops : List ChanOp) :
    (newestFor (n.run caps ops).log s).isSome ∧ (newestFor (n.run caps ops).saved s).isSome := by
  induction ops generalizing n with
  | nil => exact h
  | cons o l ih =>
    refine ih ⟨?_, ?_⟩
    · rcases log_step (caps := caps) n o with e | ⟨m, e⟩ | rfl
      · rw [e]; exact h.1
      · rw [e]; exact newest_keeps m h.1
      · exact h.2
    · cases o with
      | submit owner m =>
        simp only [ChanNode.exec, ChanNode.after]; split <;> exact h.2
      | merge K w m => simp only [ChanNode.exec, ChanNode.after]; split <;> exact h.2
      | commit => exact h.1
      | other k v => exact h.2
      | drop => exact h.2
      | block b => exact h.2
      | numbers g => exact h.2

theorem log_keeps {n : ChanNode} {s : ChanSlot} (h : (newestFor n.log s).isSome) (ops : List ChanOp)
    (hd : .drop ∉ ops) : (newestFor (n.run caps ops).log s).isSome := by
  induction ops generalizing n with
  | nil => exact h
  | cons o l ih =>
    refine ih ?_ (fun hx => hd (List.mem_cons_of_mem _ hx))
    rcases log_step (caps := caps) n o with e | ⟨m, e⟩ | rfl
    · rw [e]; exact h
    · rw [e]; exact newest_keeps m h
    · exact absurd (List.mem_cons_self ..) hd

end Verif
