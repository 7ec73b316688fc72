import Verif.Lemmas.ChannelHist
import Verif.Case.Channel
/-!
C37: channel slots hold the most recently merged message whatever its time, are counted exactly, are
capped, are never vacated, and a rejected merge changes nothing.
-/
namespace Verif

variable {U : Msg → Prop}

/-- Every slot holds the last message accepted for it, regardless of message times. -/
theorem C37_last_writer_wins (caps : SlotCaps) (hU : HashesIdentify U) (ops : List ChanOp)
    (hf : ∀ o ∈ ops, o.Fair U) (s : ChanSlot) (hs : s.WF) :
    (ChanNode.run caps {} ops).slot s = .ok (newestFor (ChanNode.run caps {} ops).log s) :=
  node_slot (node_run hU ops hf node_init) hs

/-- An accepted message is at once what its slot holds, and no other slot changes. -/
theorem C37_accepted_takes_the_slot (caps : SlotCaps) (hU : HashesIdentify U) (ops : List ChanOp)
    (hf : ∀ o ∈ ops, o.Fair U) (K : ChanKind) (w : Bool) (m : Msg) (hm : U m ∧ m.ts < 2 ^ 32) (e : StoreEvent)
    (p : SSt) :
    let n := ChanNode.run caps {} ops
    mergeSlot K caps n.st.db w m n.st.pend = (.ok e, p) →
      ∃ s, m.chanSlot = some s ∧ s.WF ∧ s.kind = K ∧ (n.exec caps (.merge K w m)).slot s = .ok (some m) ∧
        ∀ s', s'.WF → s' ≠ s → (n.exec caps (.merge K w m)).slot s' = n.slot s' := by
  intro n h
  have hi : NodeInv U caps n := node_run hU ops hf node_init
  have hi' : NodeInv U caps (n.exec caps (.merge K w m)) := node_step hU hi hm
  obtain ⟨s, hg, hk, _⟩ := mergeSlot_ok hi.now hm.2 h
  have hlog : (n.exec caps (.merge K w m)).log = m :: n.log := by simp only [ChanNode.exec, h, ChanNode.after]
  refine ⟨s, hg.slot, hg.wf, hk, ?_, ?_⟩
  · rw [node_slot hi' hg.wf, hlog, newestFor_cons, if_pos hg.slot]
  · intro s' hs' hne
    rw [node_slot hi' hs', node_slot hi hs', hlog, newestFor_cons, if_neg]
    rw [hg.slot]; exact fun e => hne (Option.some.inj e).symm

/-- The counter of a channel is the number of its occupied slots, and at most the cap. -/
theorem C37_counted_and_capped (caps : SlotCaps) (hU : HashesIdentify U) (ops : List ChanOp)
    (hf : ∀ o ∈ ops, o.Fair U) (c : Bytes) (hc : c.length = 32) (K : ChanKind) (cap : Nat)
    (hK : (K = .member ∧ cap = caps.member) ∨ (K = .moderate ∧ cap = caps.moderate)) :
    let n := ChanNode.run caps {} ops
    ∃ l : List ChanSlot, l.Nodup ∧
      (∀ s, s ∈ l ↔ s.WF ∧ s.kind = K ∧ s.channel = c ∧ ∃ m, n.slot s = .ok (some m)) ∧
      n.slotCounter K c = .ok l.length ∧ l.length ≤ cap := by
  intro n
  have hi : NodeInv U caps n := node_run hU ops hf node_init
  obtain ⟨h1, h2, h3⟩ := liveSlots_spec (slots_of_log hi.now) (inChan K c)
  have hk : ∃ key, K.countKey c = some key ∧ K.slotCap caps = some cap := by
    rcases hK with ⟨rfl, rfl⟩ | ⟨rfl, rfl⟩ <;> exact ⟨_, rfl, rfl⟩
  obtain ⟨key, hk, hcap⟩ := hk
  obtain ⟨c1, c2⟩ := node_slots hi hc hk hcap
  refine ⟨liveSlots n.log (inChan K c), h1, ?_, by rw [h2]; exact c1, by rw [h2]; exact c2⟩
  intro s
  rw [h3]
  constructor
  · rintro ⟨m, hm, hp⟩
    have hg := newest_good hi.now hm
    rw [inChan_slot hg.slot] at hp
    simp only [Bool.and_eq_true, decide_eq_true_eq] at hp
    exact ⟨hg.wf, hp.1, hp.2, m, by rw [node_slot hi hg.wf, hm]⟩
  · rintro ⟨hw, hk', hc', m, hm⟩
    rw [node_slot hi hw] at hm
    have hm := Except.ok.inj hm
    refine ⟨m, hm, ?_⟩
    rw [inChan_slot (newestFor_mem hm).2, hk', hc']
    simp

/-- An occupied slot stays occupied as long as its batch is not dropped. -/
theorem C37_never_vacated (caps : SlotCaps) (hU : HashesIdentify U) (ops later : List ChanOp)
    (hf : ∀ o ∈ ops ++ later, o.Fair U) (s : ChanSlot) (hs : s.WF) (m : Msg)
    (h : (ChanNode.run caps {} ops).slot s = .ok (some m)) (hd : .drop ∉ later) :
    ∃ m', (ChanNode.run caps {} (ops ++ later)).slot s = .ok (some m') := by
  have hi := node_run (caps := caps) hU ops (fun o ho => hf o (List.mem_append_left _ ho)) node_init
  have hi' := node_run (caps := caps) hU (ops ++ later) hf node_init
  rw [node_slot hi hs] at h
  have hk := log_keeps (caps := caps) (n := ChanNode.run caps {} ops) (s := s) (by rw [Except.ok.inj h]; rfl) later hd
  have e : ChanNode.run caps {} (ops ++ later) = (ChanNode.run caps {} ops).run caps later := List.foldl_append ..
  rw [node_slot hi' hs, e]
  obtain ⟨m', hm'⟩ := Option.isSome_iff_exists.1 hk
  exact ⟨m', by rw [hm']⟩

/-- A committed slot stays occupied whatever happens, dropped batches included. -/
theorem C37_committed_never_vacated (caps : SlotCaps) (hU : HashesIdentify U) (ops later : List ChanOp)
    (hf : ∀ o ∈ ops ++ later, o.Fair U) (s : ChanSlot) (hs : s.WF) (m : Msg)
    (h : (ChanNode.run caps {} ops).slot s = .ok (some m)) :
    ∃ m', (ChanNode.run caps {} (ops ++ .commit :: later)).slot s = .ok (some m') := by
  have hf' : ∀ o ∈ ops ++ .commit :: later, o.Fair U := by
    intro o ho
    simp only [List.mem_append, List.mem_cons] at ho
    rcases ho with ho | rfl | ho
    · exact hf o (List.mem_append_left _ ho)
    · trivial
    · exact hf o (List.mem_append_right _ ho)
  have hi := node_run (caps := caps) hU ops (fun o ho => hf o (List.mem_append_left _ ho)) node_init
  have hi' := node_run (caps := caps) hU (ops ++ .commit :: later) hf' node_init
  rw [node_slot hi hs] at h
  have hs0 : (newestFor (ChanNode.run caps {} ops).log s).isSome := by rw [Except.ok.inj h]; rfl
  have hk := saved_keeps (caps := caps) (n := (ChanNode.run caps {} ops).exec caps .commit) (s := s) ⟨hs0, hs0⟩ later
  have e : ChanNode.run caps {} (ops ++ .commit :: later) =
      ((ChanNode.run caps {} ops).exec caps .commit).run caps later := List.foldl_append ..
  rw [node_slot hi' hs, e]
  obtain ⟨m', hm'⟩ := Option.isSome_iff_exists.1 hk.1
  exact ⟨m', by rw [hm']⟩

/-- A rejected message leaves the database and the batch as they were: no slot, counter or role changes. -/
theorem C37_rejected_changes_nothing (caps : SlotCaps) (n : ChanNode) :
    (∀ owner m e p, n.submitResult caps owner m = (.error e, p) →
      (n.exec caps (.submit owner m)).st.db = n.st.db ∧
      (n.exec caps (.submit owner m)).st.pend.txn = n.st.pend.txn ∧
      (n.exec caps (.submit owner m)).log = n.log) ∧
    (∀ K w m e p, mergeSlot K caps n.st.db w m n.st.pend = (.error e, p) →
      (n.exec caps (.merge K w m)).st.db = n.st.db ∧
      (n.exec caps (.merge K w m)).st.pend.txn = n.st.pend.txn ∧
      (n.exec caps (.merge K w m)).log = n.log) := by
  refine ⟨fun owner m e p h => ?_, fun K w m e p h => ?_⟩
  · simp only [ChanNode.exec, h, ChanNode.after]
    exact ⟨trivial, submit_error h, trivial⟩
  · simp only [ChanNode.exec, h, ChanNode.after]
    exact ⟨trivial, mergeSlot_error h, trivial⟩

/-! The case: five slots of one channel, the message of user 6 carries an older time than the ones before. -/
open ChanCase in
example : ∃ ops : List ChanOp, (∀ o ∈ ops, o.Fair known) ∧ HashesIdentify known ∧
    ((ChanNode.run {} {} ops).slotCounter .member chan).toOption = some 3 ∧
    ((ChanNode.run {} {} ops).slot (.member chan 6)).toOption = some (some join) ∧
    ((ChanNode.run {} {} ops).slot (.member chan 5)).toOption = some (some ban) :=
  ⟨submits [openUp, appoint, ban, rejoin, join], fun o ho => (submits_fair _ (by decide) o ho).1, known_ids,
    by decide +kernel, by decide +kernel, by decide +kernel⟩

/-- With room for two members the third is rejected and a known member can still change. -/
example : ((ChanNode.run ⟨2, 2⟩ {} (ChanCase.submits [ChanCase.openUp, ChanCase.appoint, ChanCase.ban, ChanCase.join,
      ChanCase.dismiss])).slotCounter .member ChanCase.chan).toOption = some 2 ∧
    ((ChanNode.run ⟨2, 2⟩ {} (ChanCase.submits [ChanCase.openUp, ChanCase.appoint, ChanCase.ban, ChanCase.join,
      ChanCase.dismiss])).slot (.member ChanCase.chan 6)).toOption = some none ∧
    ((ChanNode.run ⟨2, 2⟩ {} (ChanCase.submits [ChanCase.openUp, ChanCase.appoint, ChanCase.ban, ChanCase.join,
      ChanCase.dismiss])).slot (.member ChanCase.chan 2)).toOption = some (some ChanCase.dismiss) := by
  decide +kernel

end Verif
