import Verif.Lemmas.ChannelHist
import Verif.Case.Channel
/-!
C65: a superseded channel message cannot take effect again.  This is false: the only duplicate check
compares with the message currently in the slot, and admission never looks at message times, so anyone can
resubmit the owner's old, still validly signed message.
-/
namespace Verif

/-- The claim: once another message has taken the slot, the earlier message is never accepted again. -/
def NoChannelReplay : Prop :=
  ∀ (U : Msg → Prop) (ops : List ChanOp) (owner : Bytes → Option (Option Nat)) (m : Msg),
    HashesIdentify U → (∀ o ∈ ops, o.Fair U ∧ o.OnShardZero) → U m → m.ts < 2 ^ 32 →
    m ∈ (ChanNode.run {} {} ops).log →
    ∀ e p, (ChanNode.run {} {} ops).submitResult {} owner m ≠ (.ok e, p)

open ChanCase in
/-- The owner's old appointment, sent again after the dismissal, makes user 2 a moderator again. -/
theorem C65_replay_restores_a_dismissed_moderator :
    roles [openUp, appoint, dismiss] [2] = [some (some .member)] ∧
    roles [openUp, appoint, dismiss, appoint] [2] = [some (some .moderator)] ∧
    appoint.ts < dismiss.ts := by decide +kernel

open ChanCase in
/-- So the claim fails. -/
theorem C65_replay_protection_false : ¬ NoChannelReplay := by
  intro h
  have hok : ((ChanNode.run {} {} (submits [openUp, appoint, dismiss])).submitResult {} owner appoint).1.isOk = true := by
    decide +kernel
  have hin : appoint ∈ (ChanNode.run {} {} (submits [openUp, appoint, dismiss])).log := by decide +kernel
  have := h known (submits [openUp, appoint, dismiss]) owner appoint known_ids (submits_fair _ (by decide))
    (by unfold known; decide) (by decide) hin
  cases hr : (ChanNode.run {} {} (submits [openUp, appoint, dismiss])).submitResult {} owner appoint with
  | mk r p =>
    cases r with
    | ok e => exact this e p hr
    | error e => rw [hr] at hok; cases hok

/-- What does hold: the message that currently fills a slot is not accepted a second time. -/
theorem C65_current_message_is_rejected {U : Msg → Prop} (caps : SlotCaps) (hU : HashesIdentify U)
    (ops : List ChanOp) (hf : ∀ o ∈ ops, o.Fair U) (owner : Bytes → Option (Option Nat)) (m : Msg) (s : ChanSlot)
    (hs : s.WF) (h : (ChanNode.run caps {} ops).slot s = .ok (some m)) (e : StoreEvent) (p : SSt) :
    (ChanNode.run caps {} ops).submitResult caps owner m ≠ (.ok e, p) := by
  intro hr
  have hi := node_run (caps := caps) hU ops hf node_init
  rw [node_slot hi hs] at h
  have hm := Except.ok.inj h
  have hg := newest_good hi.now hm
  unfold ChanNode.submitResult at hr
  rcases submit_cases (caps := caps) (db := (ChanNode.run caps {} ops).st.db) (owner := owner) (m := m)
    (st := (ChanNode.run caps {} ops).st.pend) with ⟨K, _, h'⟩ | ⟨e', h'⟩
  · rw [h'] at hr
    obtain ⟨s', hg', _, hinc, _⟩ := mergeSlot_ok hi.now hg.ts hr
    have := hg'.unique hg.slot
    subst this
    rw [hm] at hinc
    simp [isIncumbent] at hinc
  · rw [h'] at hr; cases hr

end Verif
