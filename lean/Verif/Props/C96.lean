import Verif.Lemmas.ZeroChannels
import Verif.Spec.ZeroChannels
import Verif.Props.C35
import Verif.Props.C36
import Verif.Props.C37
import Verif.Props.C93
/-!
C96: on shard 0, whatever blocks proposers make, channels change only by those who may change them, and the limits hold.
-/
namespace Verif
open Spec ZeroCfg

theorem exec_log_calm {caps : SlotCaps} {n : ChanNode} {o : ChanOp} (ho : o.Calm) (hs : ∀ owner m, o ≠ .submit owner m) :
    (n.exec caps o).log = n.log := by
  cases o with
  | submit owner m => exact absurd rfl (hs _ _)
  | merge K w m => exact ho.2.1.elim
  | drop => exact absurd rfl ho.2.2
  | other k v => rfl
  | commit => rfl
  | block h => rfl
  | numbers g => rfl

/-- The message that last changed what is observed. -/
theorem last_change {α : Type} {U : Msg → Prop} {caps : SlotCaps} (hU : HashesIdentify U) (f : ChanNode → α)
    (hinv : ∀ n n', NodeInv U caps n → NodeInv U caps n' → n.log = n'.log → f n = f n') :
    ∀ (later ops : List ChanOp), (∀ o ∈ ops ++ later, o.Fair U) → (∀ o ∈ later, o.Calm) →
      f (ChanNode.run caps {} ops) ≠ f (ChanNode.run caps {} (ops ++ later)) →
      ∃ pre owner m rest, later = pre ++ .submit owner m :: rest ∧
        f (ChanNode.run caps {} (ops ++ pre)) ≠ f ((ChanNode.run caps {} (ops ++ pre)).exec caps (.submit owner m)) ∧
        f ((ChanNode.run caps {} (ops ++ pre)).exec caps (.submit owner m)) = f (ChanNode.run caps {} (ops ++ later))
  | [], ops, _, _, hne => by rw [List.append_nil] at hne; exact absurd rfl hne
  | o :: l, ops, hf, hc, hne => by
    have hrun : ChanNode.run caps {} (ops ++ [o]) = (ChanNode.run caps {} ops).exec caps o := by
      unfold ChanNode.run; rw [List.foldl_append]; rfl
    have hassoc : ops ++ o :: l = (ops ++ [o]) ++ l := by simp
    by_cases he : f (ChanNode.run caps {} (ops ++ [o])) = f (ChanNode.run caps {} (ops ++ o :: l))
    · by_cases hs : ∃ owner m, o = .submit owner m
      · obtain ⟨owner, m, rfl⟩ := hs
        refine ⟨[], owner, m, l, rfl, ?_, ?_⟩
        · rw [List.append_nil, ← hrun, he]; exact hne
        · rw [List.append_nil, ← hrun, he]
      · exfalso
        apply hne
        rw [← he, hrun]
        have h1 := node_run (caps := caps) hU ops (fun o ho => hf o (by simp [ho])) node_init
        exact hinv _ _ h1 (node_step hU h1 (hf o (by simp)))
          (exec_log_calm (hc o (by simp)) (fun owner m e => hs ⟨owner, m, e⟩)).symm
    · obtain ⟨pre, owner, m, rest, h1, h2, h3⟩ := last_change hU f hinv l (ops ++ [o]) (by rw [← hassoc]; exact hf)
        (fun o ho => hc o (by simp [ho])) (by rw [← hassoc]; exact he)
      have e : ops ++ [o] ++ pre = ops ++ (o :: pre) := by simp
      rw [e] at h2 h3
      rw [← hassoc] at h3
      exact ⟨o :: pre, owner, m, rest, by rw [h1]; rfl, h2, h3⟩

section
variable {F : Type} {c : ZeroCfg}

theorem zrun_append : ∀ (a b : List (ZCall F)) (d : ZWork), c.run (a ++ b) d = (c.run a d).bind (c.run b)
  | [], b, d => rfl
  | x :: a, b, d => by
    show c.run (x :: (a ++ b)) d = _
    unfold ZeroCfg.run
    split
    · rfl
    · exact zrun_append a b _

/-- The channel history behind two states of shard 0. -/
theorem zero_history {calls later : List (ZCall F)} {d d' : ZWork} (hrun : c.run calls {} = some d)
    (hlater : c.run later d = some d') (hd : Distinct d') :
    ∃ ops more, (∀ o ∈ ops ++ more, o.Fair (fun m => ∃ p ∈ d'.posts, p.msg = m) ∧ o.OnShardZero) ∧ (∀ o ∈ more, o.Calm) ∧
      (ChanNode.run c.caps {} ops).st = d.st.store ∧ (ChanNode.run c.caps {} (ops ++ more)).st = d'.st.store ∧
      ∀ pre owner m rest, more = pre ++ .submit owner m :: rest → ∃ p ∈ d'.posts, PostedIn later p.ts p.msg ∧ p.msg = m ∧
        owner = c.owner p.node p.store ∧ p.store = (ChanNode.run c.caps {} (ops ++ pre)).st := by
  obtain ⟨hcl, _, _, _, ⟨new, ops, a⟩, _⟩ := traced_run (P := fun p => PostedIn calls p.ts p.msg) calls {} d rfl (fun ts m h _ => h) hrun
  obtain ⟨_, _, _, _, ⟨new', more, b⟩, _⟩ := traced_run (P := fun p => PostedIn later p.ts p.msg) later d d' hcl (fun ts m h _ => h) hlater
  have hpost : d'.posts = new ++ new' := by rw [b.posts, a.posts]; rfl
  have hfair : ∀ {n : ChanNode} {x y : ZWork} {P : ZPost → Prop} {told : List Msg} {l : List ZPost} {os : List ChanOp},
      c.Traces P x y told l os → n.st = x.st.store →
      (∀ p ∈ l, p ∈ d'.posts) → ∀ o ∈ os, o.Fair (fun m => ∃ p ∈ d'.posts, p.msg = m) ∧ o.OnShardZero := by
    intro n x y P told l os t hn hl o ho
    have hc := t.calm o ho
    refine ⟨?_, hc.2.1⟩
    cases o with
    | submit owner m =>
      obtain ⟨pre, rest, e⟩ := List.append_of_mem ho
      obtain ⟨p, hp, rfl, _⟩ := t.admitted n hn pre owner m rest e
      exact ⟨⟨p, hl p hp, rfl⟩, hd.times p (hl p hp)⟩
    | merge K w m => exact hc.2.1.elim
    | other k v => exact hc.1 k v rfl
    | drop => exact absurd rfl hc.2.2
    | commit => trivial
    | block h => trivial
    | numbers g => trivial
  have hst : (ChanNode.run c.caps {} ops).st = d.st.store := a.moved {} rfl
  refine ⟨ops, more, ?_, b.calm, hst, ?_, ?_⟩
  · intro o ho
    rcases List.mem_append.1 ho with ho | ho
    · exact hfair (n := {}) a rfl (fun p hp => by rw [hpost]; simp [hp]) o ho
    · exact hfair (n := ChanNode.run c.caps {} ops) b hst (fun p hp => by rw [hpost]; simp [hp]) o ho
  · rw [chan_run_append]; exact b.moved _ hst
  · intro pre owner m rest e
    obtain ⟨p, hp, h1, h2, h3⟩ := b.admitted _ hst pre owner m rest e
    exact ⟨p, by rw [hpost]; simp [hp], b.fine p hp, h1, h2, by rw [h3, chan_run_append]⟩

theorem zero_posts {calls later : List (ZCall F)} (s : c.Sound (calls ++ later)) {d d' : ZWork} (hrun : c.run calls {} = some d)
    (hlater : c.run later d = some d') : ∀ p ∈ d'.posts, c.Authorised p := by
  have h := settled_history s (d := d') (by rw [zrun_append, hrun]; exact hlater)
  exact fun p hp => (h.inv.posts p hp).2.1

/-- **C96**: if between two states of shard 0 the role of a user in a channel changed, then a message of a block committed in
between gave the user the new role.  The message was authorised (signed with a key that may sign for its author), and its
author could do this by the channel and its owner at that moment: bans and pardons by the owner and moderators, appointments
by the owner, the rest by the users themselves as the channel allows. -/
theorem C96_roles_need_authority (calls later : List (ZCall F)) (s : c.Sound (calls ++ later)) (d d' : ZWork)
    (hrun : c.run calls {} = some d) (hlater : c.run later d = some d') (hd : Distinct d')
    (ch : Bytes) (hc : ch.length = 32) (f : Nat) (hf : f < 2 ^ 32) (changed : d'.channels.role ch f ≠ d.channels.role ch f) :
    ∃ p ∈ d'.posts, PostedIn later p.ts p.msg ∧ c.Authorised p ∧ ∃ act o old new,
      p.msg.body = .channelMember ch f act ∧ c.owner p.node p.store ch = some o ∧
      p.channels.role ch f = .ok old ∧ d'.channels.role ch f = .ok new ∧
      RoleChangeAllowed o p.msg.fid f (p.channels.role ch p.msg.fid = .ok (some .moderator))
        (p.channels.mode ch = .ok .open_) old new := by
  obtain ⟨ops, more, h1, h2, h3, h4, h5⟩ := zero_history hrun hlater hd
  have r0 : d.channels.role ch f = (ChanNode.run c.caps {} ops).role ch f := by
    unfold ChanNode.role ZWork.channels; rw [h3]
  have r1 : d'.channels.role ch f = (ChanNode.run c.caps {} (ops ++ more)).role ch f := by
    unfold ChanNode.role ZWork.channels; rw [h4]
  rw [r0, r1] at changed
  obtain ⟨pre, owner, m, rest, e, hne, heq⟩ := last_change (caps := c.caps) hd.hashes (fun n => n.role ch f)
    (fun n n' i i' hl => by simp only [node_role i hc hf, node_role i' hc hf, hl]) more ops (fun o ho => (h1 o ho).1) h2
    (fun e => changed e.symm)
  obtain ⟨p, hp, hin, rfl, rfl, hst⟩ := h5 pre owner m rest e
  have hfair : ∀ o ∈ ops ++ pre, o.Fair (fun m => ∃ p ∈ d'.posts, p.msg = m) := fun o ho => (h1 o (by
    rw [e, ← List.append_assoc]; exact List.mem_append_left _ ho)).1
  obtain ⟨act, o, old, new, g1, g2, g3, g4, g5⟩ := C35_changes_need_authority c.caps hd.hashes (ops ++ pre) hfair
    (c.owner p.node p.store) p.msg ⟨⟨p, hp, rfl⟩, hd.times p hp⟩ ch hc f hf (fun e => hne e.symm)
  refine ⟨p, hp, hin, zero_posts s hrun hlater p hp, act, o, old, new, g1, g2, ?_, ?_, ?_⟩
  · rw [← g3]; unfold ChanNode.role ZPost.channels; rw [hst]
  · rw [r1, ← heq]; exact g4
  · have a1 : p.channels.role ch p.msg.fid = (ChanNode.run c.caps {} (ops ++ pre)).role ch p.msg.fid := by
      unfold ChanNode.role ZPost.channels; rw [hst]
    have a2 : p.channels.mode ch = (ChanNode.run c.caps {} (ops ++ pre)).mode ch := by
      unfold ChanNode.mode ZPost.channels; rw [hst]
    rw [a1, a2]; exact g5

/-- A ban lasts until a committed message of the owner or of a moderator lifts it. -/
theorem C96_banned_until_pardoned (calls later : List (ZCall F)) (s : c.Sound (calls ++ later)) (d d' : ZWork)
    (hrun : c.run calls {} = some d) (hlater : c.run later d = some d') (hd : Distinct d')
    (ch : Bytes) (hc : ch.length = 32) (f : Nat) (hf : f < 2 ^ 32) (banned : d.channels.role ch f = .ok (some .banned))
    (free : d'.channels.role ch f ≠ .ok (some .banned)) :
    ∃ p ∈ d'.posts, PostedIn later p.ts p.msg ∧ c.Authorised p ∧ ∃ act o,
      p.msg.body = .channelMember ch f act ∧ c.owner p.node p.store ch = some o ∧
      p.channels.role ch f = .ok (some .banned) ∧
      (o = some p.msg.fid ∨ p.channels.role ch p.msg.fid = .ok (some .moderator)) := by
  obtain ⟨ops, more, h1, h2, h3, h4, h5⟩ := zero_history hrun hlater hd
  have r0 : d.channels.role ch f = (ChanNode.run c.caps {} ops).role ch f := by
    unfold ChanNode.role ZWork.channels; rw [h3]
  have r1 : d'.channels.role ch f = (ChanNode.run c.caps {} (ops ++ more)).role ch f := by
    unfold ChanNode.role ZWork.channels; rw [h4]
  obtain ⟨pre, owner, m, rest, act, o, e, g1, g2, g3, _, g5⟩ := C35_banned_until_unbanned c.caps hd.hashes ops more h1
    (fun hm => (h2 _ hm).2.2 rfl) ch hc f hf (by rw [← r0]; exact banned) (by rw [← r1]; exact free)
  obtain ⟨p, hp, hin, rfl, rfl, hst⟩ := h5 pre owner m rest e
  have hr : ∀ x, p.channels.role ch x = (ChanNode.run c.caps {} (ops ++ pre)).role ch x := by
    intro x; unfold ChanNode.role ZPost.channels; rw [hst]
  exact ⟨p, hp, hin, zero_posts s hrun hlater p hp, act, o, g1, g2, by rw [hr]; exact g3, by rw [hr]; exact g5⟩

/-- The configuration of a channel, its pin and the moderation of its casts: what changed was set by a committed message,
the configuration by the owner, the rest by the owner or a moderator. -/
theorem C96_settings_need_authority (calls later : List (ZCall F)) (s : c.Sound (calls ++ later)) (d d' : ZWork)
    (hrun : c.run calls {} = some d) (hlater : c.run later d = some d') (hd : Distinct d')
    (sl : ChanSlot) (hs : sl.WF) (hnm : ∀ ch f, sl ≠ .member ch f) (changed : d'.channels.slot sl ≠ d.channels.slot sl) :
    ∃ p ∈ d'.posts, PostedIn later p.ts p.msg ∧ c.Authorised p ∧ d'.channels.slot sl = .ok (some p.msg) ∧
      p.msg.chanSlot = some sl ∧ (c.owner p.node p.store sl.channel = some (some p.msg.fid) ∨
        ((∀ ch, sl ≠ .config ch) ∧ (∃ o, c.owner p.node p.store sl.channel = some (some o)) ∧
          p.channels.role sl.channel p.msg.fid = .ok (some .moderator))) := by
  obtain ⟨ops, more, h1, h2, h3, h4, h5⟩ := zero_history hrun hlater hd
  have r0 : d.channels.slot sl = (ChanNode.run c.caps {} ops).slot sl := by
    unfold ChanNode.slot ZWork.channels; rw [h3]
  have r1 : d'.channels.slot sl = (ChanNode.run c.caps {} (ops ++ more)).slot sl := by
    unfold ChanNode.slot ZWork.channels; rw [h4]
  rw [r0, r1] at changed
  obtain ⟨pre, owner, m, rest, e, hne, heq⟩ := last_change (caps := c.caps) hd.hashes (fun n => n.slot sl)
    (fun n n' i i' hl => by simp only [node_slot i hs, node_slot i' hs, hl]) more ops (fun o ho => (h1 o ho).1) h2
    (fun e => changed e.symm)
  obtain ⟨p, hp, hin, rfl, rfl, hst⟩ := h5 pre owner m rest e
  have hfair : ∀ o ∈ ops ++ pre, o.Fair (fun m => ∃ p ∈ d'.posts, p.msg = m) := fun o ho => (h1 o (by
    rw [e, ← List.append_assoc]; exact List.mem_append_left _ ho)).1
  obtain ⟨g1, g2, g3⟩ := C35_config_pin_and_moderation c.caps hd.hashes (ops ++ pre) hfair
    (c.owner p.node p.store) p.msg ⟨⟨p, hp, rfl⟩, hd.times p hp⟩ sl hs hnm (fun e => hne e.symm)
  have a1 : p.channels.role sl.channel p.msg.fid = (ChanNode.run c.caps {} (ops ++ pre)).role sl.channel p.msg.fid := by
    unfold ChanNode.role ZPost.channels; rw [hst]
  refine ⟨p, hp, hin, zero_posts s hrun hlater p hp, ?_, g2, ?_⟩
  · rw [r1, ← heq]; exact g1
  · rw [a1]; exact g3

/-- The counters of a channel are exact and within the limits: moderators (at most ten), members and moderated casts. -/
theorem C96_counted_and_capped (calls : List (ZCall F)) (d : ZWork) (hrun : c.run calls {} = some d) (hd : Distinct d)
    (ch : Bytes) (hc : ch.length = 32) :
    (∃ l : List Nat, l.Nodup ∧ (∀ f, f ∈ l ↔ f < 2 ^ 32 ∧ d.channels.role ch f = .ok (some .moderator)) ∧
      d.channels.moderatorCounter ch = .ok l.length ∧ l.length ≤ 10) ∧
    ∀ K cap, (K = .member ∧ cap = c.caps.member) ∨ (K = .moderate ∧ cap = c.caps.moderate) →
      ∃ l : List ChanSlot, l.Nodup ∧
        (∀ sl, sl ∈ l ↔ sl.WF ∧ sl.kind = K ∧ sl.channel = ch ∧ ∃ m, d.channels.slot sl = .ok (some m)) ∧
        d.channels.slotCounter K ch = .ok l.length ∧ l.length ≤ cap := by
  obtain ⟨ops, more, h1, _, _, h4, _⟩ := zero_history hrun (later := []) rfl hd
  have e1 : ∀ f, d.channels.role ch f = (ChanNode.run c.caps {} (ops ++ more)).role ch f := by
    intro f; unfold ChanNode.role ZWork.channels; rw [h4]
  have e2 : d.channels.moderatorCounter ch = (ChanNode.run c.caps {} (ops ++ more)).moderatorCounter ch := by
    unfold ChanNode.moderatorCounter ZWork.channels; rw [h4]
  have e3 : ∀ sl, d.channels.slot sl = (ChanNode.run c.caps {} (ops ++ more)).slot sl := by
    intro sl; unfold ChanNode.slot ZWork.channels; rw [h4]
  have e4 : ∀ K, d.channels.slotCounter K ch = (ChanNode.run c.caps {} (ops ++ more)).slotCounter K ch := by
    intro K; unfold ChanNode.slotCounter ZWork.channels; rw [h4]
  refine ⟨?_, ?_⟩
  · obtain ⟨l, a, b, e⟩ := C36_counted_exactly c.caps hd.hashes (ops ++ more) (fun o ho => (h1 o ho).1) ch hc
    have hten := (C36_at_most_ten c.caps hd.hashes (ops ++ more) h1 ch hc).2 l a (fun f hf => (b f).1 hf)
    exact ⟨l, a, fun f => by rw [e1]; exact b f, by rw [e2]; exact e, hten⟩
  · intro K cap hK
    obtain ⟨l, a, b, e, g⟩ := C37_counted_and_capped c.caps hd.hashes (ops ++ more) (fun o ho => (h1 o ho).1) ch hc K cap hK
    exact ⟨l, a, fun sl => by rw [e3]; exact b sl, by rw [e4]; exact e, g⟩

/-- What is set stays set: a channel that has a configuration keeps having one, and the same for pins, memberships and
moderated casts. -/
theorem C96_never_vacated (calls later : List (ZCall F)) (d d' : ZWork) (hrun : c.run calls {} = some d)
    (hlater : c.run later d = some d') (hd : Distinct d') (sl : ChanSlot) (hs : sl.WF) (m : Msg)
    (set : d.channels.slot sl = .ok (some m)) : ∃ m', d'.channels.slot sl = .ok (some m') := by
  obtain ⟨ops, more, h1, h2, h3, h4, _⟩ := zero_history hrun hlater hd
  have e0 : d.channels.slot sl = (ChanNode.run c.caps {} ops).slot sl := by
    unfold ChanNode.slot ZWork.channels; rw [h3]
  have e1 : d'.channels.slot sl = (ChanNode.run c.caps {} (ops ++ more)).slot sl := by
    unfold ChanNode.slot ZWork.channels; rw [h4]
  rw [e1]
  exact C37_never_vacated c.caps hd.hashes ops more (fun o ho => (h1 o ho).1) sl hs m (by rw [← e0]; exact set)
    (fun hm => (h2 _ hm).2.2 rfl)

end

namespace Case96
open Case93 (chan txn0 txn1 clock)

def banData : WData := demoData 19 (.channelMember chan 40 5)
def freeData : WData := { demoData 19 (.channelMember chan 40 6) with ts := 1001 }

def env : VEnv := { Case93.env with
  encode := fun x => if x = banData then [4] else [3]
  decode := fun b => if b = [4] then some banData else if b = [3] then some freeData else none }

/-- The owner of the channel is user 11. -/
def cfg : ZeroCfg := { Case93.cfg with
  env := env
  wire := fun m =>
    if m.ts = 1000 then { demoMsg banData with dataBytes := some [4], signer := m.signer, hash := m.hash }
    else { demoMsg freeData with dataBytes := some [3], signer := m.signer, hash := m.hash } }

/-- The owner bans user 40, and lifts the ban. -/
def ban : Msg := ⟨11, .channelMember, 1000, List.replicate 20 4, List.replicate 32 9, .channelMember chan 40 5⟩
def free : Msg := ⟨11, .channelMember, 1001, List.replicate 20 3, List.replicate 32 9, .channelMember chan 40 6⟩

def next (d : ZWork) (h : Nat) (ts : List (ETxn Unit)) : Option (List (ZCall Unit) × ZWork) := do
  let p ← cfg.propose clock h 1000 d ts
  let d ← cfg.commit clock p.2 p.1
  pure ([.propose clock h 1000 ts, .commit clock p.1], d)

/-- Two blocks, and a third one. -/
def chain : Option ((List (ZCall Unit) × ZWork) × List (ZCall Unit) × ZWork) := do
  let a ← next {} 1 [txn1, txn0]
  let b ← next a.2 2 [⟨11, [], [ban], []⟩]
  let e ← next b.2 3 [⟨11, [], [free], []⟩]
  let d ← cfg.run (a.1 ++ b.1) {}
  let d' ← cfg.run e.1 d
  pure ((a.1 ++ b.1, d), e.1, d')

def isRole (r : Except HubErr (Option MemberState)) (s : Option MemberState) : Bool :=
  match r with
  | .ok x => x = s
  | .error _ => false

/-- What the blocks bring. -/
def plain : ZCall Unit → Bool
  | .commit _ b => b.txns.all fun t => t.user.all (fun m => m = ban ∨ m = free) &&
      t.sys.all (fun s => s.onchain.all (fun e => e = AdmissionCase.idReg ∨ e = Case93.appReg ∨ e = AdmissionCase.signerAdd ∨ e = Case93.rent))
  | _ => true

theorem chain_done : chain.map (fun x => (isRole (x.1.2.channels.role chan 40) (some .banned),
    isRole (x.2.2.channels.role chan 40) (some .removed), (x.1.1 ++ x.2.1).all plain, x.2.2.posts.map (·.msg))) =
    some (true, true, true, [ban, free]) := by decide +kernel

theorem isRole_eq {r : Except HubErr (Option MemberState)} {s : Option MemberState} (h : isRole r s = true) : r = .ok s := by
  unfold isRole at h
  split at h
  · rw [of_decide_eq_true h]
  · cases h

theorem sound_of_plain {calls : List (ZCall Unit)} (h : calls.all plain = true) : cfg.Sound calls := by
  have hall : ∀ clock b, ZCall.commit clock b ∈ calls → ∀ t ∈ b.txns, (∀ m ∈ t.user, m = ban ∨ m = free) ∧
      ∀ s ∈ t.sys, ∀ e, s.onchain = some e → e = AdmissionCase.idReg ∨ e = Case93.appReg ∨ e = AdmissionCase.signerAdd ∨ e = Case93.rent := by
    intro clock b hb t ht
    have := List.all_eq_true.1 (List.all_eq_true.1 h _ hb) t ht
    simp only [Bool.and_eq_true, List.all_eq_true, Option.all_eq_true, decide_eq_true_eq] at this
    exact ⟨this.1, fun s hs e he => this.2 s hs e he⟩
  refine ⟨?_, ?_⟩
  · rintro e ⟨clock, b, hb, t, ht, s, hs, he⟩
    rcases (hall clock b hb t ht).2 s hs e he with rfl | rfl | rfl | rfl <;> (unfold Spec.OEvent.Fits; decide)
  · rintro ts m ⟨clock, b, hb, _, t, ht, hm⟩
    rcases (hall clock b hb t ht).1 m hm with rfl | rfl
    · exact ⟨⟨banData, rfl, by decide, by decide, by decide, rfl, rfl⟩, by decide⟩
    · exact ⟨⟨freeData, rfl, by decide, by decide, by decide, rfl, rfl⟩, by decide⟩

theorem distinct_of {d : ZWork} (h : d.posts.map (·.msg) = [ban, free]) : Distinct d := by
  have hm : ∀ p ∈ d.posts, p.msg = ban ∨ p.msg = free := fun p hp => by
    have : p.msg ∈ d.posts.map (·.msg) := List.mem_map.2 ⟨p, hp, rfl⟩
    rw [h] at this
    simpa using this
  refine ⟨?_, fun p hp => ?_⟩
  · rintro a b ⟨p, hp, rfl⟩ ⟨q, hq, rfl⟩ _ ht _
    rcases hm p hp with e | e <;> rcases hm q hq with e' | e' <;> rw [e, e'] at ht ⊢ <;> exact absurd ht (by decide)
  · rcases hm p hp with e | e <;> rw [e] <;> decide

/-- The theorems apply: the ban held until a message of the owner lifted it. -/
example : ∃ (calls later : List (ZCall Unit)) (d d' : ZWork), cfg.Sound (calls ++ later) ∧ cfg.run calls {} = some d ∧
    cfg.run later d = some d' ∧ Distinct d' ∧ d.channels.role chan 40 = .ok (some .banned) ∧
    d'.channels.role chan 40 = .ok (some .removed) ∧
    ∃ p ∈ d'.posts, PostedIn later p.ts p.msg ∧ cfg.Authorised p ∧ p.channels.role chan 40 = .ok (some .banned) := by
  have h := chain_done
  simp only [Option.map_eq_some_iff, chain, Option.bind_eq_bind, Option.bind_eq_some_iff, Prod.mk.injEq] at h
  obtain ⟨x, ⟨a, _, b, _, e, _, d, hd, d', hd', hx⟩, h1, h2, h3, h4⟩ := h
  cases hx
  have hb := isRole_eq h1
  have hr := isRole_eq h2
  have s := sound_of_plain h3
  have hdis := distinct_of h4
  obtain ⟨p, g1, g2, g3, _, _, _, _, g4, _⟩ := C96_banned_until_pardoned _ _ s d d' hd hd' hdis chan (by decide) 40 (by decide) hb
    (by rw [hr]; nofun)
  exact ⟨_, _, d, d', s, hd, hd', hdis, hb, hr, p, g1, g2, g3, g4⟩

end Case96
end Verif
