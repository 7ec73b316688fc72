import Verif.Lemmas.ChannelHist
import Verif.Case.Channel
/-!
C35: roles in a channel change only with authority.  `RoleChangeAllowed` (Spec/Channel.lean) says who may
change what.
-/
namespace Verif

variable {U : Msg → Prop}

/-- What changes when a message is admitted: either no role changes, or the message is a membership message
about exactly the user whose role changes, and its author was allowed to make that change. -/
theorem C35_changes_need_authority (caps : SlotCaps) (hU : HashesIdentify U) (ops : List ChanOp)
    (hf : ∀ o ∈ ops, o.Fair U) (owner : Bytes → Option (Option Nat)) (m : Msg) (hm : U m ∧ m.ts < 2 ^ 32)
    (c : Bytes) (hc : c.length = 32) (f : Nat) (hfid : f < 2 ^ 32) :
    let n := ChanNode.run caps {} ops
    let n' := n.exec caps (.submit owner m)
    n'.role c f ≠ n.role c f →
      ∃ act o old new, m.body = .channelMember c f act ∧ owner c = some o ∧
        n.role c f = .ok old ∧ n'.role c f = .ok new ∧
        RoleChangeAllowed o m.fid f (n.role c m.fid = .ok (some .moderator)) (n.mode c = .ok .open_) old new := by
  intro n n' hne
  have hi : NodeInv U caps n := node_run hU ops hf node_init
  have hi' : NodeInv U caps n' := node_step hU hi hm
  rw [node_role hi' hc hfid, node_role hi hc hfid] at hne
  cases hr : n.submitResult caps owner m with
  | mk r p =>
    have hn' : n' = n.after m (r, p) := by show n.after m (n.submitResult caps owner m) = _; rw [hr]
    cases r with
    | error e =>
      have hl : n'.log = n.log := by rw [hn']; rfl
      rw [hl] at hne
      exact absurd rfl hne
    | ok e =>
      have hl : n'.log = m :: n.log := by rw [hn']; rfl
      have hs : m.chanSlot = some (.member c f) := by
        refine Classical.byContradiction fun hs => ?_
        rw [hl, newestFor_cons, if_neg hs] at hne
        exact hne rfl
      obtain ⟨o, st, ho, hg, hst, hallowed, _⟩ := submit_member hi hm.2 hr hs
      obtain ⟨a, _, hb, _, _⟩ := member_valid hg
      refine ⟨a, o, _, _, hb, ho, node_role hi hc hfid, ?_, hallowed⟩
      rw [node_role hi' hc hfid, hl, newestFor_cons, if_pos hs]
      simp [hst]

/-- Between two points of shard 0's history without a dropped batch, a banned user is still banned unless an
owner or moderator unbanned them in between. -/
theorem C35_banned_until_unbanned (caps : SlotCaps) (hU : HashesIdentify U) (ops later : List ChanOp)
    (hf : ∀ o ∈ ops ++ later, o.Fair U ∧ o.OnShardZero) (hd : .drop ∉ later)
    (c : Bytes) (hc : c.length = 32) (f : Nat) (hfid : f < 2 ^ 32)
    (h : (ChanNode.run caps {} ops).role c f = .ok (some .banned))
    (h' : (ChanNode.run caps {} (ops ++ later)).role c f ≠ .ok (some .banned)) :
    ∃ pre owner m rest act o, later = pre ++ .submit owner m :: rest ∧
      m.body = .channelMember c f act ∧ owner c = some o ∧
      (ChanNode.run caps {} (ops ++ pre)).role c f = .ok (some .banned) ∧
      (ChanNode.run caps {} (ops ++ pre ++ [.submit owner m])).role c f = .ok (some .removed) ∧
      (o = some m.fid ∨ (ChanNode.run caps {} (ops ++ pre)).role c m.fid = .ok (some .moderator)) := by
  induction later generalizing ops with
  | nil => rw [List.append_nil] at h'; exact absurd h h'
  | cons op l ih =>
    have hrun : ChanNode.run caps {} (ops ++ [op]) = (ChanNode.run caps {} ops).exec caps op := by
      unfold ChanNode.run; rw [List.foldl_append]; rfl
    have hfops : ∀ o ∈ ops, o.Fair U := fun o ho => (hf o (List.mem_append_left _ ho)).1
    have hop : op.Fair U ∧ op.OnShardZero := hf op (by simp)
    have hassoc : ops ++ op :: l = (ops ++ [op]) ++ l := by simp
    by_cases hb : (ChanNode.run caps {} (ops ++ [op])).role c f = .ok (some .banned)
    · obtain ⟨pre, owner, m, rest, act, o, e1, e2, e3, e4, e5, e6⟩ := ih (ops ++ [op])
        (fun o ho => hf o (by rw [hassoc]; exact ho)) (fun hx => hd (List.mem_cons_of_mem _ hx)) hb
        (by rw [← hassoc]; exact h')
      have e : ops ++ [op] ++ pre = ops ++ (op :: pre) := by simp
      rw [e] at e4 e5 e6
      exact ⟨op :: pre, owner, m, rest, act, o, by rw [e1]; rfl, e2, e3, e4, e5, e6⟩
    · have hi := node_run (caps := caps) hU ops hfops node_init
      have hi' : NodeInv U caps ((ChanNode.run caps {} ops).exec caps op) := node_step hU hi hop.1
      cases op with
      | submit owner m =>
        have hne : ((ChanNode.run caps {} ops).exec caps (.submit owner m)).role c f ≠ (ChanNode.run caps {} ops).role c f := by
          rw [← hrun, h]; exact hb
        obtain ⟨act, o, old, new, hbody, ho, hold, hnew, ha⟩ :=
          C35_changes_need_authority caps hU ops hfops owner m hop.1 c hc f hfid hne
        rw [h] at hold
        have hold := Except.ok.inj hold
        obtain ⟨u1, u2⟩ := ha.unban hold.symm
        refine ⟨[], owner, m, l, act, o, rfl, hbody, ho, by rw [List.append_nil]; exact h, ?_, ?_⟩
        · rw [List.append_nil, hrun, hnew, u2]
        · rw [List.append_nil]; exact u1
      | merge K w m => exact hop.2.elim
      | drop => exact absurd (List.mem_cons_self ..) hd
      | other k v =>
        exfalso; apply hb
        rw [hrun, node_role hi' hc hfid]
        rw [node_role hi hc hfid] at h
        exact h
      | commit =>
        exfalso; apply hb
        rw [hrun, node_role hi' hc hfid]
        rw [node_role hi hc hfid] at h
        exact h
      | block b =>
        exfalso; apply hb
        rw [hrun, node_role hi' hc hfid]
        rw [node_role hi hc hfid] at h
        exact h
      | numbers g =>
        exfalso; apply hb
        rw [hrun, node_role hi' hc hfid]
        rw [node_role hi hc hfid] at h
        exact h

/-- In particular no message bans the owner of the moment. -/
theorem C35_owner_never_banned (caps : SlotCaps) (hU : HashesIdentify U) (ops : List ChanOp)
    (hf : ∀ o ∈ ops, o.Fair U) (owner : Bytes → Option (Option Nat)) (m : Msg) (hm : U m ∧ m.ts < 2 ^ 32)
    (c : Bytes) (hc : c.length = 32) (f : Nat) (hfid : f < 2 ^ 32) (hown : owner c = some (some f))
    (h : (ChanNode.run caps {} ops).role c f ≠ .ok (some .banned)) :
    ((ChanNode.run caps {} ops).exec caps (.submit owner m)).role c f ≠ .ok (some .banned) := by
  intro hb
  obtain ⟨act, o, old, new, _, ho, _, hnew, ha⟩ :=
    C35_changes_need_authority caps hU ops hf owner m hm c hc f hfid (by rw [hb]; exact fun e => h e.symm)
  rw [hown] at ho
  cases ho
  rw [hb] at hnew
  exact (ha.ban (Except.ok.inj hnew).symm).1 rfl

theorem body_role {db : Db SVal} {t : Txn SVal} {m : Msg} {o : Option Nat} {role : AuthorRole} {s : ChanSlot}
    (hms : m.chanSlot = some s) (h : validateBody db t m o role = .ok ()) (hnm : ∀ c f, s ≠ .member c f) :
    role = .owner ∨ ((∀ c, s ≠ .config c) ∧ role = .moderator) := by
  obtain ⟨fi, ty, ts, hash, sg, body⟩ := m
  cases body <;> simp [Msg.chanSlot] at hms <;> subst hms <;> simp [validateBody] at h
  · exact .inl h
  · exact absurd rfl (hnm _ _)
  · exact (Classical.em _).imp id (fun hn => ⟨by simp, h hn⟩)
  · exact (Classical.em _).imp id (fun hn => ⟨by simp, h hn⟩)

/-- The configuration, pin and moderated casts of a channel: shard 0 lets only the owner change the
configuration, and only the owner and moderators pin or moderate. -/
theorem C35_config_pin_and_moderation (caps : SlotCaps) (hU : HashesIdentify U) (ops : List ChanOp)
    (hf : ∀ o ∈ ops, o.Fair U) (owner : Bytes → Option (Option Nat)) (m : Msg) (hm : U m ∧ m.ts < 2 ^ 32)
    (s : ChanSlot) (hs : s.WF) (hnm : ∀ c f, s ≠ .member c f) :
    let n := ChanNode.run caps {} ops
    let n' := n.exec caps (.submit owner m)
    n'.slot s ≠ n.slot s →
      n'.slot s = .ok (some m) ∧ m.chanSlot = some s ∧
        (owner s.channel = some (some m.fid) ∨
          ((∀ c, s ≠ .config c) ∧ (∃ o, owner s.channel = some (some o)) ∧
            n.role s.channel m.fid = .ok (some .moderator))) := by
  intro n n' hne
  have hi : NodeInv U caps n := node_run hU ops hf node_init
  have hi' : NodeInv U caps n' := node_step hU hi hm
  rw [node_slot hi' hs, node_slot hi hs] at hne
  cases hr : n.submitResult caps owner m with
  | mk r p =>
    have hn' : n' = n.after m (r, p) := by show n.after m (n.submitResult caps owner m) = _; rw [hr]
    cases r with
    | error e =>
      have hl : n'.log = n.log := by rw [hn']; rfl
      rw [hl] at hne
      exact absurd rfl hne
    | ok e =>
      have hl : n'.log = m :: n.log := by rw [hn']; rfl
      have hms : m.chanSlot = some s := by
        refine Classical.byContradiction fun hs' => ?_
        rw [hl, newestFor_cons, if_neg hs'] at hne
        exact hne rfl
      refine ⟨by rw [node_slot hi' hs, hl, newestFor_cons, if_pos hms], hms, ?_⟩
      unfold ChanNode.submitResult at hr
      rcases submit_cases (caps := caps) (db := n.st.db) (owner := owner) (m := m) (st := n.st.pend) with
        ⟨K, hv, h'⟩ | ⟨e', h'⟩
      · rw [h'] at hr
        obtain ⟨s1, hg, _⟩ := mergeSlot_ok hi.now hm.2 hr
        have := hg.unique hms; subst this
        obtain ⟨s2, o, role, hs2, _, ho, hpark, hrole, hbody⟩ := validate_ok hv
        rw [hms] at hs2; cases hs2
        obtain ⟨r1, r2⟩ := role_cases hi.now (channel_length hs) hg.fid hrole
        have hsome : o ≠ none := by
          intro hn
          obtain ⟨c', a', hb', _⟩ := selfLeave_body (hpark hn)
          unfold Msg.chanSlot at hms
          rw [hb'] at hms
          exact hnm _ _ (Option.some.inj hms).symm
        obtain ⟨ow, rfl⟩ := Option.ne_none_iff_exists'.1 hsome
        have hcase : role = .owner ∨ ((∀ c, s1 ≠ .config c) ∧ role = .moderator) :=
          body_role hms hbody hnm
        rcases hcase with h | ⟨h1, h2⟩
        · left; rw [ho, r1.1 h]
        · right; exact ⟨h1, ⟨ow, ho⟩, (r2.1 h2).2⟩
      · rw [h'] at hr; cases hr

/-! The case: a moderator bans user 5, who cannot come back until the owner lifts the ban. -/
section
open ChanCase

example : roles [openUp, appoint, ban, rejoin] [5] = [some (some .banned)] ∧
    roles [openUp, appoint, ban, unban] [5] = [some (some .removed)] ∧
    roles [openUp, appoint, ban, unban, rejoin] [5] = [some (some .member)] := by decide +kernel

example : (∀ o ∈ submits [openUp, appoint, ban] ++ [.submit owner rejoin, .submit owner unban],
      o.Fair known ∧ o.OnShardZero) ∧ HashesIdentify known := by
  refine ⟨?_, known_ids⟩
  have e : submits [openUp, appoint, ban] ++ [.submit owner rejoin, .submit owner unban] =
      submits [openUp, appoint, ban, rejoin, unban] := rfl
  rw [e]
  exact submits_fair _ (by decide)

/-- A moderator hides a cast but cannot change the configuration; a plain user can do neither. -/
example : let hide (a : Nat) : Msg := ⟨a, .channelModerate, 30, List.replicate 20 9, [], .channelModerate chan (List.replicate 20 3) 1⟩
    let conf (a : Nat) : Msg := ⟨a, .channelUpdate, 31, List.replicate 20 9, [], .channelUpdate chan none (some 1)⟩
    let n := ChanNode.run {} {} (submits [openUp, appoint, join])
    (n.submitResult {} owner (hide 2)).1.isOk ∧ ¬ (n.submitResult {} owner (hide 6)).1.isOk ∧
    (n.submitResult {} owner (conf 1)).1.isOk ∧ ¬ (n.submitResult {} owner (conf 2)).1.isOk := by
  decide +kernel

/-- While the owner is unknown nobody can join; a plain user cannot appoint. -/
example : ((ChanNode.run {} {} [.block 1, .submit owner openUp, .submit parked join]).role chan 6).toOption = some none ∧
    roles [openUp, join, member 6 20 8 6 3] [6] = [some (some .member)] := by decide +kernel
end

/-- A channel is open to join only if its current configuration says so (mode number 1): without one it is
not. -/
theorem C35_open_only_by_config (n : ChanNode) (c : Bytes) (h : n.mode c = .ok .open_) :
    ∃ m c' casting, n.slot (.config c) = .ok (some m) ∧ m.body = .channelUpdate c' casting (some 1) := by
  unfold ChanNode.mode membershipMode at h
  show ∃ m c' casting, loadSlot .update n.st.db n.st.pend.txn (24 :: 1 :: c) = .ok (some m) ∧ _
  cases hl : loadSlot .update n.st.db n.st.pend.txn (24 :: 1 :: c) with
  | error e => rw [hl] at h; cases h
  | ok r =>
    rw [hl] at h
    cases r with
    | none => cases h
    | some m =>
      obtain ⟨fi, ty, ts, hash, sg, body⟩ := m
      cases body <;> simp only [] at h <;> try cases h
      rename_i c' a b
      split at h
      · cases h
      · cases b with
        | none => cases h
        | some k =>
          refine ⟨_, c', a, rfl, ?_⟩
          unfold foldMembership at h
          simp only [] at h
          unfold MembershipMode.ofNum at h
          by_cases h0 : k = 0
          · subst h0; cases h
          · by_cases h1 : k = 1
            · rw [h1]
            · by_cases h2 : k = 2
              · subst h2; cases h
              · split at h
                · cases h
                · cases h
                · rename_i e; split at e <;> simp_all

end Verif
