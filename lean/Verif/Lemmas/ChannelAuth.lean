import Verif.Lemmas.ChannelInv
/-! Channel admission: what an accepted message tells. -/
namespace Verif

variable {U : Msg → Prop} {caps : SlotCaps}

/-- The role recorded by a message. -/
def stateIn (m : Msg) : Option MemberState :=
  match memberStateForMessage m with
  | .ok s => some s
  | .error _ => none

theorem member_valid {m : Msg} {c : Bytes} {f : Nat} (h : ChanGood m (.member c f)) :
    ∃ a st, m.body = .channelMember c f a ∧ memberStateForMessage m = .ok st ∧ memberStateOf a = .ok st := by
  obtain ⟨fi, ty, ts, hash, sg, body⟩ := m
  have hs := h.slot
  have hv := h.valid
  cases body <;> simp [Msg.chanSlot] at hs
  obtain ⟨rfl, rfl⟩ := hs
  simp only [ChanSlot.kind, ChanKind.validateSlot] at hv
  split at hv
  · cases hv
  rename_i st hst
  exact ⟨_, st, rfl, hst, hst⟩

theorem memberState_eq {log : List Msg} {db : Db SVal} {t : Txn SVal} (hi : ChanInv U caps log (viewOf db t))
    {c : Bytes} {f : Nat} (hc : c.length = 32) (hf : f < 2 ^ 32) :
    memberState db t c f = .ok ((newestFor log (.member c f)).bind stateIn) := by
  unfold memberState
  rw [if_pos hf]
  have := loadSlot_inv hi (s := .member c f) ⟨hc, hf⟩
  simp only [ChanSlot.kind, ChanSlot.key] at this
  rw [this]
  cases hn : newestFor log (.member c f) with
  | none => rfl
  | some m =>
    obtain ⟨hm, hs⟩ := newestFor_mem hn
    obtain ⟨_, s', hg⟩ := hi.good m hm
    have := hg.unique hs; subst this
    obtain ⟨a, st, _, h1, _⟩ := member_valid hg
    simp [h1, stateIn]

theorem validate_ok {db : Db SVal} {t : Txn SVal} {owner : Bytes → Option (Option Nat)} {m : Msg} {K : ChanKind}
    (h : validateChannel db t owner m = .ok K) :
    ∃ s o role, m.chanSlot = some s ∧ s.kind = K ∧ owner s.channel = some o ∧
      (o = none → isSelfLeave m = true) ∧ channelAuthorRole db t s.channel m.fid o = .ok role ∧
      validateBody db t m o role = .ok () := by
  unfold validateChannel at h
  split at h
  · cases h
  rename_i K' hd
  have hs : ∃ s, m.chanSlot = some s ∧ s.kind = K' := by
    unfold channelDispatch at hd
    unfold Msg.chanSlot
    split at hd <;> cases hd <;> (rename_i hb; rw [hb]; exact ⟨_, rfl, rfl⟩)
  obtain ⟨s, hs, hk⟩ := hs
  subst hk
  rw [channelId_good hs] at h
  simp only [] at h
  split at h
  · cases h
  split at h
  · cases h
  split at h
  · cases h
  rename_i o ho
  split at h
  · cases h
  rename_i hleave
  split at h
  · cases h
  rename_i role hrole
  split at h
  · cases h
  rename_i hbody
  cases h
  refine ⟨s, o, role, hs, rfl, ho, ?_, hrole, hbody⟩
  rintro rfl
  simpa using hleave

/-- The role each action leaves. -/
def actState (act : MemberAction) (d : MemberState) : MemberState :=
  match act with
  | .addMember => .member
  | .removeModerator => .member
  | .addModerator => .moderator
  | .removeMember => .removed
  | .unban => .removed
  | .ban => .banned
  | .none => d

theorem authority_allowed {act : MemberAction} {role : AuthorRole} {target : Option MemberState} {self : Bool}
    {mode : MembershipMode} {tio : Bool} (h : memberAuthority act role target self mode tio = .allowed)
    {st : MemberState} (hs : ∃ a, MemberAction.ofNum a = some act ∧ memberStateOf a = .ok st) :
    (target = some .banned → (role = .owner ∨ role = .moderator) ∧ st = .removed) ∧
    (st = .banned → tio = false ∧ (role = .owner ∨ (role = .moderator ∧ target ≠ some .moderator))) ∧
    (st = .moderator → role = .owner ∧ act = .addModerator) ∧
    (target = some .moderator → role = .owner ∨ (self = true ∧ st = .removed)) ∧
    (role ≠ .owner → role ≠ .moderator → self = true ∧
      ((mode = .open_ ∧ (target = none ∨ target = some .removed) ∧ st = .member) ∨
        ((target = some .member ∨ target = some .moderator) ∧ st = .removed))) ∧
    (act = .removeMember → st = .removed) := by
  obtain ⟨a, ha, hst⟩ := hs
  have hst' : st = actState act st := by
    unfold memberStateOf at hst
    rw [ha] at hst
    cases act <;> simp at hst <;> exact hst.symm
  have hne : act ≠ .none := by
    rintro rfl; simp [memberAuthority] at h
  clear ha hst a
  unfold memberAuthority authorityTable at h
  cases act <;> simp at hne <;> simp only [actState] at hst' <;> subst hst' <;>
    rcases target with _ | _ | _ | _ | _ <;> cases role <;> cases self <;> cases tio <;> simp_all

theorem role_cases {log : List Msg} {db : Db SVal} {t : Txn SVal} (hi : ChanInv U caps log (viewOf db t))
    {c : Bytes} {author : Nat} {o : Option Nat} {role : AuthorRole} (hc : c.length = 32) (hf : author < 2 ^ 32)
    (h : channelAuthorRole db t c author o = .ok role) :
    (role = .owner ↔ o = some author) ∧
    (role = .moderator ↔ o ≠ some author ∧ memberState db t c author = .ok (some .moderator)) := by
  unfold channelAuthorRole at h
  by_cases ho : o = some author
  · rw [if_pos ho] at h; cases h; simp [ho]
  · rw [if_neg ho] at h
    rw [memberState_eq hi hc hf] at h ⊢
    generalize (newestFor log (.member c author)).bind stateIn = z at h ⊢
    rcases z with _ | _ | _ | _ | _ <;> cases h <;> simp [ho]

theorem selfLeave_body {m : Msg} (h : isSelfLeave m = true) :
    ∃ c a, m.body = .channelMember c m.fid a ∧ MemberAction.ofNum a = some .removeMember := by
  unfold isSelfLeave at h
  split at h
  · rename_i c f a hb
    simp at h
    exact ⟨c, a, by rw [hb, h.2], h.1⟩
  · cases h

/-- What an accepted membership message means. -/
theorem submit_member {n : ChanNode} (hi : NodeInv U caps n) {owner : Bytes → Option (Option Nat)} {m : Msg}
    {e : StoreEvent} {p : SSt} (ht : m.ts < 2 ^ 32) (h : n.submitResult caps owner m = (.ok e, p)) {c : Bytes} {f : Nat}
    (hs : m.chanSlot = some (.member c f)) :
    ∃ o st, owner c = some o ∧ ChanGood m (.member c f) ∧ stateIn m = some st ∧
      RoleChangeAllowed o m.fid f (n.role c m.fid = .ok (some .moderator)) (n.mode c = .ok .open_)
        ((newestFor n.log (.member c f)).bind stateIn) (some st) ∧
      (st = .moderator → ∃ k, n.moderatorCounter c = .ok k ∧ k < 10) := by
  unfold ChanNode.submitResult at h
  rcases submit_cases (caps := caps) (db := n.st.db) (owner := owner) (m := m) (st := n.st.pend) with
    ⟨K, hv, h'⟩ | ⟨e', h'⟩
  · rw [h'] at h
    obtain ⟨s, hg, hk, _⟩ := mergeSlot_ok hi.now ht h
    have := hg.unique hs; subst this
    obtain ⟨s', o, role, hs', _, ho, hpark, hrole, hbody⟩ := validate_ok hv
    rw [hs] at hs'; cases hs'
    obtain ⟨a, st, hb, h1, h2⟩ := member_valid hg
    simp only [ChanSlot.channel] at ho hrole
    have hw : c.length = 32 ∧ f < 2 ^ 32 := hg.wf
    refine ⟨o, st, ho, hg, by simp [stateIn, h1], ?_⟩
    unfold validateBody at hbody
    rw [hb] at hbody
    simp only [] at hbody
    unfold validateMember at hbody
    split at hbody
    · cases hbody
    rename_i act hact
    rw [memberState_eq hi.now hw.1 hw.2] at hbody
    simp only [] at hbody
    split at hbody
    · cases hbody
    rename_i mode hmode
    split at hbody
    · cases hbody
    rename_i hdec
    have hdec : memberAuthority act role ((newestFor n.log (.member c f)).bind stateIn) (decide (m.fid = f)) mode
      (decide (o = some f)) = .allowed := by simpa using hdec
    obtain ⟨q1, q2, q3, q4, q5, q6⟩ := authority_allowed hdec ⟨a, hact, h2⟩
    obtain ⟨r1, r2⟩ := role_cases hi.now hw.1 hg.fid hrole
    have r2' : role = .moderator → n.role c m.fid = .ok (some .moderator) := fun hr => (r2.1 hr).2
    refine ⟨⟨by simp, ?_, ?_, ?_, ?_, ?_, ?_⟩, ?_⟩
    · intro hb'
      obtain ⟨q, rfl⟩ := q1 hb'
      exact ⟨q.imp r1.1 r2', rfl⟩
    · intro hb'
      obtain ⟨q, q'⟩ := q2 (Option.some.inj hb')
      exact ⟨by simpa using q, q'.imp r1.1 (fun x => ⟨r2' x.1, x.2⟩)⟩
    · intro hb'
      exact r1.1 (q3 (Option.some.inj hb')).1
    · intro hb'
      rcases q4 hb' with q | ⟨q, q'⟩
      · exact .inl (r1.1 q)
      · exact .inr ⟨by simpa using q, by rw [q']⟩
    · intro ho' hm'
      have hr1 : role ≠ .owner := fun hr => ho' (r1.1 hr)
      have hr2 : role ≠ .moderator := fun hr => hm' (r2' hr)
      obtain ⟨hself, hc⟩ := q5 hr1 hr2
      have hself : m.fid = f := by simpa using hself
      refine ⟨hself, ?_⟩
      rcases hc with ⟨c1, c2, c3⟩ | ⟨c1, c2⟩
      · left; refine ⟨?_, c2, by rw [c3]⟩
        unfold ChanNode.mode; rw [hmode, c1]
      · right
        refine ⟨?_, by rw [c2]⟩
        rcases c1 with c1 | c1
        · exact c1
        · exfalso
          apply hm'
          rw [ChanNode.role, memberState_eq hi.now hw.1 hg.fid, hself, c1]
    · intro ho'
      obtain ⟨c', a', hb', ha'⟩ := selfLeave_body (hpark ho')
      rw [hb] at hb'
      cases hb'
      rw [ha'] at hact; cases hact
      exact ⟨rfl, by rw [q6 rfl]⟩
    · intro hst
      obtain ⟨_, rfl⟩ := q3 hst
      simp only [if_true] at hbody
      split at hbody
      · cases hbody
      rename_i k hk'
      split at hbody
      · cases hbody
      rename_i hlt
      exact ⟨k, hk', by unfold moderatorCap at hlt; omega⟩
  · rw [h'] at h; cases h

end Verif
