import Verif.Lemmas.Profile
/-! Usernames belong to users and primary addresses are verified: the invariants. -/
namespace Verif
open StoreDef
variable {U : Msg → Prop} {e : ProfileEnv}

/-- Usernames are owned. -/
def UsersOwn (L : StoreKind → List Msg) (own : Bytes → Option FProof) : Prop :=
  ∀ m ∈ L .userData, ∀ name, m.body = .userData 6 name → name ≠ [] → dotEth.isSuffixOf name = false →
    ∃ q, own name = some q ∧ q.fid = m.fid

/-- Primary addresses are verified, or were until a merge of the running transaction. -/
def Backed (e : ProfileEnv) (L : StoreKind → List Msg) (gone : List Msg) : Prop :=
  ∀ m ∈ L .userData, ∀ ty text, m.body = .userData ty text → (ty = 11 ∨ ty = 12) → text ≠ [] →
    ∃ x a, (x ∈ L .verifications ∨ x ∈ gone) ∧ x.fid = m.fid ∧ x.body = .verificationAdd a ∧
      ProfileNode.primaryField e x a = some (ty, text)

theorem accepts_cases {n : ProfileNode} {pro : Bool} {v : EngineVersion} {m : Msg} {ty : Nat} {value : Bytes}
    (hb : m.body = .userData ty value) (h : n.accepts e pro v m = true) :
    validateUserData e.lib ty value pro v = .ok () ∧
      validateProfile e.lib (n.view e) v m.fid (some (.userData ty value)) = .ok () := by
  unfold ProfileNode.accepts at h
  rw [hb] at h
  simp only at h
  split at h
  · cases h
  · next h1 =>
    split at h
    · cases h
    · next h2 => exact ⟨h1, h2⟩

theorem readTxn_on {α : Type} {v : EngineVersion} (hv : 7 ≤ v.num) (t : Txn α) : readTxn v t = t :=
  if_pos (decide_eq_true (p := EngineVersion.v7.num ≤ v.num) hv)

theorem accepted_username {L0 L own0 own idx0 idx} {n : ProfileNode} (h : ProfInv e U L0 L own0 own idx0 idx n) {pro : Bool}
    {v : EngineVersion} (hv : 7 ≤ v.num) {m : Msg} {name : Bytes} (hb : m.body = .userData 6 name)
    (ha : n.accepts e pro v m = true) (hne : name ≠ []) (heth : dotEth.isSuffixOf name = false) :
    ∃ q, own name = some q ∧ q.fid = m.fid := by
  have h2 := (accepts_cases hb ha).2
  simp only [validateProfile, Int.ofNat_eq_natCast, checkUsername, hne, if_false, usernameProofFid, heth, Bool.false_eq_true] at h2
  have hg : getFname (n.view e).fdb (readTxn v (n.view e).ftxn) name = .ok (own name) := by
    rw [readTxn_on hv]
    exact Fnames.getFname_iff h.names.rep name
  rw [hg] at h2
  cases hq : own name with
  | none => rw [hq] at h2; simp at h2
  | some q =>
    rw [hq] at h2
    refine ⟨q, rfl, ?_⟩
    simp only at h2
    by_cases hf : q.fid = m.fid
    · exact hf
    · simp [hf] at h2

theorem ownsAddress_ok (hch : ChannelNaming e.channelOf) (hU : HashesIdentify U) {L0 L own0 own idx0 idx} {n : ProfileNode}
    (h : ProfInv e U L0 L own0 own idx0 idx n) {v : EngineVersion} (hv : 7 ≤ v.num) {fid : Nat} (hf0 : 0 < fid) (hf : fid < 2 ^ 32)
    {pr : Int} {a : Bytes} (hk : ownsAddress (n.view e) v fid pr a = .ok ()) :
    ∃ x ∈ L .verifications, x.fid = fid ∧ x.body = .verificationAdd a ∧ e.protocol x = pr := by
  unfold ownsAddress at hk
  rw [readTxn_on hv] at hk
  split at hk
  · cases hk
  · cases hk
  · next x hg =>
    obtain ⟨h1, h2, h3⟩ := getVerification hch hU h.shard hf0 hf hg
    refine ⟨x, h1, h2, h3, ?_⟩
    split at hk
    · next hp => exact hp
    · cases hk

theorem accepted_primary (hch : ChannelNaming e.channelOf) (hU : HashesIdentify U)
    (hsol : ∀ s a, e.lib.solAddress s = some a → e.solText a = s) {L0 L own0 own idx0 idx} {n : ProfileNode}
    (h : ProfInv e U L0 L own0 own idx0 idx n) {pro : Bool}
    {v : EngineVersion} (hv : 7 ≤ v.num) {m : Msg} (hm : StoreKind.userData.Valid m) {ty : Nat} {text : Bytes} (hb : m.body = .userData ty text)
    (ha : n.accepts e pro v m = true) (hty : ty = 11 ∨ ty = 12) (hne : text ≠ []) :
    ∃ x a, x ∈ L .verifications ∧ x.fid = m.fid ∧ x.body = .verificationAdd a ∧
      ProfileNode.primaryField e x a = some (ty, text) := by
  obtain ⟨h1, h2⟩ := accepts_cases hb ha
  have hie : text.isEmpty = false := by cases text <;> simp_all
  rcases hty with rfl | rfl
  · have h1 : withFeature v .primaryAddresses (validatePrimaryEth e.lib text) = .ok () := h1
    have h2 : ownsEth (n.view e) v m.fid text = .ok () := h2
    unfold withFeature at h1
    by_cases hen : v.isEnabled .primaryAddresses = true
    case neg => rw [if_neg hen] at h1; cases h1
    rw [if_pos hen] at h1
    unfold validatePrimaryEth at h1
    rw [hie] at h1
    simp only [Bool.false_eq_true, if_false] at h1
    split at h1
    · cases h1
    · next hpre =>
      have hpre : text.take 2 = hexPrefix := Classical.byContradiction fun h' => hpre (.inl h')
      split at h1
      · cases h1
      · next a hpa =>
        have hck : checksum e.lib.keccak a = text := by
          unfold andThen at h1
          split at h1
          · cases h1
          · by_cases hc : checksum e.lib.keccak a = text
            · exact hc
            · simp [hc] at h1
        unfold ownsEth at h2
        rw [if_neg hne] at h2
        unfold fromHexAddress at h2
        rw [if_pos hpre, hpa] at h2
        obtain ⟨x, g1, g2, g3, g4⟩ := ownsAddress_ok hch hU h hv hm.1 hm.2.1 h2
        exact ⟨x, a, g1, g2, g3, by unfold ProfileNode.primaryField; rw [if_pos g4, hck]⟩
  · have h2 : ownsSol e.lib (n.view e) v m.fid text = .ok () := h2
    unfold ownsSol at h2
    rw [if_neg hne] at h2
    split at h2
    · cases h2
    · next a hpa =>
      split at h2
      · cases h2
      · obtain ⟨x, g1, g2, g3, g4⟩ := ownsAddress_ok hch hU h hv hm.1 hm.2.1 h2
        refine ⟨x, a, g1, g2, g3, ?_⟩
        unfold ProfileNode.primaryField
        rw [if_neg (by rw [g4]; decide), if_pos g4, hsol _ _ hpa]

/-! ### Steps -/

theorem ProfInv.init : ProfInv e U (fun _ => []) (fun _ => []) (fun _ => none) (fun _ => none) (fun _ => none) (fun _ => none) {} :=
  ⟨shard_init, Fnames.Inv.init, fun m hm => by cases hm⟩

theorem admitted_later {p q : FProof} {old : Option Nat} (h : fnameAdmit p (some q) = .ok old) : p.later q := by
  simp only [fnameAdmit] at h
  rcases Fnames.compare_cases q p with ⟨_, h'⟩ | ⟨h0, _⟩ | ⟨h0, _⟩
  · exact h'
  · rw [if_pos h0] at h; cases h
  · rw [if_neg (by omega), if_pos h0] at h; cases h

/-- One step. -/
theorem prof_step (hch : ChannelNaming e.channelOf) (hU : HashesIdentify U) {L0 L own0 own idx0 idx} {n : ProfileNode}
    (h : ProfInv e U L0 L own0 own idx0 idx n) {o : ProfileOp} (ho : n.Orderly e U o) :
    ∃ L0' L' own0' own' idx0' idx', ProfInv e U L0' L' own0' own' idx0' idx' (n.exec e o) ∧
      (n.NamesSource o → UsersOwn L0 own0 → UsersOwn L own → UsersOwn L0' own0' ∧ UsersOwn L' own') ∧
      (n.Reported e o → (∀ s a, e.lib.solAddress s = some a → e.solText a = s) → Backed e L0 [] → Backed e L n.deleted →
        Backed e L0' [] ∧ Backed e L' (n.exec e o).deleted) := by
  cases o with
  | set pro v m =>
    obtain ⟨hm, hu, hv⟩ := ho
    by_cases ha : n.accepts e pro v m = true
    · simp only [ProfileNode.exec, ha, if_true]
      obtain ⟨L', h1, h2, _, h4⟩ := shard_call (o := .merge m) hch hU h.shard rfl (kind := .userData) ⟨hm, hu⟩
      have h4 := h4 (fun _ _ _ e' => by cases e')
      have hsub : ∀ x ∈ L' .userData, x = m ∨ x ∈ L .userData := fun x hx => by rw [h4] at hx; exact mem_liveMerge hx
      refine ⟨L0, L', own0, own, idx0, idx, ⟨h1, h.names, h.gone⟩, ?_, ?_⟩
      · intro _ g0 g
        refine ⟨g0, fun x hx name hb hne heth => ?_⟩
        rcases hsub x hx with rfl | hx'
        · exact accepted_username h hv hb ha hne heth
        · exact g x hx' name hb hne heth
      · intro _ hsol g0 g
        refine ⟨g0, fun x hx ty text hb hty hne => ?_⟩
        have hvs : L' .verifications = L .verifications := h2 _ (by decide)
        rw [hvs]
        rcases hsub x hx with rfl | hx'
        · obtain ⟨y, a, k1, k2⟩ := accepted_primary hch hU hsol h hv hm hb ha hty hne
          exact ⟨y, a, .inl k1, k2⟩
        · exact g x hx' ty text hb hty hne
    · simp only [ProfileNode.exec, ha, if_false, Bool.false_eq_true]
      exact ⟨L0, L, own0, own, idx0, idx, h, fun _ a b => ⟨a, b⟩, fun _ _ a b => ⟨a, b⟩⟩
  | verification f m =>
    obtain ⟨L', h1, h2, h3, h4⟩ := verification_step hch hU h.shard ho
    have hud : L' .userData = L .userData := h2 _ (by decide)
    have hinv : ProfInv e U L0 L' own0 own idx0 idx (n.exec e (.verification f m)) := by
      refine ⟨h1, h.names, ?_⟩
      intro x hx
      rcases List.mem_append.1 hx with hx | hx
      · exact h.gone x hx
      · exact (h.shard .verifications).holds.valid x (h3 x hx)
    refine ⟨L0, L', own0, own, idx0, idx, hinv, ?_, ?_⟩
    · intro _ g0 g
      refine ⟨g0, ?_⟩
      unfold UsersOwn
      rw [hud]; exact g
    · intro hr _ g0 g
      refine ⟨g0, fun x hx ty text hb hty hne => ?_⟩
      rw [hud] at hx
      obtain ⟨y, a, k1, k2⟩ := g x hx ty text hb hty hne
      refine ⟨y, a, ?_, k2⟩
      rcases k1 with k1 | k1
      · rcases hr with hr | hr
        · rcases h4 hr y k1 with k | k
          · exact .inl k
          · exact .inr (List.mem_append.2 (.inr k))
        · exact .inl ((hinv.has hch hU .verifications y).1 (hr y ((h.has hch hU .verifications y).2 k1)))
      · exact .inr (List.mem_append.2 (.inl k1))
  | transfer p source =>
    obtain ⟨hp, hs, hn⟩ := ho
    have hnn := h.nothingNew hch hU hn
    have h' : ProfInv e U L0 L own0 (Fnames.own' own p) idx0 (Fnames.idx' own idx p) { n with names := (mergeFname n.names p).2 } :=
      ⟨h.shard, h.names.merge hp, h.gone⟩
    obtain ⟨L', h1, h2, h3, h4⟩ := revokeUsername_step hch hU h' hs hnn
    refine ⟨L0, L', own0, _, idx0, _, h1, ?_, ?_⟩
    · intro hsrc g0 g
      refine ⟨g0, fun x hx name hb hne heth => ?_⟩
      obtain ⟨hxL, hxs⟩ := h3 x hx
      obtain ⟨q, hq, hqf⟩ := g x hxL name hb hne heth
      unfold Fnames.own'
      cases had : fnameAdmit p (own p.name) with
      | error err => exact ⟨q, hq, hqf⟩
      | ok old =>
        simp only
        by_cases hnm : name = p.name
        · subst hnm
          rw [if_pos rfl]
          refine ⟨p, rfl, ?_⟩
          by_cases hpf : p.fid = x.fid
          · exact hpf
          · exfalso
            rw [hq] at had
            have hx0 : 0 < x.fid := ((h.shard .userData).holds.valid x hxL).1.1
            have hsq := hsrc q (by rw [Fnames.getFname_iff h.names.rep, hq]) (admitted_later had) (by omega) (by omega)
            exact hxs (by omega) (by omega) _ hb
        · rw [if_neg hnm]; exact ⟨q, hq, hqf⟩
    · intro _ _ g0 g
      refine ⟨g0, fun x hx ty text hb hty hne => ?_⟩
      rw [h2 .verifications (by decide)]
      have : (n.exec e (.transfer p source)).deleted = n.deleted := h4
      rw [this]
      exact g x (h3 x hx).1 ty text hb hty hne
  | finish v =>
    obtain ⟨hv, hn⟩ := ho
    have hen : v.isEnabled .primaryAddresses = true := decide_eq_true (p := EngineVersion.v5.num ≤ v.num) hv
    obtain ⟨L', h1, h2, h3, h4⟩ := sideEffects_step hch hU n.deleted h (fun m hm => (h.gone m hm).1.2.1)
      (fun m hm => h.nothingNew hch hU (hn m hm))
    have hend : n.atEnd e v = n.sideEffects e n.deleted := by unfold ProfileNode.atEnd; rw [if_pos hen]
    have hinv : ProfInv e U L0 L' own0 own idx0 idx (n.exec e (.finish v)) := by
      refine ⟨?_, ?_, fun m hm => by cases hm⟩
      · show ShardInv _ _ _ _ _ (n.atEnd e v).2.store
        rw [hend]; exact h1.shard
      · show Fnames.Inv (n.atEnd e v).2.names _ _ _ _
        rw [hend]; exact h1.names
    refine ⟨L0, L', own0, own, idx0, idx, hinv, ?_, ?_⟩
    · intro _ g0 g
      exact ⟨g0, fun x hx => g x (h3 x hx)⟩
    · intro hr _ g0 g
      refine ⟨g0, fun x hx ty text hb hty hne => ?_⟩
      have hr : (n.sideEffects e n.deleted).1 = .ok () := by rw [← hend]; exact hr
      obtain ⟨y, a, k1, k2, k3, k4⟩ := g x (h3 x hx) ty text hb hty hne
      refine ⟨y, a, ?_, k2, k3, k4⟩
      rw [h2 .verifications (by decide)]
      rcases k1 with k1 | k1
      · exact .inl k1
      · exact absurd hb (h4 hr x hx y k1 a ty text k3 k2 k4)
  | other o =>
    obtain ⟨L', h1, h2⟩ := other_step hch hU h.shard ho.1 ho.2
    have hinv : ProfInv e U L0 L' own0 own idx0 idx (n.exec e (.other o)) := ⟨h1, h.names, h.gone⟩
    refine ⟨L0, L', own0, own, idx0, idx, hinv, ?_, ?_⟩
    · intro _ g0 g
      exact ⟨g0, fun x hx => g x (h2 x hx)⟩
    · intro hr _ g0 g
      refine ⟨g0, fun x hx ty text hb hty hne => ?_⟩
      obtain ⟨y, a, k1, k2⟩ := g x (h2 x hx) ty text hb hty hne
      refine ⟨y, a, ?_, k2⟩
      rcases k1 with k1 | k1
      · exact .inl ((hinv.has hch hU .verifications y).1 (hr y ((h.has hch hU .verifications y).2 k1)))
      · exact .inr k1
  | commit =>
    refine ⟨L, L, own, own, idx, idx, ⟨fun k => safeIn_commit (h.shard k) userDataStore e.ctx, h.names.commit, h.gone⟩,
      fun _ _ g => ⟨g, g⟩, fun hr _ _ g => ?_⟩
    have hr : n.deleted = [] := hr
    have he : (n.exec e .commit).deleted = n.deleted := rfl
    rw [he, hr]
    rw [hr] at g
    exact ⟨g, g⟩
  | drop =>
    exact ⟨L0, L0, own0, own0, idx0, idx0, h.committed, fun _ g _ => ⟨g, g⟩, fun _ _ g _ => ⟨g, g⟩⟩
  | block k =>
    exact ⟨L0, L, own0, own, idx0, idx, ⟨fun j => safeIn_block (h.shard j) userDataStore e.ctx k,
      ⟨h.names.rep0, h.names.good0, h.names.rep, h.names.good⟩, h.gone⟩, fun _ a b => ⟨a, b⟩, fun _ _ a b => ⟨a, b⟩⟩

/-- A history. -/
theorem prof_run (hch : ChannelNaming e.channelOf) (hU : HashesIdentify U) (ops : List ProfileOp) :
    ∀ {L0 L own0 own idx0 idx} {n : ProfileNode}, ProfInv e U L0 L own0 own idx0 idx n →
    Along e (fun n o => n.Orderly e U o) n ops →
    ∃ L0' L' own0' own' idx0' idx', ProfInv e U L0' L' own0' own' idx0' idx' (n.run e ops) ∧
      (Along e (fun n o => n.NamesSource o) n ops → UsersOwn L0 own0 → UsersOwn L own → UsersOwn L0' own0' ∧ UsersOwn L' own') ∧
      (Along e (fun n o => n.Reported e o) n ops → (∀ s a, e.lib.solAddress s = some a → e.solText a = s) →
        Backed e L0 [] → Backed e L n.deleted → Backed e L0' [] ∧ Backed e L' (n.run e ops).deleted) := by
  induction ops with
  | nil => intro L0 L own0 own idx0 idx n h _; exact ⟨_, _, _, _, _, _, h, fun _ a b => ⟨a, b⟩, fun _ _ a b => ⟨a, b⟩⟩
  | cons o ops ih =>
    intro L0 L own0 own idx0 idx n h ho
    obtain ⟨_, _, _, _, _, _, h1, h2, h3⟩ := prof_step hch hU h ho.1
    obtain ⟨L0', L', own0', own', idx0', idx', k1, k2, k3⟩ := ih h1 ho.2
    refine ⟨L0', L', own0', own', idx0', idx', k1, ?_, ?_⟩
    · intro hs a b
      obtain ⟨c, d⟩ := h2 hs.1 a b
      exact k2 hs.2 c d
    · intro hs hsol a b
      obtain ⟨c, d⟩ := h3 hs.1 hsol a b
      exact k3 hs.2 hsol c d

end Verif
