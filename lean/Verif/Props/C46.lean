import Verif.Lemmas.ChannelOwner
/-!
C46: channel ownership.
-/
namespace Verif
open Spec

theorem channelOwner_eq {keccak} {n : ChainNode} (h : ChainInv keccak n) (key : Bytes) :
    channelOwner n.db n.pend key = .ok ((chanState keccak n.log).owner key) := readChanOwner_eq h.view.owner key

theorem channelOwner_disk {keccak} {n : ChainNode} (h : ChainInv keccak n) (key : Bytes) :
    channelOwner n.db OMap.empty key = .ok ((chanState keccak n.saved).owner key) :=
  readChanOwner_eq (t := OMap.empty) (by rw [look_empty]; exact h.disk.owner) key

/-- **C46**: a channel has an owner exactly when one of the accepted events registered it, whatever the order. -/
theorem C46_registered {keccak : Bytes → Bytes} {ops : List ChainOp} (ho : OpsFit ops) (key : Bytes) :
    let n := ChainNode.run keccak ops
    ∃ r, channelOwner n.db n.pend key = .ok r ∧ (r.isSome ↔ ∃ e ∈ n.log, Registered keccak key e) := by
  intro n
  refine ⟨_, channelOwner_eq (chainInv_run ho) key, ?_, record_exists keccak n.log key⟩
  intro h
  obtain ⟨o, h⟩ := Option.isSome_iff_exists.mp h
  exact (record_source keccak _ key o h).2

/-- **C46**: merged in the order of the chain, a channel belongs to whoever the last registration or transfer names, until the
time the last registration or renewal names. -/
theorem C46_follows_chain {keccak : Bytes → Bytes} {ops : List ChainOp} (ho : OpsFit ops)
    (hord : InChainOrder (ChainNode.run keccak ops).log) (hc : NoLabelCollision keccak (ChainNode.run keccak ops).log)
    {key : Bytes} {o : ChanOwner}
    (h : channelOwner (ChainNode.run keccak ops).db (ChainNode.run keccak ops).pend key = .ok (some o)) :
    LastSays (GivesTo keccak key) (ChainNode.run keccak ops).log o.owner ∧
    LastSays (SetsExpiry keccak key) (ChainNode.run keccak ops).log o.expiry := by
  rw [channelOwner_eq (chainInv_run ho)] at h
  simp only [Except.ok.injEq] at h
  exact record_in_order _ hord hc h

/-- **C46**: an event earlier on the chain than the record of a channel never changes that record, and the position of the
record never moves back. -/
theorem C46_never_goes_back {keccak : Bytes → Bytes} {ops : List ChainOp} (ho : OpsFit ops) {e : OEvent} (he : Spec.OEvent.Fits e)
    {key : Bytes} {o : ChanOwner}
    (h : channelOwner (ChainNode.run keccak ops).db (ChainNode.run keccak ops).pend key = .ok (some o)) :
    let n := ChainNode.run keccak (ops ++ [.merge e])
    ∃ o', channelOwner n.db n.pend key = .ok (some o') ∧
      (o' = o ∨ (AtPos o' e ∧ ∀ x, AtPos o x → ¬ Earlier e x)) := by
  intro n
  have hi : ChainInv keccak (ChainNode.run keccak ops) := chainInv_run ho
  rw [channelOwner_eq hi] at h
  simp only [Except.ok.injEq] at h
  have hn : n = (ChainNode.run keccak ops).step keccak (.merge e) := by
    show ChainNode.run keccak (ops ++ [.merge e]) = _
    unfold ChainNode.run; rw [List.foldl_append]; rfl
  have hi' : ChainInv keccak n := by
    rw [hn]; exact chainInv_step hi _ (fun x hx => by simp only [ChainOp.merge.injEq] at hx; exact hx ▸ he)
  rw [channelOwner_eq hi']
  by_cases hd : ∃ x ∈ (ChainNode.run keccak ops).log, SamePlace x e
  · have : n.log = (ChainNode.run keccak ops).log := by
      rw [hn]; unfold ChainNode.step; simp only [merge_known hi he hd]
    rw [this]
    exact ⟨o, by rw [h], Or.inl rfl⟩
  · obtain ⟨t, h1, _⟩ := merge_new hi he hd
    have : n.log = (ChainNode.run keccak ops).log ++ [e] := by
      rw [hn]; unfold ChainNode.step; simp only [h1]
    rw [this, chanState_append]
    cases chanStep_effect (chanState_good keccak (ChainNode.run keccak ops).log) e key with
    | register ow ex hr hnn he =>
      exact ⟨_, by rw [he], Or.inr ⟨⟨rfl, rfl, rfl⟩, fun x hx hc => hnn o h ((olderThan_iff hx).mpr hc)⟩⟩
    | renew ex o' hr ho hnn he =>
      rw [h] at ho; simp only [Option.some.injEq] at ho; subst ho
      exact ⟨_, by rw [he], Or.inr ⟨⟨rfl, rfl, rfl⟩, fun x hx hc => hnn ((olderThan_iff hx).mpr hc)⟩⟩
    | transfer ow o' hr ho hnn he =>
      rw [h] at ho; simp only [Option.some.injEq] at ho; subst ho
      exact ⟨_, by rw [he], Or.inr ⟨⟨rfl, rfl, rfl⟩, fun x hx hc => hnn ((olderThan_iff hx).mpr hc)⟩⟩
    | nothing he _ _ _ => exact ⟨o, by rw [he, h], Or.inl rfl⟩

/-- **C46**: registrations alone may arrive in any order: when they sit at different positions the record is the same. -/
theorem C46_registrations_any_order {keccak : Bytes → Bytes} {ops ops' : List ChainOp} (ho : OpsFit ops) (ho' : OpsFit ops')
    {key : Bytes} (hp : (ChainNode.run keccak ops).log.Perm (ChainNode.run keccak ops').log)
    (hr : ∀ e ∈ (ChainNode.run keccak ops).log, (∀ x, ¬ RenewsChannel keccak key x e) ∧ (∀ o, ¬ TransfersChannel keccak key o e))
    (hd : ∀ a ∈ (ChainNode.run keccak ops).log, ∀ b ∈ (ChainNode.run keccak ops).log,
      Registered keccak key a → Registered keccak key b → ¬ Earlier a b → ¬ Earlier b a → a = b) :
    channelOwner (ChainNode.run keccak ops).db (ChainNode.run keccak ops).pend key =
      channelOwner (ChainNode.run keccak ops').db (ChainNode.run keccak ops').pend key := by
  rw [channelOwner_eq (chainInv_run ho), channelOwner_eq (chainInv_run ho')]
  generalize (ChainNode.run keccak ops).log = l at *
  generalize (ChainNode.run keccak ops').log = l' at *
  congr 1
  have hr' : ∀ e ∈ l', (∀ x, ¬ RenewsChannel keccak key x e) ∧ (∀ o, ¬ TransfersChannel keccak key o e) :=
    fun e he => hr e (hp.mem_iff.mpr he)
  cases h : (chanState keccak l).owner key with
  | none =>
    cases h' : (chanState keccak l').owner key with
    | none => rfl
    | some o =>
      obtain ⟨x, hx, hrx⟩ := (record_source keccak l' key o h').2
      have := record_exists keccak l key ⟨x, hp.mem_iff.mpr hx, hrx⟩
      rw [h] at this; simp at this
  | some o =>
    obtain ⟨x, hx, a1, a2, a3, a4⟩ := record_registers_only l hr h
    obtain ⟨o', h'⟩ := Option.isSome_iff_exists.mp (record_exists keccak l' key ⟨x, hp.mem_iff.mp hx, o.owner, o.expiry, a1⟩)
    obtain ⟨y, hy, b1, b2, b3, b4⟩ := record_registers_only l' hr' h'
    have hxy : x = y := hd x hx y (hp.mem_iff.mpr hy) ⟨_, _, a1⟩ ⟨_, _, b1⟩ (a4 y (hp.mem_iff.mpr hy) ⟨_, _, b1⟩)
      (b4 x (hp.mem_iff.mp hx) ⟨_, _, a1⟩)
    subst hxy
    rw [h']
    obtain ⟨e1, e2, e3⟩ := a3
    obtain ⟨f1, f2, f3⟩ := b3
    have hb := a1.1.symm.trans b1.1
    simp only [OBody.channelRegister.injEq, true_and] at hb
    cases o; cases o'; simp_all

/-- Stored keys never confuse the scan of an owner's channels. -/
theorem noShort_owner {keccak} {db : Db OVal} {log} (h : ViewOk keccak db.get log) (owner : Bytes) (hl : owner.length = 20) :
    NoShortKey db (12 :: 57 :: owner) := by
  intro r hr h1 h2
  have hp : ∃ b ∈ (12 :: 57 :: owner : Bytes), b ≠ 255 := ⟨12, by simp, by decide⟩
  have hlen := incrementVec_length hp
  obtain ⟨b, s, hk, hb57, hb⟩ := h.shape r.1 r.2 ((OMap.get_eq_some_iff db).mpr hr)
  rw [hk] at h1
  have h57 : b = 57 := by
    have : ¬ b < 57 := by
      intro hc
      have h3 : Bytes.blt (12 :: 57 :: owner) (12 :: b :: s) = false := by
        rw [UInt8.lt_iff_toNat_lt] at hc
        have h57 : (57 : UInt8).toNat = 57 := rfl
        simp [Bytes.blt]
        omega
      rw [h3] at h1; simp at h1
    rw [UInt8.lt_iff_toNat_lt] at this
    have : (57 : UInt8).toNat = 57 := rfl
    apply UInt8.toNat_inj.mp; omega
  apply h2.eq_of_length_le
  have := hb h57
  rw [hlen, hk]
  simp only [List.length_cons, hl]; omega

/-- **C46**: the channels listed for an owner are exactly those whose stored record names that owner, each once. -/
theorem C46_owner_list {keccak : Bytes → Bytes} {ops : List ChainOp} (ho : OpsFit ops) (owner : Bytes) (hl : owner.length = 20) :
    let n := ChainNode.run keccak ops
    ∃ keys, channelKeysByOwner n.db owner = .ok keys ∧ keys.Nodup ∧
      ∀ key, key ∈ keys ↔ ∃ o, channelOwner n.db OMap.empty key = .ok (some o) ∧ o.owner = owner := by
  intro n
  have hi : ChainInv keccak n := chainInv_run ho
  unfold channelKeysByOwner
  rw [if_neg (by simp [hl])]
  simp only
  rw [scan_prefix_eq n.db _ ⟨12, by simp, by decide⟩ (noShort_owner hi.disk owner hl) false]
  simp only [inDirection, Bool.false_eq_true, if_false]
  have hrow : ∀ r ∈ rowsStartingWith n.db (12 :: 57 :: owner), r.1 = chanByOwnerKey owner (r.1.drop (12 :: 57 :: owner : Bytes).length) := by
    intro r hr
    obtain ⟨z, hz⟩ := List.isPrefixOf_iff_prefix.mp (List.mem_filter.mp hr).2
    rw [← hz, List.drop_left]; rfl
  refine ⟨_, rfl, ?_, ?_⟩
  · have hs : (rowsStartingWith n.db (12 :: 57 :: owner)).Pairwise (fun a b => a.1 ≺ b.1) :=
      List.Pairwise.sublist List.filter_sublist n.db.sorted
    unfold List.Nodup
    rw [List.pairwise_map]
    refine List.Pairwise.imp_of_mem ?_ hs
    intro a b ha hb hlt heq
    rw [hrow a ha, hrow b hb, heq] at hlt
    have h0 := Bytes.blt_irrefl (chanByOwnerKey owner (b.1.drop (12 :: 57 :: owner : Bytes).length))
    exact absurd hlt (by show ¬ Bytes.blt _ _ = true; rw [h0]; simp)
  · intro key
    simp only [channelOwner_disk hi]
    constructor
    · intro hk
      obtain ⟨r, hr, rfl⟩ := List.mem_map.mp hk
      have hg := (OMap.get_eq_some_iff n.db).mpr (List.mem_filter.mp hr).1
      rw [hrow r hr, hi.disk.byOwner owner _ hl] at hg
      split at hg
      · rename_i hany
        cases hc : (chanState keccak n.saved).owner (r.1.drop (12 :: 57 :: owner : Bytes).length) with
        | none => rw [hc] at hany; simp at hany
        | some o => rw [hc] at hany; exact ⟨o, rfl, by simpa using hany⟩
      · simp at hg
    · rintro ⟨o, h1, h2⟩
      simp only [Except.ok.injEq] at h1
      have hg := hi.disk.byOwner owner key hl
      rw [h1] at hg
      simp only [Option.any_some, h2, decide_true, if_true] at hg
      refine List.mem_map.mpr ⟨(chanByOwnerKey owner key, .raw [1]), List.mem_filter.mpr ⟨(OMap.get_eq_some_iff n.db).mp hg, ?_⟩, ?_⟩
      · rw [List.isPrefixOf_iff_prefix]; exact ⟨key, rfl⟩
      · show List.drop (12 :: 57 :: owner : Bytes).length ((12 :: 57 :: owner) ++ key) = key
        rw [List.drop_left]

/-- The owner address recorded for a channel. -/
def ownerAddress (db : Db OVal) (t : Txn OVal) (key : Bytes) : Except HubErr (Option Bytes) :=
  match readChanOwner db t key with
  | .error x => .error x
  | .ok o => .ok (o.map (·.owner))

theorem ownerAddress_put_ne {db : Db OVal} {t : Txn OVal} {k : Bytes} {v} (key) (h : chanOwnerKey key ≠ k) :
    ownerAddress db (t.stagePut k v) key = ownerAddress db t key := by
  unfold ownerAddress readChanOwner
  rw [getFromDbOrTxn_stagePut, if_neg h]

/-- **C46**: the change of owner a data shard reports after folding an event is the change it recorded; when it reports none,
every owner address is as before. -/
theorem C46_reported_change {keccak : Bytes → Bytes} {db : Db OVal} {t t' : Txn OVal} {e : OEvent} {ch : Option OwnerChange}
    (h : foldChannelReplica keccak db t e = .ok (t', ch)) :
    (∀ c, ch = some c → ownerAddress db t' c.key = .ok (some c.owner)) ∧
    (ch = none → ∀ key, ownerAddress db t' key = ownerAddress db t key) := by
  have hput : ∀ (t : Txn OVal) (k : Bytes) (o : ChanOwner), ownerAddress db (t.stagePut (chanOwnerKey k) (.owner o)) k = .ok (some o.owner) := by
    intro t k o
    unfold ownerAddress readChanOwner
    rw [getFromDbOrTxn_stagePut, if_pos rfl]; rfl
  unfold foldChannelReplica at h
  split at h
  · rename_i ty key label owner expiry _
    unfold indexChannel at h
    repeat' split at h
    all_goals simp only [Except.ok.injEq, Prod.mk.injEq, reduceCtorEq] at h
    all_goals obtain ⟨rfl, rfl⟩ := h
    all_goals refine ⟨?_, ?_⟩
    all_goals try (intro hc; simp at hc; done)
    all_goals try (intro _ key; rfl)
    all_goals try (intro c hc; simp at hc; done)
    · intro c hc
      simp only [Option.some.injEq] at hc; subst hc
      exact hput _ _ _
    · intro _ k
      by_cases hk : k = key
      · subst hk
        rw [hput]
        unfold ownerAddress
        rw [‹readChanOwner db t k = _›]; rfl
      · exact ownerAddress_put_ne _ (by unfold chanOwnerKey; simpa using hk)
    · intro c hc
      simp only [Option.some.injEq] at hc; subst hc
      exact hput _ _ _
  · simp only [Except.ok.injEq, Prod.mk.injEq] at h
    obtain ⟨rfl, rfl⟩ := h
    exact ⟨by simp, fun _ _ => rfl⟩

/-- A stand-in hash for the examples: the first byte of the key, repeated. -/
def hash32 (k : Bytes) : Bytes := List.replicate 32 (k.headD 0)
def addr (b : UInt8) : Bytes := List.replicate 20 b
/-- Events of the channel `[1]` at a block. -/
def chReg (owner : UInt8) (expiry block : Nat) : OEvent := ⟨6, 0, block, 0, 0, block, .channelRegister .register [1] (hash32 [1]) (addr owner) expiry⟩
def chRenew (expiry block : Nat) : OEvent := ⟨6, 0, block, 0, 0, block, .channelRegister .renew [1] (hash32 [1]) [] expiry⟩
def chMove (owner : UInt8) (block : Nat) : OEvent := ⟨6, 0, block, 0, 0, block, .channelRegister .transfer [] (hash32 [1]) (addr owner) 0⟩

def chRun : List ChainOp := [.merge (chReg 10 100 1), .merge (chMove 11 2), .commit, .merge (chRenew 200 3), .commit]

/-- The hypotheses are met by a channel registered, transferred and renewed in order. -/
example : (OpsFit chRun ∧ InChainOrder (ChainNode.run hash32 chRun).log ∧ NoLabelCollision hash32 (ChainNode.run hash32 chRun).log) ∧
    channelOwner (ChainNode.run hash32 chRun).db (ChainNode.run hash32 chRun).pend [1] = .ok (some ⟨[1], addr 11, 200, 3, 0, 0⟩) ∧
    channelKeysByOwner (ChainNode.run hash32 chRun).db (addr 11) = .ok [[1]] ∧
    channelKeysByOwner (ChainNode.run hash32 chRun).db (addr 10) = .ok [] := by
  have hlog : (ChainNode.run hash32 chRun).log = [chReg 10 100 1, chMove 11 2, chRenew 200 3] := by decide +kernel
  refine ⟨⟨?_, ?_, ?_⟩, by decide +kernel, by decide +kernel, by decide +kernel⟩
  · intro e he
    simp only [chRun, List.mem_cons, ChainOp.merge.injEq, List.not_mem_nil, or_false] at he
    rcases he with rfl | rfl | h | rfl | h <;> first | contradiction | (unfold Spec.OEvent.Fits; decide)
  · rw [hlog]
    unfold InChainOrder
    simp [Earlier, chReg, chMove, chRenew]
  · rw [hlog]
    have key : ∀ a ∈ [chReg 10 100 1, chMove 11 2, chRenew 200 3], ∀ k, Registered hash32 k a → k = [1] := by
      intro a ha k ⟨o, x, h, _⟩
      simp only [List.mem_cons, List.not_mem_nil, or_false] at ha
      rcases ha with rfl | rfl | rfl
      · simp only [chReg, OBody.channelRegister.injEq, true_and] at h; exact h.1.symm
      · simp [chMove] at h
      · simp [chRenew] at h
    intro a ha b hb k k' h1 h2 _
    rw [key a ha k h1, key b hb k' h2]

/-- Order matters once renewals and transfers mix, although all positions differ: a renewal merged first hides an earlier transfer. -/
theorem C46_order_matters :
    channelOwner (ChainNode.run hash32 [.merge (chReg 10 100 1), .merge (chMove 11 2), .merge (chRenew 200 3)]).db
      (ChainNode.run hash32 [.merge (chReg 10 100 1), .merge (chMove 11 2), .merge (chRenew 200 3)]).pend [1] =
        .ok (some ⟨[1], addr 11, 200, 3, 0, 0⟩) ∧
    channelOwner (ChainNode.run hash32 [.merge (chReg 10 100 1), .merge (chRenew 200 3), .merge (chMove 11 2)]).db
      (ChainNode.run hash32 [.merge (chReg 10 100 1), .merge (chRenew 200 3), .merge (chMove 11 2)]).pend [1] =
        .ok (some ⟨[1], addr 10, 200, 3, 0, 0⟩) := by decide +kernel

/-- And a transfer merged before the registration it follows on the chain is lost. -/
theorem C46_early_transfer_lost :
    channelOwner (ChainNode.run hash32 [.merge (chMove 11 2), .merge (chReg 10 100 1)]).db
      (ChainNode.run hash32 [.merge (chMove 11 2), .merge (chReg 10 100 1)]).pend [1] =
        .ok (some ⟨[1], addr 10, 100, 1, 0, 0⟩) := by decide +kernel

end Verif
