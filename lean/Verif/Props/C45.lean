import Verif.Lemmas.OnChainChan
/-!
C45: on-chain signers.
-/
namespace Verif
open Spec

/-- The event a node has on record for a signer. -/
def signerRecord (n : ChainNode) (fid : Nat) (key : Bytes) : Except HubErr (Option OEvent) :=
  eventBySecondaryKey n.db n.pend (signerKey fid key)

theorem signerRecord_cases {keccak} {n : ChainNode} (h : ChainInv keccak n) {fid : Nat} (hf : fid < 2 ^ 32) (key : Bytes) :
    (look n.db n.pend (signerKey fid key) = none ∧ signerRecord n fid key = .ok none) ∨
    ∃ e ∈ n.log, AboutSigner fid key e ∧ look n.db n.pend (signerKey fid key) = some (.raw (oPrimaryKey e)) ∧
      signerRecord n fid key = .ok (some e) := by
  cases hv : look n.db n.pend (signerKey fid key) with
  | none => exact Or.inl ⟨rfl, eventBySecondaryKey_none hv⟩
  | some v =>
    obtain ⟨e, he, ha, rfl⟩ := h.view.signer fid key hf v hv
    exact Or.inr ⟨e, he, ha, rfl, eventBySecondaryKey_some hv (h.view.event h.log he)⟩

/-- **C45**: a signer is active exactly when the event on record is an add with key type 1. -/
theorem C45_active {keccak : Bytes → Bytes} {ops : List ChainOp} (ho : OpsFit ops) {fid : Nat} (hf : fid < 2 ^ 32) (key : Bytes) :
    let n := ChainNode.run keccak ops
    ∃ r, signerRecord n fid key = .ok r ∧ (∀ e, r = some e → e ∈ n.log ∧ AboutSigner fid key e) ∧
      ∀ e, activeSigner n.db n.pend fid key = .ok (some e) ↔ r = some e ∧ e.body = .signer key 1 .add := by
  intro n
  have hi : ChainInv keccak n := chainInv_run ho
  rcases signerRecord_cases hi hf key with ⟨h1, h2⟩ | ⟨e, he, ha, h1, h2⟩
  · refine ⟨none, h2, by simp, ?_⟩
    intro e
    unfold activeSigner
    unfold signerRecord at h2
    rw [h2]; simp
  · refine ⟨some e, h2, ?_, ?_⟩
    · intro x hx; simp only [Option.some.injEq] at hx; subst hx; exact ⟨he, ha⟩
    · intro x
      unfold activeSigner
      unfold signerRecord at h2
      rw [h2]
      simp only
      obtain ⟨_, kt, ty, hb⟩ := ha
      split
      · rename_i k hb'
        rw [hb] at hb'
        simp only [OBody.signer.injEq] at hb'
        constructor
        · intro hx
          simp only [Except.ok.injEq, Option.some.injEq] at hx
          subst hx
          exact ⟨rfl, by rw [hb, hb'.2.1, hb'.2.2]⟩
        · rintro ⟨hx, _⟩; rw [hx]
      · rename_i hno
        constructor
        · intro hx; simp at hx
        · rintro ⟨hx, hbx⟩
          simp only [Option.some.injEq] at hx
          subst hx
          exact absurd hbx (hno key)

/-- **C45**: while no admin reset of the signer has been accepted, the record is the accepted event about the signer with the
highest block, the last one merged among those of that block. -/
theorem C45_record {keccak : Bytes → Bytes} {ops : List ChainOp} (ho : OpsFit ops) {fid : Nat} (hf : fid < 2 ^ 32) (key : Bytes)
    (hr : ∀ e ∈ (ChainNode.run keccak ops).log, ¬ Resets fid key e) :
    let n := ChainNode.run keccak ops
    ∃ r, signerRecord n fid key = .ok r ∧ (r = none ↔ ∀ e ∈ n.log, ¬ AboutSigner fid key e) ∧
      ∀ e, r = some e → LatestOf (AboutSigner fid key) n.log e := by
  intro n
  have hi : ChainInv keccak n := chainInv_run ho
  have hg := hi.view.signerExact fid key hf hr
  refine ⟨latest (selSigner fid key) n.log, ?_, ?_, ?_⟩
  · unfold signerRecord
    cases hlat : latest (selSigner fid key) n.log with
    | none => rw [hlat] at hg; exact eventBySecondaryKey_none hg
    | some o => rw [hlat] at hg; exact eventBySecondaryKey_some hg (hi.view.event hi.log (latest_mem hlat).1)
  · rw [latest_none]
    refine forall_congr' fun e => forall_congr' fun _ => ?_
    rw [← selSigner_iff]; simp
  · intro e he
    exact (LatestOf.congr (fun e => selSigner_iff)).mp (latest_some he)

theorem chainInv_from {keccak} {n : ChainNode} (h : ChainInv keccak n) (more : List ChainOp) (hm : OpsFit more) :
    ChainInv keccak (more.foldl (ChainNode.step keccak) n) := by
  induction more generalizing n with
  | nil => exact h
  | cons op more ih =>
    exact ih (chainInv_step h op (fun e he => hm e (by simp [he]))) (fun e he => hm e (by simp [he]))

theorem record_eq {n : ChainNode} {keccak} (h : ChainInv keccak n) {fid key e} (he : e ∈ n.log)
    (hk : look n.db n.pend (signerKey fid key) = some (.raw (oPrimaryKey e))) : signerRecord n fid key = .ok (some e) :=
  eventBySecondaryKey_some hk (h.view.event h.log he)

theorem record_look {n : ChainNode} {keccak} (h : ChainInv keccak n) {fid key r} (hf : fid < 2 ^ 32)
    (hr : signerRecord n fid key = .ok (some r)) :
    r ∈ n.log ∧ AboutSigner fid key r ∧ look n.db n.pend (signerKey fid key) = some (.raw (oPrimaryKey r)) := by
  rcases signerRecord_cases h hf key with ⟨_, h2⟩ | ⟨e, he, ha, h1, h2⟩
  · rw [h2] at hr; simp at hr
  · rw [h2] at hr
    simp only [Except.ok.injEq, Option.some.injEq] at hr
    subst hr
    exact ⟨he, ha, h1⟩

/-- Merging an event about something else, or one of an older block, leaves the record alone. -/
theorem merge_keeps {keccak} {n : ChainNode} (h : ChainInv keccak n) {fid key r} (hf : fid < 2 ^ 32)
    (hr : signerRecord n fid key = .ok (some r)) {e : OEvent} (he : Spec.OEvent.Fits e)
    (ho : AboutSigner fid key e → e.block < r.block) : signerRecord (n.step keccak (.merge e)) fid key = .ok (some r) := by
  by_cases hn : ∃ x ∈ n.log, SamePlace x e
  · unfold ChainNode.step
    simp only [merge_known h he hn]
    exact hr
  obtain ⟨hm, ha, hk⟩ := record_look h hf hr
  have hi' := chainInv_step h (.merge e) (fun x hx => by simp only [ChainOp.merge.injEq] at hx; exact hx ▸ he)
  obtain ⟨t, h1, h2⟩ := merge_new h he hn
  have hstep : n.step keccak (.merge e) = { n with pend := t, log := n.log ++ [e] } := by
    unfold ChainNode.step; simp only [h1]
  rw [hstep] at hi' ⊢
  refine record_eq hi' (by simp [hm]) ?_
  show look n.db t (signerKey fid key) = _
  -- look into the merge
  have hnew : ∀ x ∈ n.log, oPrimaryKey x ≠ oPrimaryKey e := fun x hx hc => hn ⟨x, hx, pk_inj (h.log.fits x hx) he hc⟩
  have hput : look n.db (n.pend.stagePut (oPrimaryKey e) (.event e)) (signerKey fid key) = some (.raw (oPrimaryKey r)) := by
    rw [look_put, signerKey, over_pk_ne (by decide)]; exact hk
  unfold mergeOnchainEvent at h1
  split at h1
  · simp at h1
  · simp only at h1
    cases hbi : buildIndices keccak n.db (n.pend.stagePut (oPrimaryKey e) (.event e)) e with
    | error x => rw [hbi] at h1; simp at h1
    | ok t2 =>
      rw [hbi] at h1
      simp only [Prod.mk.injEq, true_and] at h1
      subst h1
      unfold buildIndices at hbi
      cases hb : e.body with
      | none => rw [hb] at hbi; simp only [Except.ok.injEq] at hbi; rw [← hbi]; exact hput
      | signerMigrated => rw [hb] at hbi; simp only [Except.ok.injEq] at hbi; rw [← hbi]; exact hput
      | storageRent u => rw [hb] at hbi; simp only [Except.ok.injEq] at hbi; rw [← hbi]; exact hput
      | tierPurchase a b => rw [hb] at hbi; simp only [Except.ok.injEq] at hbi; rw [← hbi]; exact hput
      | idRegister to ty =>
        rw [hb] at hbi
        simp only [indexIdRegister] at hbi
        have hidp : ∀ v, look n.db ((n.pend.stagePut (oPrimaryKey e) (.event e)).stagePut (idRegisterKey e.fid) v) (signerKey fid key) =
            some (.raw (oPrimaryKey r)) := by
          intro v
          rw [look_put, over_ne (by unfold signerKey idRegisterKey; simp)]; exact hput
        split at hbi
        · simp only [Except.ok.injEq] at hbi; rw [← hbi]; exact hput
        · split at hbi
          · simp at hbi
          · split at hbi
            · simp only [Except.ok.injEq] at hbi; rw [← hbi]; exact hput
            · simp only [Except.ok.injEq] at hbi; rw [← hbi]; exact hidp _
          · simp only [Except.ok.injEq] at hbi; rw [← hbi]; exact hidp _
      | channelRegister ty k l o x =>
        have hr : ChanRows (look n.db (n.pend.stagePut (oPrimaryKey e) (.event e))) (chanState keccak n.log) := by
          rw [look_put]
          refine ⟨?_, ?_, ?_⟩
          · intro k; rw [chanOwnerKey, over_pk_ne (by decide)]; exact h.view.owner k
          · intro k; rw [chanLabelKey, over_pk_ne (by decide)]; exact h.view.label k
          · intro o k h20; rw [chanByOwnerKey, over_pk_ne (by decide)]; exact h.view.byOwner o k h20
        have hs : ∀ k v, look n.db (n.pend.stagePut (oPrimaryKey e) (.event e)) k = some v →
            ∃ b r, k = 12 :: b :: r ∧ b.toNat ≤ 57 ∧ (b = 57 → 20 ≤ r.length) := by
          rw [look_put]
          apply over_shape h.view.shape
          rw [pk_eq]; exact ⟨1, _, rfl, by decide, by simp⟩
        obtain ⟨t3, ch, c1, _, c3, _⟩ := indexChannel_spec hr (chanState_good keccak n.log) hs hb
        rw [hb] at hbi
        simp only [c1, Except.ok.injEq] at hbi
        rw [← hbi, signerKey, c3 _ _ (by decide) (by decide) (by decide)]
        exact hput
      | signer k kt ty =>
        rw [hb] at hbi
        simp only at hbi
        by_cases hsame : e.fid = fid ∧ k = key
        · obtain ⟨rfl, rfl⟩ := hsame
          have hlt := ho ⟨rfl, kt, ty, hb⟩
          unfold indexSigner at hbi
          rw [eventBySecondaryKey_some hput (by rw [look_put, over_ne (hnew r hm)]; exact h.view.event h.log hm)] at hbi
          simp only [if_pos (show r.block > e.block from hlt), Except.ok.injEq] at hbi
          rw [← hbi]; exact hput
        · have hsp : ∀ v, look n.db ((n.pend.stagePut (oPrimaryKey e) (.event e)).stagePut (signerKey e.fid k) v) (signerKey fid key) =
              some (.raw (oPrimaryKey r)) := by
            intro v
            rw [look_put, over_ne]
            · exact hput
            · intro hc
              obtain ⟨a, b⟩ := signerKey_inj hf he.2.1 hc
              exact hsame ⟨a.symm, b.symm⟩
          have hw : ∀ t3, writeSigner n.db (n.pend.stagePut (oPrimaryKey e) (.event e)) e k ty = .ok t3 →
              look n.db t3 (signerKey fid key) = some (.raw (oPrimaryKey r)) := by
            intro t3 h3
            unfold writeSigner at h3
            split at h3
            · split at h3
              · simp at h3
              · split at h3
                · simp only [Except.ok.injEq] at h3; rw [← h3]; exact hsp _
                · simp only [Except.ok.injEq] at h3; rw [← h3]; exact hput
            · simp only [Except.ok.injEq] at h3; rw [← h3]; exact hsp _
          unfold indexSigner at hbi
          split at hbi
          · simp at hbi
          · split at hbi
            · simp only [Except.ok.injEq] at hbi; rw [← hbi]; exact hput
            · split at hbi
              · simp only [Except.ok.injEq] at hbi; rw [← hbi]; exact hput
              · exact hw _ hbi
          · exact hw _ hbi

/-- **C45**: once a removal (or any other event) is on record for a signer, merging and committing any number of events keeps
it there as long as every further event about the signer is of an earlier block; in particular an older add merged late
never brings the signer back. -/
theorem C45_removed_stays_removed {keccak : Bytes → Bytes} {ops more : List ChainOp} (ho : OpsFit ops) (hm : OpsFit more)
    {fid : Nat} (hf : fid < 2 ^ 32) {key : Bytes} {r : OEvent}
    (hr : signerRecord (ChainNode.run keccak ops) fid key = .ok (some r))
    (hnd : ChainOp.drop ∉ more)
    (hold : ∀ e, ChainOp.merge e ∈ more → AboutSigner fid key e → e.block < r.block) :
    signerRecord (ChainNode.run keccak (ops ++ more)) fid key = .ok (some r) ∧
    ((∃ kt, r.body = .signer key kt .remove) →
      activeSigner (ChainNode.run keccak (ops ++ more)).db (ChainNode.run keccak (ops ++ more)).pend fid key = .ok none) := by
  have main : ∀ (more : List ChainOp) (n : ChainNode), ChainInv keccak n → OpsFit more → ChainOp.drop ∉ more →
      (∀ e, ChainOp.merge e ∈ more → AboutSigner fid key e → e.block < r.block) →
      signerRecord n fid key = .ok (some r) →
      signerRecord (more.foldl (ChainNode.step keccak) n) fid key = .ok (some r) := by
    intro more
    induction more with
    | nil => intro n _ _ _ _ h; exact h
    | cons op more ih =>
      intro n hi hfit hd hold hrec
      refine ih _ (chainInv_step hi op (fun e he => hfit e (by simp [he]))) (fun e he => hfit e (by simp [he]))
        (fun hc => hd (by simp [hc])) (fun e he => hold e (by simp [he])) ?_
      cases op with
      | merge e => exact merge_keeps hi hf hrec (hfit e (by simp)) (hold e (by simp))
      | drop => exact absurd (by simp) hd
      | commit =>
        have hc : look (n.db.commit n.pend) OMap.empty = look n.db n.pend := by
          rw [look_empty]; funext k; exact Db.get_commit n.db n.pend k
        obtain ⟨a, b, c⟩ := record_look hi hf hrec
        refine record_eq (chainInv_step hi .commit (by simp)) (e := r) a ?_
        show look (n.db.commit n.pend) OMap.empty _ = _
        rw [hc]; exact c
  have h1 : signerRecord (ChainNode.run keccak (ops ++ more)) fid key = .ok (some r) := by
    unfold ChainNode.run
    rw [List.foldl_append]
    exact main more _ (chainInv_run ho) hm hnd hold hr
  refine ⟨h1, ?_⟩
  rintro ⟨kt, hb⟩
  unfold activeSigner
  unfold signerRecord at h1
  rw [h1]
  simp only [hb]

/-- **C45**: a new add of a block that is not earlier than the record becomes the record, even when the record is a removal:
the guard in the code that looks as if it kept removed signers removed never applies. -/
theorem C45_newer_add_reactivates {keccak : Bytes → Bytes} {ops : List ChainOp} (ho : OpsFit ops) {e : OEvent}
    (he : Spec.OEvent.Fits e) {key : Bytes} (hb : e.body = .signer key 1 .add)
    (hnew : ¬ ∃ x ∈ (ChainNode.run keccak ops).log, SamePlace x e)
    (hge : ∀ r, signerRecord (ChainNode.run keccak ops) e.fid key = .ok (some r) → r.block ≤ e.block) :
    let n := ChainNode.run keccak (ops ++ [.merge e])
    activeSigner n.db n.pend e.fid key = .ok (some e) := by
  intro n
  have hi : ChainInv keccak (ChainNode.run keccak ops) := chainInv_run ho
  generalize hm : ChainNode.run keccak ops = m at *
  have hn : n = m.step keccak (.merge e) := by
    show ChainNode.run keccak (ops ++ [.merge e]) = _
    unfold ChainNode.run at *
    rw [List.foldl_append, hm]; rfl
  have hne : ∀ x ∈ m.log, oPrimaryKey x ≠ oPrimaryKey e := fun x hx hc => hnew ⟨x, hx, pk_inj (hi.log.fits x hx) he hc⟩
  have hd : ¬ (getFromDbOrTxn m.db m.pend (oPrimaryKey e)).isSome = true := fun hc => hnew ((hi.view.dup hi.log he).mp hc)
  have hlook : look m.db (m.pend.stagePut (oPrimaryKey e) (.event e)) (signerKey e.fid key) = look m.db m.pend (signerKey e.fid key) := by
    rw [look_put, signerKey, over_pk_ne (by decide)]
  have hidx : indexSigner m.db (m.pend.stagePut (oPrimaryKey e) (.event e)) e key .add =
      .ok ((m.pend.stagePut (oPrimaryKey e) (.event e)).stagePut (signerKey e.fid key) (.raw (oPrimaryKey e))) := by
    unfold indexSigner
    rcases signerRecord_cases hi he.2.1 key with ⟨a, _⟩ | ⟨r, hr, _, a, b⟩
    · rw [eventBySecondaryKey_none (hlook.trans a)]
      simp [writeSigner]
    · rw [eventBySecondaryKey_some (hlook.trans a) (by rw [look_put, over_ne (hne r hr)]; exact hi.view.event hi.log hr)]
      have := hge r b
      simp only [if_neg (show ¬ r.block > e.block by omega)]
      simp [writeSigner]
  have hmerge : mergeOnchainEvent keccak false m.db m.pend e = (.ok (),
      (m.pend.stagePut (oPrimaryKey e) (.event e)).stagePut (signerKey e.fid key) (.raw (oPrimaryKey e))) := by
    unfold mergeOnchainEvent
    simp only [hd, Bool.not_false, Bool.true_and, Bool.false_eq_true, if_false, buildIndices, hb, hidx]
  rw [hn]
  unfold ChainNode.step
  simp only [hmerge]
  unfold activeSigner
  rw [eventBySecondaryKey_some (e := e)]
  · simp only [hb]
  · rw [look_put, over_self]
  · rw [look_put, over_ne (by rw [pk_eq]; unfold signerKey; simp), look_put, over_self]

/-- **C45**: merging an event whose place is taken is refused and changes nothing. -/
theorem C45_duplicate_refused {keccak : Bytes → Bytes} {ops : List ChainOp} (ho : OpsFit ops) {e : OEvent}
    (he : Spec.OEvent.Fits e) (hd : ∃ x ∈ (ChainNode.run keccak ops).log, SamePlace x e) :
    (mergeOnchainEvent keccak false (ChainNode.run keccak ops).db (ChainNode.run keccak ops).pend e).1 = .error .duplicate ∧
    ChainNode.run keccak (ops ++ [.merge e]) = ChainNode.run keccak ops := by
  have h := merge_known (chainInv_run ho) he hd
  refine ⟨by rw [h], ?_⟩
  have : ChainNode.run keccak (ops ++ [.merge e]) = (ChainNode.run keccak ops).step keccak (.merge e) := by
    unfold ChainNode.run; rw [List.foldl_append]; rfl
  rw [this]
  unfold ChainNode.step
  simp only [h]

/-- A signer event of user 7 for one key. -/
def sigEv (ty : SignerEventType) (block : Nat) : OEvent := ⟨1, 7, block, 0, 0, block, .signer [9, 9] 1 ty⟩

/-- The hypotheses of `C45_removed_stays_removed` are met: added at 5, removed at 10, and adds of blocks 2 and 8 merged late. -/
example : OpsFit [.merge (sigEv .add 5), .commit, .merge (sigEv .remove 10)] ∧
    OpsFit [.merge (sigEv .add 2), .commit, .merge (sigEv .add 8)] ∧
    signerRecord (ChainNode.run (fun _ => []) [.merge (sigEv .add 5), .commit, .merge (sigEv .remove 10)]) 7 [9, 9] =
      .ok (some (sigEv .remove 10)) ∧
    (ChainNode.run (fun _ => []) ([.merge (sigEv .add 5), .commit, .merge (sigEv .remove 10)] ++
      [.merge (sigEv .add 2), .commit, .merge (sigEv .add 8)])).log.length = 4 := by
  refine ⟨?_, ?_, by decide, by decide⟩ <;>
  · intro e he
    simp only [List.mem_cons, ChainOp.merge.injEq, List.not_mem_nil, or_false] at he
    rcases he with rfl | h | rfl <;> first | contradiction | (unfold Spec.OEvent.Fits; decide)

/-- Is the signer active after a run? -/
def activeAfter (ops : List ChainOp) : Except HubErr (Option OEvent) :=
  activeSigner (ChainNode.run (fun _ => []) ops).db (ChainNode.run (fun _ => []) ops).pend 7 [9, 9]

/-- The guard is dead: removed at 10, added again at 11, active. -/
theorem C45_guard_is_dead :
    activeAfter [.merge (sigEv .add 5), .merge (sigEv .remove 10), .merge (sigEv .add 11)] = .ok (some (sigEv .add 11)) := by
  decide

/-- Admin resets bring back the oldest add, not the latest one. -/
theorem C45_reset_restores_oldest :
    activeAfter [.merge (sigEv .add 5), .merge (sigEv .add 8), .merge (sigEv .remove 10), .commit, .merge (sigEv .adminReset 12)] =
      .ok (some (sigEv .add 5)) := by decide

/-- Admin resets only see committed adds: with the add in the same batch the signer stays removed. -/
theorem C45_reset_ignores_batch :
    activeAfter [.merge (sigEv .add 5), .merge (sigEv .remove 10), .merge (sigEv .adminReset 12)] = .ok none ∧
    activeAfter [.merge (sigEv .add 5), .commit, .merge (sigEv .remove 10), .merge (sigEv .adminReset 12)] =
      .ok (some (sigEv .add 5)) := by decide

/-- After a reset the record is the old add, so a removal older than the reset but merged later takes the signer away again:
with resets the result depends on the order of merging. -/
theorem C45_reset_order_matters :
    activeAfter [.merge (sigEv .add 5), .commit, .merge (sigEv .remove 8), .merge (sigEv .adminReset 12)] = .ok (some (sigEv .add 5)) ∧
    activeAfter [.merge (sigEv .add 5), .commit, .merge (sigEv .adminReset 12), .merge (sigEv .remove 8)] = .ok none := by decide

end Verif
