import Verif.Lemmas.OnChainRun
namespace Verif
open Spec

section
variable {keccak : Bytes → Bytes} {db : Db OVal} {t : Txn OVal} {log saved : List OEvent} {e : OEvent}

theorem readChanOwner_eq {c : ChanSt} {t : Txn OVal} (h : ∀ key, look db t (chanOwnerKey key) = (c.owner key).map .owner) (key) :
    readChanOwner db t key = .ok (c.owner key) := by
  unfold readChanOwner
  have := h key
  unfold look at this
  rw [this]
  cases c.owner key <;> rfl

/-- What the channel rows say. -/
structure ChanRows (g : Bytes → Option OVal) (c : ChanSt) : Prop where
  owner : ∀ key, g (chanOwnerKey key) = (c.owner key).map .owner
  label : ∀ l, g (chanLabelKey l) = (c.label l).map .raw
  byOwner : ∀ o key, o.length = 20 → g (chanByOwnerKey o key) =
    if (c.owner key).any (fun x => x.owner = o) then some (.raw [1]) else none

/-- The channel fold on rows: the new rows, untouched other rows, and the reported change. -/
theorem indexChannel_spec {c : ChanSt} (hr : ChanRows (look db t) c) (hg : ChanSt.Good keccak c)
    (hshape : ∀ k v, look db t k = some v → ∃ b r, k = 12 :: b :: r ∧ b.toNat ≤ 57 ∧ (b = 57 → 20 ≤ r.length))
    {ty key label owner expiry} (hb : e.body = .channelRegister ty key label owner expiry) :
    ∃ t2 ch, indexChannel keccak db t e ty key label owner expiry = .ok (t2, ch) ∧ ChanRows (look db t2) (chanStep keccak c e) ∧
      (∀ (b : UInt8) r, b ≠ 55 → b ≠ 56 → b ≠ 57 → look db t2 (12 :: b :: r) = look db t (12 :: b :: r)) ∧
      (∀ k v, look db t2 k = some v → ∃ b r, k = 12 :: b :: r ∧ b.toNat ≤ 57 ∧ (b = 57 → 20 ≤ r.length)) := by
  unfold indexChannel chanStep
  rw [hb]
  simp only
  by_cases hl : label.length ≠ 32
  · rw [if_pos hl, if_pos hl]; exact ⟨_, _, rfl, hr, fun _ _ _ _ _ => rfl, hshape⟩
  rw [if_neg hl, if_neg hl]
  have hread := fun k => readChanOwner_eq (c := c) (db := db) (t := t) hr.owner k
  cases ty with
  | none => exact ⟨_, _, rfl, hr, fun _ _ _ _ _ => rfl, hshape⟩
  | register =>
    simp only
    by_cases h1 : owner.length ≠ 20 ∨ keccak key ≠ label
    · rw [if_pos h1, if_pos h1]; exact ⟨_, _, rfl, hr, fun _ _ _ _ _ => rfl, hshape⟩
    rw [if_neg h1, if_neg h1, hread key]
    simp only
    by_cases h2 : (c.owner key).any (olderThan e) = true
    · rw [if_pos h2, if_pos h2]; exact ⟨_, _, rfl, hr, fun _ _ _ _ _ => rfl, hshape⟩
    rw [if_neg h2, if_neg h2]
    have ho20 : owner.length = 20 := Classical.byContradiction fun hc => h1 (Or.inl hc)
    -- rows common to all sub-cases
    have main : ∀ t', (∀ k, look db t' k = if k = chanByOwnerKey owner key then some (.raw [1])
          else if ∃ o, c.owner key = some o ∧ o.owner ≠ owner ∧ k = chanByOwnerKey o.owner key then none
          else look db (t.stagePut (chanLabelKey label) (.raw key)) k) →
        ChanRows (look db (t'.stagePut (chanOwnerKey key) (.owner ⟨key, owner, expiry, e.block, e.tx, e.log⟩)))
          ⟨upd c.owner key ⟨key, owner, expiry, e.block, e.tx, e.log⟩, upd c.label label key⟩ ∧
        (∀ (b : UInt8) r, b ≠ 55 → b ≠ 56 → b ≠ 57 →
          look db (t'.stagePut (chanOwnerKey key) (.owner ⟨key, owner, expiry, e.block, e.tx, e.log⟩)) (12 :: b :: r) = look db t (12 :: b :: r)) ∧
        (∀ k v, look db (t'.stagePut (chanOwnerKey key) (.owner ⟨key, owner, expiry, e.block, e.tx, e.log⟩)) k = some v →
          ∃ b r, k = 12 :: b :: r ∧ b.toNat ≤ 57 ∧ (b = 57 → 20 ≤ r.length)) := by
      intro t' ht'
      rw [look_put]
      have other : ∀ (b : UInt8) r, b ≠ 57 → look db t' (12 :: b :: r) = look db (t.stagePut (chanLabelKey label) (.raw key)) (12 :: b :: r) := by
        intro b r hb57
        rw [ht', if_neg, if_neg]
        · rintro ⟨o, _, _, hk⟩; unfold chanByOwnerKey at hk; simp only [List.cons.injEq, true_and] at hk; exact hb57 hk.1
        · intro hk; unfold chanByOwnerKey at hk; simp only [List.cons.injEq, true_and] at hk; exact hb57 hk.1
      refine ⟨⟨?_, ?_, ?_⟩, ?_, ?_⟩
      · intro k
        unfold upd
        by_cases hk : k = key
        · subst hk; rw [over_self]; simp
        · rw [over_ne (by unfold chanOwnerKey; simpa using hk), chanOwnerKey, other _ _ (by decide), look_put, over_ne (by unfold chanLabelKey; simp)]
          simp only [hk, if_false]
          exact hr.owner k
      · intro l
        unfold upd
        rw [over_ne (by unfold chanLabelKey chanOwnerKey; simp), chanLabelKey, other _ _ (by decide), look_put]
        by_cases hk : l = label
        · subst hk; rw [show (12 :: 56 :: l) = chanLabelKey l from rfl, over_self]; simp
        · rw [over_ne (by unfold chanLabelKey; simpa using hk)]
          simp only [hk, if_false]
          exact hr.label l
      · intro o k h20
        rw [over_ne (by unfold chanByOwnerKey chanOwnerKey; simp), ht']
        by_cases hk : k = key
        · subst hk
          simp only [upd, if_true, Option.any_some, decide_eq_true_eq]
          by_cases hoo : owner = o
          · subst hoo; simp
          · rw [if_neg (fun hc => hoo (byOwner_inj h20 ho20 hc).1.symm), if_neg hoo]
            by_cases hex : ∃ o_1, c.owner k = some o_1 ∧ o_1.owner ≠ owner ∧ chanByOwnerKey o k = chanByOwnerKey o_1.owner k
            · rw [if_pos hex]
            · rw [if_neg hex, look_put, over_ne (by unfold chanByOwnerKey chanLabelKey; simp), hr.byOwner o k h20, if_neg]
              intro hc
              obtain ⟨x, hx, hxo⟩ := Option.any_eq_true _ _ |>.mp hc
              simp only [decide_eq_true_eq] at hxo
              exact hex ⟨x, hx, by rw [hxo]; exact fun hc => hoo hc.symm, by rw [hxo]⟩
        · rw [if_neg (fun hc => hk (byOwner_inj h20 ho20 hc).2), if_neg, look_put, over_ne (by unfold chanByOwnerKey chanLabelKey; simp), hr.byOwner o k h20]
          · simp only [upd, hk, if_false]
          · rintro ⟨x, hx, _, hc⟩
            exact hk (byOwner_inj h20 (hg.owner key x hx).1 hc).2
      · intro b r h55 h56 h57
        rw [over_ne (by unfold chanOwnerKey; intro hc; simp only [List.cons.injEq, true_and] at hc; exact h55 hc.1), other _ _ h57, look_put,
          over_ne (by unfold chanLabelKey; intro hc; simp only [List.cons.injEq, true_and] at hc; exact h56 hc.1)]
      · apply over_shape
        · intro k v hv
          rw [ht'] at hv
          split at hv
          · rename_i hk; exact ⟨57, _, hk, by decide, fun _ => by simp [ho20]⟩
          · split at hv
            · simp at hv
            · rw [look_put] at hv
              exact over_shape hshape ⟨56, _, rfl, by decide, by simp⟩ k v hv
        · exact ⟨55, _, rfl, by decide, by simp⟩
    unfold moveOwnerIndex
    cases ho : c.owner key with
    | none =>
      simp only [Option.map_none, ho20, if_true]
      refine ⟨_, _, rfl, main _ ?_⟩
      intro k
      rw [look_put]
      unfold over
      by_cases hk : k = chanByOwnerKey owner key
      · rw [if_pos hk, if_pos hk]
      · rw [if_neg hk, if_neg hk, if_neg]
        rintro ⟨o, hc, _⟩; simp [ho] at hc
    | some old =>
      simp only [Option.map_some, ho20, if_true]
      by_cases hoo : old.owner = owner
      · rw [if_pos hoo]
        refine ⟨_, _, rfl, main _ ?_⟩
        intro k
        rw [look_put]
        unfold over
        by_cases hk : k = chanByOwnerKey owner key
        · rw [if_pos hk, if_pos hk]
        · rw [if_neg hk, if_neg hk, if_neg]
          rintro ⟨o, hc, hc2, _⟩
          rw [ho] at hc
          simp only [Option.some.injEq] at hc
          subst hc
          exact hc2 hoo
      · rw [if_neg hoo, if_pos (hg.owner key old ho).1]
        refine ⟨_, _, rfl, main _ ?_⟩
        intro k
        rw [look_put]
        unfold over
        by_cases hk : k = chanByOwnerKey owner key
        · rw [if_pos hk, if_pos hk]
        · rw [if_neg hk, if_neg hk, look_del]
          simp only
          by_cases hk2 : k = chanByOwnerKey old.owner key
          · rw [if_pos hk2, if_pos ⟨old, ho, hoo, hk2⟩]
          · rw [if_neg hk2, if_neg]
            rintro ⟨o, hc, _, hc3⟩
            rw [ho] at hc
            simp only [Option.some.injEq] at hc
            subst hc
            exact hk2 hc3
  | renew =>
    simp only
    by_cases h1 : keccak key ≠ label
    · rw [if_pos h1, if_pos h1]; exact ⟨_, _, rfl, hr, fun _ _ _ _ _ => rfl, hshape⟩
    rw [if_neg h1, if_neg h1, hread key]
    cases ho : c.owner key with
    | none => exact ⟨_, _, rfl, hr, fun _ _ _ _ _ => rfl, hshape⟩
    | some old =>
      simp only
      by_cases h2 : olderThan e old = true
      · rw [if_pos h2, if_pos h2]; exact ⟨_, _, rfl, hr, fun _ _ _ _ _ => rfl, hshape⟩
      rw [if_neg h2, if_neg h2]
      refine ⟨_, _, rfl, ?_⟩
      rw [look_put]
      refine ⟨⟨?_, ?_, ?_⟩, ?_, ?_⟩
      · intro k
        unfold upd
        by_cases hk : k = key
        · subst hk; rw [over_self]; simp
        · rw [over_ne (by unfold chanOwnerKey; simpa using hk)]
          simp only [hk, if_false]
          exact hr.owner k
      · intro l; rw [over_ne (by unfold chanLabelKey chanOwnerKey; simp)]; exact hr.label l
      · intro o k h20
        rw [over_ne (by unfold chanByOwnerKey chanOwnerKey; simp), hr.byOwner o k h20]
        unfold upd
        by_cases hk : k = key
        · subst hk; simp [ho]
        · simp [hk]
      · intro b r h55 h56 h57
        rw [over_ne (by unfold chanOwnerKey; intro hc; simp only [List.cons.injEq, true_and] at hc; exact h55 hc.1)]
      · exact over_shape hshape ⟨55, _, rfl, by decide, by simp⟩
  | transfer =>
    simp only
    by_cases h1 : owner.length ≠ 20
    · rw [if_pos h1, if_pos h1]; exact ⟨_, _, rfl, hr, fun _ _ _ _ _ => rfl, hshape⟩
    have ho20 : owner.length = 20 := Classical.byContradiction fun hc => h1 hc
    rw [if_neg h1, if_neg h1]
    have hlab := hr.label label
    unfold look at hlab
    rw [hlab]
    cases hlk : c.label label with
    | none => exact ⟨_, _, rfl, hr, fun _ _ _ _ _ => rfl, hshape⟩
    | some k0 =>
    simp only [Option.map_some]
    rw [hread k0]
    cases ho : c.owner k0 with
    | none => exact ⟨_, _, rfl, hr, fun _ _ _ _ _ => rfl, hshape⟩
    | some old =>
      simp only
      by_cases h2 : olderThan e old = true
      · rw [if_pos h2, if_pos h2]; exact ⟨_, _, rfl, hr, fun _ _ _ _ _ => rfl, hshape⟩
      rw [if_neg h2, if_neg h2]
      have main : ∀ t', (∀ k, look db t' k = if k = chanByOwnerKey owner k0 then some (.raw [1])
            else if old.owner ≠ owner ∧ k = chanByOwnerKey old.owner k0 then none else look db t k) →
          ChanRows (look db (t'.stagePut (chanOwnerKey k0) (.owner { old with owner := owner, block := e.block, tx := e.tx, log := e.log })))
            ⟨upd c.owner k0 { old with owner := owner, block := e.block, tx := e.tx, log := e.log }, c.label⟩ ∧
          (∀ (b : UInt8) r, b ≠ 55 → b ≠ 56 → b ≠ 57 →
            look db (t'.stagePut (chanOwnerKey k0) (.owner { old with owner := owner, block := e.block, tx := e.tx, log := e.log })) (12 :: b :: r) = look db t (12 :: b :: r)) ∧
          (∀ k v, look db (t'.stagePut (chanOwnerKey k0) (.owner { old with owner := owner, block := e.block, tx := e.tx, log := e.log })) k = some v →
            ∃ b r, k = 12 :: b :: r ∧ b.toNat ≤ 57 ∧ (b = 57 → 20 ≤ r.length)) := by
        intro t' ht'
        rw [look_put]
        have other : ∀ (b : UInt8) r, b ≠ 57 → look db t' (12 :: b :: r) = look db t (12 :: b :: r) := by
          intro b r hb57
          rw [ht', if_neg, if_neg]
          · rintro ⟨_, hk⟩; unfold chanByOwnerKey at hk; simp only [List.cons.injEq, true_and] at hk; exact hb57 hk.1
          · intro hk; unfold chanByOwnerKey at hk; simp only [List.cons.injEq, true_and] at hk; exact hb57 hk.1
        refine ⟨⟨?_, ?_, ?_⟩, ?_, ?_⟩
        · intro k
          unfold upd
          by_cases hk : k = k0
          · subst hk; rw [over_self]; simp
          · rw [over_ne (by unfold chanOwnerKey; simpa using hk), chanOwnerKey, other _ _ (by decide)]
            simp only [hk, if_false]
            exact hr.owner k
        · intro l
          rw [over_ne (by unfold chanLabelKey chanOwnerKey; simp), chanLabelKey, other _ _ (by decide)]
          exact hr.label l
        · intro o k h20
          rw [over_ne (by unfold chanByOwnerKey chanOwnerKey; simp), ht']
          by_cases hk : k = k0
          · subst hk
            simp only [upd, if_true, Option.any_some, decide_eq_true_eq]
            by_cases hoo : owner = o
            · subst hoo; simp
            · rw [if_neg (fun hc => hoo (byOwner_inj h20 ho20 hc).1.symm), if_neg hoo]
              by_cases hex : old.owner ≠ owner ∧ chanByOwnerKey o k = chanByOwnerKey old.owner k
              · rw [if_pos hex]
              · rw [if_neg hex, hr.byOwner o k h20, if_neg]
                rw [ho]
                simp only [Option.any_some, decide_eq_true_eq]
                intro hc
                exact hex ⟨by rw [hc]; exact fun hc => hoo hc.symm, by rw [hc]⟩
          · rw [if_neg (fun hc => hk (byOwner_inj h20 ho20 hc).2), if_neg, hr.byOwner o k h20]
            · simp only [upd, hk, if_false]
            · rintro ⟨_, hc⟩
              exact hk (byOwner_inj h20 (hg.owner k0 old ho).1 hc).2
        · intro b r h55 h56 h57
          rw [over_ne (by unfold chanOwnerKey; intro hc; simp only [List.cons.injEq, true_and] at hc; exact h55 hc.1), other _ _ h57]
        · apply over_shape
          · intro k v hv
            rw [ht'] at hv
            split at hv
            · rename_i hk; exact ⟨57, _, hk, by decide, fun _ => by simp [ho20]⟩
            · split at hv
              · simp at hv
              · exact hshape k v hv
          · exact ⟨55, _, rfl, by decide, by simp⟩
      unfold moveOwnerIndex
      simp only [ho20, if_true]
      by_cases hoo : old.owner = owner
      · rw [if_pos hoo]
        refine ⟨_, _, rfl, main _ ?_⟩
        intro k
        rw [look_put]
        unfold over
        by_cases hk : k = chanByOwnerKey owner k0
        · rw [if_pos hk, if_pos hk]
        · rw [if_neg hk, if_neg hk, if_neg]
          rintro ⟨hc, _⟩
          exact hc hoo
      · rw [if_neg hoo, if_pos (hg.owner k0 old ho).1]
        refine ⟨_, _, rfl, main _ ?_⟩
        intro k
        rw [look_put]
        unfold over
        by_cases hk : k = chanByOwnerKey owner k0
        · rw [if_pos hk, if_pos hk]
        · rw [if_neg hk, if_neg hk, look_del]
          simp only
          by_cases hk2 : k = chanByOwnerKey old.owner k0
          · rw [if_pos hk2, if_pos ⟨hoo, hk2⟩]
          · rw [if_neg hk2, if_neg]
            rintro ⟨_, hc3⟩
            exact hk2 hc3

/-- Merging a channel event. -/
theorem merge_channel (h : ViewOk keccak (look db t) log) (hf : Spec.OEvent.Fits e)
    (hnew : ∀ x ∈ log, oPrimaryKey x ≠ oPrimaryKey e) {ty key label owner expiry}
    (hb : e.body = .channelRegister ty key label owner expiry) :
    ∃ t2 ch, indexChannel keccak db (t.stagePut (oPrimaryKey e) (.event e)) e ty key label owner expiry = .ok (t2, ch) ∧
      ViewOk keccak (look db t2) (log ++ [e]) := by
  have hr : ChanRows (look db (t.stagePut (oPrimaryKey e) (.event e))) (chanState keccak log) := by
    rw [look_put]
    refine ⟨?_, ?_, ?_⟩
    · intro k; rw [chanOwnerKey, over_pk_ne (by decide)]; exact h.owner k
    · intro k; rw [chanLabelKey, over_pk_ne (by decide)]; exact h.label k
    · intro o k h20; rw [chanByOwnerKey, over_pk_ne (by decide)]; exact h.byOwner o k h20
  have hs : ∀ k v, look db (t.stagePut (oPrimaryKey e) (.event e)) k = some v →
      ∃ b r, k = 12 :: b :: r ∧ b.toNat ≤ 57 ∧ (b = 57 → 20 ≤ r.length) := by
    rw [look_put]
    apply over_shape h.shape
    rw [pk_eq]; exact ⟨1, _, rfl, by decide, by simp⟩
  obtain ⟨t2, ch, h1, h2, h3, h4⟩ := indexChannel_spec hr (chanState_good keccak log) hs hb
  refine ⟨t2, ch, h1, ?_⟩
  have h3' : ∀ (b : UInt8) r, b ≠ 55 → b ≠ 56 → b ≠ 57 → b ≠ 1 → look db t2 (12 :: b :: r) = look db t (12 :: b :: r) := by
    intro b r a1 a2 a3 a4
    rw [h3 b r a1 a2 a3, look_put, over_pk_ne a4]
  apply h.mk' hnew
  · intro k; rw [h3 1 k (by decide) (by decide) (by decide), look_put]
  · exact h4
  · intro fid hfid
    rw [idRegisterKey, h3' _ _ (by decide) (by decide) (by decide) (by decide), keepNewer_false (by simp [selId, hb])]
    exact h.id fid hfid
  · intro fid key hfid v hv
    rw [signerKey, h3' _ _ (by decide) (by decide) (by decide) (by decide)] at hv
    obtain ⟨x, hx, hs, hv⟩ := h.signer fid key hfid v hv
    exact ⟨x, by simp [hx], hs, hv⟩
  · intro fid key hfid hr
    rw [signerKey, h3' _ _ (by decide) (by decide) (by decide) (by decide), keepNewer_false (by simp [selSigner, hb])]
    exact h.signerExact fid key hfid (fun x hx => hr x (by simp [hx]))
  · exact h2.owner
  · exact h2.label
  · exact h2.byOwner

end

/-- The invariant of runs. -/
structure ChainInv (keccak : Bytes → Bytes) (n : ChainNode) : Prop where
  view : ViewOk keccak (look n.db n.pend) n.log
  disk : ViewOk keccak n.db.get n.saved
  log : LogOk n.log
  sub : n.saved <+: n.log

theorem LogOk.prefix {l l' : List OEvent} (h : LogOk l) (hp : l' <+: l) : LogOk l' :=
  ⟨fun e he => h.fits e (hp.subset he), h.apart.sublist hp.sublist⟩

theorem look_empty (db : Db OVal) : look db OMap.empty = db.get := by
  funext k; rfl

theorem chainInv_init (keccak) : ChainInv keccak {} := by
  refine ⟨?_, ?_, ⟨by simp, by simp⟩, List.prefix_refl _⟩
  · exact viewOk_nil keccak
  · exact viewOk_nil keccak

/-- A merge of a new event succeeds. -/
theorem merge_new {keccak} {n : ChainNode} (h : ChainInv keccak n) {e : OEvent} (hf : Spec.OEvent.Fits e)
    (hn : ¬ ∃ x ∈ n.log, SamePlace x e) :
    ∃ t, mergeOnchainEvent keccak false n.db n.pend e = (.ok (), t) ∧ ViewOk keccak (look n.db t) (n.log ++ [e]) := by
  have hnew : ∀ x ∈ n.log, oPrimaryKey x ≠ oPrimaryKey e :=
    fun x hx hc => hn ⟨x, hx, pk_inj (h.log.fits x hx) hf hc⟩
  have hd : ¬ (getFromDbOrTxn n.db n.pend (oPrimaryKey e)).isSome = true := fun hc => hn ((h.view.dup h.log hf).mp hc)
  unfold mergeOnchainEvent
  simp only [hd, Bool.not_false, Bool.true_and, Bool.false_eq_true, if_false]
  have key : ∃ t2, buildIndices keccak n.db (n.pend.stagePut (oPrimaryKey e) (.event e)) e = .ok t2 ∧
      ViewOk keccak (look n.db t2) (n.log ++ [e]) := by
    have plain : (∀ fid, selId fid e = false) → (∀ fid key, selSigner fid key e = false) →
        (∀ ty k l o x, e.body ≠ .channelRegister ty k l o x) →
        ViewOk keccak (look n.db (n.pend.stagePut (oPrimaryKey e) (.event e))) (n.log ++ [e]) := by
      intro h1 h2 h3
      rw [look_put]
      exact h.view.add h1 h2 (chanStep_other h3) hnew
    unfold buildIndices
    cases hb : e.body with
    | idRegister to ty => exact merge_id h.view h.log hf hnew hb
    | signer key kt ty =>
      exact merge_signer h.view h.log h.disk (h.log.prefix h.sub) (fun x hx => h.sub.subset hx) hf hnew hb
    | channelRegister ty key label owner expiry =>
      obtain ⟨t2, ch, h1, h2⟩ := merge_channel (keccak := keccak) h.view hf hnew hb
      simp only [h1]
      exact ⟨t2, rfl, h2⟩
    | none => exact ⟨_, rfl, plain (by simp [selId, hb]) (by simp [selSigner, hb]) (by simp [hb])⟩
    | signerMigrated => exact ⟨_, rfl, plain (by simp [selId, hb]) (by simp [selSigner, hb]) (by simp [hb])⟩
    | storageRent u => exact ⟨_, rfl, plain (by simp [selId, hb]) (by simp [selSigner, hb]) (by simp [hb])⟩
    | tierPurchase a b => exact ⟨_, rfl, plain (by simp [selId, hb]) (by simp [selSigner, hb]) (by simp [hb])⟩
  obtain ⟨t2, h1, h2⟩ := key
  rw [h1]
  exact ⟨t2, rfl, h2⟩

/-- A merge of a known event is a duplicate and changes nothing. -/
theorem merge_known {keccak} {n : ChainNode} (h : ChainInv keccak n) {e : OEvent} (hf : Spec.OEvent.Fits e)
    (hn : ∃ x ∈ n.log, SamePlace x e) :
    mergeOnchainEvent keccak false n.db n.pend e = (.error .duplicate, n.pend) := by
  have hd : (getFromDbOrTxn n.db n.pend (oPrimaryKey e)).isSome = true := (h.view.dup h.log hf).mpr hn
  unfold mergeOnchainEvent
  simp [hd]

theorem chainInv_step {keccak} {n : ChainNode} (h : ChainInv keccak n) (op : ChainOp)
    (hf : ∀ e, op = .merge e → Spec.OEvent.Fits e) : ChainInv keccak (n.step keccak op) := by
  cases op with
  | merge e =>
    by_cases hn : ∃ x ∈ n.log, SamePlace x e
    · unfold ChainNode.step
      simp only [merge_known h (hf e rfl) hn]
      exact h
    · obtain ⟨t, h1, h2⟩ := merge_new h (hf e rfl) hn
      unfold ChainNode.step
      simp only [h1]
      refine ⟨h2, h.disk, ⟨?_, ?_⟩, h.sub.trans (List.prefix_append _ _)⟩
      · intro x hx
        rcases List.mem_append.mp hx with hx | hx
        · exact h.log.fits x hx
        · simp only [List.mem_singleton] at hx; rw [hx]; exact hf e rfl
      · rw [List.pairwise_append]
        refine ⟨h.log.apart, by simp, ?_⟩
        intro a ha b hb
        simp only [List.mem_singleton] at hb
        subst hb
        exact fun hc => hn ⟨a, ha, hc⟩
  | commit =>
    have hc : (n.db.commit n.pend).get = look n.db n.pend := by
      funext k; exact Db.get_commit n.db n.pend k
    refine ⟨?_, ?_, h.log, List.prefix_refl _⟩
    · show ViewOk keccak (look (n.db.commit n.pend) OMap.empty) n.log
      rw [look_empty, hc]; exact h.view
    · show ViewOk keccak (n.db.commit n.pend).get n.log
      rw [hc]; exact h.view
  | drop =>
    refine ⟨?_, h.disk, h.log.prefix h.sub, List.prefix_refl _⟩
    show ViewOk keccak (look n.db OMap.empty) n.saved
    rw [look_empty]; exact h.disk

theorem chainInv_run {keccak} {ops : List ChainOp} (h : OpsFit ops) : ChainInv keccak (ChainNode.run keccak ops) := by
  induction ops using snoc_induction with
  | nil => exact chainInv_init keccak
  | snoc l a ih =>
    unfold ChainNode.run
    rw [List.foldl_append]
    refine chainInv_step (ih (fun e he => h e (by simp [he]))) a ?_
    intro e he
    exact h e (by simp [he])

end Verif
