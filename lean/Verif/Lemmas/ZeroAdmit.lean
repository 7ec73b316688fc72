import Verif.Spec.Zero
import Verif.Lemmas.ZeroRows
import Verif.Lemmas.AdmissionUse
import Verif.Props.C86
/-! The on-chain and key tables of shard 0 under the steps of its engine. -/
namespace Verif
open Spec

namespace ZeroCfg
variable {c : ZeroCfg}

/-- What an accepted message went through. -/
theorem validated_cases {clock : Nat} {v : EngineVersion} {ts : Nat} {w : ZWork} {slot : Slot} {counts : VCounts} {m : Msg}
    {d : WData} (hd : (c.wire m).data = some d) {t : Txn GVal} {k : Option ChanKind}
    (h : c.validateUser clock v ts w slot counts m = .ok (t, k)) :
    ∃ pro e ttl, tierActiveAt w.admit.chain.db 1 d.fid ts = .ok pro ∧ validateMessage c.env c.net pro ts v (c.wire m) = .ok () ∧
      idRegisterEvent w.admit.chain.db w.admit.chain.pend d.fid = .ok (some e) ∧
      signer w.admit v d (c.wire m).signer = .ok ttl ∧ c.arm clock v w slot counts m d = .ok k ∧
      bumpKey w.admit ts d (c.wire m).signer ttl = .ok t := by
  unfold validateUser at h
  rw [hd] at h
  simp only at h
  split at h
  · simp at h
  · rename_i pro hp
    split at h
    · simp at h
    · rename_i hv
      unfold checks at h
      split at h
      · simp at h
      · simp at h
      · rename_i e he
        split at h
        · simp at h
        · rename_i ttl hs
          split at h
          · simp at h
          · rename_i k' hk
            split at h
            · simp at h
            · rename_i t' hb
              cases h
              exact ⟨pro, e, ttl, hp, hv, he, hs, hk, hb⟩

theorem registered_of {env : VEnv} {cr : KeyCrypto} {n : AdmitNode} (hi : AdmitInv env cr n) {fid : Nat} (hfid : fid < 2 ^ 32)
    {e : OEvent} (hid : idRegisterEvent n.chain.db n.chain.pend fid = .ok (some e)) : ∃ e ∈ n.chain.log, Registers fid e := by
  have hg := hi.chain.view.id fid hfid
  cases hlat : latest (selId fid) n.chain.log with
  | none =>
    rw [hlat] at hg
    unfold idRegisterEvent at hid
    rw [eventBySecondaryKey_none hg] at hid
    simp at hid
  | some o => exact ⟨o, (latest_mem hlat).1, selId_iff.1 (latest_mem hlat).2⟩

theorem signer_mayPost {env : VEnv} {cr : KeyCrypto} {n : AdmitNode} (hi : AdmitInv env cr n) {v : EngineVersion} {now : Nat}
    {d : WData} (hfid : d.fid < 2 ^ 32) {key : Bytes} {ttl : Option UInt32} {t : Txn GVal}
    (hs : signer n v d key = .ok ttl) (hb : bumpKey n now d key ttl = .ok t) :
    (d.type = .keyAdd ∨ d.type = .keyRemove) ∨ OnChainKey n.chain.log d.fid key ∨
      (GaslessKey cr n.keyLog now d.fid key d.type ∧ d.type.num < 18) := by
  by_cases hk : d.type.isKey = true
  · exact .inl ((isKey_iff _).1 hk)
  · refine .inr ?_
    unfold signer at hs
    rw [if_neg hk] at hs
    unfold activeKeyFor at hs
    obtain ⟨r, hr1, hr2, _⟩ := activeSigner_view hi.chain.view hi.chain.log hfid key
    rw [hr1] at hs
    cases r with
    | some x => exact .inl (hr2 x rfl)
    | none =>
      refine .inr ?_
      simp only at hs
      rcases keyRecord_rows (db := n.keys.db) (t := n.keys.txn) hi.view hfid key with
        ⟨_, hg⟩ | ⟨_, hg, _⟩ | ⟨hl, g, events, since, rf, hg, hgr, hla, hlt⟩
      · rw [hg] at hs; simp at hs
      · rw [hg] at hs; simp at hs
      · rw [hg] at hs
        simp only at hs
        split at hs
        · rename_i hadm
          have hsc := (admits_iff g d.type).1 hadm
          obtain ⟨before, hbef⟩ := hgr.place
          have hrec := hi.good.2.recs (makeFidKey d.fid) key (.record ⟨g, rf⟩) (makeFidKey_length _) hl (by
            have := getKeyRecord_view n.keys.db n.keys.txn d.fid key
            rw [hg] at this
            simp only [hl, ne_eq, not_true_eq_false, if_false] at this
            show (n.keys.db.commit n.keys.txn).get _ = _
            split at this
            · simp at this
            · rename_i x hx; simp only [Except.ok.injEq, Option.some.injEq] at this; rw [hx, this]
            · simp at this)
          obtain ⟨r', hr', hvb, -⟩ := hrec
          simp only [GVal.record.injEq] at hr'
          subst hr'
          have hnum : d.type.num < 18 := by
            simp only [validateKeyAddBody, validateKeyAddScopes, Bool.and_eq_true, List.all_eq_true] at hvb
            have := hvb.2.2 _ hsc
            revert this
            cases d.type <;> decide
          refine ⟨⟨g, events, since, hgr, hi.notes g events (by rw [hbef]; simp), hsc, ?_⟩, hnum⟩
          have httl : g.ttl.toNat > 0 := by
            simp [validateKeyAddBody] at hvb
            omega
          simp only [ActiveKey.bumpTtl, if_pos httl, Except.ok.injEq] at hs
          subst hs
          simp only [bumpKey] at hb
          split at hb
          · simp at hb
          · rename_i t' hcb
            obtain ⟨_, L, hL4, hL, hnow, _⟩ := checkAndBump_ok hcb
            have hL' : (n.keys.db.commit n.keys.txn).get (23 :: 104 :: (makeFidKey d.fid ++ key)) = some (.raw L) := hL
            rw [hla] at hL'
            simp only [Option.some.injEq, GVal.raw.injEq] at hL'
            rw [← hL', fromBe_be_of_lt (by simpa using hlt)] at hnow
            exact hnow
        · simp at hs

theorem lending_since {v : EngineVersion} : v.isEnabled .storageLending = true → 11 ≤ v.num := by cases v <;> decide
theorem keys_since {v : EngineVersion} : v.isEnabled .gaslessSigners = true → 16 ≤ v.num := by cases v <;> decide
theorem verifications_since {v : EngineVersion} : v.isEnabled .verificationsOnShardZero = true → 21 ≤ v.num := by
  cases v <;> decide
theorem channels_since {v : EngineVersion} : v.isEnabled .channelMessages = true → 21 ≤ v.num := by cases v <;> decide

/-- A channel message is only placed if channel messages are enabled. -/
theorem arm_channel {clock : Nat} {v : EngineVersion} {w : ZWork} {slot : Slot} {counts : VCounts} {m : Msg} {d : WData}
    {k : ChanKind} (h : c.arm clock v w slot counts m d = .ok (some k)) : v.isEnabled .channelMessages = true := by
  unfold arm at h
  split at h
  · split at h
    · assumption
    · cases h
  · split at h
    · cases hl : c.lendArm clock v w slot d.fid _ _ <;> rw [hl] at h <;> cases h
    · cases hl : c.verificationArm v w slot counts m <;> rw [hl] at h <;> cases h
    · cases hl : c.verificationArm v w slot counts m <;> rw [hl] at h <;> cases h
    · split at h
      · split at h <;> cases h
      · split at h <;> cases h
      · cases h

/-- The gates of validation. -/
theorem validated_inEra {clock : Nat} {ts : Nat} {w : ZWork} {slot : Slot} {counts : VCounts} {m : Msg}
    (hc : c.Carries m) {t : Txn GVal} {k : Option ChanKind}
    (h : c.validateUser clock (c.ver ts) ts w slot counts m = .ok (t, k)) : c.InEra ⟨ts, w.admit, m, w.st.store⟩ := by
  obtain ⟨d, hd, hf, ht, hts, hsg, hh⟩ := id hc
  obtain ⟨pro, e, ttl, _, hv, hid, hs, ha, hb⟩ := validated_cases hd h
  refine ⟨?_, ?_, ?_⟩
  · intro hty ⟨a, hbody⟩
    simp only at hty hbody ⊢
    have h1 : (ShardCfg.isChannelType m.ty || isChannelBody m.body) = false := by
      rcases hty with e | e <;> rcases hbody with e' | e' <;> rw [e, e'] <;> rfl
    have h2 : ∃ u, c.verificationArm (c.ver ts) w slot counts m = .ok u := by
      unfold arm at ha
      rw [h1] at ha
      simp only [Bool.false_eq_true, if_false] at ha
      rcases hbody with e' | e' <;> rw [e'] at ha <;> simp only at ha <;>
        (cases hq : c.verificationArm (c.ver ts) w slot counts m with
         | error e => rw [hq] at ha; cases ha
         | ok u => exact ⟨u, rfl⟩)
    obtain ⟨u, h2⟩ := h2
    unfold verificationArm at h2
    split at h2
    · cases h2
    · rename_i g1
      split at h2
      · cases h2
      · rename_i g2
        exact ⟨verifications_since (by simpa using g1), verifications_since (by simpa using g2)⟩
  · intro hn
    simp only at hn ⊢
    have h1 : ShardCfg.isChannelType m.ty = true := by
      revert hn; cases m.ty <;> first | (intro _; rfl) | (intro hn; exact absurd hn (by decide))
    unfold arm at ha
    simp only [h1, Bool.true_or, if_true] at ha
    split at ha
    · rename_i g; exact channels_since g
    · cases ha
  · intro hty
    simp only at hty ⊢
    have hk : d.type.isKey = true := by rw [ht]; exact (isKey_iff _).2 hty
    unfold signer at hs
    rw [hk] at hs
    simp only [if_true] at hs
    split at hs
    · rename_i g; exact keys_since g
    · cases hs

/-- An accepted message is authorised, by the tables at that moment. -/
theorem validated_authorised {clock : Nat} {ts : Nat} {w : ZWork} {slot : Slot} {counts : VCounts} {m : Msg}
    (hi : AdmitInv c.env c.crypto w.admit) (hc : c.Carries m) (hfid : m.fid < 2 ^ 32) {t : Txn GVal} {k : Option ChanKind}
    (h : c.validateUser clock (c.ver ts) ts w slot counts m = .ok (t, k)) : c.Authorised ⟨ts, w.admit, m, w.st.store⟩ := by
  obtain ⟨d, hd, hf, ht, hts, hsg, hh⟩ := id hc
  obtain ⟨pro, e, ttl, _, hv, hid, hs, _, hb⟩ := validated_cases hd h
  obtain ⟨said, bytes, h1, h2, h3⟩ := admitted_sealed hd hv
  have hsig := signer_mayPost hi (hf ▸ hfid) hs hb
  rw [ht, hf, hsg] at hsig
  refine ⟨hc, ⟨said, bytes, h1, h2, fun hx => ?_⟩, ?_, ?_, ?_, validated_inEra hc h⟩
  · rw [hd, h3 hx]
  · rw [← hf]; exact registered_of hi (hf ▸ hfid) hid
  · rcases hsig with (h | h) | h | h
    · exact .inl h
    · exact .inr (.inl h)
    · exact .inr (.inr (.inl h))
    · exact .inr (.inr (.inr h.1))
  · intro hn
    rcases hsig with (h | h) | h | h
    · simp only [h] at hn; exact absurd hn (by decide)
    · simp only [h] at hn; exact absurd hn (by decide)
    · exact h
    · exact absurd h.2 (by simp only at hn ⊢; omega)

/-- The tables after an accepted message. -/
theorem admitInv_posted {clock : Nat} {v : EngineVersion} {ts : Nat} {w : ZWork} {slot : Slot} {counts : VCounts} {m : Msg}
    (hi : AdmitInv c.env c.crypto w.admit) (hc : c.Carries m) (hfid : m.fid < 2 ^ 32) {t : Txn GVal} {k : Option ChanKind}
    (h : c.validateUser clock v ts w slot counts m = .ok (t, k)) : AdmitInv c.env c.crypto (c.posted w v ts t m).admit := by
  obtain ⟨d, hd, hf, ht, hts, hsg, hh⟩ := id hc
  obtain ⟨pro, e, ttl, _, _, _, hs, _, hb⟩ := validated_cases hd h
  unfold posted note
  simp only [hd, hs]
  cases ttl with
  | none =>
    simp only [bumpKey, Except.ok.injEq] at hb
    subst hb
    simp only [List.append_nil]
    exact hi
  | some ttl =>
    simp only [bumpKey] at hb
    split at hb
    · simp at hb
    · rename_i t' hcb
      simp only [Except.ok.injEq] at hb
      subst hb
      obtain ⟨hk, L, hl, hL, _, hw⟩ := checkAndBump_ok hcb
      have hrec : (w.admit.keys.view.get (23 :: 105 :: (makeFidKey d.fid ++ (c.wire m).signer))).isSome := by
        rw [← hi.good.2.last _ _ (makeFidKey_length _) hk]
        show ((w.admit.keys.db.commit w.admit.keys.txn).get _).isSome
        rw [hL]; rfl
      have hview : KeyState.view { w.admit.keys with txn := t' } =
          bumpView w.admit.keys.view d.fid (c.wire m).signer (fromBe L) (UInt32.ofNat d.ts).toNat := hw
      refine ⟨hi.chain, ⟨hi.good.1, ?_⟩, ?_, hi.disk, ?_, hi.saved⟩
      · rw [hview]; exact hi.good.2.bumpView _ _ hL
      · show KeyRows (KeyState.view { w.admit.keys with txn := t' }) _
        rw [hview]
        exact rows_use hi.view (hf ▸ hfid) (UInt32.toNat_lt _) hL hrec
      · exact hi.notes.snoc (by intro g ev hx; cases hx)

theorem admitInv_mergeKey {n : AdmitNode} (hi : AdmitInv c.env c.crypto n) {m : WMsg}
    (hf : ∀ d, m.data = some d → d.fid < 2 ^ 32) : AdmitInv c.env c.crypto (c.mergeKey n m).2 := by
  unfold mergeKey keyOp
  cases hk : keyOpOf c.crypto c.net n m with
  | none => exact hi
  | some o =>
    obtain ⟨d, hd, ho⟩ := keyOpOf_cases hk
    have hdf := hf d hd
    rcases ho with ⟨k, rfl, hkf⟩ | ⟨k, rfl, hkf⟩
    · exact admitInv_keyOp hi (.inl ⟨k, false, rfl, hkf ▸ hdf⟩)
    · exact admitInv_keyOp hi (.inr ⟨k, rfl, hkf ▸ hdf⟩)

theorem mergeKey_chain (n : AdmitNode) (m : WMsg) : (c.mergeKey n m).2.chain = n.chain := by
  unfold mergeKey
  split
  · rfl
  · split <;> rfl

theorem mergeKey_log (n : AdmitNode) (m : WMsg) : n.keyLog <+: (c.mergeKey n m).2.keyLog := by
  unfold mergeKey
  split
  · exact List.prefix_refl _
  · split
    · exact List.prefix_append _ _
    · exact List.prefix_refl _

end ZeroCfg
end Verif
