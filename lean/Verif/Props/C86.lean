import Verif.Lemmas.AdmissionUse
import Verif.Case.Validate
/-!
C86: nobody posts for a user on a data shard without a key of that user.
-/
namespace Verif
open Spec

/-- The bytes of an admitted message are signed by its signer; they say what `data` says if the message is as the API and
gossip hand it on, with `data` decoded from the signed bytes. -/
theorem admitted_sealed {env : VEnv} {net : Network} {pro : Bool} {now : Nat} {v : EngineVersion} {m : WMsg} {d : WData}
    (hd : m.data = some d) (h : validateMessage env net pro now v m = .ok ()) :
    ∃ said bytes, Contents env m said bytes ∧ Sealed env m bytes ∧ (bytesDecode env m = m → said = d) := by
  obtain ⟨said, bytes, he⟩ := C72_accepted_envelope env net pro now v m h
  refine ⟨said, bytes, he.contents, he.sealed, ?_⟩
  intro hb
  rcases he.contents with ⟨h1, h2⟩ | ⟨h1, h2, _⟩
  · unfold bytesDecode at hb
    rw [h1] at hb
    simp only at hb
    rw [if_neg (by have := he.sealed.nonempty; simpa using this)] at hb
    have : env.decode bytes = m.data := congrArg WMsg.data hb
    rw [h2, hd] at this
    exact Option.some.inj this
  · rw [hd] at h2; exact (Option.some.inj h2).symm

/-- **C86**: in every history, a message that a data shard admits is signed by the key it names over the bytes it carries;
its user is registered; and unless it is a key message, that key is a signer of the user on chain, or was added by the
address that owned the user's id, has not been removed since, is meant for this type of message and has been active within
its time to live. -/
theorem C86_admitted_is_authorised (env : VEnv) (c : KeyCrypto) (net : Network) {ops : List AdmitOp} (hf : AdmitFits ops)
    (p : ProfileView) {v : EngineVersion} (hv : 7 ≤ v.num) (now : Nat) {m : WMsg} {d : WData} (hd : m.data = some d)
    (hfid : d.fid < 2 ^ 32) {t : Txn GVal}
    (h : validateUserMessage env net p (AdmitNode.run env c net ops) v now m = .ok t) :
    let n := AdmitNode.run env c net ops
    (∃ said bytes, Contents env m said bytes ∧ Sealed env m bytes ∧ (bytesDecode env m = m → said = d)) ∧
    (∃ e ∈ n.chain.log, Registers d.fid e) ∧ ¬ NotHere v.num d.type.num ∧
    (d.type = .keyAdd ∨ d.type = .keyRemove ∨ MayPost c n now d.fid m.signer d.type) := by
  intro n
  have hi : AdmitInv env c n := admitInv_run env c net hf
  obtain ⟨pro, e, ttl, hp, hval, hid, hs, hr, hpr, hb⟩ := admitted_cases hd h
  refine ⟨admitted_sealed hd hval, ?_, ?_, ?_⟩
  · rw [readTxn_new hv] at hid
    have hg := hi.chain.view.id d.fid hfid
    cases hlat : latest (selId d.fid) n.chain.log with
    | none =>
      rw [hlat] at hg
      unfold idRegisterEvent at hid
      rw [eventBySecondaryKey_none hg] at hid
      simp at hid
    | some o => exact ⟨o, (latest_mem hlat).1, selId_iff.1 (latest_mem hlat).2⟩
  · rw [← refusedType_iff, hr]; simp
  · by_cases hk : d.type.isKey = true
    · rcases (isKey_iff _).1 hk with hk | hk
      · exact .inl hk
      · exact .inr (.inl hk)
    · refine .inr (.inr ?_)
      unfold checkSigner at hs
      rw [if_neg hk, readTxn_new hv, readTxn_new hv] at hs
      unfold activeKeyFor at hs
      obtain ⟨r, hr1, hr2, _⟩ := activeSigner_view hi.chain.view hi.chain.log hfid m.signer
      rw [hr1] at hs
      cases r with
      | some x => exact .inl (hr2 x rfl)
      | none =>
        refine .inr ?_
        simp only at hs
        rcases keyRecord_rows (db := n.keys.db) (t := n.keys.txn) hi.view hfid m.signer with
          ⟨_, hg⟩ | ⟨_, hg, _⟩ | ⟨hl, g, events, since, rf, hg, hgr, hla, hlt⟩
        · rw [hg] at hs; simp at hs
        · rw [hg] at hs; simp at hs
        · rw [hg] at hs
          simp only at hs
          split at hs
          · rename_i hadm
            have hsc := (admits_iff g d.type).1 hadm
            obtain ⟨before, hbef⟩ := hgr.place
            refine ⟨g, events, since, hgr, hi.notes g events (by rw [hbef]; simp), hsc, ?_⟩
            have hrec := hi.good.2.recs (makeFidKey d.fid) m.signer (.record ⟨g, rf⟩) (makeFidKey_length _) hl (by
              have := getKeyRecord_view n.keys.db n.keys.txn d.fid m.signer
              rw [hg] at this
              simp only [hl, ne_eq, not_true_eq_false, if_false] at this
              show (n.keys.db.commit n.keys.txn).get _ = _
              split at this
              · simp at this
              · rename_i x hx; simp only [Except.ok.injEq, Option.some.injEq] at this; rw [hx, this]
              · simp at this)
            obtain ⟨r', hr', hvb, -⟩ := hrec
            simp only [GVal.record.injEq] at hr'
            subst hr'
            have httl : g.ttl.toNat > 0 := by
              simp [validateKeyAddBody] at hvb
              omega
            simp only [ActiveKey.bumpTtl, if_pos httl, Except.ok.injEq] at hs
            subst hs
            simp only [bumpKey] at hb
            split at hb
            · simp at hb
            · rename_i t' hcb
              obtain ⟨_, L, hL4, hL, hnow, _⟩ := checkAndBump_ok hcb
              have hL' : (n.keys.db.commit n.keys.txn).get (23 :: 104 :: (makeFidKey d.fid ++ m.signer)) = some (.raw L) := hL
              rw [hla] at hL'
              simp only [Option.some.injEq, GVal.raw.injEq] at hL'
              rw [← hL', fromBe_be_of_lt (by simpa using hlt)] at hnow
              exact hnow
          · simp at hs

/-- **C86** before version 7: the same, judged by what was committed, without the batch; expiry is judged with the batch. -/
theorem C86_admitted_before_version_7 (env : VEnv) (c : KeyCrypto) (net : Network) {ops : List AdmitOp}
    (hf : AdmitFits ops) (p : ProfileView) {v : EngineVersion} (hv : v.num < 7) (now : Nat) {m : WMsg} {d : WData}
    (hd : m.data = some d) (hfid : d.fid < 2 ^ 32) {t : Txn GVal}
    (h : validateUserMessage env net p (AdmitNode.run env c net ops) v now m = .ok t) :
    let n := AdmitNode.run env c net ops
    (∃ said bytes, Contents env m said bytes ∧ Sealed env m bytes ∧ (bytesDecode env m = m → said = d)) ∧
    (∃ e ∈ n.chain.saved, Registers d.fid e) ∧ d.type ≠ .keyAdd ∧ d.type ≠ .keyRemove ∧
    (OnChainKey n.chain.saved d.fid m.signer ∨
      ∃ g events since, Granted n.keySaved d.fid m.signer g events since ∧ Consented c g events ∧
        (d.type.num : Int) ∈ g.scopes) := by
  intro n
  have hi : AdmitInv env c n := admitInv_run env c net hf
  have hlog := hi.chain.log.prefix hi.chain.sub
  have hdisk : ViewOk env.keccak (look n.chain.db OMap.empty) n.chain.saved := by rw [look_empty]; exact hi.chain.disk
  obtain ⟨pro, e, ttl, hp, hval, hid, hs, hr, hpr, hb⟩ := admitted_cases hd h
  have hnk : d.type.isKey = false := by
    cases hk : d.type.isKey with
    | false => rfl
    | true =>
      unfold checkSigner at hs
      rw [hk] at hs
      simp only [if_true] at hs
      have hg : ¬ (v.isEnabled .gaslessSigners = true) :=
        fun hc => absurd (show 16 ≤ v.num from of_decide_eq_true hc) (by omega)
      rw [if_neg hg] at hs
      simp at hs
  refine ⟨admitted_sealed hd hval, ?_, ?_, ?_, ?_⟩
  · rw [readTxn_old hv] at hid
    have hg := hdisk.id d.fid hfid
    cases hlat : latest (selId d.fid) n.chain.saved with
    | none =>
      rw [hlat] at hg
      unfold idRegisterEvent at hid
      rw [eventBySecondaryKey_none hg] at hid
      simp at hid
    | some o => exact ⟨o, (latest_mem hlat).1, selId_iff.1 (latest_mem hlat).2⟩
  · intro hc; rw [hc] at hnk; exact absurd hnk (by decide)
  · intro hc; rw [hc] at hnk; exact absurd hnk (by decide)
  · unfold checkSigner at hs
    rw [hnk, readTxn_old hv, readTxn_old hv] at hs
    simp only [Bool.false_eq_true, if_false] at hs
    unfold activeKeyFor at hs
    obtain ⟨r, hr1, hr2, _⟩ := activeSigner_view hdisk hlog hfid m.signer
    rw [hr1] at hs
    cases r with
    | some x => exact .inl (hr2 x rfl)
    | none =>
      refine .inr ?_
      simp only at hs
      have hrows : KeyRows (n.keys.db.commit OMap.empty) n.keySaved := by
        rw [Db.commit_empty]; exact hi.disk
      rcases keyRecord_rows (t := OMap.empty) hrows hfid m.signer with
        ⟨_, hg⟩ | ⟨_, hg, _⟩ | ⟨hl, g, events, since, rf, hg, hgr, hla, hlt⟩
      · rw [hg] at hs; simp at hs
      · rw [hg] at hs; simp at hs
      · rw [hg] at hs
        simp only at hs
        split at hs
        · rename_i hadm
          obtain ⟨before, hbef⟩ := hgr.place
          exact ⟨g, events, since, hgr, hi.saved g events (by rw [hbef]; simp), (admits_iff g d.type).1 hadm⟩
        · simp at hs

/-- **C86**, the other direction: a well-formed message of a registered user, of a type taken here, that sets nothing in
the profile, is admitted if its key is a signer on chain that was never reset, or a gasless key as above. -/
theorem C86_authorised_is_admitted (env : VEnv) (c : KeyCrypto) (net : Network) {ops : List AdmitOp} (hf : AdmitFits ops)
    (p : ProfileView) {v : EngineVersion} (hv : 7 ≤ v.num) (now : Nat) {m : WMsg} {d : WData} (hd : m.data = some d)
    (hfid : d.fid < 2 ^ 32) {pro : Bool}
    (hpro : tierActiveAt (AdmitNode.run env c net ops).chain.db 1 d.fid now = .ok pro)
    (hval : validateMessage env net pro now v m = .ok ())
    (hreg : ∃ e ∈ (AdmitNode.run env c net ops).chain.log, Registers d.fid e)
    (hty : d.type ≠ .keyAdd ∧ d.type ≠ .keyRemove ∧ ¬ NotHere v.num d.type.num)
    (hplain : ∀ ty s, d.body ≠ some (.userData ty s)) (hlen : m.signer.length = 32)
    (hmay : ((∀ x ∈ (AdmitNode.run env c net ops).chain.log, ¬ Resets d.fid m.signer x) ∧
        ∃ e, LatestOf (AboutSigner d.fid m.signer) (AdmitNode.run env c net ops).chain.log e ∧
          e.body = .signer m.signer 1 .add) ∨
      GaslessKey c (AdmitNode.run env c net ops).keyLog now d.fid m.signer d.type) :
    ∃ t, validateUserMessage env net p (AdmitNode.run env c net ops) v now m = .ok t := by
  generalize hn : AdmitNode.run env c net ops = n at *
  have hi : AdmitInv env c n := hn ▸ admitInv_run env c net hf
  have hid : ∃ e, idRegisterEvent n.chain.db (readTxn v n.chain.pend) d.fid = .ok (some e) := by
    rw [readTxn_new hv]
    have hg := hi.chain.view.id d.fid hfid
    cases hlat : latest (selId d.fid) n.chain.log with
    | none =>
      obtain ⟨e, he, hr⟩ := hreg
      have := latest_none.1 hlat e he
      rw [← Bool.not_eq_true] at this
      exact absurd (selId_iff.2 hr) this
    | some o =>
      rw [hlat] at hg
      exact ⟨o, eventBySecondaryKey_some hg (hi.chain.view.event hi.chain.log (latest_mem hlat).1)⟩
  obtain ⟨e, hid⟩ := hid
  have hnk : d.type.isKey = false := by
    cases hk : d.type.isKey with
    | false => rfl
    | true => exact ((isKey_iff _).1 hk).elim (fun h => absurd h hty.1) (fun h => absurd h hty.2.1)
  have hnr : refusedType v d.type = false := by
    cases hr : refusedType v d.type with
    | false => rfl
    | true => exact absurd ((refusedType_iff _ _).1 hr) hty.2.2
  have hprof : validateProfile env p v d.fid d.body = .ok () := by
    unfold validateProfile
    split
    · rename_i ty s hb; exact absurd hb (hplain ty s)
    · rfl
  have hsig : (∃ ttl, checkSigner n v d m.signer = .ok ttl ∧ ∃ t, bumpKey n now d m.signer ttl = .ok t) := by
    unfold checkSigner activeKeyFor
    rw [hnk, readTxn_new hv, readTxn_new hv]
    simp only [Bool.false_eq_true, if_false]
    obtain ⟨r, hr1, hr2, hr3⟩ := activeSigner_view hi.chain.view hi.chain.log hfid m.signer
    rw [hr1]
    cases r with
    | some x => exact ⟨none, by simp [ActiveKey.admits, ActiveKey.bumpTtl], n.keys.txn, rfl⟩
    | none =>
      rcases hmay with ⟨h1, e', h2, h3⟩ | ⟨g, events, since, hgr, hcon, hsc, hnow⟩
      · have := (hr3 h1 e' h2).2 h3
        simp at this
      · rcases keyRecord_rows (db := n.keys.db) (t := n.keys.txn) hi.view hfid m.signer with
          ⟨hx, _⟩ | ⟨_, _, hno⟩ | ⟨hl, g', events', since', rf, hg, hgr', hla, hlt⟩
        · exact absurd hlen hx
        · exact absurd hgr (hno _ _ _)
        · obtain ⟨rfl, rfl, rfl⟩ := hgr.unique hgr'
          rw [hg]
          simp only [(admits_iff g d.type).2 hsc, if_true]
          by_cases httl : g.ttl.toNat > 0
          · refine ⟨some g.ttl, by simp [ActiveKey.bumpTtl, if_pos httl], ?_⟩
            unfold bumpKey checkAndBump lastUsedKey
            simp only [hlen, ne_eq, not_true_eq_false, if_false, RowKey.bytes]
            rw [← Db.get_commit, hla]
            simp only [be_length, not_true_eq_false, if_false]
            rw [fromBe_be_of_lt (by simpa using hlt), if_neg (by omega)]
            split
            · rename_i hc; split at hc <;> simp at hc
            · exact ⟨_, rfl⟩
          · exact ⟨none, by simp [ActiveKey.bumpTtl, if_neg httl], n.keys.txn, rfl⟩
  obtain ⟨ttl, hs, t, hb⟩ := hsig
  refine ⟨t, ?_⟩
  unfold validateUserMessage admitChecks
  simp only [hd, hpro, hval, hid, hs, hnr, hprof, hb, Bool.false_eq_true, if_false]

/-- **C86**: a key whose latest on-chain event is not an addition, and that was not added otherwise, posts nothing. -/
theorem C86_removed_key_is_refused (env : VEnv) (c : KeyCrypto) (net : Network) {ops : List AdmitOp} (hf : AdmitFits ops)
    (p : ProfileView) {v : EngineVersion} (hv : 7 ≤ v.num) (now : Nat) {m : WMsg} {d : WData} (hd : m.data = some d)
    (hfid : d.fid < 2 ^ 32) (hk : d.type ≠ .keyAdd ∧ d.type ≠ .keyRemove)
    (hno : ∀ x ∈ (AdmitNode.run env c net ops).chain.log, ¬ Resets d.fid m.signer x)
    (hlast : ∀ e, LatestOf (AboutSigner d.fid m.signer) (AdmitNode.run env c net ops).chain.log e →
      e.body ≠ .signer m.signer 1 .add)
    (hng : ∀ g events since, ¬ Granted (AdmitNode.run env c net ops).keyLog d.fid m.signer g events since) :
    ∃ e, validateUserMessage env net p (AdmitNode.run env c net ops) v now m = .error e := by
  cases h : validateUserMessage env net p (AdmitNode.run env c net ops) v now m with
  | error e => exact ⟨e, rfl⟩
  | ok t =>
    exfalso
    obtain ⟨_, _, _, hm⟩ := C86_admitted_is_authorised env c net hf p hv now hd hfid h
    rcases hm with hm | hm | hm
    · exact hk.1 hm
    · exact hk.2 hm
    · rcases hm with ⟨e, _, _, hb, hl⟩ | ⟨g, events, since, hg, _⟩
      · exact hlast e (hl hno) hb
      · exact hng g events since hg

/-- As `C86_key_message_authorised`, for the merge alone: a key message takes effect, replayed from shard 0 or in a block of the shard, only if keys without
transactions are enabled at the message's own time, and: an addition is signed by the address that owns the user's id now
and is not about a key that is a signer on chain; a removal is of a key added and not removed since, and is signed by that
address (type 1) or comes from the key itself (type 2). -/
theorem merged_key_authorised (env : VEnv) (c : KeyCrypto) (net : Network) {ops : List AdmitOp} (hf : AdmitFits ops)
    {m : WMsg} (hfid : ∀ d, m.data = some d → d.fid < 2 ^ 32)
    (h : ((AdmitNode.run env c net ops).mergeKey c net m).1 = true) :
    let n := AdmitNode.run env c net ops
    ∃ d v, m.data = some d ∧ EngineVersion.versionFor (d.ts + 1609459200) net = some v ∧ 16 ≤ v.num ∧
    ((∃ b a, d.type = .keyAdd ∧ d.body = some (.keyAdd b) ∧
        c.recoverAdd { b with fid := d.fid, timestamp := UInt32.ofNat d.ts } = some a ∧ CustodyIs n.chain.log d.fid a ∧
        ((∀ x ∈ n.chain.log, ¬ Resets d.fid b.key x) → ∀ e, LatestOf (AboutSigner d.fid b.key) n.chain.log e →
          e.body ≠ .signer b.key 1 .add)) ∨
      (∃ b, d.type = .keyRemove ∧ d.body = some (.keyRemove b) ∧
        (∃ g events since, Granted n.keyLog d.fid b.key g events since) ∧
        ((b.signatureType = 1 ∧ ∃ a, CustodyIs n.chain.log d.fid a ∧
            c.recoverRemove { b with fid := d.fid, timestamp := UInt32.ofNat d.ts, signer := m.signer } = some a) ∨
          (b.signatureType = 2 ∧ m.signer = b.key)))) := by
  intro n
  have hi : AdmitInv env c n := admitInv_run env c net hf
  change (n.mergeKey c net m).1 = true at h
  unfold AdmitNode.mergeKey at h
  cases hk : keyOpOf c net n m with
  | none => rw [hk] at h; simp at h
  | some o =>
    rw [hk] at h
    have hacc : (o.exec n.keys).1 = true := by
      cases hx : (o.exec n.keys).1 with
      | true => rfl
      | false => simp only [hx, Bool.false_eq_true, if_false] at h
    unfold keyOpOf at hk
    cases hd : m.data with
    | none => rw [hd] at hk; simp at hk
    | some d =>
      rw [hd] at hk
      simp only at hk
      have hdf := hfid d hd
      cases hv : EngineVersion.versionFor (d.ts + farcasterEpoch / 1000) net with
      | none => rw [hv] at hk; simp at hk
      | some v =>
        rw [hv] at hk
        simp only at hk
        split at hk
        · rename_i hg
          refine ⟨d, v, rfl, hv, of_decide_eq_true hg, ?_⟩
          have hex := exec_view n.keys o hi.good.2
          split at hk
          · rename_i b hty hb
            simp only [Option.some.injEq] at hk
            subst hk
            rcases hex with ⟨e, _⟩ | ⟨e, _⟩ | ⟨_, (⟨env', k, rep, rf, first, e, _, _, ha, _⟩ | ⟨_, _, _, _, e, _⟩ |
              ⟨_, _, _, _, _, _, e, _⟩) | ⟨hx, _⟩⟩
            · cases e
            · cases e
            · cases e
              obtain ⟨a, hr, hcu⟩ := ha.custody
              refine .inl ⟨b, a, hty, hb, hr, custodyOf_is hi.chain hdf hcu, ?_⟩
              intro hno e he hbody
              have hoff := ha.offchain
              obtain ⟨r, hr1, _, hr3⟩ := activeSigner_view hi.chain.view hi.chain.log hdf b.key
              have hs := (hr3 hno e he).2 hbody
              simp only [chainEnv, hr1] at hoff
              cases r with
              | none => simp at hs
              | some x => simp at hoff
            · cases e
            · cases e
            · rw [hx] at hacc; cases hacc
          · rename_i b hty hb
            simp only [Option.some.injEq] at hk
            subst hk
            rcases hex with ⟨e, _⟩ | ⟨e, _⟩ | ⟨_, (⟨_, _, _, _, _, e, _⟩ | ⟨env', k, r, nk, e, hvb, _, ha, _⟩ |
              ⟨_, _, _, _, _, _, e, _⟩) | ⟨hx, _⟩⟩
            · cases e
            · cases e
            · cases e
            · cases e
              refine .inr ⟨b, hty, hb, ?_, ?_⟩
              · rcases hi.view d.fid b.key hdf (validateKeyRemoveBody_key hvb) with ⟨h1, _⟩ | ⟨g, events, since, rf, h1, _⟩
                · have hrec : n.keys.view.get (23 :: 105 :: (makeFidKey d.fid ++ b.key)) = some (.record r) := ha.record
                  rw [h1] at hrec; cases hrec
                · exact ⟨g, events, since, h1⟩
              · rcases ha.auth with ⟨h1, _, a, h2, h3⟩ | ⟨h1, _, h2⟩
                · exact .inl ⟨h1, a, custodyOf_is hi.chain hdf h3, h2⟩
                · exact .inr ⟨h1, h2⟩
            · cases e
            · rw [hx] at hacc; cases hacc
          · cases hk
        · cases hk

/-- **C86**: a key message takes effect, replayed from shard 0 or in a block of the shard, only if keys without
transactions are enabled at the message's own time, and: an addition is signed by the address that owns the user's id now
and is not about a key that is a signer on chain; a removal is of a key added and not removed since, and is signed by that
address (type 1) or comes from the key itself (type 2). -/
theorem C86_key_message_authorised (env : VEnv) (c : KeyCrypto) (net : Network) {ops : List AdmitOp} (hf : AdmitFits ops)
    {m : WMsg} {d : WData} (hd : m.data = some d) (hfid : d.fid < 2 ^ 32) (hty : d.type = .keyAdd ∨ d.type = .keyRemove)
    (h : ((AdmitNode.run env c net ops).exec env c net (.replay m)).1 = true ∨
      ∃ p v now, ((AdmitNode.run env c net ops).exec env c net (.user p v now m)).1 = true) :
    let n := AdmitNode.run env c net ops
    ∃ v, EngineVersion.versionFor (d.ts + 1609459200) net = some v ∧ 16 ≤ v.num ∧
    ((∃ b a, d.type = .keyAdd ∧ d.body = some (.keyAdd b) ∧
        c.recoverAdd { b with fid := d.fid, timestamp := UInt32.ofNat d.ts } = some a ∧ CustodyIs n.chain.log d.fid a ∧
        ((∀ x ∈ n.chain.log, ¬ Resets d.fid b.key x) → ∀ e, LatestOf (AboutSigner d.fid b.key) n.chain.log e →
          e.body ≠ .signer b.key 1 .add)) ∨
      (∃ b, d.type = .keyRemove ∧ d.body = some (.keyRemove b) ∧
        (∃ g events since, Granted n.keyLog d.fid b.key g events since) ∧
        ((b.signatureType = 1 ∧ ∃ a, CustodyIs n.chain.log d.fid a ∧
            c.recoverRemove { b with fid := d.fid, timestamp := UInt32.ofNat d.ts, signer := m.signer } = some a) ∨
          (b.signatureType = 2 ∧ m.signer = b.key)))) := by
  intro n
  have hm : (n.mergeKey c net m).1 = true := by
    rcases h with h | ⟨p, v, now, h⟩
    · exact h
    · change (n.exec env c net (.user p v now m)).1 = true at h
      unfold AdmitNode.exec at h
      simp only at h
      cases ht : validateUserMessage env net p n v now m with
      | error e => rw [ht] at h; simp at h
      | ok t =>
        obtain ⟨pro, e, ttl, _, _, _, hs, _, _, hb⟩ := admitted_cases hd ht
        rw [ht, hd] at h
        simp only [(isKey_iff _).2 hty, if_true] at h
        have : ttl = none := by
          unfold checkSigner at hs
          rw [if_pos ((isKey_iff _).2 hty)] at hs
          split at hs
          · cases hs; rfl
          · cases hs
        subst this
        simp only [bumpKey, Except.ok.injEq] at hb
        subst hb
        exact h
  obtain ⟨d', v, h1, h2⟩ := merged_key_authorised env c net hf (fun d' hd' => by rw [hd] at hd'; cases hd'; exact hfid) hm
  rw [hd] at h1
  cases h1
  exact ⟨v, h2⟩

/-- **C86**: two nodes with different wall clocks give the same verdict, if both clocks are past the start of version 7. -/
theorem C86_wall_clock_does_not_matter (env : VEnv) (net : Network) (n : AdmitNode) (p : ProfileView)
    (w : EngineVersion) (hp : 7 ≤ p.wall.num) (hw : 7 ≤ w.num) (v : EngineVersion) (now : Nat) (m : WMsg) :
    validateUserMessage env net { p with wall := w } n v now m = validateUserMessage env net p n v now m := by
  have h : ∀ fid b, validateProfile env { p with wall := w } v fid b = validateProfile env p v fid b := by
    intro fid b
    have hu : ∀ s, checkUsername { p with wall := w } v fid s = checkUsername p v fid s := by
      intro s
      simp only [checkUsername, usernameProofFid, readTxn_new hp, readTxn_new hw]
    cases b with
    | none => rfl
    | some b =>
      cases b <;> first | rfl | (simp only [validateProfile, hu]; rfl)
  unfold validateUserMessage admitChecks
  simp only [h]

/-! ### A concrete history: user 11 is registered, key 9 is its signer on chain, key 8 is added without a transaction. -/

namespace AdmissionCase

def idReg : OEvent := ⟨3, 11, 1, 0, 0, 5, .idRegister [77] .register⟩
def signerAdd : OEvent := ⟨1, 11, 2, 0, 0, 6, .signer (List.replicate 32 9) 1 .add⟩
def signerRemove : OEvent := ⟨1, 11, 3, 0, 0, 7, .signer (List.replicate 32 9) 1 .remove⟩

/-- The custody address 77 signs; the app behind the request is user 40, which is not registered. -/
def crypto : KeyCrypto where
  metadata := fun _ _ _ _ => some ⟨40, [40]⟩
  recoverAdd := fun _ => some [77]
  recoverRemove := fun _ => some [77]

/-- Key 8 for casts, for a day. -/
def grant : KeyAddMsg :=
  { fid := 11, timestamp := 1000, key := List.replicate 32 8, keyType := 1, scopes := [1], ttl := 86400, nonce := 1,
    deadline := 1, metadataType := 1, metadata := [1], custodySignature := [] }

def aCast : WData := demoData 1 (.castAdd demoCast)
def reaction : WData := demoData 3 (.reaction 1 (some (.castId ⟨5, List.replicate 20 1⟩)))
def keyAdd : WData := demoData 16 (.keyAdd grant)

/-- The message that carries `d`, signed with a key. -/
def signedBy (key : UInt8) (d : WData) : WMsg := { demoMsg d with signer := List.replicate 32 key }

def view : ProfileView := ⟨OMap.empty, OMap.empty, OMap.empty, OMap.empty, .v21, fun _ => 0, fun _ => 0⟩

def history : List AdmitOp := [.chain idReg, .chain signerAdd, .replay (demoMsg keyAdd)]

def node (d : WData) : AdmitNode := AdmitNode.run (demoEnv d) crypto .devnet history

/-- Is the message admitted at this time? -/
def admits (n : AdmitNode) (d : WData) (m : WMsg) (now : Nat) : Bool :=
  match validateUserMessage (demoEnv d) .devnet view n .v21 now m with
  | .ok _ => true
  | .error _ => false

theorem fits : AdmitFits history where
  chain := by
    intro e he
    simp [history] at he
    rcases he with rfl | rfl <;> (unfold Spec.OEvent.Fits; decide)
  replay := by
    intro m d hm hd
    simp [history] at hm
    subst hm
    simp [demoMsg] at hd
    subst hd
    decide
  user := by intro p v now m d hm; simp [history] at hm

/-- Both keys may cast; only the on-chain key may react; the gasless key falls silent a day after its last use; a key
nobody added may do nothing. -/
example :
    admits (node aCast) aCast (signedBy 9 aCast) 1000 = true ∧
    admits (node aCast) aCast (signedBy 8 aCast) 1000 = true ∧
    admits (node aCast) aCast (signedBy 7 aCast) 1000 = false ∧
    admits (node reaction) reaction (signedBy 9 reaction) 1000 = true ∧
    admits (node reaction) reaction (signedBy 8 reaction) 1000 = false ∧
    admits (node aCast) aCast (signedBy 8 aCast) (1000 + 86400) = true ∧
    admits (node aCast) aCast (signedBy 8 aCast) (1000 + 86401) = false ∧
    admits (node aCast) aCast (signedBy 9 aCast) (1000 + 86401) = true := by decide +kernel

/-- Using the key later keeps it going. -/
example :
    let later : WData := { aCast with ts := 80000 }
    let n := AdmitNode.run (demoEnv later) crypto .devnet (history ++ [.user view .v21 80000 (signedBy 8 later)])
    admits n later (signedBy 8 later) 160000 = true ∧
    admits (node later) later (signedBy 8 later) 160000 = false := by decide +kernel

/-- After the removal on chain the key is refused, also within the same batch. -/
example :
    let n := AdmitNode.run (demoEnv aCast) crypto .devnet (history ++ [.commit, .chain signerRemove])
    admits n aCast (signedBy 9 aCast) 1000 = false ∧ admits n aCast (signedBy 8 aCast) 1000 = true := by decide +kernel

/-- Key additions and removals that take effect and that do not: of the on-chain key, before the feature, by another key. -/
example :
    let n := node aCast
    let ok (n : AdmitNode) (net : Network) (m : WMsg) := (n.exec (demoEnv aCast) crypto net (.replay m)).1
    let add (k : UInt8) : WMsg := demoMsg (demoData 16 (.keyAdd { grant with key := List.replicate 32 k, nonce := 2 }))
    let rm (s : UInt8) (t : Nat) : WMsg := signedBy s (demoData 17 (.keyRemove
      { fid := 0, timestamp := 0, signer := [], key := List.replicate 32 8, signatureType := t, signature := [], nonce := 2,
        deadline := 1 }))
    ok n .devnet (add 7) = true ∧ ok n .devnet (add 9) = false ∧ ok n .mainnet (add 7) = false ∧
    ok n .devnet (rm 8 2) = true ∧ ok n .devnet (rm 9 2) = false ∧ ok n .devnet (rm 9 1) = true := by decide +kernel

/-- The hypotheses of the theorems hold of this history and this cast. -/
example : ∃ t, validateUserMessage (demoEnv aCast) .devnet view (node aCast) .v21 1000 (signedBy 8 aCast) = .ok t := by
  cases h : validateUserMessage (demoEnv aCast) .devnet view (node aCast) .v21 1000 (signedBy 8 aCast) with
  | ok t => exact ⟨t, rfl⟩
  | error e =>
    have : admits (node aCast) aCast (signedBy 8 aCast) 1000 = true := by decide +kernel
    unfold admits at this
    rw [h] at this
    simp at this

end AdmissionCase

open AdmissionCase in
/-- **C86**, a limit: a block may carry a message whose `data` is not what its signed bytes say.  Its `data` decides about
user, key and type, and is what is stored.  Here the signer signed a cast and the block makes it a reaction. -/
theorem C86_block_may_alter_the_data :
    let m : WMsg := { signedBy 9 aCast with data := some reaction }
    admits (node aCast) aCast m 1000 = true ∧ bytesDecode (demoEnv aCast) m ≠ m ∧
      (demoEnv aCast).decode [7] = some aCast ∧ m.dataBytes = some [7] ∧ m.data = some reaction := by decide +kernel

open AdmissionCase in
/-- **C86**, a limit: a key addition in a block of a data shard is merged as if it came from shard 0, where the app that
asked for the key is checked.  Here that app is not registered: shard 0 refuses the key, the data shard takes it. -/
theorem C86_direct_key_add_skips_the_app :
    let n := AdmitNode.run (demoEnv keyAdd) crypto .devnet [.chain idReg]
    (n.exec (demoEnv keyAdd) crypto .devnet (.user view .v21 1000 (demoMsg keyAdd))).1 = true ∧
    (KeyOp.exec n.keys (.add (chainEnv crypto n.chain.db n.chain.pend) grant false)).1 = false := by decide +kernel

end Verif
