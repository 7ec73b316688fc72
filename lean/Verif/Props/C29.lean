import Verif.Lemmas.GaslessRun
import Verif.Case.Gasless
/-!
C29: a signed key authorisation cannot be replayed.  An accepted authorisation stays in force when it
was committed, or as long as its batch is not dropped (`kept`).  From then on, whatever else happens,
the user nonces of accepted custody authorisations for a fid strictly increase, and so do the app nonces
of accepted self-revocations for a requesting fid.
-/
namespace Verif

/-- The fid and nonce of a step that carries a custody signature: a key addition, or a removal signed by
custody. -/
def KeyOp.custodyAuth : KeyOp → Option (Nat × Nat)
  | .add _ m _ => some (m.fid, m.nonce.toNat)
  | .remove _ m => if m.signatureType = 1 then some (m.fid, m.nonce.toNat) else none
  | _ => none

/-- The requesting fid (of the app that asked for the key) and nonce of a step that revokes a key with the
key itself. -/
def KeyOp.selfRevocation (s : KeyState) : KeyOp → Option (Nat × Nat)
  | .remove _ m =>
    if m.signatureType = 2 then
      match getKeyRecord s.db s.txn m.fid m.key with
      | .ok (some r) => some (r.requestFid, m.nonce.toNat)
      | _ => none
    else none
  | _ => none

/-- An accepted custody authorisation had a nonce above the stored one and leaves it stored. -/
theorem custody_step {s : KeyState} {o : KeyOp} {f n : Nat} (hg : s.Good) (hc : o.custodyAuth = some (f, n))
    (h : (o.exec s).1 = true) :
    nonceVal s.view (23 :: 102 :: makeFidKey f) < n ∧
      n ≤ nonceVal (o.exec s).2.view (23 :: 102 :: makeFidKey f) := by
  cases o with
  | add env m rep =>
    simp only [KeyOp.custodyAuth, Option.some.injEq, Prod.mk.injEq] at hc
    obtain ⟨rfl, rfl⟩ := hc
    obtain ⟨_, rf, first, ha, hw⟩ := add_accepted hg h
    refine ⟨ha.nonce, ?_⟩
    rw [hw]
    unfold nonceVal
    rw [addView_get]
    simp [u32_be]
  | remove env m =>
    simp only [KeyOp.custodyAuth] at hc
    split at hc
    · rename_i hs
      simp only [Option.some.injEq, Prod.mk.injEq] at hc
      obtain ⟨rfl, rfl⟩ := hc
      obtain ⟨_, r, nk, ha, hw⟩ := remove_accepted hg h
      have hk : nk = 23 :: 102 :: makeFidKey m.fid := by
        rcases ha.auth with ⟨_, h, _⟩ | ⟨h, _⟩
        · exact h
        · omega
      have hn := ha.nonce
      rw [hk] at hn
      refine ⟨hn, ?_⟩
      rw [hw]
      unfold nonceVal
      rw [removeView_get]
      simp [hk, u32_be]
    · cases hc
  | use env fid pk ty ts bt => cases hc
  | commit => cases hc
  | abort => cases hc

theorem self_step {s : KeyState} {o : KeyOp} {f n : Nat} (hg : s.Good) (hc : o.selfRevocation s = some (f, n))
    (h : (o.exec s).1 = true) :
    nonceVal s.view (23 :: 103 :: makeFidKey f) < n ∧
      n ≤ nonceVal (o.exec s).2.view (23 :: 103 :: makeFidKey f) := by
  cases o with
  | remove env m =>
    simp only [KeyOp.selfRevocation] at hc
    split at hc
    · rename_i hs
      obtain ⟨hb, r, nk, ha, hw⟩ := remove_accepted hg h
      have hr : getKeyRecord s.db s.txn m.fid m.key = .ok (some r) := by
        rw [getKeyRecord_view]
        have := ha.record
        unfold KeyState.view at this
        simp [validateKeyRemoveBody_key hb, this]
      rw [hr] at hc
      simp only [Option.some.injEq, Prod.mk.injEq] at hc
      obtain ⟨rfl, rfl⟩ := hc
      have hk : nk = 23 :: 103 :: makeFidKey r.requestFid := by
        rcases ha.auth with ⟨h, _⟩ | ⟨_, h, _⟩
        · omega
        · exact h
      have hn := ha.nonce
      rw [hk] at hn
      refine ⟨hn, ?_⟩
      rw [hw]
      unfold nonceVal
      rw [removeView_get]
      simp [hk, u32_be]
    · cases hc
  | add env m rep => cases hc
  | use env fid pk ty ts bt => cases hc
  | commit => cases hc
  | abort => cases hc

/-- Nonces of accepted custody authorisations for one fid strictly increase, over any history, any change
of on-chain state in between, and any mixture of additions and removals. -/
theorem C29_custody_nonces_increase (s0 : KeyState) (before between : List KeyOp) (o1 o2 : KeyOp)
    (f1 f2 n1 n2 : Nat) (h0 : s0.fresh) (hk : kept between = true)
    (h1 : o1.custodyAuth = some (f1, n1)) (h2 : o2.custodyAuth = some (f2, n2))
    (hf : f1 % 2 ^ 32 = f2 % 2 ^ 32)
    (ha1 : (o1.exec (runKeyOps s0 before)).1 = true)
    (ha2 : (o2.exec (runKeyOps (o1.exec (runKeyOps s0 before)).2 between)).1 = true) : n1 < n2 := by
  have hg := run_good s0 before (fresh_good h0)
  have hg1 := exec_good _ o1 hg
  have hs1 := (custody_step hg h1 ha1).2
  have hkeep := run_kept (fun W => n1 ≤ nonceVal W (23 :: 102 :: makeFidKey f1)) (fun _ => True)
    (fun s o hg _ ho h => nonce_mono s o hg ho 102 (Or.inl rfl) _ n1 h) _ between (fun _ _ => trivial) hk hg1 hs1
  have hs2 := (custody_step (run_good _ between hg1) h2 ha2).1
  rw [← makeFidKey_eq.2 hf] at hs2
  exact Nat.lt_of_le_of_lt hkeep hs2

/-- In particular the same signed message is never accepted twice, nor is a different one for the same fid
with the same or a lower nonce. -/
theorem C29_addition_not_replayed (s0 : KeyState) (before between : List KeyOp) (env env' : KeyEnv)
    (m m' : KeyAddMsg) (rep rep' : Bool) (h0 : s0.fresh) (hk : kept between = true) (hf : m.fid = m'.fid)
    (hn : m'.nonce.toNat ≤ m.nonce.toNat)
    (ha1 : (KeyOp.exec (runKeyOps s0 before) (.add env m rep)).1 = true) :
    (KeyOp.exec (runKeyOps (KeyOp.exec (runKeyOps s0 before) (.add env m rep)).2 between)
      (.add env' m' rep')).1 = false := by
  cases h : (KeyOp.exec (runKeyOps (KeyOp.exec (runKeyOps s0 before) (.add env m rep)).2 between)
      (.add env' m' rep')).1 with
  | false => rfl
  | true =>
    have := C29_custody_nonces_increase s0 before between _ _ m.fid m'.fid _ _ h0 hk rfl rfl (by rw [hf]) ha1 h
    omega

/-- App nonces of accepted self-revocations for one requesting fid strictly increase. -/
theorem C29_self_revocation_nonces_increase (s0 : KeyState) (before between : List KeyOp) (o1 o2 : KeyOp)
    (f1 f2 n1 n2 : Nat) (h0 : s0.fresh) (hk : kept between = true)
    (h1 : o1.selfRevocation (runKeyOps s0 before) = some (f1, n1))
    (h2 : o2.selfRevocation (runKeyOps (o1.exec (runKeyOps s0 before)).2 between) = some (f2, n2))
    (hf : f1 % 2 ^ 32 = f2 % 2 ^ 32)
    (ha1 : (o1.exec (runKeyOps s0 before)).1 = true)
    (ha2 : (o2.exec (runKeyOps (o1.exec (runKeyOps s0 before)).2 between)).1 = true) : n1 < n2 := by
  have hg := run_good s0 before (fresh_good h0)
  have hg1 := exec_good _ o1 hg
  have hs1 := (self_step hg h1 ha1).2
  have hkeep := run_kept (fun W => n1 ≤ nonceVal W (23 :: 103 :: makeFidKey f1)) (fun _ => True)
    (fun s o hg _ ho h => nonce_mono s o hg ho 103 (Or.inr rfl) _ n1 h) _ between (fun _ _ => trivial) hk hg1 hs1
  have hs2 := (self_step (run_good _ between hg1) h2 ha2).1
  rw [← makeFidKey_eq.2 hf] at hs2
  exact Nat.lt_of_le_of_lt hkeep hs2

/-- A removal is only accepted with one of the two authorisations, so the two theorems above cover every
accepted addition and removal. -/
theorem C29_every_removal_is_authorised (s0 : KeyState) (before : List KeyOp) (env : KeyEnv) (m : KeyRemoveMsg)
    (h0 : s0.fresh) (ha : (KeyOp.exec (runKeyOps s0 before) (.remove env m)).1 = true) :
    (KeyOp.custodyAuth (.remove env m) = some (m.fid, m.nonce.toNat) ∧
      ∃ a, env.recoverRemove m = some a ∧ env.custody m.fid = some a) ∨
    (∃ f, KeyOp.selfRevocation (runKeyOps s0 before) (.remove env m) = some (f, m.nonce.toNat) ∧
      m.signer = m.key) := by
  have hg := run_good s0 before (fresh_good h0)
  obtain ⟨hb, r, nk, hr, hw⟩ := remove_accepted hg ha
  rcases hr.auth with ⟨h, _, hx⟩ | ⟨h, _, hx⟩
  · exact .inl ⟨by simp [KeyOp.custodyAuth, h], hx⟩
  · refine .inr ⟨r.requestFid, ?_, hx⟩
    have hrec : getKeyRecord (runKeyOps s0 before).db (runKeyOps s0 before).txn m.fid m.key = .ok (some r) := by
      rw [getKeyRecord_view]
      have := hr.record
      unfold KeyState.view at this
      simp [validateKeyRemoveBody_key hb, this]
    simp [KeyOp.selfRevocation, h, hrec]

section Cases
open GaslessCase

/-- An addition is accepted, a removal and a commit follow, and then an addition with a higher nonce is
accepted while the replay is rejected. -/
example : start.fresh ∧ kept [.remove env (rmMsg 5 7 2 1), .commit, .abort] = true ∧
    (KeyOp.exec start (.add env (addMsg 5 7 3 100) false)).1 = true ∧
    (KeyOp.exec (runKeyOps (KeyOp.exec start (.add env (addMsg 5 7 3 100) false)).2
      [.remove env (rmMsg 5 7 2 1), .commit, .abort]) (.add env (addMsg 5 7 4 100) false)).1 = true ∧
    (KeyOp.exec (runKeyOps (KeyOp.exec start (.add env (addMsg 5 7 3 100) false)).2
      [.remove env (rmMsg 5 7 2 1), .commit, .abort]) (.add env (addMsg 5 7 3 100) false)).1 = false :=
  ⟨⟨by simp [start, OMap.empty], rfl⟩, rfl, by decide +kernel, by decide +kernel, by decide +kernel⟩

/-- Two accepted self-revocations of keys requested by fid 9. -/
example :
    let s := runKeyOps start [.add env (addMsg 5 7 3 100) false, .add env (addMsg 6 8 1 100) false]
    KeyOp.selfRevocation s (.remove env (rmMsg 5 7 2 1)) = some (9, 1) ∧
    (KeyOp.exec s (.remove env (rmMsg 5 7 2 1))).1 = true ∧
    (KeyOp.exec (KeyOp.exec s (.remove env (rmMsg 5 7 2 1))).2 (.remove env (rmMsg 6 8 2 2))).1 = true ∧
    (KeyOp.exec (KeyOp.exec s (.remove env (rmMsg 5 7 2 1))).2 (.remove env (rmMsg 6 8 2 1))).1 = false := by
  decide +kernel

end Cases
end Verif
