import Verif.Lemmas.GaslessRun
import Verif.Case.Gasless
/-!
C32: a gasless key is usable exactly until it has been unused for its time to live, and never after it was
removed.
-/
namespace Verif

theorem getLastUsed_ok {s : KeyState} {fid : Nat} {pk L : Bytes} (hl : pk.length = 32) (h4 : L.length = 4)
    (h : s.view.get (23 :: 104 :: (makeFidKey fid ++ pk)) = some (.raw L)) :
    getLastUsed s.db s.txn fid pk = .ok (some (fromBe L)) := by
  rw [getLastUsed_view]
  unfold KeyState.view at h
  simp [hl, h, h4]

/-- A message signed by a key that is not on chain is accepted only if the key has a record and was last used
(as recorded) no longer ago than its time to live.  The recorded last use then covers the message: it never
goes down, and is at most 300 seconds behind the message. -/
theorem C32_accepted_use_is_fresh (s0 : KeyState) (ops : List KeyOp) (h0 : s0.fresh) (env : KeyEnv) (fid : Nat)
    (pk : Bytes) (ty : MessageType) (ts : UInt32) (now : Nat)
    (hoff : env.onchainSigner fid pk = false)
    (ha : (KeyOp.exec (runKeyOps s0 ops) (.use env fid pk ty ts now)).1 = true) :
    ∃ r last last', getKeyRecord (runKeyOps s0 ops).db (runKeyOps s0 ops).txn fid pk = .ok (some r) ∧
      getLastUsed (runKeyOps s0 ops).db (runKeyOps s0 ops).txn fid pk = .ok (some last) ∧
      now ≤ last + r.message.ttl.toNat ∧
      getLastUsed (KeyOp.exec (runKeyOps s0 ops) (.use env fid pk ty ts now)).2.db
        (KeyOp.exec (runKeyOps s0 ops) (.use env fid pk ty ts now)).2.txn fid pk = .ok (some last') ∧
      last ≤ last' ∧ ts.toNat ≤ last' + 300 ∧ (last' = last ∨ last' = ts.toNat) := by
  have hg := run_good s0 ops (fresh_good h0)
  rcases use_accepted hg ha with ⟨h, _⟩ | ⟨_, hl, r, L, hr, hv, h4, hL, hadm, hfr, hw⟩
  · rw [hoff] at h; cases h
  · have e1 : getKeyRecord (runKeyOps s0 ops).db (runKeyOps s0 ops).txn fid pk = .ok (some r) := by
      rw [getKeyRecord_view]
      unfold KeyState.view at hr
      simp [hl, hr]
    have e2 := getLastUsed_ok hl h4 hL
    by_cases hb : ts.toNat > fromBe L + 300
    · rw [if_pos hb] at hw
      refine ⟨r, fromBe L, ts.toNat, e1, e2, hfr, ?_, by omega, by omega, .inr rfl⟩
      have h5 : (KeyOp.exec (runKeyOps s0 ops) (.use env fid pk ty ts now)).2.view.get
          (23 :: 104 :: (makeFidKey fid ++ pk)) = some (.raw (be 4 ts.toNat)) := by
        rw [hw, OMap.get_put, if_pos rfl]
      have := getLastUsed_ok hl (by simp) h5
      rw [this, u32_be]
    · rw [if_neg hb] at hw
      refine ⟨r, fromBe L, fromBe L, e1, e2, hfr, ?_, by omega, by omega, .inl rfl⟩
      exact getLastUsed_ok hl h4 (by rw [hw]; exact hL)

/-- Conversely, a key with a record whose scopes cover the message and whose recorded last use is within its
time to live is accepted: keys do not expire early. -/
theorem C32_live_key_accepted (s : KeyState) (env : KeyEnv) (fid : Nat)
    (pk : Bytes) (ty : MessageType) (ts : UInt32) (now last : Nat) (r : KeyRecord)
    (hr : getKeyRecord s.db s.txn fid pk = .ok (some r))
    (hlast : getLastUsed s.db s.txn fid pk = .ok (some last))
    (hscope : (ActiveKey.gasless (computeScopesMask r.message.scopes) r.message.ttl).admits ty = true)
    (hnow : now ≤ last + r.message.ttl.toNat) :
    (KeyOp.exec s (.use env fid pk ty ts now)).1 = true := by
  have hk : ∃ t, useKey env s.db s.txn fid pk ty ts now = .ok t := by
    unfold useKey getActiveKey
    by_cases hon : env.onchainSigner fid pk = true
    · exact ⟨s.txn, by simp [hon, ActiveKey.admits]⟩
    · simp only [hon, Bool.false_eq_true, if_false, hr, hscope, if_true]
      split
      · unfold checkAndBump
        unfold getLastUsed at hlast
        cases hk : lastUsedKey fid pk with
        | error e => rw [hk] at hlast; simp at hlast
        | ok k =>
          rw [hk] at hlast
          simp only at hlast ⊢
          cases hg : getFromDbOrTxn s.db s.txn k with
          | none => rw [hg] at hlast; simp at hlast
          | some v =>
            cases v with
            | record q => rw [hg] at hlast; simp at hlast
            | raw b =>
              rw [hg] at hlast
              by_cases hb : b.length = 4
              · simp only [hb, ne_eq, not_true_eq_false, if_false, Except.ok.injEq, Option.some.injEq] at hlast ⊢
                subst hlast
                rw [if_neg (by omega)]
                split <;> exact ⟨_, rfl⟩
              · simp [hb] at hlast
      · exact ⟨_, rfl⟩
  obtain ⟨t, ht⟩ := hk
  simp [KeyOp.exec, ht]

/-- Facts about one key's last-use row survive every step that is not an addition or removal of that key. -/
theorem last_used_step (s : KeyState) (o : KeyOp) (hg : s.Good) (ho : o ≠ .abort) (f pk : Bytes)
    (hf : f.length = 4) (ht : ¬ o.touches pk) (n : Nat)
    (h : ∃ L, L.length = 4 ∧ s.view.get (23 :: 104 :: (f ++ pk)) = some (.raw L) ∧ n ≤ fromBe L + 300) :
    ∃ L, L.length = 4 ∧ (o.exec s).2.view.get (23 :: 104 :: (f ++ pk)) = some (.raw L) ∧ n ≤ fromBe L + 300 := by
  obtain ⟨L, h4, hL, hn⟩ := h
  rcases exec_view s o hg.2 with ⟨e, _⟩ | ⟨_, h1, _⟩ | ⟨_, hh⟩
  · exact absurd e ho
  · exact ⟨L, h4, by rw [h1]; exact hL, hn⟩
  · rcases hh with (⟨env, m, rep, rf, first, e, hb, _, ha, hw⟩ | ⟨env, m, r, nk, e, hb, _, ha, hw⟩ |
      ⟨env, fid, q, ty, ts, bt, _, _, (⟨_, hw⟩ | ⟨_, hl, r, L', hr, _, hL', hgt, _, _, hw⟩)⟩) | ⟨_, hs⟩
    · refine ⟨L, h4, ?_, hn⟩
      subst e
      have hne : ¬ pk = m.key := fun e => ht e.symm
      rw [hw, addView_get]
      simpa [rec_append_inj hf (makeFidKey_length m.fid), hne] using hL
    · refine ⟨L, h4, ?_, hn⟩
      subst e
      have hne : ¬ pk = m.key := fun e => ht e.symm
      have hnk : ¬ 23 :: 104 :: (f ++ pk) = nk := by
        intro e
        rcases ha.auth with ⟨_, h, _⟩ | ⟨_, h, _⟩ <;> rw [h] at e <;> simp at e
      rw [hw, removeView_get]
      simpa [rec_append_inj hf (makeFidKey_length m.fid), hne, hnk] using hL
    · exact ⟨L, h4, by rw [hw]; exact hL, hn⟩
    · by_cases hts : ts.toNat > fromBe L' + 300
      · rw [if_pos hts] at hw
        by_cases hsame : f ++ pk = makeFidKey fid ++ q
        · rw [hsame, hgt] at hL
          simp only [Option.some.injEq, GVal.raw.injEq] at hL
          subst hL
          refine ⟨be 4 ts.toNat, by simp, ?_, ?_⟩
          · rw [hw, hsame, OMap.get_put, if_pos rfl]
          · rw [u32_be]; omega
        · refine ⟨L, h4, ?_, hn⟩
          rw [hw, OMap.get_put, if_neg (by simpa using hsame)]
          exact hL
      · rw [if_neg hts] at hw
        exact ⟨L, h4, by rw [hw]; exact hL, hn⟩
    · exact ⟨L, h4, by rw [hs]; exact hL, hn⟩

/-- Every use counts: after an accepted message with timestamp `ts`, and any later history that keeps it and
does not add or remove the key, the recorded last use is at most 300 seconds before `ts`.  So a key that goes
on being used does not expire. -/
theorem C32_use_keeps_key_alive (s0 : KeyState) (before between : List KeyOp) (h0 : s0.fresh) (env : KeyEnv)
    (fid : Nat) (pk : Bytes) (ty : MessageType) (ts : UInt32) (now : Nat)
    (hoff : env.onchainSigner fid pk = false)
    (ha : (KeyOp.exec (runKeyOps s0 before) (.use env fid pk ty ts now)).1 = true)
    (hk : kept between = true) (hb : ∀ o ∈ between, ¬ o.touches pk) :
    ∃ last, getLastUsed (runKeyOps (KeyOp.exec (runKeyOps s0 before) (.use env fid pk ty ts now)).2 between).db
      (runKeyOps (KeyOp.exec (runKeyOps s0 before) (.use env fid pk ty ts now)).2 between).txn fid pk
        = .ok (some last) ∧ ts.toNat ≤ last + 300 := by
  have hg := run_good s0 before (fresh_good h0)
  have hg1 := exec_good _ (.use env fid pk ty ts now) hg
  rcases use_accepted hg ha with ⟨h, _⟩ | ⟨_, hl, r, L, hr, hv, h4, hL, hadm, hfr, hw⟩
  · rw [hoff] at h; cases h
  · have hstart : ∃ L, L.length = 4 ∧ (KeyOp.exec (runKeyOps s0 before) (.use env fid pk ty ts now)).2.view.get
        (23 :: 104 :: (makeFidKey fid ++ pk)) = some (.raw L) ∧ ts.toNat ≤ fromBe L + 300 := by
      by_cases hb : ts.toNat > fromBe L + 300
      · rw [if_pos hb] at hw
        refine ⟨be 4 ts.toNat, by simp, ?_, by rw [u32_be]; omega⟩
        rw [hw, OMap.get_put, if_pos rfl]
      · rw [if_neg hb] at hw
        exact ⟨L, h4, by rw [hw]; exact hL, by omega⟩
    obtain ⟨L', h4', hL', hn⟩ := run_kept
      (fun W => ∃ L, L.length = 4 ∧ W.get (23 :: 104 :: (makeFidKey fid ++ pk)) = some (.raw L) ∧
        ts.toNat ≤ fromBe L + 300)
      (fun o => ¬ o.touches pk)
      (fun s o hg hok ho h => last_used_step s o hg ho _ pk (makeFidKey_length fid) hok _ h)
      _ between hb hk hg1 hstart
    exact ⟨fromBe L', getLastUsed_ok hl h4' hL', hn⟩

/-- After a removal that is kept, and any history in which the key is not added again, no message signed by
the key is accepted (unless the key is registered on chain). -/
theorem C32_removed_key_stays_unusable (s0 : KeyState) (before between : List KeyOp) (h0 : s0.fresh)
    (env env' : KeyEnv) (m : KeyRemoveMsg) (fid : Nat) (ty : MessageType) (ts : UInt32) (now : Nat)
    (hfid : fid % 2 ^ 32 = m.fid % 2 ^ 32)
    (ha : (KeyOp.exec (runKeyOps s0 before) (.remove env m)).1 = true)
    (hk : kept between = true) (hb : ∀ e a rep, KeyOp.add e a rep ∈ between → a.key ≠ m.key)
    (hoff : env'.onchainSigner fid m.key = false) :
    (KeyOp.exec (runKeyOps (KeyOp.exec (runKeyOps s0 before) (.remove env m)).2 between)
      (.use env' fid m.key ty ts now)).1 = false := by
  have hg := run_good s0 before (fresh_good h0)
  have hg1 := exec_good _ (.remove env m) hg
  obtain ⟨hbody, r, nk, hacc, hw⟩ := remove_accepted hg ha
  have hl := validateKeyRemoveBody_key hbody
  have hstart : (KeyOp.exec (runKeyOps s0 before) (.remove env m)).2.view.get
      (23 :: 105 :: (makeFidKey m.fid ++ m.key)) = none := by
    rw [hw, removeView_get]
    simp
  have hkeep := run_kept (fun W => W.get (23 :: 105 :: (makeFidKey m.fid ++ m.key)) = none)
    (fun o => ∀ e a rep, o = KeyOp.add e a rep → a.key ≠ m.key)
    (by
      intro s o hg hok ho h
      by_cases ht : o.touches m.key
      · cases o with
        | add e a rep => exact absurd ht (hok e a rep rfl)
        | remove e q =>
          rcases exec_view s (.remove e q) hg.2 with ⟨e, _⟩ | ⟨e, _⟩ | ⟨_, hh⟩
          · cases e
          · cases e
          · rcases hh with (⟨_, _, _, _, _, e, _⟩ | ⟨_, _, r', nk', e, hb', _, ha', hw'⟩ |
              ⟨_, _, _, _, _, _, e, _⟩) | ⟨_, hs⟩
            · cases e
            · cases e
              have hnk : ¬ 23 :: 105 :: (makeFidKey m.fid ++ m.key) = nk' := by
                intro e
                rcases ha'.auth with ⟨_, h, _⟩ | ⟨_, h, _⟩ <;> rw [h] at e <;> simp at e
              rw [hw', removeView_get]
              simp [hnk, h]
            · cases e
            · rw [hs]; exact h
        | use => exact ht.elim
        | commit => exact ht.elim
        | abort => exact ht.elim
      · rw [record_untouched s o hg ho _ _ (makeFidKey_length _) ht]; exact h)
    _ between (by rintro o ho e a rep rfl; exact hb e a rep ho) hk hg1 hstart
  have hg2 := run_good _ between hg1
  cases hx : (KeyOp.exec (runKeyOps (KeyOp.exec (runKeyOps s0 before) (.remove env m)).2 between)
      (.use env' fid m.key ty ts now)).1 with
  | false => rfl
  | true =>
    rcases use_accepted hg2 hx with ⟨h, _⟩ | ⟨_, _, r, L, hr, _⟩
    · rw [hoff] at h; cases h
    · rw [makeFidKey_eq.2 hfid, hkeep] at hr
      simp at hr

section Cases
open GaslessCase

/-- One day to live: usable just at the end of the day, and after a use for another day; not one second later,
and not after removal. -/
example :
    let s := runKeyOps start [.add env (addMsg 5 7 1 1000) false, .commit]
    let s1 := runKeyOps s [.use env 5 (pk 7) .castAdd 50000 50000]
    (KeyOp.exec s (.use env 5 (pk 7) .castAdd 50000 87400)).1 = true ∧
    (KeyOp.exec s (.use env 5 (pk 7) .castAdd 50000 87401)).1 = false ∧
    (KeyOp.exec s1 (.use env 5 (pk 7) .castAdd 60000 136400)).1 = true ∧
    getLastUsed s1.db s1.txn 5 (pk 7) = .ok (some 50000) ∧
    (KeyOp.exec s1 (.remove env (rmMsg 5 7 1 2))).1 = true ∧
    (KeyOp.exec (runKeyOps s1 [.remove env (rmMsg 5 7 1 2), .commit, .abort])
      (.use env 5 (pk 7) .castAdd 50000 50000)).1 = false := by decide +kernel

end Cases
end Verif
