import Verif.Lemmas.GaslessRun
import Verif.Case.Gasless
/-!
C31: a gasless public key belongs to at most one user, owner lookups agree with the key records, and a key
that is registered on chain for the user cannot also be added off chain.
-/
namespace Verif

theorem getKeyRecord_some {s : KeyState} {fid : Nat} {pk : Bytes} (hI : KeyInv s.view) (hl : pk.length = 32) :
    (∃ r, getKeyRecord s.db s.txn fid pk = .ok (some r)) ↔
      (s.view.get (23 :: 105 :: (makeFidKey fid ++ pk))).isSome = true := by
  rw [getKeyRecord_view]
  simp only [hl, ne_eq, not_true_eq_false, if_false]
  unfold KeyState.view at *
  cases hg : (s.db.commit s.txn).get (23 :: 105 :: (makeFidKey fid ++ pk)) with
  | none => simp
  | some v =>
    obtain ⟨r, rfl, _⟩ := hI.recs _ pk v (makeFidKey_length fid) hl hg
    simp

theorem getKeyOwner_some {s : KeyState} {fid : Nat} {pk : Bytes} (hI : KeyInv s.view) (hl : pk.length = 32)
    (hf : fid < 2 ^ 32) :
    getKeyOwner s.db s.txn pk = .ok (some fid) ↔ s.view.get (23 :: 106 :: pk) = some (.raw (makeFidKey fid)) := by
  rw [getKeyOwner_view]
  simp only [hl, ne_eq, not_true_eq_false, if_false]
  unfold KeyState.view at *
  cases hg : (s.db.commit s.txn).get (23 :: 106 :: pk) with
  | none => simp
  | some v =>
    obtain ⟨f, h4, rfl⟩ := hI.ownerRaw pk v hg
    simp only [h4, ne_eq, not_true_eq_false, if_false, Except.ok.injEq, Option.some.injEq, GVal.raw.injEq]
    unfold makeFidKey
    constructor
    · intro e; rw [← e, ← h4, be_fromBe]
    · intro e; rw [e, fromBe_be_of_lt (by omega)]

/-- In every reachable state the owner lookup of a public key names a user exactly when that user has a
record for it. -/
theorem C31_owner_iff_record (s0 : KeyState) (ops : List KeyOp) (h0 : s0.fresh) (fid : Nat) (pk : Bytes)
    (hf : fid < 2 ^ 32) (hl : pk.length = 32) :
    getKeyOwner (runKeyOps s0 ops).db (runKeyOps s0 ops).txn pk = .ok (some fid) ↔
      ∃ r, getKeyRecord (runKeyOps s0 ops).db (runKeyOps s0 ops).txn fid pk = .ok (some r) := by
  have hI := (run_good s0 ops (fresh_good h0)).2
  rw [getKeyOwner_some hI hl hf, getKeyRecord_some hI hl]
  exact hI.owner pk _ hl (makeFidKey_length fid)

/-- Two users never hold a record for the same public key. -/
theorem C31_at_most_one_owner (s0 : KeyState) (ops : List KeyOp) (h0 : s0.fresh) (f g : Nat) (pk : Bytes)
    (hf : f < 2 ^ 32) (hg : g < 2 ^ 32) (r r' : KeyRecord)
    (h1 : getKeyRecord (runKeyOps s0 ops).db (runKeyOps s0 ops).txn f pk = .ok (some r))
    (h2 : getKeyRecord (runKeyOps s0 ops).db (runKeyOps s0 ops).txn g pk = .ok (some r')) : f = g := by
  have hl : pk.length = 32 := by
    rw [getKeyRecord_view] at h1
    split at h1
    · cases h1
    · rename_i h; simpa using h
  have e1 := (C31_owner_iff_record s0 ops h0 f pk hf hl).2 ⟨r, h1⟩
  have e2 := (C31_owner_iff_record s0 ops h0 g pk hg hl).2 ⟨r', h2⟩
  rw [e1] at e2
  simpa using e2

/-- The record found for a user and key is an addition signed for that user and that key. -/
theorem C31_record_matches (s0 : KeyState) (ops : List KeyOp) (h0 : s0.fresh) (fid : Nat) (pk : Bytes)
    (hf : fid < 2 ^ 32) (r : KeyRecord)
    (h : getKeyRecord (runKeyOps s0 ops).db (runKeyOps s0 ops).txn fid pk = .ok (some r)) :
    r.message.key = pk ∧ r.message.fid % 2 ^ 32 = fid := by
  have hI := (run_good s0 ops (fresh_good h0)).2
  rw [getKeyRecord_view] at h
  split at h
  · cases h
  · rename_i hl
    simp only [ne_eq, Decidable.not_not] at hl
    cases hg : ((runKeyOps s0 ops).db.commit (runKeyOps s0 ops).txn).get (23 :: 105 :: (makeFidKey fid ++ pk)) with
    | none => rw [hg] at h; simp at h
    | some v =>
      obtain ⟨r', rfl, _, h2, h3⟩ := hI.recs _ pk v (makeFidKey_length fid) hl hg
      rw [hg] at h
      simp only [Except.ok.injEq, Option.some.injEq] at h
      subst h
      exact ⟨h2, by rw [makeFidKey_eq.1 h3]; omega⟩

/-- Adding a key that another user holds is rejected; so is adding a key that is active on chain for the
user; so is an addition not signed by the user's custody address; and an accepted one makes the user its
owner. -/
theorem C31_addition_checks_owner (s0 : KeyState) (ops : List KeyOp) (h0 : s0.fresh) (env : KeyEnv)
    (m : KeyAddMsg) (rep : Bool) (hf : m.fid < 2 ^ 32)
    (ha : (KeyOp.exec (runKeyOps s0 ops) (.add env m rep)).1 = true) :
    env.onchainSigner m.fid m.key = false ∧
    (∃ a, env.recoverAdd m = some a ∧ env.custody m.fid = some a) ∧
    (∀ g r, g < 2 ^ 32 →
      getKeyRecord (runKeyOps s0 ops).db (runKeyOps s0 ops).txn g m.key = .ok (some r) → g = m.fid) ∧
    getKeyOwner (KeyOp.exec (runKeyOps s0 ops) (.add env m rep)).2.db
      (KeyOp.exec (runKeyOps s0 ops) (.add env m rep)).2.txn m.key = .ok (some m.fid) := by
  have hg := run_good s0 ops (fresh_good h0)
  obtain ⟨hb, rf, first, hacc, hw⟩ := add_accepted hg ha
  have hl := validateKeyAddBody_key hb
  refine ⟨hacc.offchain, hacc.custody, ?_, ?_⟩
  · intro g r hgf hr
    have e1 := (getKeyOwner_some hg.2 hl hgf).1 ((C31_owner_iff_record s0 ops h0 g m.key hgf hl).2 ⟨r, hr⟩)
    rcases hacc.cases with ⟨_, h, _⟩ | ⟨_, h, _⟩
    · rw [h] at e1; simp at e1
    · rw [h] at e1
      simp only [Option.some.injEq, GVal.raw.injEq] at e1
      have := makeFidKey_eq.1 e1
      omega
  · rw [getKeyOwner_some (exec_good _ _ hg).2 hl hf, hw, addView_get]
    simp

/-- A removed key has no owner any more, so any user can add it again. -/
theorem C31_removal_frees_key (s0 : KeyState) (ops : List KeyOp) (h0 : s0.fresh) (env : KeyEnv)
    (m : KeyRemoveMsg) (ha : (KeyOp.exec (runKeyOps s0 ops) (.remove env m)).1 = true) :
    getKeyOwner (KeyOp.exec (runKeyOps s0 ops) (.remove env m)).2.db
      (KeyOp.exec (runKeyOps s0 ops) (.remove env m)).2.txn m.key = .ok none := by
  have hg := run_good s0 ops (fresh_good h0)
  obtain ⟨hb, r, nk, hacc, hw⟩ := remove_accepted hg ha
  have hl := validateKeyRemoveBody_key hb
  rw [getKeyOwner_view]
  unfold KeyState.view at hw
  have hnk : ¬ 23 :: 106 :: m.key = nk := by
    intro e
    rcases hacc.auth with ⟨_, h, _⟩ | ⟨_, h, _⟩ <;> rw [h] at e <;> simp at e
  rw [hw, removeView_get]
  simp [hl]

section Cases
open GaslessCase

/-- Fid 5 adds a key; fid 6 cannot; after its removal fid 6 can. -/
example :
    let s := runKeyOps start [.add env (addMsg 5 7 1 100) false, .commit]
    let s' := runKeyOps s [.remove env (rmMsg 5 7 2 1)]
    (KeyOp.exec s (.add env (addMsg 6 7 1 100) false)).1 = false ∧
    (KeyOp.exec s (.remove env (rmMsg 5 7 2 1))).1 = true ∧
    (KeyOp.exec s' (.add env (addMsg 6 7 1 100) false)).1 = true ∧
    (KeyOp.exec s' (.add envOn (addMsg 6 7 1 100) false)).1 = false ∧
    getKeyOwner s.db s.txn (pk 7) = .ok (some 5) := by decide +kernel

end Cases
end Verif
