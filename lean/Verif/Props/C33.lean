import Verif.Lemmas.GaslessRun
import Verif.Case.Gasless
/-!
C33: a gasless key can only sign the message types it was added for, which never include key or channel
messages; a key registered on chain can sign everything.
-/
namespace Verif

theorem testBit_scopes (scopes : List Int) (mask n : Nat) :
    Nat.testBit (scopes.foldl (fun (mask : Nat) (s : Int) => if 0 ≤ s ∧ s < 64 then mask ||| 1 <<< s.toNat else mask)
      mask) n = (mask.testBit n || decide (n < 64 ∧ (n : Int) ∈ scopes)) := by
  induction scopes generalizing mask with
  | nil => simp
  | cons a l ih =>
    rw [List.foldl_cons, ih]
    by_cases ha : 0 ≤ a ∧ a < 64
    · rw [if_pos ha, Nat.testBit_or, Nat.one_shiftLeft, Nat.testBit_two_pow]
      rw [Bool.or_assoc]
      congr 1
      rw [Bool.eq_iff_iff]
      simp only [Bool.or_eq_true, decide_eq_true_eq, List.mem_cons]
      constructor
      · rintro (h | h)
        · exact ⟨by omega, .inl (by omega)⟩
        · exact ⟨h.1, .inr h.2⟩
      · rintro ⟨h1, h | h⟩
        · exact .inl (by omega)
        · exact .inr ⟨h1, h⟩
    · rw [if_neg ha]
      congr 1
      rw [Bool.eq_iff_iff]
      simp only [decide_eq_true_eq, List.mem_cons]
      constructor
      · rintro ⟨h1, h2⟩; exact ⟨h1, .inr h2⟩
      · rintro ⟨h1, h | h⟩
        · omega
        · exact ⟨h1, h⟩

theorem and_bit (m n : Nat) : (m &&& 1 <<< n != 0) = m.testBit n := by
  rw [Nat.one_shiftLeft]
  cases h : m.testBit n with
  | true =>
    have : (m &&& 2 ^ n).testBit n = true := by rw [Nat.testBit_and, h, Nat.testBit_two_pow_self]; rfl
    by_cases h0 : m &&& 2 ^ n = 0
    · rw [h0] at this; simp at this
    · simp [h0]
  | false =>
    have : m &&& 2 ^ n = 0 := by
      apply Nat.eq_of_testBit_eq
      intro i
      rw [Nat.testBit_and, Nat.testBit_two_pow, Nat.zero_testBit]
      by_cases hi : n = i
      · subst hi; simp [h]
      · simp [hi]
    simp [this]

theorem num_lt (ty : MessageType) : ty.num < 64 := by cases ty <;> decide

/-- The bit mask decides membership in the list of scopes. -/
theorem C33_mask_is_membership (scopes : List Int) (ttl : UInt32) (ty : MessageType) :
    (ActiveKey.gasless (computeScopesMask scopes) ttl).admits ty = true ↔ (ty.num : Int) ∈ scopes := by
  have h := testBit_scopes scopes 0 ty.num
  have hn := num_lt ty
  simp only [Nat.zero_testBit, Bool.false_or, hn, true_and] at h
  simp only [ActiveKey.admits, messageTypeBit, hn, if_true, computeScopesMask]
  have hc : ((scopes.foldl (fun (mask : Nat) (s : Int) => if 0 ≤ s ∧ s < 64 then mask ||| 1 <<< s.toNat else mask) 0
      &&& 1 <<< ty.num) != 0) = Nat.testBit (scopes.foldl
        (fun (mask : Nat) (s : Int) => if 0 ≤ s ∧ s < 64 then mask ||| 1 <<< s.toNat else mask) 0) ty.num := by
    exact and_bit _ _
  rw [hc, h]
  simp

/-- The types a gasless key may be given: everything but key and channel messages and the null type. -/
def mayBeScoped : MessageType → Bool
  | .none | .keyAdd | .keyRemove | .channelUpdate | .channelMember | .channelPin | .channelModerate => false
  | _ => true

theorem scopeAdmissible_num (ty : MessageType) (h : scopeAdmissible (ty.num : Int) = true) : mayBeScoped ty = true := by
  cases ty <;> first | rfl | (exact absurd h (by decide))

/-- A message accepted from a key that is not on chain has one of the types listed when the key was added,
and never is a key or channel message. -/
theorem C33_accepted_use_in_scope (s0 : KeyState) (ops : List KeyOp) (h0 : s0.fresh) (env : KeyEnv) (fid : Nat)
    (pk : Bytes) (ty : MessageType) (ts : UInt32) (now : Nat)
    (hoff : env.onchainSigner fid pk = false)
    (ha : (KeyOp.exec (runKeyOps s0 ops) (.use env fid pk ty ts now)).1 = true) :
    ∃ r, getKeyRecord (runKeyOps s0 ops).db (runKeyOps s0 ops).txn fid pk = .ok (some r) ∧
      (ty.num : Int) ∈ r.message.scopes ∧ mayBeScoped ty = true := by
  have hg := run_good s0 ops (fresh_good h0)
  rcases use_accepted hg ha with ⟨h, _⟩ | ⟨_, hl, r, L, hr, hv, h4, hL, hadm, hfr, hw⟩
  · rw [hoff] at h; cases h
  · have hm := (C33_mask_is_membership _ _ _).1 hadm
    refine ⟨r, ?_, hm, ?_⟩
    · rw [getKeyRecord_view]
      unfold KeyState.view at hr
      simp [hl, hr]
    · have hall : ∀ s ∈ r.message.scopes, scopeAdmissible s = true := by
        simp only [validateKeyAddBody, validateKeyAddScopes, Bool.and_eq_true, List.all_eq_true] at hv
        exact hv.2.2
      exact scopeAdmissible_num ty (hall _ hm)

/-- The scopes that count are those of the last accepted addition of the key: after it, and any kept history
that does not add or remove the key, the record is that message. -/
theorem C33_scopes_of_last_addition (s0 : KeyState) (before between : List KeyOp) (h0 : s0.fresh)
    (env : KeyEnv) (m : KeyAddMsg) (rep : Bool)
    (ha : (KeyOp.exec (runKeyOps s0 before) (.add env m rep)).1 = true)
    (hk : kept between = true) (hb : ∀ o ∈ between, ¬ o.touches m.key) :
    ∃ rf, getKeyRecord (runKeyOps (KeyOp.exec (runKeyOps s0 before) (.add env m rep)).2 between).db
      (runKeyOps (KeyOp.exec (runKeyOps s0 before) (.add env m rep)).2 between).txn m.fid m.key
        = .ok (some { message := m, requestFid := rf }) := by
  have hg := run_good s0 before (fresh_good h0)
  have hg1 := exec_good _ (.add env m rep) hg
  obtain ⟨hbody, rf, first, hacc, hw⟩ := add_accepted hg ha
  have hl := validateKeyAddBody_key hbody
  have hstart : (KeyOp.exec (runKeyOps s0 before) (.add env m rep)).2.view.get
      (23 :: 105 :: (makeFidKey m.fid ++ m.key)) = some (.record { message := m, requestFid := rf }) := by
    rw [hw, addView_get]
    simp
  have hkeep := run_kept (fun W => W.get (23 :: 105 :: (makeFidKey m.fid ++ m.key)) =
      some (.record { message := m, requestFid := rf })) (fun o => ¬ o.touches m.key)
    (fun s o hg hok ho h => by
      rw [record_untouched s o hg ho _ _ (makeFidKey_length _) hok]; exact h) _ between hb hk hg1 hstart
  refine ⟨rf, ?_⟩
  rw [getKeyRecord_view]
  unfold KeyState.view at hkeep
  simp [hl, hkeep]

/-- A key registered on chain can sign any type, at any time, whatever the gasless tables say, and its use
does not change them. -/
theorem C33_onchain_key_unrestricted (s : KeyState) (env : KeyEnv) (fid : Nat) (pk : Bytes) (ty : MessageType)
    (ts : UInt32) (now : Nat) (hon : env.onchainSigner fid pk = true) :
    KeyOp.exec s (.use env fid pk ty ts now) = (true, s) := by
  simp [KeyOp.exec, useKey, getActiveKey, hon, ActiveKey.admits]

/-- An unknown key can sign nothing. -/
theorem C33_unknown_key_rejected (s : KeyState) (env : KeyEnv) (fid : Nat) (pk : Bytes) (ty : MessageType)
    (ts : UInt32) (now : Nat) (hoff : env.onchainSigner fid pk = false)
    (hno : ∀ r, getKeyRecord s.db s.txn fid pk ≠ .ok (some r)) :
    KeyOp.exec s (.use env fid pk ty ts now) = (false, s) := by
  have : ∃ e, useKey env s.db s.txn fid pk ty ts now = .error e := by
    unfold useKey getActiveKey
    simp only [hoff, Bool.false_eq_true, if_false]
    cases h : getKeyRecord s.db s.txn fid pk with
    | error e => exact ⟨e, rfl⟩
    | ok o =>
      cases o with
      | none => exact ⟨_, rfl⟩
      | some r => exact absurd h (hno r)
  obtain ⟨e, he⟩ := this
  simp [KeyOp.exec, he]

section Cases
open GaslessCase

/-- The example key covers casts and reactions only. -/
example :
    let s := runKeyOps start [.add env (addMsg 5 7 1 1000) false, .commit]
    (KeyOp.exec s (.use env 5 (pk 7) .castAdd 1000 1000)).1 = true ∧
    (KeyOp.exec s (.use env 5 (pk 7) .reactionAdd 1000 1000)).1 = true ∧
    (KeyOp.exec s (.use env 5 (pk 7) .linkAdd 1000 1000)).1 = false ∧
    (KeyOp.exec s (.use envOn 5 (pk 7) .keyRemove 1000 1000)).1 = true ∧
    (KeyOp.exec s (.use env 6 (pk 7) .castAdd 1000 1000)).1 = false := by decide +kernel

end Cases
end Verif
