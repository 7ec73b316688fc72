import Verif.Lemmas.VerificationCap
import Verif.Case.Store
/-!
C34: on shard 0, a user's verifications stay within the allowance at all times: at most `M` live ones, and at
most `M` plus `max M 256` rows with the removals; replacing what is there is never refused for want of room.
-/
namespace Verif
open StoreDef

namespace Case
/-- User 7 verifies two addresses, removes the first, and verifies a third. -/
def verA : Msg := ⟨7, .verificationAdd, 100, h20 1, [1], .verificationAdd (h20 65)⟩
def verB : Msg := ⟨7, .verificationAdd, 101, h20 2, [1], .verificationAdd (h20 66)⟩
def unverA : Msg := ⟨7, .verificationRemove, 102, h20 3, [1], .verificationRemove (h20 65)⟩
def verC : Msg := ⟨7, .verificationAdd, 103, h20 4, [1], .verificationAdd (h20 67)⟩
def vers : List Msg := [verA, verB, unverA, verC]

theorem vers_hashes : HashesIdentify (· ∈ vers) := by
  have h : ∀ a ∈ vers, ∀ b ∈ vers, a.fid = b.fid → a.ts = b.ts → a.hash = b.hash → a = b := by decide
  exact fun a b ha hb => h a ha b hb

theorem vers_valid : ∀ m ∈ vers, StoreKind.verifications.Valid m := by
  intro m hm
  simp only [vers, List.mem_cons, List.not_mem_nil, or_false] at hm
  rcases hm with rfl | rfl | rfl | rfl
  · exact ⟨by decide, by decide, by decide, by decide, .inl ⟨rfl, _, rfl, by decide⟩⟩
  · exact ⟨by decide, by decide, by decide, by decide, .inl ⟨rfl, _, rfl, by decide⟩⟩
  · exact ⟨by decide, by decide, by decide, by decide, .inr ⟨rfl, _, rfl, by decide⟩⟩
  · exact ⟨by decide, by decide, by decide, by decide, .inl ⟨rfl, _, rfl, by decide⟩⟩

/-- With room for one: the second address is refused until the first is removed. -/
def verOps : List VOp := [.block 1, .txn 7 1 [verA, verB], .commit, .txn 7 1 [unverA, verC]]
end Case

/-- The rows a user has, counting what is staged. -/
def StoreState.verificationRows (st : StoreState) (fid : Nat) : List Msg :=
  storedMessages verificationStore (Db.commit st.db st.pend.txn) fid

/-- Every history keeps every user within the allowance, staged and committed. -/
theorem C34_within_allowance {U : Msg → Prop} (hU : HashesIdentify U) (ctx : Nat → MergeCtx) (M : Nat → Nat) (ops : List VOp)
    (h : VFair ctx U M {} ops) {fid : Nat} (hf : fid < 2 ^ 32) (rows : List Msg)
    (hr : rows = (vRun ctx {} ops).verificationRows fid ∨ rows = storedMessages verificationStore (vRun ctx {} ops).db fid) :
    rows.countP (·.ty = .verificationAdd) ≤ M fid ∧
    rows.length ≤ M fid + (if M fid = 0 then 0 else max (M fid) 256) := by
  obtain ⟨L0, L, hi⟩ := vRun_spec hU ops vHist_init h
  rcases hr with rfl | rfl
  · exact rows_bound hU (holds_commit hi.inv.holds) hi.bound hf
  · exact rows_bound hU hi.inv.committed hi.bound0 hf

/-- The counts kept along a transaction never go wrong: a transaction does not abort the block, unless the
block ran out of event numbers before. -/
theorem C34_never_aborts {U : Msg → Prop} (hU : HashesIdentify U) (ctx : Nat → MergeCtx) (M : Nat → Nat) (ops : List VOp)
    (h : VFair ctx U M {} ops) {fid max : Nat} (hf : fid < 2 ^ 32) (hmax : max ≤ M fid) (ms : List Msg)
    (hms : ∀ m ∈ ms, StoreKind.verifications.Valid m ∧ U m ∧ m.fid = fid)
    (hroom : ∀ pre x, pre <+: ms → vTxn ctx (vRun ctx {} ops) fid max pre = .ok x → .error .invalidParameter ∉ x.out) :
    ∃ x, vTxn ctx (vRun ctx {} ops) fid max ms = .ok x := by
  obtain ⟨L0, L, hi⟩ := vRun_spec hU ops vHist_init h
  exact (vLoop_spec hU hmax ms (hi.loop hU hf) (fun m hm => ⟨⟨(hms m hm).1, (hms m hm).2.1⟩, (hms m hm).2.2⟩)).1 hroom

theorem rivals_iff {x m : Msg} (hx : StoreKind.verifications.Valid x) (hm : StoreKind.verifications.Valid m) :
    x.Rivals m ↔ verificationStore.ak x = verificationStore.ak m :=
  (kind_rivals (U := fun _ => True) (channelOf := fun _ => none) .verifications ⟨hx, trivial⟩ ⟨hm, trivial⟩).symm

/-- Whatever the counts: a removal of an address with a row, and a fresh verification of a verified address,
are admitted. -/
theorem C34_replacement_admitted {U : Msg → Prop} (hU : HashesIdentify U) (ctx : Nat → MergeCtx) (M : Nat → Nat) (ops : List VOp)
    (h : VFair ctx U M {} ops) (max : Nat) (c : VCounts) {m y : Msg} (hm : StoreKind.verifications.Valid m) (hmU : U m)
    (hy : (vRun ctx {} ops).Has verificationStore y) (hs : y.Rivals m)
    (hk : m.ty = .verificationRemove ∨ (y.ty = .verificationAdd ∧ 0 < max)) :
    admitVerification (vRun ctx {} ops).db (vRun ctx {} ops).pend.txn max c m = .ok () := by
  obtain ⟨L0, L, hi⟩ := vRun_spec hU ops vHist_init h
  have hyL : y ∈ L := (hi.inv.has_iff (v_lawful hU) y).1 hy
  have hyo := hi.inv.holds.valid y hyL
  have he := (rivals_iff hyo.1 hm).1 hs
  rw [admit_eq hU hi.inv.holds ⟨hm, hmU⟩, if_pos]
  have hf : L.find? (fun x => verificationStore.ak x = verificationStore.ak m) = some y := by
    cases hf : L.find? (fun x => verificationStore.ak x = verificationStore.ak m) with
    | none => exact absurd he (by simpa using List.find?_eq_none.1 hf y hyL)
    | some z =>
      rw [hi.inv.holds.unique (List.mem_of_find?_eq_some hf) hyL
        ((show verificationStore.ak z = verificationStore.ak m by simpa using List.find?_some hf).trans he.symm)]
  rw [hf]
  rcases v_type hm with ⟨ty, _, ha⟩ | ⟨ty, _, ha⟩
  · rcases hk with hk | ⟨hk, h0⟩
    · rw [ty] at hk; cases hk
    · have : verificationStore.isAdd y = true := by
        rcases v_type hyo.1 with ⟨_, _, hb⟩ | ⟨hb, _⟩
        · exact hb
        · rw [hk] at hb; cases hb
      simp [fits, ha, this]; omega
  · simp [fits, ha]

/-- An address without a row: a verification is admitted exactly when the user has fewer than `max` live ones
and room for one more row. -/
theorem C34_new_address_exact {U : Msg → Prop} (hU : HashesIdentify U) (ctx : Nat → MergeCtx) (M : Nat → Nat) (ops : List VOp)
    (h : VFair ctx U M {} ops) {fid : Nat} (max : Nat) (hmax : max + Nat.max max 256 < 2 ^ 32) {m : Msg}
    (hm : StoreKind.verifications.Valid m) (hmU : U m) (hfid : m.fid = fid) (hadd : m.ty = .verificationAdd)
    (hnew : ∀ y, (vRun ctx {} ops).Has verificationStore y → ¬ y.Rivals m) :
    admitVerification (vRun ctx {} ops).db (vRun ctx {} ops).pend.txn max
        (verificationCounts (vRun ctx {} ops).db (vRun ctx {} ops).pend.txn fid) m = .ok () ↔
      ((vRun ctx {} ops).verificationRows fid).countP (·.ty = .verificationAdd) < max ∧
      ((vRun ctx {} ops).verificationRows fid).length < max + Nat.max max 256 := by
  obtain ⟨L0, L, hi⟩ := vRun_spec hU ops vHist_init h
  have hf : L.find? (fun x => verificationStore.ak x = verificationStore.ak m) = none := by
    rw [List.find?_eq_none]
    intro y hy
    have := hnew y ((hi.inv.has_iff (v_lawful hU) y).2 hy)
    rw [rivals_iff (hi.inv.holds.valid y hy).1 hm] at this
    simpa using this
  have hlen := rows_length hU (holds_commit hi.inv.holds) (f := fid) (by have := hm.2.1; omega)
  rw [admit_eq hU hi.inv.holds ⟨hm, hmU⟩, hf]
  have ha : verificationStore.isAdd m = true := by simp [isAdd, verificationStore, hadd]
  unfold StoreState.verificationRows
  rw [hlen]
  unfold verificationCounts
  rw [ha]
  suffices key : ∀ a b, (if fits max ⟨a, b⟩ true (Option.map verificationStore.isAdd none) = true then
      (.ok () : Except HubErr Unit) else .error .validation) = .ok () ↔ a < max ∧ a + b < max + Nat.max max 256 from key _ _
  intro a b
  have hr : 0 < max → rowCap max = max + Nat.max max 256 := by
    intro h0
    unfold rowCap tombstoneCap
    rw [if_neg (by omega)]
    exact Nat.min_eq_left (by omega)
  by_cases h0 : max = 0
  · subst h0; simp [fits]
  · have hr := hr (by omega)
    generalize Nat.max max 256 = w at hr hmax
    simp only [fits, hr]
    have : Nat.min (a + b) (2 ^ 32 - 1) < max + w ↔ a + b < max + w := by
      show min (a + b) (2 ^ 32 - 1) < max + w ↔ _
      omega
    rw [← this]
    simp [h0, Option.map]

/-- The concrete history is covered, and bites: the second address is refused, then admitted. -/
example : VFair Case.allOn (· ∈ Case.vers) (fun _ => 1) {} Case.verOps := by
  refine ⟨trivial, ⟨fun m hm => ?_, by decide, by decide, fun x hx => ?_⟩, trivial,
    ⟨fun m hm => ?_, by decide, by decide, fun x hx => ?_⟩, trivial⟩
  · exact ⟨Case.vers_valid m (by revert m; decide), by revert m; decide, by revert m; decide⟩
  · have h : (match vTxn Case.allOn (vExec Case.allOn {} (.block 1)) 7 1 [Case.verA, Case.verB] with
      | .ok x => decide (.error .invalidParameter ∉ x.out) | _ => true) = true := by decide
    rw [hx] at h; exact of_decide_eq_true h
  · exact ⟨Case.vers_valid m (by revert m; decide), by revert m; decide, by revert m; decide⟩
  · have h : (match vTxn Case.allOn (vRun Case.allOn {} [.block 1, .txn 7 1 [Case.verA, Case.verB], .commit]) 7 1
        [Case.unverA, Case.verC] with
      | .ok x => decide (.error .invalidParameter ∉ x.out) | _ => true) = true := by decide
    have hx' : vTxn Case.allOn (vRun Case.allOn {} [.block 1, .txn 7 1 [Case.verA, Case.verB], .commit]) 7 1
        [Case.unverA, Case.verC] = .ok x := hx
    rw [hx'] at h; exact of_decide_eq_true h

example : (vRun Case.allOn {} Case.verOps).verificationRows 7 = [Case.unverA, Case.verC] ∧
    storedMessages verificationStore (vRun Case.allOn {} Case.verOps).db 7 = [Case.verA] := by decide

/-- Nothing compares the author of a message with the user whose transaction carries it
(block_engine.rs:1424-1701), and the allowance is the transaction's: with user 7 limited to one verification in
every transaction of their own, a proposer who puts the second one in a transaction of user 8 gets it stored. -/
theorem C34_foreign_transaction_not_counted :
    ∃ ops : List VOp, (∀ f max ms, VOp.txn f max ms ∈ ops → (f = 7 → max ≤ 1) ∧
        ∀ m ∈ ms, StoreKind.verifications.Valid m ∧ m ∈ Case.vers) ∧
      ((vRun Case.allOn {} ops).verificationRows 7).countP (·.ty = .verificationAdd) = 2 := by
  refine ⟨[.block 1, .txn 7 1 [Case.verA], .txn 8 1 [Case.verB]], fun f max ms h => ?_, by decide⟩
  simp only [List.mem_cons, List.not_mem_nil, or_false, reduceCtorEq, false_or, VOp.txn.injEq] at h
  rcases h with ⟨rfl, rfl, rfl⟩ | ⟨rfl, rfl, rfl⟩
  · exact ⟨by decide, fun m hm => ⟨Case.vers_valid m (by revert m; decide), by revert m; decide⟩⟩
  · exact ⟨by decide, fun m hm => ⟨Case.vers_valid m (by revert m; decide), by revert m; decide⟩⟩

/-- Replacing: with the allowance used up, the removal of the verified address is admitted. -/
example : (vRun Case.allOn {} [.block 1, .txn 7 1 [Case.verA]]).Has verificationStore Case.verA ∧
    Case.verA.Rivals Case.unverA ∧ admitVerification (vRun Case.allOn {} [.block 1, .txn 7 1 [Case.verA]]).db
      (vRun Case.allOn {} [.block 1, .txn 7 1 [Case.verA]]).pend.txn 1 ⟨1, 0⟩ Case.unverA = .ok () ∧
    admitVerification (vRun Case.allOn {} [.block 1, .txn 7 1 [Case.verA]]).db
      (vRun Case.allOn {} [.block 1, .txn 7 1 [Case.verA]]).pend.txn 1 ⟨1, 0⟩ Case.verB ≠ .ok () := by
  unfold StoreState.Has Msg.Rivals
  decide

end Verif
