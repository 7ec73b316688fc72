import Verif.Lemmas.Lending
import Verif.Props.C40
import Verif.Case.Store
/-!
C42: nobody lends storage they do not have; what is lent is what is borrowed.
-/
namespace Verif
open StoreDef Spec

/-- Units of a type a user lends, on the database or counting what is staged. -/
def StoreState.lent (st : StoreState) (fid : Nat) (ty : UnitType) : Nat :=
  lendTotal ty (lentOf (Db.commit st.db st.pend.txn) fid)

theorem LHist.lent_eq {U : Msg → Prop} {ctx} (hU : HashesIdentify U) {r Q seen L0 L st} (h : LHist ctx U r Q seen L0 L st)
    {fid : Nat} (hf : fid < 2 ^ 32) (ty : UnitType) :
    st.lent fid ty = sumOf (lentBy fid ty) L ∧ lendTotal ty (lentOf st.db fid) = sumOf (lentBy fid ty) L0 :=
  ⟨lentOf_eq hU (holds_commit h.inv.holds) hf ty, lentOf_eq hU h.inv.committed hf ty⟩

/-- **C42**: through every history covered, a user never lends more units of a type than it had bought at its last
transaction, neither on the database nor counting what is staged. -/
theorem C42_never_overlends {U : Msg → Prop} (hU : HashesIdentify U) (ctx : Nat → MergeCtx) (ops : List LOp)
    (h : LFair ctx U (fun _ _ => 0) [] {} ops) {fid : Nat} (hf : fid < 2 ^ 32) (ty : UnitType) :
    lendTotal ty (lentOf (lRun ctx {} ops).db fid) ≤ lastBought ops fid ty ∧
    (lRun ctx {} ops).lent fid ty ≤ lastBought ops fid ty := by
  obtain ⟨seen, L0, L, hi⟩ := lRun_spec hU (r := 0) ops lHist_init h (.inl rfl)
  obtain ⟨h1, h2⟩ := hi.lent_eq hU hf ty
  rw [h1, h2]
  have a := hi.bound0 fid ty
  have b := hi.bound fid ty
  unfold lastBought
  constructor
  · rcases a with a | a
    · rw [a]; exact Nat.zero_le _
    · exact a
  · rcases b with b | b
    · rw [b]; exact Nat.zero_le _
    · exact b

/-- **C42**: with the reserve in force, a user that lends units of a type keeps at least one of them. -/
theorem C42_keeps_one_unit {U : Msg → Prop} (hU : HashesIdentify U) (ctx : Nat → MergeCtx) (ops : List LOp)
    (h : LFair ctx U (fun _ _ => 0) [] {} ops) (hres : WithReserve ops) {fid : Nat} (hf : fid < 2 ^ 32) (ty : UnitType) :
    (0 < lendTotal ty (lentOf (lRun ctx {} ops).db fid) →
      lendTotal ty (lentOf (lRun ctx {} ops).db fid) + 1 ≤ lastBought ops fid ty) ∧
    (0 < (lRun ctx {} ops).lent fid ty → (lRun ctx {} ops).lent fid ty + 1 ≤ lastBought ops fid ty) := by
  obtain ⟨seen, L0, L, hi⟩ := lRun_spec hU (r := 1) ops lHist_init h (.inr ⟨rfl, hres⟩)
  obtain ⟨h1, h2⟩ := hi.lent_eq hU hf ty
  rw [h1, h2]
  have a := hi.bound0 fid ty
  have b := hi.bound fid ty
  unfold lastBought
  constructor
  · intro h0; rcases a with a | a
    · omega
    · exact a
  · intro h0; rcases b with b | b
    · omega
    · exact b

/-- **C42**: a transaction changes nothing for other users; and on Mainnet, a user with fewer than 1000 units of a
type bought cannot lend more of that type than before. -/
theorem C42_only_large_holders_lend {U : Msg → Prop} (hU : HashesIdentify U) (ctx : Nat → MergeCtx) (ops : List LOp)
    (x : LendTxn) (h : LFair ctx U (fun _ _ => 0) [] {} (ops ++ [.txn x])) {fid : Nat} (hf : fid < 2 ^ 32) (ty : UnitType) :
    (fid ≠ x.fid → (lRun ctx {} (ops ++ [.txn x])).lent fid ty = (lRun ctx {} ops).lent fid ty) ∧
    (fid = x.fid → x.cfg.mainnet = true → (∀ e ∈ x.rents fid, Rental true x.cfg.ext e) →
      (∀ ty, purchased true x.cfg.ext x.now.toNat ty (x.rents fid) < 2 ^ 32) →
      purchased true x.cfg.ext x.now.toNat ty (x.rents fid) < 1000 →
      (lRun ctx {} (ops ++ [.txn x])).lent fid ty ≤ (lRun ctx {} ops).lent fid ty) := by
  obtain ⟨seen, L0, L, hi, hp⟩ := lRun_rest hU (r := 0) [.txn x] ops lHist_init h (.inl rfl)
  obtain ⟨hx, hs, hq, hno, _⟩ := hp
  obtain ⟨y, L', ht, hl, hi'⟩ := lExec_txn hU hi (.inl rfl) hx hs hq hno
  have hrun : lRun ctx {} (ops ++ [.txn x]) = lExec ctx (lRun ctx {} ops) (.txn x) := by
    unfold lRun; rw [List.foldl_append]; rfl
  rw [hrun, (hi'.lent_eq hU hf ty).1, (hi.lent_eq hU hf ty).1]
  refine ⟨fun hne => hl.others fid hne ty, fun e hm hr hb hlt => ?_⟩
  subst e
  refine hl.poor ty hm ?_
  rw [total_spec hx.clock (by rw [hm]; exact hr) (by rw [hm]; exact hb), hm]
  exact hlt

/-- **C42**: lending moves units and neither creates nor destroys any: over a list of users that contains every lender
and every recipient, as much is borrowed as is lent. -/
theorem C42_conserved {U : Msg → Prop} (hU : HashesIdentify U) (ctx : Nat → MergeCtx) (ops : List LOp)
    (h : LFair ctx U (fun _ _ => 0) [] {} ops) (users : List Nat) (hn : users.Nodup) (hu : ∀ f ∈ users, f < 2 ^ 32)
    (hc : ∀ f < 2 ^ 32, ∀ m ∈ storedMessages lendStore (lRun ctx {} ops).db f, ∀ to u t, m.body = .lend to u t →
      f ∈ users ∧ to ∈ users) (ty : UnitType) :
    (users.map (fun f => lendTotal ty (lentOf (lRun ctx {} ops).db f))).sum =
      (users.map (fun f => lendTotal ty (borrowedOf (lRun ctx {} ops).db f))).sum := by
  obtain ⟨seen, L0, L, hi⟩ := lRun_spec hU (r := 0) ops lHist_init h (.inl rfl)
  have hcov : ∀ m ∈ L0, m.fid ∈ users ∧ lendTo m ∈ users := by
    intro m hm
    have hv := hi.inv.committed.valid m hm
    obtain ⟨to, u, t, e, _⟩ := l_body hv.1
    have := hc m.fid hv.1.2.1 m ((mem_stored (l_lawful hU) hi.inv.committed hv.1.2.1 m).2 ⟨hm, rfl⟩) to u t e
    simpa [lendTo, e] using this
  have e1 : users.map (fun f => lendTotal ty (lentOf (lRun ctx {} ops).db f)) = users.map (fun f => sumOf (lentBy f ty) L0) :=
    List.map_congr_left (fun f hf => lentOf_eq hU hi.inv.committed (hu f hf) ty)
  have e2 : users.map (fun f => lendTotal ty (borrowedOf (lRun ctx {} ops).db f)) = users.map (fun f => sumOf (borrowedBy f ty) L0) :=
    List.map_congr_left (fun f hf => borrowedOf_eq hU hi.inv (hu f hf) ty)
  rw [e1, e2]
  have h1 := sumOf_users (·.fid) (lendUnits ty) hn (fun m hm => (hcov m hm).1)
  have h2 := sumOf_users lendTo (lendUnits ty) hn (fun m hm => (hcov m hm).2)
  exact h1.trans h2.symm

namespace Case
/-- User 7 lends 3 units to user 8 and 4 to user 9, changes the first to 5, then ends the second. -/
def lend8 : Msg := ⟨7, .lendStorage, 100, h20 1, [1], .lend 8 3 .y2025⟩
def lend9 : Msg := ⟨7, .lendStorage, 101, h20 2, [1], .lend 9 4 .y2025⟩
def relend8 : Msg := ⟨7, .lendStorage, 102, h20 3, [1], .lend 8 5 .y2025⟩
def unlend9 : Msg := ⟨7, .lendStorage, 103, h20 4, [1], .lend 9 0 .y2025⟩
def lends : List Msg := [lend8, lend9, relend8, unlend9]

theorem lends_hashes : HashesIdentify (· ∈ lends) := by
  have h : ∀ a ∈ lends, ∀ b ∈ lends, a.fid = b.fid → a.ts = b.ts → a.hash = b.hash → a = b := by decide
  exact fun a b ha hb => h a ha b hb

theorem lends_valid : ∀ m ∈ lends, StoreKind.lends.Valid m := by
  intro m hm
  simp only [lends, List.mem_cons, List.not_mem_nil, or_false] at hm
  rcases hm with rfl | rfl | rfl | rfl <;>
    exact ⟨by decide, by decide, by decide, by decide, rfl, _, _, _, rfl, by decide⟩

/-- User 7 has 12 units; a test network with the reserve. -/
def lendTxn (ms : List Msg) : LendTxn := ⟨⟨false, false, true⟩, 1780000000, 7, fun _ => [rentAt 12 1760000000], [], ms⟩
def lendOps : List LOp := [.block 1, .txn (lendTxn [lend8, lend9, relend8]), .commit, .block 2, .txn (lendTxn [unlend9])]

theorem lendTxn_proper {ms : List Msg} (h : ∀ m ∈ ms, m ∈ lends) : (lendTxn ms).Proper (· ∈ lends) := by
  refine ⟨by show (1780000000 : UInt32).toNat < _; decide, by show 7 < 2 ^ 32; decide, ?_, ?_, fun m hm => ⟨lends_valid m (h m hm), h m hm, ?_⟩, fun m hm to u ty e => ?_⟩
  · intro e he
    have : e = rentAt 12 1760000000 := by simpa [lendTxn, countedRents] using he
    subst this
    exact ⟨⟨_, rfl⟩, by show expiry false false 1760000000 < _; decide⟩
  · have : ∀ ty, (lendTxn []).bought ty < 2 ^ 32 := by intro ty; cases ty <;> decide
    exact this
  · have : ∀ m ∈ lends, m.fid = 7 := by decide
    exact this m (h m hm)
  · have := h m hm
    simp only [lends, List.mem_cons, List.not_mem_nil, or_false] at this
    rcases this with rfl | rfl | rfl | rfl <;> (cases e; decide)
end Case

/-- The concrete history is covered, with the reserve. -/
example : LFair Case.allOn (· ∈ Case.lends) (fun _ _ => 0) [] {} Case.lendOps ∧ WithReserve Case.lendOps := by
  constructor
  · refine ⟨Case.lendTxn_proper (by decide), by decide, fun ty => Nat.zero_le _, fun y hy => ?_,
      Case.lendTxn_proper (by decide), by decide, fun ty => ?_, fun y hy => ?_, trivial⟩
    · have h : (match lTxn Case.allOn (lRun Case.allOn {} [.block 1]) (Case.lendTxn [Case.lend8, Case.lend9, Case.relend8]) with
        | .ok x => decide (.error .invalidParameter ∉ x.out) | _ => true) = true := by decide +kernel
      have hy' : lTxn Case.allOn (lRun Case.allOn {} [.block 1]) (Case.lendTxn [Case.lend8, Case.lend9, Case.relend8]) = .ok y := hy
      rw [hy'] at h; exact of_decide_eq_true h
    · exact Nat.le_refl _
    · have h : (match lTxn Case.allOn (lRun Case.allOn {} (Case.lendOps.take 4)) (Case.lendTxn [Case.unlend9]) with
        | .ok x => decide (.error .invalidParameter ∉ x.out) | _ => true) = true := by decide +kernel
      have hy' : lTxn Case.allOn (lRun Case.allOn {} (Case.lendOps.take 4)) (Case.lendTxn [Case.unlend9]) = .ok y := hy
      rw [hy'] at h; exact of_decide_eq_true h
  · intro x hx
    simp only [Case.lendOps, List.mem_cons, reduceCtorEq, LOp.txn.injEq, List.not_mem_nil, or_false, false_or] at hx
    rcases hx with rfl | rfl <;> rfl

/-- It bites: the change to 5 needs 6 free units and only 5 are left, so 7 units stay lent; then 3. -/
example : lendTotal .y2025 (lentOf (lRun Case.allOn {} Case.lendOps).db 7) = 7 ∧
    (lRun Case.allOn {} Case.lendOps).lent 7 .y2025 = 3 ∧ lastBought Case.lendOps 7 .y2025 = 12 ∧
    lendTotal .y2025 (borrowedOf (lRun Case.allOn {} Case.lendOps).db 8) = 3 ∧
    lendTotal .y2025 (borrowedOf (lRun Case.allOn {} Case.lendOps).db 9) = 4 := by decide +kernel

/-- What fails, 1: storage left is computed from the database, once per transaction (block_engine.rs:1440-1447), so two
transactions of one user in one block lend the same units twice: 14 of 12. -/
theorem C42_two_transactions_overlend :
    let big8 : Msg := { Case.lend8 with body := .lend 8 7 .y2025 }
    let big9 : Msg := { Case.lend9 with body := .lend 9 7 .y2025 }
    let ops : List LOp := [.block 1, .txn (Case.lendTxn [big8]), .txn (Case.lendTxn [big9]), .commit]
    lendTotal .y2025 (lentOf (lRun Case.allOn {} ops).db 7) = 14 ∧ lastBought ops 7 .y2025 = 12 := by decide +kernel

/-- What fails, 2: when units expire while they are lent, the storage left wraps around and the user may lend without
limit: here 12 units have expired, 3 are lent, and 5000 more are admitted. -/
theorem C42_after_expiry_unlimited :
    let late : LendTxn := { Case.lendTxn [{ Case.lend9 with body := .lend 9 5000 .y2025 }] with now := 1800000000 }
    let ops : List LOp := [.block 1, .txn (Case.lendTxn [Case.lend8]), .commit, .txn { late with pending := [rentAt 1 1790000000] }]
    (lRun Case.allOn {} ops).lent 7 .y2025 = 5003 ∧ lastBought ops 7 .y2025 = 1 := by decide +kernel

/-- What fails, 3: a lend is weighed against the units left as if the lend it replaces stayed, so a user that lent 8 of 12
cannot reduce this to 5. -/
theorem C42_reducing_needs_room :
    let big8 : Msg := { Case.lend8 with body := .lend 8 8 .y2025 }
    let ops : List LOp := [.block 1, .txn (Case.lendTxn [big8]), .commit, .txn (Case.lendTxn [Case.relend8])]
    (lRun Case.allOn {} ops).lent 7 .y2025 = 8 := by decide +kernel

/-- What fails, 4: ending a lend leaves nothing behind, so the older lend can be submitted again and counts again. -/
theorem C42_ended_lend_can_be_replayed :
    let ops : List LOp := [.block 1, .txn (Case.lendTxn [Case.lend9, Case.unlend9]), .commit, .txn (Case.lendTxn [Case.lend9])]
    lentOf (lRun Case.allOn {} ops).db 7 = [] ∧ (lRun Case.allOn {} ops).lent 7 .y2025 = 4 := by decide +kernel

end Verif
