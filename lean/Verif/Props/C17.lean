import Verif.Lemmas.AddressOwner
import Verif.Props.C11
/-! C17: the winner among verifications of one address is deterministic. -/
namespace Verif
open AddressOwner

/-- `a` has a better claim than `b`: greater (timestamp, hash), at equality the smaller fid.  A candidate is
a fid with the timestamp-and-hash bytes of its verification. -/
def betterClaim (a b : Nat × Bytes) : Prop := Bytes.blt b.2 a.2 = true ∨ (b.2 = a.2 ∧ a.1 < b.1)

theorem le_iff_better (a b : Nat × Bytes) : candidateLe a b = true ↔ a = b ∨ betterClaim b a := by
  unfold candidateLe betterClaim
  simp only [Bool.or_eq_true, Bool.and_eq_true, beq_iff_eq, decide_eq_true_eq]
  constructor
  · rintro (h | ⟨h, h'⟩)
    · exact .inr (.inl h)
    · by_cases e : a.1 = b.1
      · exact .inl (Prod.ext e h)
      · exact .inr (.inr ⟨h, by omega⟩)
  · rintro (rfl | h | ⟨h, h'⟩)
    · exact .inr ⟨rfl, Nat.le_refl _⟩
    · exact .inl h
    · exact .inr ⟨h, by omega⟩

/-- **C17.** The selected user has a candidate that beats every other candidate. -/
theorem C17_winner (cs : List (Nat × Bytes)) (f : Nat) :
    selectWinner cs = some f ↔ ∃ th, (f, th) ∈ cs ∧ ∀ c ∈ cs, c = (f, th) ∨ betterClaim (f, th) c := by
  unfold selectWinner
  rcases fold_spec cs with ⟨rfl, h⟩ | ⟨w, h, hw, hm⟩
  · simp
  · rw [h]
    simp only [Option.map_some, Option.some.injEq]
    constructor
    · rintro rfl
      exact ⟨w.2, hw, fun c hc => (le_iff_better c w).1 (hm c hc)⟩
    · rintro ⟨th, hf, hall⟩
      have h1 := hm _ hf
      have h2 := (le_iff_better w (f, th)).2 (hall w hw)
      rw [le_antisymm h2 h1]

/-- **C17.** There is a winner exactly when there is a candidate. -/
theorem C17_winner_exists (cs : List (Nat × Bytes)) : selectWinner cs = none ↔ cs = [] := by
  unfold selectWinner
  rcases fold_spec cs with ⟨rfl, h⟩ | ⟨w, h, hw, _⟩
  · simp
  · rw [h]; simp only [Option.map_some, reduceCtorEq, false_iff]; rintro rfl; cases hw

/-- **C17.** The choice depends on the set of candidates only, not on their order or multiplicity. -/
theorem C17_order (cs cs' : List (Nat × Bytes)) (h : ∀ c, c ∈ cs ↔ c ∈ cs') :
    selectWinner cs = selectWinner cs' := by
  apply Option.ext
  intro f
  simp only [C17_winner, h]

/-- **C17.** The candidates of an address, read with the pending batch of any proper history of the
verification store, are exactly the stored verifications of that address. -/
theorem C17_candidates (ctx : Nat → MergeCtx) (U : Msg → Prop) (hU : HashesIdentify U) (ops : List StoreOp)
    (hr : StoreKind.verifications.ProperRun (fun _ => none) ctx U {} ops) (address : Bytes) (ha : address ≠ []) :
    let st := ({} : StoreState).run verificationStore ctx ops
    ∃ cs, verificationsByAddress st.db (some st.pend.txn) address = .ok cs ∧
      ∀ f th, (f, th) ∈ cs ↔ ∃ m, U m ∧ StoreKind.verifications.Valid m ∧ st.Has verificationStore m ∧
        m.body = .verificationAdd address ∧ m.fid = f ∧ m.tsHash = th := by
  intro st
  obtain ⟨cs, h1, h2⟩ := entries_mem (db := st.db) (t := st.pend.txn) ha
  refine ⟨cs, h1, ?_⟩
  intro f th
  rw [h2]
  have hch : ChannelNaming (fun _ => none) := ⟨fun _ _ h => (by cases h), fun _ _ _ h => (by cases h)⟩
  have hrows := C11_rows_are_the_messages .verifications (fun _ => none) hch ctx U hU ops hr
    (RowKey.verificationByAddress address f).bytes (RowKey.ne_event rfl) (.raw th)
  simp only at hrows
  have hview : st.view (RowKey.verificationByAddress address f).bytes =
    getFromDbOrTxn st.db st.pend.txn (RowKey.verificationByAddress address f).bytes := rfl
  rw [← hview]
  constructor
  · rintro ⟨hf, _, hg⟩
    obtain ⟨m, hv, hu, hh, r, hrm, e⟩ := hrows.1 hg
    refine ⟨m, hu, hv, hh, ?_⟩
    have hwf : (RowKey.verificationByAddress address f).WF :=
      ⟨by intro x hx; simp [RowKey.fids] at hx; omega, trivial⟩
    have hmf := hv.2.1
    rcases hv.2.2.2.2 with ⟨ht, a, hb, _⟩ | ⟨ht, a, hb, _⟩
    · simp only [StoreKind.rows, ht, hb, List.mem_cons, Prod.mk.injEq, List.not_mem_nil, or_false] at hrm
      rcases hrm with ⟨rfl, hx⟩ | ⟨rfl, hx⟩ | ⟨rfl, hx⟩
      · cases hx
      · exfalso
        have := RowKey.bytes_inj hwf (r' := .verificationAdd m.fid a)
          ⟨by intro x hx; simp [RowKey.fids] at hx; omega, trivial⟩ e
        cases this
      · have := RowKey.bytes_inj hwf (r' := .verificationByAddress a m.fid)
          ⟨by intro x hx; simp [RowKey.fids] at hx; omega, trivial⟩ e
        simp only [RowKey.verificationByAddress.injEq] at this
        cases hx
        exact ⟨by rw [hb, this.1], this.2.symm, rfl⟩
    · simp only [StoreKind.rows, ht, hb, List.mem_cons, Prod.mk.injEq, List.not_mem_nil, or_false] at hrm
      rcases hrm with ⟨rfl, hx⟩ | ⟨rfl, hx⟩
      · cases hx
      · exfalso
        have := RowKey.bytes_inj hwf (r' := .verificationRemove m.fid a)
          ⟨by intro x hx; simp [RowKey.fids] at hx; omega, trivial⟩ e
        cases this
  · rintro ⟨m, hu, hv, hh, hb, rfl, rfl⟩
    refine ⟨hv.2.1, by simp [Msg.tsHash, hv.2.2.2.1], hrows.2 ⟨m, hv, hu, hh, _, ?_, rfl⟩⟩
    rcases hv.2.2.2.2 with ⟨ht, a, hb', _⟩ | ⟨ht, a, hb', _⟩
    · simp [StoreKind.rows, ht, hb]
    · rw [hb] at hb'; cases hb'

/-- **C17.** So the owner of an address is the author of the greatest stored verification of it. -/
theorem C17_owner (ctx : Nat → MergeCtx) (U : Msg → Prop) (hU : HashesIdentify U) (ops : List StoreOp)
    (hr : StoreKind.verifications.ProperRun (fun _ => none) ctx U {} ops) (address : Bytes) (ha : address ≠ [])
    (f : Nat) :
    let st := ({} : StoreState).run verificationStore ctx ops
    let claims := fun m : Msg => U m ∧ StoreKind.verifications.Valid m ∧ st.Has verificationStore m ∧
      m.body = .verificationAdd address
    ∃ cs, verificationsByAddress st.db (some st.pend.txn) address = .ok cs ∧
      (selectWinner cs = some f ↔ ∃ m, claims m ∧ m.fid = f ∧
        ∀ x, claims x → (x.fid, x.tsHash) = (f, m.tsHash) ∨ betterClaim (f, m.tsHash) (x.fid, x.tsHash)) := by
  intro st claims
  obtain ⟨cs, h1, h2⟩ := C17_candidates ctx U hU ops hr address ha
  refine ⟨cs, h1, ?_⟩
  rw [C17_winner]
  constructor
  · rintro ⟨th, hm, hall⟩
    obtain ⟨m, hu, hv, hh, hb, hf, ht⟩ := (h2 f th).1 hm
    refine ⟨m, ⟨hu, hv, hh, hb⟩, hf, ?_⟩
    rintro x ⟨hxu, hxv, hxh, hxb⟩
    have := hall (x.fid, x.tsHash) ((h2 _ _).2 ⟨x, hxu, hxv, hxh, hxb, rfl, rfl⟩)
    rw [ht]; exact this
  · rintro ⟨m, ⟨hu, hv, hh, hb⟩, hf, hall⟩
    refine ⟨m.tsHash, (h2 _ _).2 ⟨m, hu, hv, hh, hb, hf, rfl⟩, ?_⟩
    rintro ⟨g, th⟩ hc
    obtain ⟨x, hxu, hxv, hxh, hxb, rfl, rfl⟩ := (h2 _ _).1 hc
    exact hall x ⟨hxu, hxv, hxh, hxb⟩

/-! ### Non-vacuity -/

def verifBy (fid ts : Nat) (h : UInt8) : Msg := ⟨fid, .verificationAdd, ts, Case.h20 h, [1], .verificationAdd [170, 255]⟩
def verifOps : List StoreOp := [.merge (verifBy 7 100 1), .commit, .merge (verifBy 8 120 2), .merge (verifBy 9 120 2)]

/-- Three users verify one address, the last two at the same instant with equal hashes: the smaller of
their fids is selected.  The history is proper. -/
example : StoreKind.verifications.ProperRun (fun _ => none) Case.allOn
      (· ∈ [verifBy 7 100 1, verifBy 8 120 2, verifBy 9 120 2]) {} verifOps ∧
    HashesIdentify (· ∈ [verifBy 7 100 1, verifBy 8 120 2, verifBy 9 120 2]) ∧
    (let st := ({} : StoreState).run verificationStore Case.allOn verifOps
     (verificationsByAddress st.db (some st.pend.txn) [170, 255]).map selectWinner = .ok (some 8) ∧
     (verificationsByAddress st.db none [170, 255]).map selectWinner = .ok (some 7)) := by
  have hv : ∀ f t h, 0 < f → f < 2 ^ 32 → t < 2 ^ 32 → StoreKind.verifications.Valid (verifBy f t h) :=
    fun f t h h0 h1 h2 => ⟨h0, h1, h2, by simp [verifBy, Case.h20], .inl ⟨rfl, _, rfl, by decide⟩⟩
  refine ⟨⟨⟨hv _ _ _ (by decide) (by decide) (by decide), by decide⟩, trivial,
    ⟨hv _ _ _ (by decide) (by decide) (by decide), by decide⟩,
    ⟨hv _ _ _ (by decide) (by decide) (by decide), by decide⟩, trivial⟩, ?_, by decide +kernel⟩
  have h : ∀ a ∈ [verifBy 7 100 1, verifBy 8 120 2, verifBy 9 120 2], ∀ b ∈ [verifBy 7 100 1, verifBy 8 120 2, verifBy 9 120 2],
    a.fid = b.fid → a.ts = b.ts → a.hash = b.hash → a = b := by decide
  exact fun a b ha hb => h a ha b hb

end Verif
