import Verif.Lemmas.Event
/-!
# C18: event ids are unique and ordered
-/
namespace Verif

/-- What a node does with the id generator: move to a height, or ask for an id for a
block-confirmed event (`true`) or any other event (`false`). -/
inductive IdOp where
  | height (h : Nat)
  | request (confirmed : Bool)

/-- A successfully assigned id, with the height that was current. -/
structure Assigned where
  height : Nat
  confirmed : Bool
  id : Nat
  deriving DecidableEq, Repr

/-- The ids assigned while running `ops`. -/
def assigned (g : IdGen) : List IdOp → List Assigned
  | [] => []
  | .height h :: ops => assigned (g.setHeight h) ops
  | .request c :: ops =>
    match g.generateId c with
    | (.ok id, g') => ⟨g.height, c, id⟩ :: assigned g' ops
    | (.error _, g') => assigned g' ops

/-- Every height change goes up. -/
def HeightsIncrease (cur : Nat) : List IdOp → Prop
  | [] => True
  | .height h :: ops => cur < h ∧ HeightsIncrease h ops
  | .request _ :: ops => HeightsIncrease cur ops

theorem generateId_cases (g : IdGen) (c : Bool) :
    (g.generateId c = (.error .invalidParameter, g) ∧ (2 ^ 50 ≤ g.height ∨ 2 ^ 14 ≤ g.seq)) ∨
    (g.height < 2 ^ 50 ∧ g.seq < 2 ^ 14 ∧ c = true ∧ g.generateId c = (.ok (g.height * 2 ^ 14), g)) ∨
    (g.height < 2 ^ 50 ∧ g.seq < 2 ^ 14 ∧ c = false ∧
      g.generateId c = (.ok (g.height * 2 ^ 14 + max g.seq 1), ⟨g.height, max g.seq 1 + 1⟩)) := by
  unfold IdGen.generateId heightBits sequenceBits
  by_cases h1 : g.height ≥ 2 ^ 50
  · left; rw [if_pos h1]; exact ⟨rfl, .inl h1⟩
  · by_cases h2 : g.seq ≥ 2 ^ 14
    · left; rw [if_neg h1, if_pos h2]; exact ⟨rfl, .inr h2⟩
    · right
      rw [if_neg h1, if_neg h2]
      have h1' : g.height < 2 ^ 50 := by omega
      cases c
      · right
        refine ⟨by omega, by omega, rfl, ?_⟩
        simp only [Bool.false_eq_true, if_false]
        have : (if g.seq = 0 then 1 else g.seq) = max g.seq 1 := by
          by_cases h : g.seq = 0
          · simp [h]
          · rw [if_neg h]; omega
        rw [this, makeEventId_eq _ _ h1', Nat.mod_eq_of_lt (show max g.seq 1 < 2 ^ 14 by omega)]
      · left
        refine ⟨by omega, by omega, rfl, ?_⟩
        simp only [if_true]
        rw [makeEventId_eq _ _ h1']
        simp

theorem assigned_bounds (ops : List IdOp) : ∀ (g : IdGen), HeightsIncrease g.height ops →
    ∀ e ∈ assigned g ops, g.height ≤ e.height ∧ e.height < 2 ^ 50 ∧
      (e.confirmed = true → e.id = e.height * 2 ^ 14) ∧
      (e.confirmed = false → ∃ s, 1 ≤ s ∧ s < 2 ^ 14 ∧ e.id = e.height * 2 ^ 14 + s ∧
        (e.height = g.height → max g.seq 1 ≤ s)) := by
  induction ops with
  | nil => intro g _ e he; simp [assigned] at he
  | cons op ops ih =>
    intro g hinc e he
    cases op with
    | height h =>
      obtain ⟨h1, h2⟩ := hinc
      have := ih ⟨h, 0⟩ h2 e he
      simp only at this
      refine ⟨by omega, this.2.1, this.2.2.1, ?_⟩
      intro hc
      obtain ⟨s, a, b, c, d⟩ := this.2.2.2 hc
      exact ⟨s, a, b, c, by omega⟩
    | request c =>
      simp only [HeightsIncrease] at hinc
      rcases generateId_cases g c with ⟨h, _⟩ | ⟨h1, h2, hc, h⟩ | ⟨h1, h2, hc, h⟩
      · simp only [assigned, h] at he; exact ih g hinc e he
      · simp only [assigned, h, List.mem_cons] at he
        rcases he with rfl | he
        · simp [hc, h1]
        · exact ih g hinc e he
      · simp only [assigned, h, List.mem_cons] at he
        rcases he with rfl | he
        · simp only [hc, Nat.le_refl, h1, true_and, Bool.false_eq_true, false_implies]
          exact fun _ => ⟨_, Nat.le_max_right _ _, by omega, rfl, fun _ => Nat.le_refl _⟩
        · have := ih ⟨g.height, max g.seq 1 + 1⟩ hinc e he
          simp only at this
          refine ⟨this.1, this.2.1, this.2.2.1, ?_⟩
          intro hc'
          obtain ⟨s, a, b, c, d⟩ := this.2.2.2 hc'
          exact ⟨s, a, b, c, fun hh => by have := d hh; omega⟩

/-- **C18 (order).** Over any run in which heights go up, ids of a later height are larger; at one
height a later ordinary event has a larger id than everything before it, and the block-confirmed
event has a smaller id than every ordinary event, whenever it was requested. -/
theorem C18_ordered (g : IdGen) (ops : List IdOp) (hinc : HeightsIncrease g.height ops) :
    (assigned g ops).Pairwise (fun a b =>
      (a.height < b.height ∧ a.id < b.id) ∨
      (a.height = b.height ∧ (b.confirmed = false → a.id < b.id) ∧
        (b.confirmed = true → a.confirmed = false → b.id < a.id))) := by
  induction ops generalizing g with
  | nil => simp [assigned]
  | cons op ops ih =>
    cases op with
    | height h => exact ih ⟨h, 0⟩ hinc.2
    | request c =>
      simp only [HeightsIncrease] at hinc
      rcases generateId_cases g c with ⟨h, _⟩ | ⟨h1, h2, hc, h⟩ | ⟨h1, h2, hc, h⟩
      · simp only [assigned, h]; exact ih g hinc
      · simp only [assigned, h]
        refine List.pairwise_cons.2 ⟨?_, ih g hinc⟩
        intro e he
        obtain ⟨b1, b2, b3, b4⟩ := assigned_bounds ops g hinc e he
        simp only [hc]
        rcases Nat.lt_or_eq_of_le b1 with hl | heq
        · left; refine ⟨hl, ?_⟩
          cases hcf : e.confirmed
          · obtain ⟨s, a, b, c, _⟩ := b4 hcf; omega
          · have := b3 hcf; omega
        · right; refine ⟨heq, ?_, by simp⟩
          intro hcf
          obtain ⟨s, a, b, c, _⟩ := b4 hcf
          rw [c, ← heq]; omega
      · simp only [assigned, h]
        refine List.pairwise_cons.2 ⟨?_, ih ⟨g.height, max g.seq 1 + 1⟩ hinc⟩
        intro e he
        obtain ⟨b1, b2, b3, b4⟩ := assigned_bounds ops ⟨g.height, max g.seq 1 + 1⟩ hinc e he
        simp only at b1 b4
        simp only [hc]
        rcases Nat.lt_or_eq_of_le b1 with hl | heq
        · left; refine ⟨hl, ?_⟩
          cases hcf : e.confirmed
          · obtain ⟨s, a, b, c, _⟩ := b4 hcf; omega
          · have := b3 hcf; omega
        · right
          refine ⟨heq, ?_, ?_⟩
          · intro hcf
            obtain ⟨s, a, b, c, d⟩ := b4 hcf
            have := d heq.symm
            rw [c, ← heq]; omega
          · intro hcf _
            have := b3 hcf
            rw [this, ← heq]; omega

/-- **C18 (unique).** If at most one block-confirmed event is requested per height, all assigned ids
are distinct. -/
theorem C18_unique (g : IdGen) (ops : List IdOp) (hinc : HeightsIncrease g.height ops)
    (hone : (assigned g ops).Pairwise
      (fun a b => ¬ (a.height = b.height ∧ a.confirmed = true ∧ b.confirmed = true))) :
    (assigned g ops).Pairwise (fun a b => a.id ≠ b.id) := by
  have h := C18_ordered g ops hinc
  refine (h.and hone).imp ?_
  rintro a b ⟨h1, h2⟩ e
  rcases h1 with ⟨_, h1⟩ | ⟨h3, h4, h5⟩
  · omega
  · cases hb : b.confirmed
    · have := h4 hb; omega
    · cases ha : a.confirmed
      · have := h5 hb ha; omega
      · exact h2 ⟨h3, ha, hb⟩

/-- **C18 (decode).** An assigned id fits in 64 bits and decodes to its height and a sequence number
that is zero exactly for the block-confirmed event. -/
theorem C18_decode (g : IdGen) (ops : List IdOp) (hinc : HeightsIncrease g.height ops) :
    ∀ e ∈ assigned g ops, e.id < 2 ^ 64 ∧ (IdGen.extract e.id).1 = e.height ∧
      ((IdGen.extract e.id).2 = 0 ↔ e.confirmed = true) ∧
      IdGen.makeEventId e.height (IdGen.extract e.id).2 = e.id ∧
      IdGen.makeEventIdForBlockNumber e.height ≤ e.id ∧
      e.id < IdGen.makeEventIdForBlockNumber e.height + 2 ^ 14 := by
  intro e he
  obtain ⟨b1, b2, b3, b4⟩ := assigned_bounds ops g hinc e he
  unfold IdGen.makeEventIdForBlockNumber
  rw [extract_eq, makeEventId_eq _ _ b2, makeEventId_eq _ _ b2]
  simp only
  cases hc : e.confirmed
  · obtain ⟨s, a, b, c, _⟩ := b4 hc
    rw [c]; simp; omega
  · rw [b3 hc]; simp; omega

/-- `k` ordinary requests in a row. -/
def requests (k : Nat) : List IdOp := List.replicate k (.request false)

theorem seq_assigned (k : Nat) : ∀ (g : IdGen), g.height < 2 ^ 50 → 1 ≤ g.seq → g.seq ≤ 2 ^ 14 →
    (assigned g (requests k)).map Assigned.id
      = (List.range' g.seq (min k (2 ^ 14 - g.seq))).map (fun s => g.height * 2 ^ 14 + s) := by
  induction k with
  | zero => intro g _ _ _; simp [requests, assigned]
  | succ k ih =>
    intro g h0 h1 h2
    rw [requests, List.replicate_succ, ← requests]
    rcases generateId_cases g false with ⟨h, h3⟩ | ⟨_, _, hc, _⟩ | ⟨h3, h4, _, h⟩
    · have h4 : g.seq = 2 ^ 14 := by omega
      simp only [assigned, h]
      rw [ih g h0 h1 h2]
      simp [h4]
    · simp at hc
    · simp only [assigned, h, List.map_cons]
      rw [ih ⟨g.height, max g.seq 1 + 1⟩ h0 (by simp) (by simp only; omega)]
      simp only
      have e1 : max g.seq 1 = g.seq := by omega
      rw [e1]
      have e2 : min (k + 1) (2 ^ 14 - g.seq) = min k (2 ^ 14 - (g.seq + 1)) + 1 := by omega
      rw [e2, List.range'_succ]
      simp

/-- **C18 (exhaustion).** At a height below 2^50 the first 16383 ordinary requests get consecutive
sequence numbers starting at 1; every further request fails instead of colliding. -/
theorem C18_exhaustion (g : IdGen) (h k : Nat) (hh : h < 2 ^ 50) :
    (assigned g (.height h :: requests k)).map Assigned.id
      = (List.range' 1 (min k 16383)).map (fun s => h * 16384 + s) := by
  simp only [assigned, IdGen.setHeight]
  cases k with
  | zero => simp [requests, assigned]
  | succ k =>
    rw [requests, List.replicate_succ, ← requests]
    rcases generateId_cases ⟨h, 0⟩ false with ⟨_, h3⟩ | ⟨_, _, hc, _⟩ | ⟨h3, h4, _, hg⟩
    · simp only at h3; omega
    · simp at hc
    · simp only [assigned, hg, List.map_cons]
      rw [seq_assigned k ⟨h, max 0 1 + 1⟩ hh (by simp) (by simp)]
      simp only
      have e2 : min (k + 1) 16383 = min k (2 ^ 14 - (max 0 1 + 1)) + 1 := by omega
      rw [e2, List.range'_succ]
      simp

/-- A height that does not fit in 50 bits gets no ids at all. -/
theorem C18_height_limit (g : IdGen) (h : Nat) (c : Bool) (hh : 2 ^ 50 ≤ h) :
    ((g.setHeight h).generateId c).1 = .error .invalidParameter := by
  rcases generateId_cases (g.setHeight h) c with ⟨hg, _⟩ | ⟨h1, _⟩ | ⟨h1, _⟩
  · rw [hg]
  · simp only [IdGen.setHeight] at h1; omega
  · simp only [IdGen.setHeight] at h1; omega

/-- Replaying the same requests at the same height gives the same ids, whatever the generator did
before: proposal, validation and commit of one block agree on event ids. -/
theorem C18_replay_same (g g' : IdGen) (h : Nat) (ops : List IdOp) :
    assigned g (.height h :: ops) = assigned g' (.height h :: ops) := rfl

/-- Non-vacuity: two heights, block-confirmed events included. -/
example :
    let ops : List IdOp := [.height 1, .request false, .request true, .request false, .height 3,
      .request true, .request false]
    HeightsIncrease 0 ops ∧ (assigned {} ops).map Assigned.id = [16385, 16384, 16386, 49152, 49153] := by
  refine ⟨by simp [HeightsIncrease], by decide⟩

end Verif
