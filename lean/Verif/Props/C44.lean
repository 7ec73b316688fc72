import Verif.Lemmas.OnChainChan
/-!
C44: the custody record of a user is the latest registration merged so far.
-/
namespace Verif
open Spec

/-- **C44**: at any point of any run, reading through the open batch or from the database alone, the custody record is the
registration or transfer with the highest block among the events accepted (committed) so far, the last one merged among
those of that block; without any there is no record.  Recovery-address changes play no part. -/
theorem C44_latest_wins {keccak : Bytes → Bytes} {ops : List ChainOp} (ho : OpsFit ops) {fid : Nat} (hf : fid < 2 ^ 32) :
    let n := ChainNode.run keccak ops
    (∃ r, idRegisterEvent n.db n.pend fid = .ok r ∧
      (r = none ↔ ∀ e ∈ n.log, ¬ Registers fid e) ∧ ∀ e, r = some e → LatestOf (Registers fid) n.log e) ∧
    (∃ r, idRegisterEvent n.db OMap.empty fid = .ok r ∧
      (r = none ↔ ∀ e ∈ n.saved, ¬ Registers fid e) ∧ ∀ e, r = some e → LatestOf (Registers fid) n.saved e) := by
  intro n
  have hi : ChainInv keccak n := chainInv_run ho
  have main : ∀ t log, ViewOk keccak (look n.db t) log → LogOk log → ∃ r, idRegisterEvent n.db t fid = .ok r ∧
      (r = none ↔ ∀ e ∈ log, ¬ Registers fid e) ∧ ∀ e, r = some e → LatestOf (Registers fid) log e := by
    intro t log hv hl
    refine ⟨latest (selId fid) log, ?_, ?_, ?_⟩
    · unfold idRegisterEvent
      have hg := hv.id fid hf
      cases hlat : latest (selId fid) log with
      | none => rw [hlat] at hg; exact eventBySecondaryKey_none hg
      | some o => rw [hlat] at hg; exact eventBySecondaryKey_some hg (hv.event hl (latest_mem hlat).1)
    · rw [latest_none]
      refine forall_congr' fun e => forall_congr' fun _ => ?_
      rw [← selId_iff]; simp
    · intro e he
      exact (LatestOf.congr (fun e => selId_iff)).mp (latest_some he)
  exact ⟨main _ _ hi.view hi.log, main _ _ (by rw [look_empty]; exact hi.disk) (hi.log.prefix hi.sub)⟩

/-- **C44**: an event is accepted exactly when no accepted event has its type, user, block and log index; a refused one
changes nothing. -/
theorem C44_accepted_once {keccak : Bytes → Bytes} {ops : List ChainOp} (ho : OpsFit ops) {e : OEvent} (hf : Spec.OEvent.Fits e) :
    let n := ChainNode.run keccak ops
    ((∃ x ∈ n.log, SamePlace x e) → (mergeOnchainEvent keccak false n.db n.pend e).1 = .error .duplicate ∧
      n.step keccak (.merge e) = n) ∧
    ((¬ ∃ x ∈ n.log, SamePlace x e) → (mergeOnchainEvent keccak false n.db n.pend e).1 = .ok () ∧
      (n.step keccak (.merge e)).log = n.log ++ [e]) := by
  intro n
  have hi : ChainInv keccak n := chainInv_run ho
  constructor
  · intro h
    unfold ChainNode.step
    simp only [merge_known hi hf h]
    exact ⟨trivial, trivial⟩
  · intro h
    obtain ⟨t, h1, _⟩ := merge_new hi hf h
    unfold ChainNode.step
    simp only [h1]
    exact ⟨trivial, trivial⟩

/-- **C44**: the order of merging does not matter when the registrations of the user are in different blocks. -/
theorem C44_order_independent {keccak : Bytes → Bytes} {ops ops' : List ChainOp} (ho : OpsFit ops) (ho' : OpsFit ops')
    {fid : Nat} (hf : fid < 2 ^ 32)
    (hp : (ChainNode.run keccak ops).log.Perm (ChainNode.run keccak ops').log)
    (hd : ∀ a ∈ (ChainNode.run keccak ops).log, ∀ b ∈ (ChainNode.run keccak ops).log,
      Registers fid a → Registers fid b → a.block = b.block → a = b) :
    idRegisterEvent (ChainNode.run keccak ops).db (ChainNode.run keccak ops).pend fid =
      idRegisterEvent (ChainNode.run keccak ops').db (ChainNode.run keccak ops').pend fid := by
  obtain ⟨⟨r, h1, h2, h3⟩, _⟩ := C44_latest_wins (keccak := keccak) ho hf
  obtain ⟨⟨r', h1', h2', h3'⟩, _⟩ := C44_latest_wins (keccak := keccak) ho' hf
  rw [h1, h1']
  congr 1
  have ge : ∀ {log r x}, LatestOf (Registers fid) log r → x ∈ log → Registers fid x → x.block ≤ r.block := by
    rintro log r x ⟨pre, post, e1, _, e3, e4⟩ hx hs
    rw [e1] at hx
    rcases List.mem_append.mp hx with hx | hx
    · exact e3 x hx hs
    · rcases List.mem_cons.mp hx with rfl | hx
      · omega
      · have := e4 x hx hs; omega
  have mem : ∀ {log r}, LatestOf (Registers fid) log r → r ∈ log ∧ Registers fid r := by
    rintro log r ⟨pre, post, e1, e2, _, _⟩; exact ⟨by rw [e1]; simp, e2⟩
  cases r with
  | none =>
    have := h2.mp rfl
    exact (h2'.mpr (fun e he => this e (hp.mem_iff.mpr he))).symm
  | some a =>
    have ha := h3 a rfl
    cases r' with
    | none =>
      exact absurd (mem ha).2 (h2'.mp rfl a (hp.mem_iff.mp (mem ha).1))
    | some b =>
      have hb := h3' b rfl
      have hb' := hp.mem_iff.mpr (mem hb).1
      have h5 := ge ha hb' (mem hb).2
      have h6 := ge hb (hp.mem_iff.mp (mem ha).1) (mem ha).2
      rw [hd a (mem ha).1 b hb' (mem ha).2 (mem hb).2 (by omega)]

/-- A transfer of user 7 to an address at a block and log index. -/
def idMove (to : UInt8) (block log : Nat) : OEvent := ⟨3, 7, block, 0, log, block, .idRegister [to] .transfer⟩

/-- Two runs with the same three transfers in different orders, with a commit and a dropped batch in between. -/
def runA : List ChainOp := [.merge (idMove 1 10 0), .commit, .merge (idMove 2 30 0), .merge (idMove 3 20 0)]
def runB : List ChainOp :=
  [.merge (idMove 2 30 0), .drop, .merge (idMove 3 20 0), .merge (idMove 2 30 0), .commit, .merge (idMove 2 30 0), .merge (idMove 1 10 0)]

/-- The hypotheses of the theorems are met, and both end with the transfer of block 30. -/
example : OpsFit runA ∧ OpsFit runB ∧
    (ChainNode.run (fun _ => []) runA).log.Perm (ChainNode.run (fun _ => []) runB).log ∧
    (∀ a ∈ (ChainNode.run (fun _ => []) runA).log, ∀ b ∈ (ChainNode.run (fun _ => []) runA).log, a.block = b.block → a = b) ∧
    idRegisterEvent (ChainNode.run (fun _ => []) runA).db (ChainNode.run (fun _ => []) runA).pend 7 = .ok (some (idMove 2 30 0)) ∧
    idRegisterEvent (ChainNode.run (fun _ => []) runB).db (ChainNode.run (fun _ => []) runB).pend 7 = .ok (some (idMove 2 30 0)) := by
  refine ⟨?_, ?_, by decide, by decide, by decide, by decide⟩
  · intro e he
    simp only [runA, List.mem_cons, ChainOp.merge.injEq, List.not_mem_nil, or_false] at he
    rcases he with rfl | h | rfl | rfl <;> first | contradiction | (unfold Spec.OEvent.Fits; decide)
  · intro e he
    simp only [runB, List.mem_cons, ChainOp.merge.injEq, List.not_mem_nil, or_false] at he
    rcases he with rfl | h | rfl | rfl | h | rfl | rfl <;> first | contradiction | (unfold Spec.OEvent.Fits; decide)

/-- Within a block the last one merged wins, so there the order matters: the later log index can lose. -/
theorem C44_same_block_order_matters :
    idRegisterEvent (ChainNode.run (fun _ => []) [.merge (idMove 1 10 0), .merge (idMove 2 10 5)]).db
      (ChainNode.run (fun _ => []) [.merge (idMove 1 10 0), .merge (idMove 2 10 5)]).pend 7 = .ok (some (idMove 2 10 5)) ∧
    idRegisterEvent (ChainNode.run (fun _ => []) [.merge (idMove 2 10 5), .merge (idMove 1 10 0)]).db
      (ChainNode.run (fun _ => []) [.merge (idMove 2 10 5), .merge (idMove 1 10 0)]).pend 7 = .ok (some (idMove 1 10 0)) := by
  decide

end Verif
