import Verif.Lemmas.Names
import Verif.Case.Store
/-! C15: one owner per proven name. -/
namespace Verif
open Names

/-- **C15.** After any history of merges of proofs by any users, removals of stored proofs, commits and
dropped proposals, two stored proofs of one name are the same proof. -/
theorem C15_one_owner (ctx : Nat → MergeCtx) (U : Msg → Prop) (hU : HashesUnique U) (ops : List NameOp)
    (hops : NameProperRun ctx U {} ops) (a b : Msg)
    (ha : (({} : StoreState).nameRun ctx ops).Has nameStore a)
    (hb : (({} : StoreState).nameRun ctx ops).Has nameStore b) (h : a.provenName = b.provenName) : a = b := by
  obtain ⟨L0, L, hi⟩ := Inv.init.run hU ctx ops hops
  have ha' := (hi.holds.has_iff a).1 ha
  have hb' := (hi.holds.has_iff b).1 hb
  refine unique hi.holds.items ha' hb' ?_
  have h1 := (provenName_iff (hi.holds.valid a ha').valid (nm a)).2 rfl
  exact ((provenName_iff (hi.holds.valid b hb').valid _).1 (h ▸ h1)).symm

/-- **C15.** Looking a name up finds exactly its stored proof. -/
theorem C15_lookup (ctx : Nat → MergeCtx) (U : Msg → Prop) (hU : HashesUnique U) (ops : List NameOp)
    (hops : NameProperRun ctx U {} ops) (name : Bytes) (m : Msg) :
    let st := ({} : StoreState).nameRun ctx ops
    getUsernameProof st.db st.pend.txn name = .ok (some m) ↔ st.Has nameStore m ∧ m.provenName = some name := by
  intro st
  obtain ⟨L0, L, hi⟩ := Inv.init.run hU ctx ops hops
  rw [lookup_iff hi.holds, hi.holds.has_iff]
  constructor
  · rintro ⟨h, h'⟩; exact ⟨h, (provenName_iff (hi.holds.valid m h).valid _).2 h'⟩
  · rintro ⟨h, h'⟩; exact ⟨h, (provenName_iff (hi.holds.valid m h).valid _).1 h'⟩

/-- **C15.** Looking up a name without a stored proof says so; no other error occurs. -/
theorem C15_lookup_missing (ctx : Nat → MergeCtx) (U : Msg → Prop) (hU : HashesUnique U) (ops : List NameOp)
    (hops : NameProperRun ctx U {} ops) (name : Bytes) :
    let st := ({} : StoreState).nameRun ctx ops
    (∀ m, st.Has nameStore m → m.provenName ≠ some name) →
    getUsernameProof st.db st.pend.txn name = .error .notFound := by
  intro st hn
  obtain ⟨L0, L, hi⟩ := Inv.init.run hU ctx ops hops
  refine lookup_missing hi.holds ?_
  intro x hx e
  exact hn x ((hi.holds.has_iff x).2 hx) ((provenName_iff (hi.holds.valid x hx).valid _).2 e)

/-- **C15.** On committed data the lookup by name and the lookup by user and name agree. -/
theorem C15_lookups_agree (ctx : Nat → MergeCtx) (U : Msg → Prop) (hU : HashesUnique U) (ops : List NameOp)
    (hops : NameProperRun ctx U {} ops) (name : Bytes) (fid : Nat) (hf : fid < 2 ^ 32) (m : Msg) :
    let st := ({} : StoreState).nameRun ctx ops
    getUsernameProofByFid st.db fid name = .ok (some m) ↔
      getUsernameProof st.db OMap.empty name = .ok (some m) ∧ m.fid = fid := by
  intro st
  obtain ⟨L0, L, hi⟩ := Inv.init.run hU ctx ops hops
  rw [byFid_iff hi.committed name m hf, lookup_iff hi.committed]
  grind

/-- **C15.** With merges, commits and new blocks only, the stored proof of a name is the winner among all
proofs of that name submitted by anyone: the one with the latest timestamp, ties going to the greater hash. -/
theorem C15_winner (ctx : Nat → MergeCtx) (ops : List NameOp) (ho : NameMergesOnly ops)
    (hv : ∀ m ∈ NameOp.merged ops, NameValid m) (hU : HashesUnique (· ∈ NameOp.merged ops)) (m : Msg) :
    (({} : StoreState).nameRun ctx ops).Has nameStore m ↔
      m ∈ NameOp.merged ops ∧
        ∀ x ∈ NameOp.merged ops, x.provenName = m.provenName → x = m ∨ m.newer x := by
  obtain ⟨L0, L, hi, hb⟩ := merges_run (S := []) (U := (· ∈ NameOp.merged ops)) hU ctx Inv.init (by simp)
    (by intro m; simp) (by simp) ops ho (fun m hm => ⟨hv m hm, hm⟩)
  rw [hi.holds.has_iff, hb m]
  simp only [List.nil_append]
  constructor
  · rintro ⟨hm, h⟩
    refine ⟨hm, fun x hx e => h x hx ?_⟩
    have := (provenName_iff (hv m hm) (nm m)).2 rfl
    exact (provenName_iff (hv x hx) _).1 (e.trans this)
  · rintro ⟨hm, h⟩
    refine ⟨hm, fun x hx e => h x hx ?_⟩
    rw [(provenName_iff (hv x hx) _).2 e, (provenName_iff (hv m hm) (nm m)).2 rfl]

/-! ### Non-vacuity: users 7 and 8 prove the name `a.eth`, user 7 also proves `b.eth`. -/

def proof7 : Msg := ⟨7, .usernameProof, 100, Case.h20 1, [1], .usernameProof [97, 46, 101, 116, 104]⟩
def proof8 : Msg := ⟨8, .usernameProof, 110, Case.h20 2, [2], .usernameProof [97, 46, 101, 116, 104]⟩
def proof7b : Msg := ⟨7, .usernameProof, 105, Case.h20 3, [1], .usernameProof [98, 46, 101, 116, 104]⟩
def proofs : List Msg := [proof7, proof8, proof7b]
def proofOps : List NameOp := [.merge proof7, .commit, .merge proof7b, .merge proof8, .commit, .merge proof7]

theorem proofs_valid : ∀ m ∈ proofs, NameValid m := by
  intro m hm
  simp only [proofs, List.mem_cons, List.not_mem_nil, or_false] at hm
  rcases hm with rfl | rfl | rfl <;>
    exact ⟨by decide, by decide, by decide, by decide, rfl, _, rfl, by decide⟩

theorem proofs_unique : HashesUnique (· ∈ proofs) := by
  have h : ∀ a ∈ proofs, ∀ b ∈ proofs, a.ts = b.ts → a.hash = b.hash → a = b := by decide
  exact fun a b ha hb => h a ha b hb

/-- The later proof of user 8 takes the name over; user 7 keeps the other name and cannot take it back by
replaying the old proof.  The run satisfies the hypotheses of the theorems above. -/
example : NameMergesOnly proofOps ∧ NameProperRun Case.allOn (· ∈ proofs) {} (proofOps ++ [.revoke proof8]) ∧
    (let st := ({} : StoreState).nameRun Case.allOn proofOps
     getUsernameProof st.db OMap.empty [97, 46, 101, 116, 104] = .ok (some proof8) ∧
     getUsernameProofByFid st.db 7 [97, 46, 101, 116, 104] = .ok none ∧
     getUsernameProofByFid st.db 7 [98, 46, 101, 116, 104] = .ok (some proof7b)) := by
  refine ⟨by simp [NameMergesOnly, proofOps], ?_, by decide +kernel⟩
  have hv := proofs_valid
  refine ⟨⟨hv _ (by decide), by decide⟩, trivial, ⟨hv _ (by decide), by decide⟩, ⟨hv _ (by decide), by decide⟩,
    trivial, ⟨hv _ (by decide), by decide⟩, ?_, trivial⟩
  show StoreState.Has _ _ _
  unfold StoreState.Has
  decide +kernel

end Verif
