import Verif.Lemmas.Fnames
/-! C16: fname lookups by name and by user. -/
namespace Verif
open Fnames

/-- **C16.** After any history of transfers, commits and new blocks, looking a name up returns its latest
transfer that counts, or nothing when there is none. -/
theorem C16_by_name (ops : List FnameOp) (hs : FnameOp.Sized ops) (hd : FnameOp.NoDrops ops) (name : Bytes) :
    let st := ({} : FState).run ops
    (countingTransfers name (FnameOp.merged ops) = [] ∧ getFname st.db st.txn name = .ok none) ∨
    ∃ p, LatestOf (countingTransfers name (FnameOp.merged ops)) p ∧ getFname st.db st.txn name = .ok (some p) := by
  intro st
  obtain ⟨_, own, _, _, hi, ht⟩ := run_tracks (ps := []) Inv.init (by intro n; rfl) ops hs hd
  have hg := getFname_iff hi.rep name
  have hn := ht name
  rw [List.nil_append] at hn
  cases hq : own name with
  | none => rw [hq] at hn hg; exact .inl ⟨hn, hg⟩
  | some q => rw [hq] at hn hg; exact .inr ⟨q, hn, hg⟩

/-- **C16.** The latest transfer is unique. -/
theorem C16_latest_unique (S : List FProof) (p q : FProof) (hp : LatestOf S p) (hq : LatestOf S q) : p = q := by
  obtain ⟨b, a, rfl, hb, ha⟩ := hp
  obtain ⟨b', a', e, hb', ha'⟩ := hq
  rcases List.append_eq_append_iff.1 e with ⟨c, hc, hc'⟩ | ⟨c, hc, hc'⟩
  · cases c with
    | nil => simp at hc'; exact hc'.1
    | cons x c =>
      simp only [List.cons_append, List.cons.injEq] at hc'
      have h1 := hb' p (by rw [hc]; simp [hc'.1])
      have h2 := ha q (by rw [hc'.2]; simp)
      exact absurd h1 h2
  · cases c with
    | nil => simp at hc'; exact hc'.1.symm
    | cons x c =>
      simp only [List.cons_append, List.cons.injEq] at hc'
      have h1 := hb q (by rw [hc]; simp [hc'.1])
      have h2 := ha' p (by rw [hc'.2]; simp)
      exact absurd h1 h2

/-- **C16.** After any history at all, a lookup by user on the committed database never fails, and what it
returns is the current proof of a name, held by that user. -/
theorem C16_by_user (ops : List FnameOp) (hs : FnameOp.Sized ops) (fid : Nat) (hf : fid < 2 ^ 32) :
    let st := ({} : FState).run ops
    getFnameByFid st.db fid = .ok none ∨
    ∃ p, getFnameByFid st.db fid = .ok (some p) ∧ p.fid = fid ∧ getFname st.db OMap.empty p.name = .ok (some p) := by
  intro st
  obtain ⟨own0, _, idx0, _, hi⟩ := Inv.init.run ops hs
  have h := getByFid_iff hi.rep0 hf
  cases hn : idx0 fid with
  | none => left; rw [h, hn]; rfl
  | some n =>
    right
    obtain ⟨q, hq, hqf⟩ := hi.good0.owned fid n hn
    refine ⟨q, ?_, hqf, ?_⟩
    · rw [h, hn]; simp [hq]
    · have := getFname_iff hi.rep0 q.name
      rw [(hi.good0.names n q hq).1, hq] at this
      rw [(hi.good0.names n q hq).1]; exact this

/-- **C16.** When every transfer goes to a user without a name (or to nobody), each holder of a name is
found by user. -/
theorem C16_by_user_complete (ops : List FnameOp) (hs : FnameOp.Sized ops) (he : OneNameEach {} ops)
    (name : Bytes) (p : FProof) (h0 : p.fid ≠ 0) :
    let st := ({} : FState).run ops
    getFname st.db OMap.empty name = .ok (some p) → getFnameByFid st.db p.fid = .ok (some p) := by
  intro st hp
  have hfull : Full (fun _ => none) (fun _ => none) := ⟨fun _ _ h => by cases h⟩
  obtain ⟨own0, _, idx0, _, hi, h⟩ := run_full Inv.init hfull hfull ops hs he
  have hg := getFname_iff hi.rep0 name
  have hq : own0 name = some p := by
    have := hg.symm.trans hp
    exact Except.ok.inj this
  rw [getByFid_iff hi.rep0 (hi.good0.names name p hq).2, h.found name p hq h0]
  simp [hq]

/-! ### Where the reverse fails -/

def fnA (fid ts : Nat) (sig : UInt8) : FProof := ⟨[97], fid, ts, [sig]⟩
def fnB (fid ts : Nat) (sig : UInt8) : FProof := ⟨[98], fid, ts, [sig]⟩

/-- **C16, limit.** Proving a name again for its holder deletes the holder's by-user entry: the name is
still theirs, but the lookup by user finds nothing. -/
theorem C16_reproof_hides : ∃ ops, FnameOp.Sized ops ∧
    (let st := ({} : FState).run ops
     getFname st.db OMap.empty [97] = .ok (some (fnA 7 20 2)) ∧ getFnameByFid st.db 7 = .ok none) := by
  refine ⟨[.merge (fnA 7 10 1), .commit, .merge (fnA 7 20 2), .commit], ?_, by decide +kernel⟩
  intro p hp
  simp at hp
  rcases hp with rfl | rfl <;> decide

/-- **C16, limit.** A user with two names who gives one away is no longer found by user, although they keep
the other. -/
theorem C16_second_name_hides : ∃ ops, FnameOp.Sized ops ∧
    (let st := ({} : FState).run ops
     getFname st.db OMap.empty [98] = .ok (some (fnB 7 11 2)) ∧ getFnameByFid st.db 7 = .ok none) := by
  refine ⟨[.merge (fnA 7 10 1), .merge (fnB 7 11 2), .merge (fnA 8 20 3), .commit], ?_, by decide +kernel⟩
  intro p hp
  simp at hp
  rcases hp with rfl | rfl | rfl <;> decide

/-- **C16, limit.** A release that arrives before the registration it follows is refused, so the outcome
depends on the order of arrival. -/
theorem C16_release_order : ∃ reg rel : FProof, rel.later reg ∧ rel.fid = 0 ∧
    (let st := ({} : FState).run [.merge reg, .merge rel]
     getFname st.db st.txn reg.name = .ok (some rel)) ∧
    (let st := ({} : FState).run [.merge rel, .merge reg]
     getFname st.db st.txn reg.name = .ok (some reg)) := by
  refine ⟨fnA 7 10 1, fnA 0 20 2, .inl (by decide), rfl, by decide +kernel, by decide +kernel⟩

/-! ### Non-vacuity -/

/-- A name moves from user 7 to user 8, user 7 gets another one; a stale transfer is ignored. -/
def fnOps : List FnameOp := [.merge (fnA 7 10 1), .commit, .merge (fnA 8 20 2), .merge (fnB 7 21 3), .commit, .merge (fnA 7 15 9), .drop]

example : FnameOp.Sized fnOps ∧ OneNameEach {} (fnOps.take 5) ∧ FnameOp.NoDrops (fnOps.take 6) ∧
    countingTransfers [97] (FnameOp.merged fnOps) = [fnA 7 10 1, fnA 8 20 2, fnA 7 15 9] ∧
    LatestOf (countingTransfers [97] (FnameOp.merged fnOps)) (fnA 8 20 2) ∧
    (let st := ({} : FState).run fnOps
     getFnameByFid st.db 7 = .ok (some (fnB 7 21 3)) ∧ getFnameByFid st.db 8 = .ok (some (fnA 8 20 2))) := by
  refine ⟨?_, ?_, by unfold FnameOp.NoDrops; decide, by decide, ?_, by decide +kernel⟩
  · intro p hp
    simp [fnOps] at hp
    rcases hp with rfl | rfl | rfl | rfl <;> decide
  · have hi := Inv.init.merge (p := fnA 7 10 1) (by decide)
    have hi2 := hi.commit
    have hi3 := hi2.merge (p := fnA 8 20 2) (by decide)
    refine ⟨.inr ?_, trivial, .inr ?_, .inr ?_, trivial, trivial⟩
    · intro n q h
      rw [getFname_iff Inv.init.rep] at h; cases h
    · intro n q h
      have e2 : own' (fun _ => none) (fnA 7 10 1) = fun n => if n = [97] then some (fnA 7 10 1) else none := rfl
      rw [getFname_iff hi2.rep, e2] at h
      simp only [Except.ok.injEq] at h
      split at h
      · cases h; decide
      · cases h
    · intro n q h
      rw [getFname_iff hi3.rep] at h
      have e : own' (own' (fun _ => none) (fnA 7 10 1)) (fnA 8 20 2) =
          fun n => if n = [97] then some (fnA 8 20 2) else own' (fun _ => none) (fnA 7 10 1) n := rfl
      rw [e] at h
      simp only [Except.ok.injEq] at h
      split at h
      · cases h; decide
      · rename_i hne
        have e2 : own' (fun _ => none) (fnA 7 10 1) = fun n => if n = [97] then some (fnA 7 10 1) else none := rfl
        rw [e2] at h
        simp only [if_neg hne] at h
        cases h
  · exact ⟨[fnA 7 10 1], [fnA 7 15 9], rfl, by simp [FProof.later, fnA], by simp [FProof.later, fnA]⟩

end Verif
