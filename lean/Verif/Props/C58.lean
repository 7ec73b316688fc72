import Verif.Props.C57
/-!
C58.  At most one pending announcement of live activity per user.
-/
namespace Verif
open Spec
variable {F : Type}

theorem announces_live {fid : Nat} {m : Msg} {p : PMsg F} (h : Announces fid m p) :
    p.liveAt? = some m ∧ m.fid = fid := by
  obtain ⟨rfl, hf, v, hv⟩ := h
  exact ⟨liveAt_user (by simp [isLiveAt, hv]), hf⟩

theorem live_announces {m : Msg} {p : PMsg F} (h : p.liveAt? = some m) : Announces m.fid m p := by
  obtain ⟨rfl, hl⟩ := liveAt_some h
  refine ⟨rfl, rfl, ?_⟩
  unfold isLiveAt at hl
  split at hl
  · exact ⟨_, by assumption⟩
  · cases hl

/-- After any history, at most one announcement of each user waits in a shard's queue.  This needs no assumption about
hashes. -/
theorem C58_at_most_one {shard : Nat} {ops : List (PoolOp F)} {q : Queue F}
    (hq : poolRun shard noMessages ops = some q) {fid : Nat} {m m' : Msg} (h : Announces fid m (.user m : PMsg F))
    (h' : Announces fid m' (.user m' : PMsg F)) (hw : Waiting q (.user m)) (hw' : Waiting q (.user m')) : m = m' := by
  have hinv := reach_inv hq
  obtain ⟨r, hr, e⟩ := List.mem_map.1 hw
  obtain ⟨r', hr', e'⟩ := List.mem_map.1 hw'
  have e : r.2 = _ := e
  have e' : r'.2 = _ := e'
  have g := hinv.live r hr m (by rw [e]; exact (announces_live h).1)
  have g' := hinv.live r' hr' m' (by rw [e']; exact (announces_live h').1)
  rw [(announces_live h).2] at g
  rw [(announces_live h').2, g] at g'
  have hk := Option.some.inj g'
  have x := OMap.get_eq_some_iff q.msgs |>.2 hr
  have x' := OMap.get_eq_some_iff q.msgs |>.2 hr'
  rw [hk, x'] at x
  have := Option.some.inj x
  rw [e, e'] at this
  exact (PMsg.user.inj this).symm

/-- The side index names, for each user, exactly the place of the announcement that waits. -/
theorem C58_index_agrees {shard : Nat} {ops : List (PoolOp F)} {q : Queue F}
    (hq : poolRun shard noMessages ops = some q) (hd : PlacesDiffer ops) (fid : Nat) (k : MKey) :
    q.live.get fid = some k ↔
      ∃ m, q.msgs.get k = some (.user m) ∧ k = (PMsg.user m : PMsg F).key ∧ Announces fid m (.user m : PMsg F) := by
  have hinv := reach_inv hq
  constructor
  · intro h
    obtain ⟨m, hm, hl, hf⟩ := reach_index hq hd fid k h
    refine ⟨m, OMap.get_eq_some_iff _ |>.2 hm, hinv.keys _ hm, ?_⟩
    rw [← hf]
    exact live_announces (liveAt_user hl)
  · rintro ⟨m, hm, _, ha⟩
    have := hinv.live _ (OMap.get_eq_some_iff _ |>.1 hm) m (announces_live ha).1
    rw [(announces_live ha).2] at this
    exact this

theorem notNewer_refl (a : Msg) : NotNewer a a := .inr ⟨rfl, .inr rfl⟩

theorem notNewer_trans {a b c : Msg} (h : NotNewer a b) (h' : NotNewer b c) : NotNewer a c := by
  rcases h with h | ⟨e, h⟩ <;> rcases h' with h' | ⟨e', h'⟩
  · exact .inl (by omega)
  · exact .inl (by omega)
  · exact .inl (by omega)
  · refine .inr ⟨by omega, ?_⟩
    rcases h with h | h <;> rcases h' with h' | h'
    · exact .inl (StrictOrd.trans h h')
    · rw [← h']; exact .inl h
    · rw [h]; exact .inl h'
    · exact .inr (h.trans h')

theorem poolRun_snoc {shard : Nat} {op : PoolOp F} {a : PoolAnswer F} (ops : List (PoolOp F)) :
    ∀ {q0 q q' : Queue F}, poolRun shard q0 ops = some q → poolStep shard q op = some (a, q') →
      poolRun shard q0 (ops ++ [op]) = some q' := by
  induction ops with
  | nil =>
    intro q0 q q' h hs
    simp only [poolRun, Option.some.injEq] at h
    subst h
    simp [poolRun, hs]
  | cons o ops ih =>
    intro q0 q q' h hs
    simp only [poolRun, List.cons_append] at h ⊢
    split at h
    · cases h
    · exact ih h hs

theorem offer_keeps {shard : Nat} {ops : List (PoolOp F)} {env : PoolEnv} {limited : Bool} {p : PMsg F}
    {a : PoolAnswer F} {q q' : Queue F} (hq : poolRun shard noMessages ops = some q)
    (hd : PlacesDiffer (ops ++ [.offer env limited p])) (ht : TimesFit (ops ++ [.offer env limited p]))
    (hs : poolStep shard q (.offer env limited p) = some (a, q')) {fid : Nat} {m : Msg}
    (ha : Announces fid m (.user m : PMsg F)) (hw : Waiting q (.user m)) :
    ∃ m', Waiting q' (.user m') ∧ Announces fid m' (.user m' : PMsg F) ∧ NotNewer m m' := by
  by_cases hgone : Waiting q' (.user m)
  · exact ⟨m, hgone, ha, notNewer_refl m⟩
  · rcases C57_nothing_lost hq hd ht hs hw hgone with ⟨_, _, _, h, _⟩ | ⟨_, h, _⟩ | ⟨env', f, m0, m', h, h1, h2, h3⟩
    · cases h
    · cases h
    · simp only [PoolOp.offer.injEq] at h
      obtain ⟨rfl, rfl, rfl⟩ := h
      have e : m0 = m := (PMsg.user.inj h1.1).symm
      subst e
      have ef : f = fid := h1.2.1.symm.trans ha.2.1
      subst ef
      refine ⟨m', ?_, h2, h3⟩
      cases a with
      | offered r =>
        cases r with
        | ok u => exact (C57_accepted_waits hs).1
        | error e =>
          refine absurd ?_ hgone
          have := C57_refused_changes_nothing hs
          unfold Waiting
          rw [this]
          exact hw
      | pulled ps =>
        simp only [poolStep] at hs
        split at hs
        · cases hs
        · simp only [Option.some.injEq, Prod.mk.injEq, reduceCtorEq, false_and] at hs
      | done =>
        simp only [poolStep] at hs
        split at hs
        · cases hs
        · simp only [Option.some.injEq, Prod.mk.injEq, reduceCtorEq, false_and] at hs

/-- While messages are only offered, the newest wins: whatever announcement of a user waited before or was accepted
since, one that is at least as new waits at the end. -/
theorem C58_newest_waits {shard : Nat} {before ops : List (PoolOp F)} {q q' : Queue F}
    (hq : poolRun shard noMessages before = some q) (ho : OnlyOffers ops) (hr : poolRun shard q ops = some q')
    (hd : PlacesDiffer (before ++ ops)) (ht : TimesFit (before ++ ops)) {fid : Nat} {m : Msg}
    (ha : Announces fid m (.user m : PMsg F)) (hm : Waiting q (.user m) ∨ PMsg.user m ∈ acceptedIn shard q ops) :
    ∃ m', Waiting q' (.user m') ∧ Announces fid m' (.user m' : PMsg F) ∧ NotNewer m m' := by
  induction ops generalizing before q m with
  | nil =>
    simp only [poolRun, Option.some.injEq] at hr
    subst hr
    rcases hm with hm | hm
    · exact ⟨m, hm, ha, notNewer_refl m⟩
    · cases hm
  | cons op ops ih =>
    obtain ⟨env, limited, p, rfl⟩ := ho op List.mem_cons_self
    simp only [poolRun] at hr
    split at hr
    · cases hr
    · rename_i a q1 hs
      have hq1 := poolRun_snoc before hq hs
      have hd1 : PlacesDiffer (before ++ [.offer env limited p]) := by
        intro o hoo o' hoo'
        exact hd o (by simp at hoo ⊢; rcases hoo with h | h <;> simp [h]) o'
          (by simp at hoo' ⊢; rcases hoo' with h | h <;> simp [h])
      have ht1 : TimesFit (before ++ [.offer env limited p]) := by
        intro o hoo
        exact ht o (by simp at hoo ⊢; rcases hoo with h | h <;> simp [h])
      have hd2 : PlacesDiffer ((before ++ [.offer env limited p]) ++ ops) := by simpa using hd
      have ht2 : TimesFit ((before ++ [.offer env limited p]) ++ ops) := by simpa using ht
      have ho2 : OnlyOffers ops := fun o h => ho o (List.mem_cons_of_mem _ h)
      rcases hm with hm | hm
      · obtain ⟨m1, hw1, ha1, hn1⟩ := offer_keeps hq hd1 ht1 hs ha hm
        obtain ⟨m2, hw2, ha2, hn2⟩ := ih hq1 ho2 hr hd2 ht2 ha1 (.inl hw1)
        exact ⟨m2, hw2, ha2, notNewer_trans hn1 hn2⟩
      · simp only [acceptedIn, hs] at hm
        cases a with
        | offered r =>
          cases r with
          | ok u =>
            simp only [opMsgs, List.singleton_append, List.mem_cons] at hm
            rcases hm with hm | hm
            · exact ih hq1 ho2 hr hd2 ht2 ha (.inl (by rw [hm]; exact (C57_accepted_waits hs).1))
            · exact ih hq1 ho2 hr hd2 ht2 ha (.inr hm)
          | error e => exact ih hq1 ho2 hr hd2 ht2 ha (.inr hm)
        | pulled ps => exact ih hq1 ho2 hr hd2 ht2 ha (.inr hm)
        | done => exact ih hq1 ho2 hr hd2 ht2 ha (.inr hm)

/-- A waiting announcement with a later time keeps the user's own out, and offered messages are not validated: a
forged announcement dated in the future blocks the user's announcements until it is pulled. -/
theorem C58_forged_future_announcement_blocks {shard : Nat} {ops : List (PoolOp F)} {q : Queue F}
    (hq : poolRun shard noMessages ops = some q) {fid : Nat} {forged genuine : Msg}
    (hf : Announces fid forged (.user forged : PMsg F)) (hg : Announces fid genuine (.user genuine : PMsg F))
    (hw : Waiting q (.user forged)) (hl : forged.hash.length = 20) (hl' : genuine.hash.length = 20)
    (h1 : forged.ts < 2 ^ 32) (hlater : genuine.ts < forged.ts) (env : PoolEnv) (limited : Bool) :
    ∃ q', poolStep shard q (.offer env limited (.user genuine)) = some (.offered (.error .duplicate), q') ∧
      q'.msgs = q.msgs := by
  have hinv := reach_inv hq
  obtain ⟨r, hr, e⟩ := List.mem_map.1 hw
  have e : r.2 = _ := e
  have g := hinv.live r hr forged (by rw [e]; exact (announces_live hf).1)
  rw [(announces_live hf).2] at g
  have hget := OMap.get_eq_some_iff q.msgs |>.2 hr
  rw [e] at hget
  have hc : liveAtCompare forged genuine > 0 := by
    unfold liveAtCompare
    rw [show makeTsHash forged.ts forged.hash = .ok (be 4 forged.ts ++ forged.hash) by simp [makeTsHash, hl],
      show makeTsHash genuine.ts genuine.hash = .ok (be 4 genuine.ts ++ genuine.hash) by simp [makeTsHash, hl']]
    simp only
    have hb : Bytes.blt (be 4 genuine.ts ++ genuine.hash) (be 4 forged.ts ++ forged.hash) = true :=
      Bytes.blt_append_of_blt (by simp [be_length]) ((be_blt_iff (w := 4) (by omega) h1).2 hlater) _ _
    rcases bytesCompare_cases (be 4 forged.ts ++ forged.hash) (be 4 genuine.ts ++ genuine.hash)
      with ⟨_, x⟩ | ⟨_, x⟩ | ⟨x, _⟩
    · have := Bytes.blt_trans x hb
      rw [Bytes.blt_irrefl] at this; cases this
    · rw [x, Bytes.blt_irrefl] at hb; cases hb
    · omega
  have hp : prepareLive q (.user genuine) = (.error .duplicate, q.live) := by
    unfold prepareLive
    rw [(announces_live hg).1]
    simp only [(announces_live hg).2, g, hget, if_pos hc]
  simp only [poolStep, insertShard]
  cases q.msgs.get (PMsg.user genuine : PMsg F).key with
  | some x => exact ⟨_, rfl, rfl⟩
  | none => rw [hp]; exact ⟨_, rfl, rfl⟩

section Examples

private def env1 : PoolEnv := ⟨.v21, fun _ => some (some 8), fun _ => some OMap.empty⟩
private def live (fid ts : Nat) (h : UInt8) : Msg :=
  { fid := fid, ty := .userDataAdd, ts := ts, hash := List.replicate 20 h, body := .userData 14 [h] }
private def before1 : List (PoolOp Unit) := [.offer env1 false (.user (live 5 10 1)), .offer env1 false (.user (live 6 9 2))]
private def ops1 : List (PoolOp Unit) :=
  [.offer env1 false (.user (live 5 12 3)), .offer env1 false (.user (live 5 11 4))]

/-- User 5 announces at 10, 12 and 11: 12 waits, 11 is refused. -/
example : ((poolRun 1 noMessages (before1 ++ ops1)).map (fun q => q.msgs.rows.map (·.2))) =
    some [.user (live 6 9 2), .user (live 5 12 3)] := by decide +kernel

example : PlacesDiffer (before1 ++ ops1) := by unfold PlacesDiffer; decide +kernel

example : OnlyOffers ops1 := by
  intro op hop
  simp only [ops1, List.mem_cons, List.not_mem_nil, or_false] at hop
  rcases hop with rfl | rfl <;> exact ⟨_, _, _, rfl⟩

example : Announces 5 (live 5 12 3) (.user (live 5 12 3) : PMsg Unit) := ⟨rfl, rfl, _, rfl⟩

end Examples

end Verif
