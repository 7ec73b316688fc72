import Verif.Lemmas.BlockTime
import Verif.Props.C59
/-!
# C70: blocks and events are kept as long as configured

The pruning jobs find the height to prune to through an index from time to height.
-/
namespace Verif
variable {kind : BlockKind} {ops : List BOp} {db db' : Db BRow} {shard : Nat}

/-- **C70.** Asked for the first block at or after a time, the store gives the lowest such height ever stored, nothing if
there is none, and an error if that block has been pruned since, even if later blocks are stored. -/
theorem C70_first_block_at_time (hsh : shard < 2 ^ 32) (h : BlockHistory kind ops db) (hf : ∀ op ∈ ops, OpFits kind op)
    (ho : StoredInOrder kind shard (putBlocks ops)) (t : Nat) (ht : t < 2 ^ 64) :
    ((∀ b ∈ putBlocks ops, ∀ s, b.time? = some s → s < t) ∧ nextHeight shard db t = .ok none) ∨
    ∃ n, FirstAt (putBlocks ops) t n ∧
      nextHeight shard db t = if (storedBlocks ops n).isSome then .ok (some n) else .error .notFound :=
  nextHeight_cases hsh h hf ho t ht

/-- What a run of the block pruning job did: nothing, or a prune up to the first block at or after the cutoff. -/
theorem blocksJob_cases (hsh : shard < 2 ^ 32) (h : BlockHistory kind ops db) (hf : ∀ op ∈ ops, OpFits kind op)
    (ho : StoredInOrder kind shard (putBlocks ops)) {cutoff fuel count : Nat} (ht : cutoff < 2 ^ 64)
    (hj : pruneBlocksJob kind shard fuel db (some cutoff) = some (.ok (db', count))) :
    (db' = db ∧ ∀ n, FirstAt (putBlocks ops) cutoff n → storedBlocks ops n = none) ∨
    ∃ n, n < 2 ^ 64 ∧ FirstAt (putBlocks ops) cutoff n ∧ (storedBlocks ops n).isSome ∧
      pruneUntil kind fuel db n { pageSize := some eventPageSizeMax } = some (.ok (db', count)) := by
  unfold pruneBlocksJob at hj
  simp only at hj
  rcases nextHeight_cases hsh h hf ho cutoff ht with ⟨h1, h2⟩ | ⟨n, h1, h2⟩
  · rw [h2] at hj
    simp only [Option.some.injEq, Except.ok.injEq, Prod.mk.injEq] at hj
    refine .inl ⟨hj.1.symm, ?_⟩
    rintro n ⟨⟨b, hb, _, s, hs, hle⟩, _⟩
    have := h1 b hb s hs
    omega
  · cases hst : storedBlocks ops n with
    | none =>
      rw [h2, hst] at hj
      simp only [Option.isSome_none, Bool.false_eq_true, if_false, Option.some.injEq, Except.ok.injEq, Prod.mk.injEq] at hj
      refine .inl ⟨hj.1.symm, ?_⟩
      intro m hm
      obtain ⟨b, hb, hbn, s, hs, hle⟩ := h1.1
      obtain ⟨c, hc, hcn, s', hs', hle'⟩ := hm.1
      have e1 := h1.2 c hc m s' hcn hs' hle'
      have e2 := hm.2 b hb n s hbn hs hle
      have : m = n := by omega
      rw [this]; exact hst
    | some b =>
      rw [h2, hst] at hj
      simp only [Option.isSome_some, if_true] at hj
      exact .inr ⟨n, (stored_number (reach_binv h hf) hst).1, h1, by simp [hst], hj⟩

/-- **C70.** The block pruning job keeps every stored block that is not older than the retention period, and touches
nothing but blocks. -/
theorem C70_young_blocks_kept (hsh : shard < 2 ^ 32) (h : BlockHistory kind ops db) (hf : ∀ op ∈ ops, OpFits kind op)
    (ho : StoredInOrder kind shard (putBlocks ops)) {now retention fuel count : Nat} {synced : Bool} (hnow : now < 2 ^ 64)
    (hj : pruneBlocksJob kind shard fuel db (pruningCutoff now retention synced) = some (.ok (db', count))) :
    (∀ n b t, storedBlocks ops n = some b → b.time? = some t → now ≤ t + retention →
      blockByHeight kind db' n = .ok (some b)) ∧
    ∀ k, k.head? ≠ some kind.pre → db'.get k = db.get k := by
  have hsame : ∀ n b, storedBlocks ops n = some b → blockByHeight kind db n = .ok (some b) := by
    intro n b hb
    rw [C59_by_height h hf n (stored_number (reach_binv h hf) hb).1, hb]
  cases hsy : synced with
  | false =>
    simp only [pruningCutoff, hsy, Bool.false_eq_true, if_false, pruneBlocksJob, Option.some.injEq, Except.ok.injEq,
      Prod.mk.injEq] at hj
    rw [← hj.1]
    exact ⟨fun n b t hb _ _ => hsame n b hb, fun _ _ => rfl⟩
  | true =>
    simp only [pruningCutoff, hsy, if_true] at hj
    rcases blocksJob_cases hsh h hf ho (by omega) hj with ⟨rfl, _⟩ | ⟨stop, hs, h1, h2, h3⟩
    · exact ⟨fun n b t hb _ _ => hsame n b hb, fun _ _ => rfl⟩
    · refine ⟨?_, (prune_get h3 hs).1⟩
      intro n b t hb htb hle
      obtain ⟨hmem, hnum⟩ := stored_mem ops n b hb
      have hge := h1.2 b hmem n t hnum htb (by omega)
      have hn := (stored_number (reach_binv h hf) hb).1
      have := hsame n b hb
      unfold blockByHeight at this ⊢
      rw [(prune_get h3 hs).2 n hn, if_neg (by omega)]
      exact this

/-- **C70.** Before the node has caught up nothing is pruned. -/
theorem C70_nothing_pruned_before_sync (now retention fuel : Nat) :
    pruneBlocksJob kind shard fuel db (pruningCutoff now retention false) = some (.ok (db, 0)) := rfl

theorem before_first {bs : List SBlock} {cutoff stop n t : Nat} (ho : StoredInOrder kind shard bs) {b : SBlock} (hb : b ∈ bs)
    (hn : b.number? = some n) (ht : b.time? = some t) (hlt : t < cutoff) (hfst : FirstAt bs cutoff stop) : n < stop := by
  obtain ⟨c, hc, hcn, s, hs, hle⟩ := hfst.1
  obtain ⟨A, B, e⟩ := List.append_of_mem hb
  have hpw := ho.1
  rw [e] at hpw hc
  rcases List.mem_append.1 hc with hc | hc
  · obtain ⟨_, _, s1, s2, _, _, e1, e2, _, e3, _⟩ := (List.pairwise_append.1 hpw).2.2 c hc b (by simp)
    rw [hs] at e1; rw [ht] at e2
    simp only [Option.some.injEq] at e1 e2
    omega
  · rcases List.mem_cons.1 hc with rfl | hc
    · rw [hs] at ht; simp at ht; omega
    · obtain ⟨m1, m2, s1, s2, e1, e2, e3, e4, e5, e6, e7⟩ :=
        (List.pairwise_cons.1 (List.pairwise_append.1 hpw).2.1).1 c hc
      rw [hn] at e1; rw [hcn] at e2; rw [ht] at e3; rw [hs] at e4
      simp only [Option.some.injEq] at e1 e2 e3 e4
      refine Nat.lt_of_le_of_ne (by omega) (fun hne => ?_)
      have := e7 (by omega)
      omega

/-- The first block at or after a time exists if there is any. -/
theorem first_exists {bs : List SBlock} {cutoff : Nat}
    (h : ∃ b ∈ bs, ∃ n t, b.number? = some n ∧ b.time? = some t ∧ cutoff ≤ t) : ∃ n, FirstAt bs cutoff n := by
  obtain ⟨b, hb, n, t, hn, ht, hle⟩ := h
  have hex : ∃ n, ∃ b ∈ bs, b.number? = some n ∧ ∃ s, b.time? = some s ∧ cutoff ≤ s := ⟨n, b, hb, hn, t, ht, hle⟩
  classical
  suffices hh : ∀ k, (∃ n ≤ k, ∃ b ∈ bs, b.number? = some n ∧ ∃ s, b.time? = some s ∧ cutoff ≤ s) →
      ∃ n, FirstAt bs cutoff n by
    exact hh n ⟨n, Nat.le_refl _, b, hb, hn, t, ht, hle⟩
  intro k
  induction k with
  | zero =>
    rintro ⟨n, hn, hx⟩
    refine ⟨n, hx, fun _ _ m _ _ _ _ => by omega⟩
  | succ k ih =>
    rintro ⟨n, hn, hx⟩
    by_cases hk : ∃ n ≤ k, ∃ b ∈ bs, b.number? = some n ∧ ∃ s, b.time? = some s ∧ cutoff ≤ s
    · exact ih hk
    · refine ⟨n, hx, fun c hc m s hm hs hle => ?_⟩
      refine Nat.le_of_not_lt (fun hlt => hk ⟨m, by omega, c, hc, hm, s, hs, hle⟩)

/-- **C70.** The block pruning job removes every block older than the retention period, if there is a younger one and
none of the younger ones has been pruned. -/
theorem C70_old_blocks_removed (hsh : shard < 2 ^ 32) (h : BlockHistory kind ops db) (hf : ∀ op ∈ ops, OpFits kind op)
    (ho : StoredInOrder kind shard (putBlocks ops)) {now retention fuel count : Nat} (hnow : now < 2 ^ 64)
    (hj : pruneBlocksJob kind shard fuel db (pruningCutoff now retention true) = some (.ok (db', count)))
    (hyoung : ∃ b ∈ putBlocks ops, ∃ n t, b.number? = some n ∧ b.time? = some t ∧ now - retention ≤ t)
    (hkept : ∀ b ∈ putBlocks ops, ∀ n t, b.number? = some n → b.time? = some t → now - retention ≤ t →
      storedBlocks ops n ≠ none) :
    ∀ n b t, storedBlocks ops n = some b → b.time? = some t → t < now - retention → blockByHeight kind db' n = .ok none := by
  simp only [pruningCutoff, if_true] at hj
  intro n b t hb htb hlt
  obtain ⟨hmem, hnum⟩ := stored_mem ops n b hb
  rcases blocksJob_cases hsh h hf ho (by omega) hj with ⟨_, hno⟩ | ⟨stop, hs, h1, h2, h3⟩
  · exfalso
    obtain ⟨m, hm⟩ := first_exists hyoung
    have := hno m hm
    obtain ⟨c, hc, hcn, s, hcs, hle⟩ := hm.1
    exact hkept c hc m s hcn hcs hle this
  · have hn := (stored_number (reach_binv h hf) hb).1
    unfold blockByHeight
    rw [(prune_get h3 hs).2 n hn, if_pos (before_first ho hmem hnum htb hlt h1)]

/-! ### Events -/

theorem eventId_eq {stop : Nat} (h : stop < 2 ^ 50) : IdGen.makeEventIdForBlockNumber stop = stop * 2 ^ 14 := by
  unfold IdGen.makeEventIdForBlockNumber IdGen.makeEventId
  simp only [sequenceBits, Nat.zero_and, Nat.or_zero, Nat.shiftLeft_eq]
  exact Nat.mod_eq_of_lt (by omega)

theorem events_get {stop fuel count : Nat} (hstop : stop < 2 ^ 50)
    (h : pruneEvents fuel db stop { pageSize := some eventPageSizeMax } = some (.ok (db', count))) :
    (∀ k, k.head? ≠ some 9 → db'.get k = db.get k) ∧
    ∀ id, id < 2 ^ 64 → db'.get (eventKey id) = if id / 2 ^ 14 < stop then none else db.get (eventKey id) := by
  have hg := (deletePaginated_get h).1
  rw [eventId_eq hstop] at hg
  constructor
  · intro k hk
    rw [hg]
    exact if_neg (not_between_of_head (p := 9) (a := be 8 0) (b := be 8 (stop * 2 ^ 14)) hk)
  · intro id hid
    rw [hg]
    have h1 : Bytes.blt (eventKey id) (eventKey (stop * 2 ^ 14)) = true ↔ id < stop * 2 ^ 14 :=
      numKey_blt (p := 9) hid (by omega)
    have h2 : Bytes.blt (eventKey id) (eventKey 0) = true ↔ id < 0 := numKey_blt (p := 9) hid (by decide)
    have h3 : Bytes.blt (eventKey id) (eventKey 0) = false := by
      cases hc : Bytes.blt (eventKey id) (eventKey 0) with
      | false => rfl
      | true => exact absurd (h2.1 hc) (by omega)
    by_cases hlt : id / 2 ^ 14 < stop
    · rw [if_pos hlt, if_pos ⟨h3, h1.2 (by omega)⟩]
    · rw [if_neg hlt, if_neg (fun c => hlt (by have := h1.1 c.2; omega))]

/-- Heights fit the 50 bits they have in an event id. -/
def HeightsFitEvents (bs : List SBlock) : Prop := ∀ b ∈ bs, ∀ n, b.number? = some n → n < 2 ^ 50

/-- **C70.** The event pruning job keeps every event of a block that is not older than the retention period, and
touches nothing but events. -/
theorem C70_young_events_kept (hsh : shard < 2 ^ 32) (h : BlockHistory kind ops db) (hf : ∀ op ∈ ops, OpFits kind op)
    (ho : StoredInOrder kind shard (putBlocks ops)) (hfit : HeightsFitEvents (putBlocks ops)) {now retention fuel count : Nat}
    (hnow : now < 2 ^ 64) (hj : pruneEventsJob shard fuel db now retention = some (.ok (db', count))) :
    (∀ b ∈ putBlocks ops, ∀ n t, b.number? = some n → b.time? = some t → now ≤ t + retention →
      ∀ id, id < 2 ^ 64 → id / 2 ^ 14 = n → db'.get (eventKey id) = db.get (eventKey id)) ∧
    ∀ k, k.head? ≠ some 9 → db'.get k = db.get k := by
  unfold pruneEventsJob at hj
  rcases nextHeight_cases hsh h hf ho (now - retention) (by omega) with ⟨h1, h2⟩ | ⟨stop, h1, h2⟩
  · rw [h2] at hj
    simp only [Option.some.injEq, Except.ok.injEq, Prod.mk.injEq] at hj
    rw [← hj.1]
    exact ⟨fun _ _ _ _ _ _ _ _ _ _ => rfl, fun _ _ => rfl⟩
  · cases hst : storedBlocks ops stop with
    | none =>
      rw [h2, hst] at hj
      simp only [Option.isSome_none, Bool.false_eq_true, if_false, Option.some.injEq, Except.ok.injEq, Prod.mk.injEq] at hj
      rw [← hj.1]
      exact ⟨fun _ _ _ _ _ _ _ _ _ _ => rfl, fun _ _ => rfl⟩
    | some c =>
      rw [h2, hst] at hj
      simp only [Option.isSome_some, if_true] at hj
      obtain ⟨hcm, hcn⟩ := stored_mem ops stop c hst
      have hg := events_get (hfit c hcm stop hcn) hj
      refine ⟨?_, hg.1⟩
      intro b hb n t hn ht hle id hid e
      have := h1.2 b hb n t hn ht (by omega)
      rw [hg.2 id hid, if_neg (by omega)]

/-- **C70.** The event pruning job removes every event of a block older than the retention period, if there is a younger
block and none of the younger ones has been pruned. -/
theorem C70_old_events_removed (hsh : shard < 2 ^ 32) (h : BlockHistory kind ops db) (hf : ∀ op ∈ ops, OpFits kind op)
    (ho : StoredInOrder kind shard (putBlocks ops)) (hfit : HeightsFitEvents (putBlocks ops)) {now retention fuel count : Nat}
    (hnow : now < 2 ^ 64) (hj : pruneEventsJob shard fuel db now retention = some (.ok (db', count)))
    (hyoung : ∃ b ∈ putBlocks ops, ∃ n t, b.number? = some n ∧ b.time? = some t ∧ now - retention ≤ t)
    (hkept : ∀ b ∈ putBlocks ops, ∀ n t, b.number? = some n → b.time? = some t → now - retention ≤ t →
      storedBlocks ops n ≠ none) :
    ∀ b ∈ putBlocks ops, ∀ n t, b.number? = some n → b.time? = some t → t < now - retention →
      ∀ id, id < 2 ^ 64 → id / 2 ^ 14 = n → db'.get (eventKey id) = none := by
  intro b hb n t hn ht hlt id hid e
  unfold pruneEventsJob at hj
  obtain ⟨m, hm⟩ := first_exists hyoung
  rcases nextHeight_cases hsh h hf ho (now - retention) (by omega) with ⟨h1, _⟩ | ⟨stop, h1, h2⟩
  · obtain ⟨c, hc, _, s, hs, hle⟩ := hm.1
    have := h1 c hc s hs
    omega
  · obtain ⟨c, hc, hcn, s, hcs, hle⟩ := h1.1
    cases hst : storedBlocks ops stop with
    | none => exact absurd hst (hkept c hc stop s hcn hcs hle)
    | some d =>
      rw [h2, hst] at hj
      simp only [Option.isSome_some, if_true] at hj
      have hg := events_get (hfit c hc stop hcn) hj
      rw [hg.2 id hid, if_pos]
      have := before_first ho hb hn ht hlt h1
      omega

/-- **C70, the code does not keep to the event retention period.** Once a block not older than the event retention period
has been pruned, the event pruning job removes no event at all, however old.  So with blocks kept shorter than events,
events are never removed. -/
theorem C70_event_pruning_blocked_by_block_pruning (hsh : shard < 2 ^ 32) (h : BlockHistory kind ops db)
    (hf : ∀ op ∈ ops, OpFits kind op) (ho : StoredInOrder kind shard (putBlocks ops)) {now retention : Nat}
    (hnow : now < 2 ^ 64) {b : SBlock} (hb : b ∈ putBlocks ops) {n t : Nat} (hn : b.number? = some n)
    (ht : b.time? = some t) (hle : now - retention ≤ t) (hgone : storedBlocks ops n = none) (fuel : Nat) :
    pruneEventsJob shard fuel db now retention = some (.ok (db, 0)) := by
  unfold pruneEventsJob
  rcases nextHeight_cases hsh h hf ho (now - retention) (by omega) with ⟨_, h2⟩ | ⟨stop, h1, h2⟩
  · rw [h2]
  · obtain ⟨low, hlow⟩ := stored_from ops ho.1
    obtain ⟨c, hc, hcn, s, hcs, hle'⟩ := h1.1
    have e1 := hlow b hb n hn
    have e2 := hlow c hc stop hcn
    have e3 := h1.2 b hb n t hn ht hle
    have : storedBlocks ops stop = none := by
      cases hst : storedBlocks ops stop with
      | none => rfl
      | some d =>
        rw [hst] at e2; rw [hgone] at e1
        simp at e1 e2
        omega
    rw [h2, this]
    simp

/-! ### The hypotheses are met -/

/-- Three chunks at times 10, 20, 30, an event of the first; then the blocks below height 3 are pruned. -/
def retentionOps : List BOp :=
  [.put (chunkAt 1 10), .other (eventKey 16385) (some (.other [7])), .put (chunkAt 2 20), .put (chunkAt 3 30)]

theorem retentionOps_ok : (∀ op ∈ retentionOps, OpFits .chunks op) ∧ StoredInOrder .chunks 1 (putBlocks retentionOps) ∧
    HeightsFitEvents (putBlocks retentionOps) := by
  have e : putBlocks retentionOps = [chunkAt 1 10, chunkAt 2 20, chunkAt 3 30] := rfl
  refine ⟨?_, ?_, ?_⟩
  · intro op hop
    simp only [retentionOps, List.mem_cons, List.not_mem_nil, or_false] at hop
    rcases hop with rfl | rfl | rfl | rfl <;> simp [OpFits, chunkAt, BlockKind.pre, eventKey]
  · rw [e]
    refine ⟨?_, ?_⟩
    · simp [chunkAt, SBlock.number?, SBlock.time?]
    · intro b hb s hs
      simp only [List.mem_cons, List.not_mem_nil, or_false] at hb
      rcases hb with rfl | rfl | rfl <;> simp_all [chunkAt, SBlock.shard?, BlockKind.indexShard]
  · rw [e]
    intro b hb n hn
    simp only [List.mem_cons, List.not_mem_nil, or_false] at hb
    rcases hb with rfl | rfl | rfl <;> (simp [chunkAt, SBlock.number?] at hn; subst hn; decide)

/-- The database after `retentionOps`. -/
def retentionDb : Db BRow :=
  let put := fun (d : Db BRow) b => match putBlock .chunks d b with | .ok d => d | .error _ => d
  put (put (OMap.put (put OMap.empty (chunkAt 1 10)) (eventKey 16385) (.other [7])) (chunkAt 2 20)) (chunkAt 3 30)

theorem retentionDb_reached : BlockHistory .chunks retentionOps retentionDb :=
  .step (ops := [_, _, _]) (.step (ops := [_, _]) (.step (ops := [_]) (.step (ops := []) .start rfl) rfl) rfl) rfl

/-- The jobs run: events older than 15 are removed, then blocks older than 25. -/
example : ((pruneEventsJob 1 5 retentionDb 40 25).map (fun r => r.map (fun x => (x.1.get (eventKey 16385), x.2))) =
      some (.ok (none, 1))) ∧
    ((pruneBlocksJob .chunks 1 5 retentionDb (pruningCutoff 40 15 true)).map (fun r => r.map (·.2)) = some (.ok 2)) := by
  decide

/-- **C70, witness.** Blocks are kept for 15 seconds, events for 25: when the block job runs first, the event of block 1,
30 seconds old, is not removed. -/
theorem C70_events_outlive_retention : ∃ db1 db2,
    pruneBlocksJob .chunks 1 5 retentionDb (pruningCutoff 40 15 true) = some (.ok (db1, 2)) ∧
    pruneEventsJob 1 5 db1 40 25 = some (.ok (db2, 0)) ∧ db2.get (eventKey 16385) = some (.other [7]) := by
  refine ⟨((((OMap.empty.put (blockKey .chunks 3) (.block (chunkAt 3 30))).put (eventKey 16385) (.other [7])).put
    (timeKey 1 10) (.index (blockKey .chunks 1))).put (timeKey 1 20) (.index (blockKey .chunks 2))).put
    (timeKey 1 30) (.index (blockKey .chunks 3)), _, ?_, rfl, ?_⟩ <;> rfl

end Verif
