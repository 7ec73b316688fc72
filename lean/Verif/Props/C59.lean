import Verif.Lemmas.BlockStore
/-!
# C59: block range queries and pruning

For the block store of shard 0 and the chunk store of a data shard, after any history of puts, prunes and writes of
other stores to the same database.
-/
namespace Verif
variable {kind : BlockKind} {ops : List BOp} {db : Db BRow}

/-- **C59.** Looking up a height gives the block stored at that height, or nothing. -/
theorem C59_by_height (h : BlockHistory kind ops db) (hf : ∀ op ∈ ops, OpFits kind op) (n : Nat) (hn : n < 2 ^ 64) :
    blockByHeight kind db n = .ok (storedBlocks ops n) := by
  have hi := reach_binv h hf
  unfold blockByHeight
  rw [hi.agree n hn]
  cases storedBlocks ops n <;> rfl

/-- **C59.** The range query of the API returns exactly the stored blocks of the range, each once and by ascending
height, however many pages it takes. -/
theorem C59_range_query (h : BlockHistory kind ops db) (hf : ∀ op ∈ ops, OpFits kind op) (start : Nat)
    (stop : Option Nat) (hstart : start < 2 ^ 64) (hstop : ∀ s, stop = some s → s < 2 ^ 64) :
    ∃ l pages, ListsRange (storedBlocks ops) start stop l ∧
      ∀ fuel ≥ pages, allBlocks kind db start stop fuel none [] = some (.ok l) := by
  have hi := reach_binv h hf
  obtain ⟨pages, hp⟩ := follow_loop (blocks_follow hi hstart hstop (some 100) false)
  exact ⟨_, pages, scanBlocks_lists hi hstart hstop, fun fuel hfu => by simpa [inDirection] using hp fuel hfu []⟩

/-- **C59.** Following page tokens gives the same blocks for every page size and, reversed, in the other direction. -/
theorem C59_range_pages (h : BlockHistory kind ops db) (hf : ∀ op ∈ ops, OpFits kind op) (start : Nat)
    (stop : Option Nat) (hstart : start < 2 ^ 64) (hstop : ∀ s, stop = some s → s < 2 ^ 64) :
    ∃ l, ListsRange (storedBlocks ops) start stop l ∧ ∀ n rev,
      FollowTokens (fun t => blocksInRange kind db { pageSize := n, pageToken := t, reverse := rev } start stop) none
        (inDirection rev l) := by
  have hi := reach_binv h hf
  exact ⟨_, scanBlocks_lists hi hstart hstop, fun n rev => blocks_follow hi hstart hstop n rev⟩

/-- **C59.** The lowest height reported is the lowest stored one; with nothing stored it is an error. -/
theorem C59_lowest (h : BlockHistory kind ops db) (hf : ∀ op ∈ ops, OpFits kind op) :
    ((∀ n, storedBlocks ops n = none) ∧ minNumber kind db = .error .notFound) ∨
    ∃ n b, storedBlocks ops n = some b ∧ (∀ m, storedBlocks ops m ≠ none → n ≤ m) ∧ minNumber kind db = .ok n := by
  have hi := reach_binv h hf
  have hl := scanBlocks_lists hi (start := 0) (stop := none) (by decide) (by simp)
  have hfl := firstOrLast_eq hi false
  simp only [inDirection, Bool.false_eq_true, if_false] at hfl
  unfold minNumber
  rw [hfl]
  cases hs : scanBlocks kind db 0 none with
  | nil =>
    refine .inl ⟨fun n => ?_, rfl⟩
    cases hst : storedBlocks ops n with
    | none => rfl
    | some b =>
      have := (hl.1 b).2 ⟨n, ⟨by omega, by simp⟩, hst⟩
      rw [hs] at this; simp at this
  | cons b rest =>
    rw [hs] at hl
    obtain ⟨n, _, hst⟩ := (hl.1 b).1 (by simp)
    have hnum := (stored_number hi hst).2
    refine .inr ⟨n, b, hst, ?_, ?_⟩
    · intro m hm
      obtain ⟨c, hc⟩ := Option.ne_none_iff_exists'.1 hm
      have hmem := (hl.1 c).2 ⟨m, ⟨by omega, by simp⟩, hc⟩
      have hnc := (stored_number hi hc).2
      rcases List.mem_cons.1 hmem with e | hmem
      · rw [e, hnum] at hnc; simp at hnc; omega
      · obtain ⟨i, j, h1, h2, h3⟩ := (List.pairwise_cons.1 hl.2).1 c hmem
        rw [hnum] at h1; rw [hnc] at h2
        simp at h1 h2; omega
    · obtain ⟨s, t, e⟩ := head_of_number hnum
      simp [e]

/-- **C59.** The highest height and its time reported are those of the highest stored block, zero with nothing
stored. -/
theorem C59_highest (h : BlockHistory kind ops db) (hf : ∀ op ∈ ops, OpFits kind op) :
    ((∀ n, storedBlocks ops n = none) ∧ maxNumber kind db = .ok 0 ∧ maxTimestamp kind db = .ok 0) ∨
    ∃ n b t, storedBlocks ops n = some b ∧ (∀ m, storedBlocks ops m ≠ none → m ≤ n) ∧ maxNumber kind db = .ok n ∧
      b.time? = some t ∧ maxTimestamp kind db = .ok t := by
  have hi := reach_binv h hf
  have hl := scanBlocks_lists hi (start := 0) (stop := none) (by decide) (by simp)
  have hfl := firstOrLast_eq hi true
  simp only [inDirection, if_true] at hfl
  unfold maxNumber maxTimestamp currentHeader
  rw [hfl]
  have hp : (scanBlocks kind db 0 none).reverse.Pairwise
      (fun a b => ∃ m n, b.number? = some m ∧ a.number? = some n ∧ m < n) := List.pairwise_reverse.2 hl.2
  have hm : ∀ b, b ∈ (scanBlocks kind db 0 none).reverse ↔ ∃ n, InRange 0 none n ∧ storedBlocks ops n = some b :=
    fun b => by rw [List.mem_reverse]; exact hl.1 b
  cases hs : (scanBlocks kind db 0 none).reverse with
  | nil =>
    refine .inl ⟨fun n => ?_, rfl, rfl⟩
    cases hst : storedBlocks ops n with
    | none => rfl
    | some b =>
      have := (hm b).2 ⟨n, ⟨by omega, by simp⟩, hst⟩
      rw [hs] at this; simp at this
  | cons b rest =>
    rw [hs] at hp hm
    obtain ⟨n, _, hst⟩ := (hm b).1 (by simp)
    have hnum := (stored_number hi hst).2
    obtain ⟨s, t, e⟩ := head_of_number hnum
    refine .inr ⟨n, b, t, hst, ?_, by simp [e], by simp [SBlock.time?, e], by simp [e]⟩
    intro m hmm
    obtain ⟨c, hc⟩ := Option.ne_none_iff_exists'.1 hmm
    have hmem := (hm c).2 ⟨m, ⟨by omega, by simp⟩, hc⟩
    have hnc := (stored_number hi hc).2
    rcases List.mem_cons.1 hmem with e | hmem
    · rw [e, hnum] at hnc; simp at hnc; omega
    · obtain ⟨i, j, h1, h2, h3⟩ := (List.pairwise_cons.1 hp).1 c hmem
      rw [hnum] at h2; rw [hnc] at h1
      simp at h1 h2; omega

/-- **C59.** Pruning below a height ends, removes exactly the lower blocks, leaves the rows of every other store as they
are and reports how many blocks it removed. -/
theorem C59_prune_exact (h : BlockHistory kind ops db) (hf : ∀ op ∈ ops, OpFits kind op) (stop : Nat)
    (hstop : stop < 2 ^ 64) (n : Option Nat) :
    ∃ db' pages removed, ListsRange (storedBlocks ops) 0 (some stop) removed ∧
      (∀ fuel ≥ pages, pruneUntil kind fuel db stop { pageSize := n } = some (.ok (db', removed.length))) ∧
      (∀ m, m < 2 ^ 64 → blockByHeight kind db' m = .ok (if m < stop then none else storedBlocks ops m)) ∧
      ∀ k, k.head? ≠ some kind.pre → db'.get k = db.get k := by
  have hi := reach_binv h hf
  obtain ⟨fuel, db', count, hp⟩ := pruneUntil_ends kind db stop n
  have hc := (deletePaginated_get hp).2
  have hlen : count = (scanBlocks kind db 0 (some stop)).length := by
    have hd := scan_decodes hi (start := 0) (stop := some stop) (by decide) (by simpa using hstop) (rev := false)
    rw [hc]
    unfold scanBlocks
    have : ∀ l : List (Bytes × BRow), (∀ r ∈ l, (r.2.decode).isSome) →
        (l.filterMap (fun r => r.2.decode)).length = l.length := by
      intro l
      induction l with
      | nil => intro _; rfl
      | cons r l ih =>
        intro hl
        obtain ⟨b, hb⟩ := Option.isSome_iff_exists.1 (hl r (by simp))
        rw [List.filterMap_cons, hb]
        simp [ih (fun x hx => hl x (by simp [hx]))]
    rw [this _ hd]
    rfl
  refine ⟨db', fuel, _, scanBlocks_lists hi (by decide) (by simpa using hstop), ?_, ?_, (prune_get hp hstop).1⟩
  · intro f hfu
    rw [← hlen]
    exact deletePaginated_mono hp f hfu
  · have hh := reach_binv (BlockHistory.step (op := .prune stop n) h ⟨fuel, count, hp⟩) (by
      intro op hop
      rcases List.mem_append.1 hop with h1 | h1
      · exact hf op h1
      · simp only [List.mem_singleton] at h1; subst h1; exact hstop)
    intro m hm
    unfold blockByHeight
    rw [hh.agree m hm, storedBlocks_snoc]
    simp only [blocksAfter]
    cases (if m < stop then none else storedBlocks ops m) <;> rfl

/-- **C59.** If the node stops during a prune, after any number of pages, the blocks gone are exactly those below some
height not above the one asked for. -/
theorem C59_prune_interrupted (h : BlockHistory kind ops db) (hf : ∀ op ∈ ops, OpFits kind op) (stop : Nat)
    (hstop : stop < 2 ^ 64) (n : Option Nat) (k : Nat) :
    ∃ db' b, prunePages kind stop n k db = .ok db' ∧ b ≤ stop ∧
      (∀ m, m < 2 ^ 64 → blockByHeight kind db' m = .ok (if m < b then none else storedBlocks ops m)) ∧
      ∀ k, k.head? ≠ some kind.pre → db'.get k = db.get k := by
  have hi := reach_binv h hf
  have key : ∀ (k : Nat) (d : Db BRow),
      (∀ key v, d.get key = some v → key.head? = some kind.pre → ∃ m, m < 2 ^ 64 ∧ key = blockKey kind m) →
      ∃ db' b, prunePages kind stop n k d = .ok db' ∧ b ≤ stop ∧
        (∀ m, m < 2 ^ 64 → db'.get (blockKey kind m) = if m < b then none else d.get (blockKey kind m)) ∧
        ∀ k, k.head? ≠ some kind.pre → db'.get k = d.get k := by
    intro k
    induction k with
    | zero => intro d _; exact ⟨d, 0, rfl, by omega, by simp, fun _ _ => rfl⟩
    | succ k ih =>
      intro d hd
      obtain ⟨d1, c, hp, h1, b1, hb1, h2⟩ := prune_page (n := n) hstop hd
      obtain ⟨d2, b2, hp2, hb2, h3, h4⟩ := ih d1 (by
        intro key v hv hk
        refine Classical.byContradiction (fun hc => ?_)
        -- a row of the page's result is a row of the database before
        have hsub : d.get key = some v := by
          have hpe := deletePage_eq d (some (blockKey kind 0)) (some (blockKey kind stop)) { pageSize := n }
          simp only at hpe
          rw [hpe] at hp
          simp only [Except.ok.injEq, Prod.mk.injEq] at hp
          rw [← hp.1, deletePage_get _ _ ((dirSorted_distinct (scanRows_dirSorted d _ _ _)).sublist
            (List.take_sublist _ _))] at hv
          split at hv
          · simp at hv
          · exact hv
        exact hc (hd key v hsub hk))
      refine ⟨d2, max b1 b2, ?_, by omega, ?_, fun k hk => by rw [h4 k hk, h1 k hk]⟩
      · simp only [prunePages, hp, hp2]
      · intro m hm
        rw [h3 m hm, h2 m hm]
        by_cases e1 : m < b1 <;> by_cases e2 : m < b2 <;> simp [e1, e2] <;> omega
  obtain ⟨db', b, e1, e2, e3, e4⟩ := key k db (fun key v hv hk => by
    obtain ⟨m, _, hm, e, _⟩ := hi.rows key v hv hk
    exact ⟨m, hm, e⟩)
  refine ⟨db', b, e1, e2, ?_, e4⟩
  intro m hm
  unfold blockByHeight
  rw [e3 m hm, hi.agree m hm]
  by_cases hlt : m < b
  · simp [hlt]
  · simp only [hlt, if_false]
    cases storedBlocks ops m <;> rfl

/-! ### The hypotheses are met -/

/-- A chunk of shard 1. -/
def chunkAt (n t : Nat) : SBlock := ⟨some ⟨some (1, n), t⟩, [UInt8.ofNat n]⟩

/-- Three chunks, a write of another store, and a prune below height 2. -/
def chunkOps : List BOp :=
  [.put (chunkAt 1 10), .put (chunkAt 2 20), .other [9, 7] (some (.other [1])), .put (chunkAt 3 20), .put ⟨none, []⟩,
    .prune 2 (some 1)]

example : ∃ db, BlockHistory .chunks chunkOps db ∧ (∀ op ∈ chunkOps, OpFits .chunks op) ∧
    storedBlocks chunkOps 1 = none ∧ storedBlocks chunkOps 3 = some (chunkAt 3 20) := by
  obtain ⟨f, db, c, hp⟩ := pruneUntil_ends .chunks
    ((fun d => OMap.put d [9, 7] (.other [1])) |> fun o =>
      match putBlock .chunks (o (match putBlock .chunks (match putBlock .chunks OMap.empty (chunkAt 1 10) with
        | .ok d => d | .error _ => OMap.empty) (chunkAt 2 20) with | .ok d => d | .error _ => OMap.empty))
        (chunkAt 3 20) with | .ok d => d | .error _ => OMap.empty) 2 (some 1)
  refine ⟨db, ?_, ?_, rfl, rfl⟩
  · exact .step (ops := [_, _, _, _, _]) (.step (ops := [_, _, _, _]) (.step (ops := [_, _, _]) (.step (ops := [_, _])
      (.step (ops := [_]) (.step (ops := []) .start rfl) rfl) rfl) rfl) rfl) ⟨f, c, hp⟩
  · intro op hop
    simp only [chunkOps, List.mem_cons, List.not_mem_nil, or_false] at hop
    rcases hop with rfl | rfl | rfl | rfl | rfl | rfl <;> simp [OpFits, chunkAt, BlockKind.pre]

end Verif
