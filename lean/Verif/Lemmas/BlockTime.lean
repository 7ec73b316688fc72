import Verif.Lemmas.BlockStore
/-! The time index of the block stores. -/
namespace Verif
variable {kind : BlockKind} {ops : List BOp} {db : Db BRow} {shard : Nat}

theorem putBlocks_snoc (ops : List BOp) (op : BOp) : putBlocks (ops ++ [op]) = putBlocks ops ++ putBlocks [op] := by
  simp [putBlocks]

theorem putBlocks_put {b : SBlock} {n : Nat} (h : b.number? = some n) : putBlocks [.put b] = [b] := by
  simp [putBlocks, h]

theorem putBlocks_put_none {b : SBlock} (h : b.number? = none) : putBlocks [.put b] = [] := by
  simp [putBlocks, h]

theorem putBlocks_number {b : SBlock} (h : b ∈ putBlocks ops) : ∃ n, b.number? = some n := by
  unfold putBlocks at h
  obtain ⟨op, _, e⟩ := List.mem_filterMap.1 h
  cases op with
  | put c =>
    simp only at e
    split at e
    · rename_i hc
      simp only [Option.some.injEq] at e; subst e
      exact Option.isSome_iff_exists.1 hc
    · simp at e
  | prune => simp at e
  | other => simp at e

theorem putBlocks_fits (hf : ∀ op ∈ ops, OpFits kind op) {b : SBlock} (h : b ∈ putBlocks ops) :
    ∃ s n t, b.head = some ⟨some (s, n), t⟩ ∧ s < 2 ^ 32 ∧ n < 2 ^ 64 ∧ t < 2 ^ 64 := by
  obtain ⟨n, hn⟩ := putBlocks_number h
  obtain ⟨s, t, e⟩ := head_of_number hn
  unfold putBlocks at h
  obtain ⟨op, hop, e2⟩ := List.mem_filterMap.1 h
  cases op with
  | put c =>
    simp only at e2
    split at e2
    · simp only [Option.some.injEq] at e2; subst e2
      have := hf _ hop _ e
      exact ⟨s, n, t, e, (this.2 s n rfl).1, (this.2 s n rfl).2, this.1⟩
    · simp at e2
  | prune => simp at e2
  | other => simp at e2

theorem number_of_head {b : SBlock} {s n t : Nat} (h : b.head = some ⟨some (s, n), t⟩) :
    b.number? = some n ∧ b.time? = some t ∧ b.shard? = some s := by
  simp [SBlock.number?, SBlock.time?, SBlock.shard?, h]

theorem stored_mem (ops : List BOp) : ∀ n b, storedBlocks ops n = some b → b ∈ putBlocks ops ∧ b.number? = some n := by
  suffices h : ∀ (ops : List BOp) (f : Nat → Option SBlock) (l : List SBlock),
      (∀ n b, f n = some b → b ∈ l ∧ b.number? = some n) →
      ∀ n b, ops.foldl blocksAfter f n = some b → b ∈ l ++ putBlocks ops ∧ b.number? = some n by
    intro n b hb
    simpa using h ops (fun _ => none) [] (by simp) n b hb
  intro ops
  induction ops with
  | nil => intro f l hf n b hb; simpa [putBlocks] using hf n b hb
  | cons op ops ih =>
    intro f l hf n b hb
    rw [List.foldl_cons] at hb
    have := ih (blocksAfter f op) (l ++ putBlocks [op]) (by
      intro m c hc
      cases op with
      | put d =>
        simp only [blocksAfter] at hc
        split at hc
        · rename_i hd
          simp only [Option.some.injEq] at hc; subst hc
          exact ⟨by simp [putBlocks_put hd], hd⟩
        · exact ⟨by simp [(hf m c hc).1], (hf m c hc).2⟩
      | prune s k =>
        simp only [blocksAfter] at hc
        split at hc
        · simp at hc
        · exact ⟨by simp [(hf m c hc).1], (hf m c hc).2⟩
      | other k v => exact ⟨by simp [(hf m c hc).1], (hf m c hc).2⟩) n b hb
    have e : putBlocks (op :: ops) = putBlocks [op] ++ putBlocks ops := by
      rw [show op :: ops = [op] ++ ops from rfl]; simp only [putBlocks, List.filterMap_append]
    rw [e, ← List.append_assoc]
    exact this

/-- The value of the index row for a time: the first block put with it. -/
def indexRow (kind : BlockKind) (bs : List SBlock) (t : Nat) : Option BRow :=
  (bs.find? (fun b => b.time? == some t)).bind (fun b => b.number?.map (fun n => .index (blockKey kind n)))

structure TInv (kind : BlockKind) (shard : Nat) (ops : List BOp) (db : Db BRow) : Prop where
  rows : ∀ k v, db.get k = some v → k.head? = some 18 → ∃ t, t < 2 ^ 64 ∧ k = timeKey shard t
  idx : ∀ t, t < 2 ^ 64 → db.get (timeKey shard t) = indexRow kind (putBlocks ops) t

theorem reach_tinv (hsh : shard < 2 ^ 32) (h : BlockHistory kind ops db)
    (hf : ∀ op ∈ ops, OpFits kind op) (ho : ∀ b ∈ putBlocks ops, ∀ s, b.shard? = some s → kind.indexShard s = shard) :
    TInv kind shard ops db := by
  induction h with
  | start => exact ⟨by simp, by simp [indexRow, putBlocks]⟩
  | @step ops db op db' h hs ih =>
    have ih := ih (fun o ho => hf o (by simp [ho])) (fun b hb => ho b (by rw [putBlocks_snoc]; simp [hb]))
    have hop := hf op (by simp)
    cases op with
    | put b =>
      simp only [BlockStep] at hs
      cases hn : b.number? with
      | none =>
        obtain ⟨e, he⟩ := putBlock_none (kind := kind) (db := db) hn
        rw [he] at hs
        simp only at hs
        subst hs
        refine ⟨ih.rows, ?_⟩
        rw [putBlocks_snoc, putBlocks_put_none hn, List.append_nil]
        exact ih.idx
      | some n =>
        obtain ⟨s, t, hb⟩ := head_of_number hn
        obtain ⟨d, hd, hg⟩ := putBlock_get (kind := kind) (db := db) hb
        rw [hd] at hs
        simp only at hs
        subst hs
        have hfit := (hop _ hb)
        have hshard : kind.indexShard s = shard :=
          ho b (by rw [putBlocks_snoc, putBlocks_put hn]; simp) s (number_of_head hb).2.2
        rw [hshard] at hg
        have hhead : ∀ j, (timeKey shard j) ≠ blockKey kind n := by
          intro j e
          have := congrArg List.head? e
          rw [blockKey_head, timeKey_head] at this
          exact kind.pre_ne (Option.some.inj this).symm
        refine ⟨?_, ?_⟩
        · intro k v hv hk
          rw [hg] at hv
          split at hv
          · rename_i hc
            exact ⟨t, hfit.1, hc.1⟩
          · split at hv
            · rename_i hc
              rw [hc, blockKey_head] at hk
              exact absurd (Option.some.inj hk) kind.pre_ne
            · exact ih.rows k v hv hk
        · intro t' ht'
          rw [hg, putBlocks_snoc, putBlocks_put hn]
          have htb : b.time? = some t := (number_of_head hb).2.1
          rw [if_neg (hhead t')]
          have hold := ih.idx t' ht'
          unfold indexRow at hold ⊢
          rw [List.find?_append]
          by_cases htt : t' = t
          · subst htt
            cases hfind : (putBlocks ops).find? (fun b => b.time? == some t') with
            | none =>
              rw [hfind] at hold
              simp only [Option.bind_none] at hold
              rw [if_pos ⟨rfl, hold⟩]
              simp [htb, hn]
            | some c =>
              rw [hfind] at hold
              have hc : c ∈ putBlocks ops := List.mem_of_find?_eq_some hfind
              obtain ⟨m, hm⟩ := putBlocks_number hc
              simp only [Option.bind_some, hm, Option.map_some] at hold
              rw [if_neg (by rw [hold]; simp), hold]
              simp [hm]
          · rw [if_neg (fun c => htt (timeKey_inj hsh ht' hsh hfit.1 c.1).2), hold]
            have : (b.time? == some t') = false := by
              rw [htb]; simp; exact fun e => htt e.symm
            simp [this]
    | prune stop n =>
      obtain ⟨fuel, count, hp⟩ := hs
      have hg := prune_get hp hop
      refine ⟨fun k v hv hk => ih.rows k v (prune_rows hp hv) hk, ?_⟩
      intro t ht
      have e : putBlocks (ops ++ [.prune stop n]) = putBlocks ops := by rw [putBlocks_snoc]; simp [putBlocks]
      rw [hg.1 _ (by rw [timeKey_head]; exact fun e => kind.pre_ne (Option.some.inj e).symm), e]
      exact ih.idx t ht
    | other k v =>
      have e : putBlocks (ops ++ [.other k v]) = putBlocks ops := by rw [putBlocks_snoc]; simp [putBlocks]
      have hget : ∀ j, j.head? = some 18 → db'.get j = db.get j := by
        intro j hj
        have hne : j ≠ k := fun e => hop.2 (e ▸ hj)
        cases v with
        | none => simp only [BlockStep] at hs; rw [hs, OMap.get_del_ne _ hne]
        | some w => simp only [BlockStep] at hs; rw [hs, OMap.get_put_ne _ _ hne]
      refine ⟨fun j w hw hj => ih.rows j w (by rw [← hget j hj]; exact hw) hj, ?_⟩
      intro t ht
      rw [hget _ (timeKey_head shard t), e]
      exact ih.idx t ht

theorem indexRow_some {bs : List SBlock} {t : Nat} {v : BRow} (h : indexRow kind bs t = some v) :
    ∃ A b B n, bs = A ++ b :: B ∧ b.time? = some t ∧ b.number? = some n ∧ v = .index (blockKey kind n) ∧
      ∀ a ∈ A, a.time? ≠ some t := by
  unfold indexRow at h
  cases hf : bs.find? (fun b => b.time? == some t) with
  | none => rw [hf] at h; simp at h
  | some b =>
    rw [hf] at h
    simp only [Option.bind_some] at h
    obtain ⟨hb, A, B, e, hA⟩ := List.find?_eq_some_iff_append.1 hf
    cases hn : b.number? with
    | none => rw [hn] at h; simp at h
    | some n =>
      rw [hn] at h
      simp only [Option.map_some, Option.some.injEq] at h
      exact ⟨A, b, B, n, e, by simpa using hb, hn, h.symm, fun a ha => by simpa using hA a ha⟩

theorem indexRow_none {bs : List SBlock} {t : Nat} (h : indexRow kind bs t = none) :
    ∀ b ∈ bs, b.number? ≠ none → b.time? ≠ some t := by
  intro b hb hn ht
  unfold indexRow at h
  cases hf : bs.find? (fun b => b.time? == some t) with
  | none => exact absurd ht (by simpa using List.find?_eq_none.1 hf b hb)
  | some c =>
    rw [hf] at h
    simp only [Option.bind_some, Option.map_eq_none_iff] at h
    have := List.find?_some hf
    simp only [beq_iff_eq] at this
    simp only [SBlock.time?, SBlock.number?, Option.map_eq_none_iff] at this h
    cases hh : c.head with
    | none => simp [hh] at this
    | some hd => cases hht : hd.height with
      | none => simp [hh, hht] at this
      | some p => simp [hh, hht] at h

/-- The head of an ascending scan. -/
theorem scan_head {V : Type} (db : Db V) (lo hi : Bytes) :
    (scanRows db lo hi false = [] ∧ ∀ k v, db.get k = some v → ¬ (Bytes.blt k lo = false ∧ Bytes.blt k hi = true)) ∨
    ∃ k v rest, scanRows db lo hi false = (k, v) :: rest ∧ db.get k = some v ∧ Bytes.blt k lo = false ∧ Bytes.blt k hi = true ∧
      ∀ j w, db.get j = some w → Bytes.blt j lo = false → Bytes.blt j hi = true → Bytes.blt j k = false := by
  have hd := scanRows_dirSorted db lo hi false
  cases hs : scanRows db lo hi false with
  | nil =>
    refine .inl ⟨rfl, ?_⟩
    intro k v hv hc
    have : (k, v) ∈ scanRows db lo hi false := mem_scanRows.2 ⟨db.get_eq_some_iff.1 hv, hc⟩
    rw [hs] at this; simp at this
  | cons r rest =>
    obtain ⟨k, v⟩ := r
    have hm := mem_scanRows.1 (show (k, v) ∈ scanRows db lo hi false by rw [hs]; simp)
    refine .inr ⟨k, v, rest, rfl, db.get_eq_some_iff.2 hm.1, hm.2.1, hm.2.2, ?_⟩
    intro j w hw h1 h2
    have hj : (j, w) ∈ scanRows db lo hi false := mem_scanRows.2 ⟨db.get_eq_some_iff.1 hw, h1, h2⟩
    rw [hs] at hj hd
    rcases List.mem_cons.1 hj with e | hj
    · simp only [Prod.mk.injEq] at e; rw [e.1]; exact Bytes.blt_irrefl k
    · have := (List.pairwise_cons.1 hd).1 _ hj
      simp only [Bool.false_eq_true, if_false] at this
      cases hc : Bytes.blt j k with
      | false => rfl
      | true => exact absurd (StrictOrd.trans this hc) (StrictOrd.irrefl _)

theorem getNextByIndex_eq {V : Type} (db : Db V) (asKey : V → Bytes) (p start : Bytes) :
    getNextByIndex db asKey p start = match scanRows db start (incrementVec p) false with
      | [] => .ok none
      | r :: _ => match db.get (asKey r.2) with
        | some v => .ok (some v)
        | none => .error .notFound := by
  unfold getNextByIndex forEachByPrefix forEachPaged
  simp only [iterBounds]
  cases hs : scanRows db start (incrementVec p) false with
  | nil => simp [hs, iterate]
  | cons r rest => obtain ⟨k, v⟩ := r; simp [hs, iterate]; cases db.get (asKey v) <;> rfl

/-- The lookup by time, in full. -/
theorem nextHeight_cases (hsh : shard < 2 ^ 32) (h : BlockHistory kind ops db) (hf : ∀ op ∈ ops, OpFits kind op)
    (ho : StoredInOrder kind shard (putBlocks ops)) (t : Nat) (ht : t < 2 ^ 64) :
    ((∀ b ∈ putBlocks ops, ∀ s, b.time? = some s → s < t) ∧ nextHeight shard db t = .ok none) ∨
    ∃ n, FirstAt (putBlocks ops) t n ∧
      nextHeight shard db t = if (storedBlocks ops n).isSome then .ok (some n) else .error .notFound := by
  have hi := reach_binv h hf
  have hT := reach_tinv hsh h hf ho.2
  have hinc : incrementVec [18] = [19] := by decide
  have hin : ∀ t', t' < 2 ^ 64 → t ≤ t' →
      Bytes.blt (timeKey shard t') (timeKey shard t) = false ∧ Bytes.blt (timeKey shard t') [19] = true := by
    intro t' ht' hle
    refine ⟨?_, by simp [timeKey, Bytes.blt]⟩
    cases hc : Bytes.blt (timeKey shard t') (timeKey shard t) with
    | false => rfl
    | true => have := (timeKey_blt ht' ht).1 hc; omega
  unfold nextHeight
  rw [getNextByIndex_eq, hinc]
  rcases scan_head db (timeKey shard t) [19] with ⟨hs, hno⟩ | ⟨k, v, rest, hs, hg, h1, h2, hmin⟩
  · left
    rw [hs]
    refine ⟨?_, rfl⟩
    intro b hb s hbs
    refine Nat.lt_of_not_le (fun hle => ?_)
    obtain ⟨sh, n, t', e, _, _, ht'⟩ := putBlocks_fits hf hb
    have : s = t' := by rw [(number_of_head e).2.1] at hbs; simpa using hbs.symm
    subst this
    cases hidx : indexRow kind (putBlocks ops) s with
    | none => exact indexRow_none hidx b hb (by rw [(number_of_head e).1]; simp) hbs
    | some v =>
      have hg := hT.idx s ht'
      rw [hidx] at hg
      exact hno _ _ hg (hin s ht' hle)
  · right
    rw [hs]
    have hhead : k.head? = some 18 := by
      refine Classical.byContradiction (fun hc => ?_)
      cases k with
      | nil => simp [timeKey, Bytes.blt] at h1
      | cons c l =>
        have hc' : c ≠ 18 := by simpa using hc
        have hne : c.toNat ≠ 18 := fun e => hc' (UInt8.toNat_inj' e)
        simp only [timeKey, Bytes.blt] at h1 h2
        have e18 : (18 : UInt8).toNat = 18 := rfl
        have e19 : (19 : UInt8).toNat = 19 := rfl
        rw [e18] at h1; rw [e19] at h2
        by_cases hlt : c.toNat < 18
        · simp [hlt] at h1
        · have h4 : ¬ c.toNat < 19 := by omega
          simp [h4] at h2
    obtain ⟨t', ht', rfl⟩ := hT.rows _ _ hg hhead
    have hle : t ≤ t' := by
      refine Nat.le_of_not_lt (fun hc => ?_)
      rw [(timeKey_blt ht' ht).2 hc] at h1; simp at h1
    have hidx := hT.idx t' ht'
    rw [hg] at hidx
    obtain ⟨A, b, B, n, e, hbt, hbn, rfl, hA⟩ := indexRow_some hidx.symm
    have hbm : b ∈ putBlocks ops := by rw [e]; simp
    have hnlt : n < 2 ^ 64 := by
      obtain ⟨sh, m, t2, e2, _, hm, _⟩ := putBlocks_fits hf hbm
      rw [(number_of_head e2).1] at hbn
      simp at hbn; omega
    refine ⟨n, ⟨⟨b, hbm, hbn, t', hbt, hle⟩, ?_⟩, ?_⟩
    · intro c hc m s hcm hcs hts
      -- the time of c has an index row, so it is not below t'
      obtain ⟨sh, m2, t2, e2, _, _, ht2⟩ := putBlocks_fits hf hc
      have hst2 : s = t2 := by rw [(number_of_head e2).2.1] at hcs; simpa using hcs.symm
      subst hst2
      have hge : t' ≤ s := by
        cases hidx2 : indexRow kind (putBlocks ops) s with
        | none => exact absurd hcs (indexRow_none hidx2 c hc (by rw [(number_of_head e2).1]; simp))
        | some w =>
          have hg2 := hT.idx s ht2
          rw [hidx2] at hg2
          have := hmin _ _ hg2 (hin s ht2 hts).1 (hin s ht2 hts).2
          refine Nat.le_of_not_lt (fun hlt => ?_)
          rw [(timeKey_blt ht2 ht').2 hlt] at this; simp at this
      have hpw := ho.1
      rw [e] at hpw hc
      rcases List.mem_append.1 hc with hcA | hcB
      · -- before b: its time is at most t', hence t', contradiction
        obtain ⟨_, _, s1, s2, _, _, k3, k4, _, k6, _⟩ := (List.pairwise_append.1 hpw).2.2 c hcA b (by simp)
        rw [hcs] at k3; rw [hbt] at k4
        simp only [Option.some.injEq] at k3 k4
        have hst : s = t' := by omega
        exact absurd (hst ▸ hcs) (hA c hcA)
      · rcases List.mem_cons.1 hcB with rfl | hcB
        · rw [hbn] at hcm; simp at hcm; omega
        · obtain ⟨m1, m3, _, _, k1, k2, _, _, k5, _, _⟩ :=
            (List.pairwise_cons.1 (List.pairwise_append.1 hpw).2.1).1 c hcB
          rw [hbn] at k1; rw [hcm] at k2
          simp only [Option.some.injEq] at k1 k2
          omega
    · simp only [BRow.asKey]
      rw [hi.agree n hnlt]
      cases hst : storedBlocks ops n with
      | none => simp
      | some c =>
        have hnum := (stored_number hi hst).2
        obtain ⟨s2, t2, e2⟩ := head_of_number hnum
        simp [BRow.decode, e2]

/-- In a store filled in order, what is left is everything from some height on. -/
theorem stored_from (ops : List BOp)
    (ho : (putBlocks ops).Pairwise (fun a b => ∃ m n s t, a.number? = some m ∧ b.number? = some n ∧ a.time? = some s ∧
      b.time? = some t ∧ m ≤ n ∧ s ≤ t ∧ (m = n → s = t))) :
    ∃ low, ∀ b ∈ putBlocks ops, ∀ n, b.number? = some n → ((storedBlocks ops n).isSome ↔ low ≤ n) := by
  have key : ∀ (rops : List BOp),
      (putBlocks rops.reverse).Pairwise (fun a b => ∃ m n s t, a.number? = some m ∧ b.number? = some n ∧ a.time? = some s ∧
        b.time? = some t ∧ m ≤ n ∧ s ≤ t ∧ (m = n → s = t)) →
      ∃ low, ∀ b ∈ putBlocks rops.reverse, ∀ n, b.number? = some n →
        ((storedBlocks rops.reverse n).isSome ↔ low ≤ n) := by
    intro rops
    induction rops with
    | nil => intro _; exact ⟨0, by simp [putBlocks]⟩
    | cons op rops ih =>
      intro ho
      rw [List.reverse_cons, putBlocks_snoc] at ho
      have hpa := List.pairwise_append.1 ho
      obtain ⟨low, hlow⟩ := ih hpa.1
      rw [List.reverse_cons, putBlocks_snoc, storedBlocks_snoc]
      cases op with
      | put b =>
        cases hn : b.number? with
        | none =>
          refine ⟨low, fun c hc n hcn => ?_⟩
          rw [putBlocks_put_none hn, List.append_nil] at hc
          simp only [blocksAfter, hn, reduceCtorEq, if_false]
          exact hlow c hc n hcn
        | some k =>
          rw [putBlocks_put hn] at hpa ⊢
          have hle : ∀ c ∈ putBlocks rops.reverse, ∀ n, c.number? = some n → n ≤ k := by
            intro c hc n hcn
            obtain ⟨m, m', _, _, e1, e2, _, _, e3, _⟩ := hpa.2.2 c hc b (by simp)
            rw [hcn] at e1; rw [hn] at e2
            simp only [Option.some.injEq] at e1 e2
            omega
          refine ⟨min low k, fun c hc n hcn => ?_⟩
          simp only [blocksAfter, hn, Option.some.injEq]
          rcases List.mem_append.1 hc with hc | hc
          · have h1 := hlow c hc n hcn
            have h2 := hle c hc n hcn
            by_cases e : k = n
            · subst e; simp; omega
            · rw [if_neg e, h1]; omega
          · simp only [List.mem_singleton] at hc
            subst hc
            rw [hn] at hcn
            simp only [Option.some.injEq] at hcn
            subst hcn
            simp; omega
      | prune stop p =>
        have e : putBlocks [.prune stop p] = [] := rfl
        rw [e, List.append_nil]
        refine ⟨max low stop, fun c hc n hcn => ?_⟩
        simp only [blocksAfter]
        have h1 := hlow c hc n hcn
        by_cases hlt : n < stop
        · simp [hlt]; omega
        · rw [if_neg hlt, h1]; omega
      | other k v =>
        have e : putBlocks [.other k v] = [] := rfl
        rw [e, List.append_nil]
        exact ⟨low, hlow⟩
  have := key ops.reverse (by simpa using ho)
  simpa using this

end Verif
