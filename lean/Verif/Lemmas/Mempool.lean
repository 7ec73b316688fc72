import Verif.Spec.Mempool
import Verif.Lemmas.ReadNode
import Verif.Lemmas.StoreOrder
import Verif.Lemmas.Bytes
/-!
The queue of one shard of the mempool.
-/
namespace Verif
open Spec
variable {F : Type}

theorem liveAt_some {p : PMsg F} {m : Msg} (h : p.liveAt? = some m) : p = .user m ∧ isLiveAt m = true := by
  cases p with
  | user a =>
    simp only [PMsg.liveAt?] at h
    split at h
    · rename_i ha; cases h; exact ⟨rfl, ha⟩
    · cases h
  | _ => cases h

theorem liveAt_user {m : Msg} (h : isLiveAt m = true) : (PMsg.user m : PMsg F).liveAt? = some m := by
  simp [PMsg.liveAt?, h]

theorem unindex_get {live : OMap Nat MKey} {key : MKey} {p : PMsg F} (f : Nat) :
    (unindexLive live key p).get f = live.get f ∨
      ((unindexLive live key p).get f = none ∧ live.get f = some key ∧ ∃ m, p.liveAt? = some m ∧ m.fid = f) := by
  unfold unindexLive
  split
  · exact .inl rfl
  · rename_i m hm
    split
    · rename_i hk
      by_cases e : m.fid = f
      · subst e
        exact .inr ⟨OMap.get_del_self _ _, hk, m, hm, rfl⟩
      · exact .inl (OMap.get_del_ne _ (fun h => e h.symm))
    · exact .inl rfl

theorem unindex_hit {live : OMap Nat MKey} {key : MKey} {p : PMsg F} {m : Msg} (hm : p.liveAt? = some m) :
    (unindexLive live key p).get m.fid ≠ some key := by
  unfold unindexLive
  rw [hm]
  simp only
  split
  · rw [OMap.get_del_self]; simp
  · assumption

/-- the index after a number of rows were taken out -/
def unindexAll (live : OMap Nat MKey) (rows : List (MKey × PMsg F)) : OMap Nat MKey :=
  rows.foldl (fun live r => unindexLive live r.1 r.2) live

theorem unindexAll_get (rows : List (MKey × PMsg F)) : ∀ (live : OMap Nat MKey) (f : Nat),
    (unindexAll live rows).get f = live.get f ∨ (unindexAll live rows).get f = none := by
  induction rows with
  | nil => intro live f; exact .inl rfl
  | cons r rows ih =>
    intro live f
    show (unindexAll (unindexLive live r.1 r.2) rows).get f = _ ∨ (unindexAll (unindexLive live r.1 r.2) rows).get f = _
    rcases ih (unindexLive live r.1 r.2) f with h | h
    · rcases unindex_get (live := live) (key := r.1) (p := r.2) f with g | g
      · exact .inl (h.trans g)
      · exact .inr (h.trans g.1)
    · exact .inr h

theorem unindexAll_keeps {k : MKey} (rows : List (MKey × PMsg F)) : ∀ (live : OMap Nat MKey) (f : Nat),
    (∀ r ∈ rows, r.1 ≠ k) → live.get f = some k → (unindexAll live rows).get f = some k := by
  induction rows with
  | nil => intro live f _ h; exact h
  | cons r rows ih =>
    intro live f hne h
    refine ih (unindexLive live r.1 r.2) f (fun x hx => hne x (List.mem_cons_of_mem _ hx)) ?_
    rcases unindex_get (live := live) (key := r.1) (p := r.2) f with g | g
    · exact g.trans h
    · rw [h] at g
      exact absurd (Option.some.inj g.2.1).symm (hne r List.mem_cons_self)

theorem unindexAll_hit {k : MKey} {p : PMsg F} {m : Msg} (hm : p.liveAt? = some m) (rows : List (MKey × PMsg F)) :
    ∀ live : OMap Nat MKey, (k, p) ∈ rows → (unindexAll live rows).get m.fid ≠ some k := by
  induction rows with
  | nil => intro live h; cases h
  | cons r rows ih =>
    intro live h
    show (unindexAll (unindexLive live r.1 r.2) rows).get m.fid ≠ some k
    rcases List.mem_cons.1 h with h | h
    · subst h
      rcases unindexAll_get rows (unindexLive live k p) m.fid with g | g
      · rw [g]; exact unindex_hit hm
      · rw [g]; simp
    · exact ih _ h

/-- What `pullRows` does with the rows. -/
theorem pullRows_spec (env : PoolEnv) (shard : Nat) (rows : List (MKey × PMsg F)) :
    ∀ n live got rest live', pullRows env shard rows n live = .ok (got, rest, live') →
    ∃ taken, rows = taken ++ rest ∧ got = (taken.map (·.2)).filter (fun p => decide (Proposable env shard p)) ∧
      got.length ≤ n ∧ (rest ≠ [] → got.length = n) ∧
      (got.length = n → ∀ x, taken.getLast? = some x → Proposable env shard x.2) ∧ live' = unindexAll live taken := by
  induction rows with
  | nil =>
    intro n live got rest live' h
    simp only [pullRows, Except.ok.injEq, Prod.mk.injEq] at h
    obtain ⟨rfl, rfl, rfl⟩ := h
    exact ⟨[], rfl, rfl, Nat.zero_le _, fun h => absurd rfl h, by simp, rfl⟩
  | cons r rows ih =>
    intro n live got rest live' h
    cases n with
    | zero =>
      simp only [pullRows, Except.ok.injEq, Prod.mk.injEq] at h
      obtain ⟨rfl, rfl, rfl⟩ := h
      exact ⟨[], rfl, rfl, Nat.zero_le _, fun _ => rfl, by simp, rfl⟩
    | succ n =>
      simp only [pullRows] at h
      split at h
      · cases h
      · rename_i e he hv
        obtain ⟨taken, h1, h2, h3, h4, h5, h6⟩ := ih _ _ _ _ _ h
        have hbad : ¬ Proposable env shard r.2 := by unfold Proposable; rw [hv]; simp
        refine ⟨r :: taken, by rw [h1]; rfl, ?_, h3, h4, ?_, h6⟩
        · rw [List.map_cons, List.filter_cons_of_neg (by simpa using hbad)]; exact h2
        · intro hl x hx
          apply h5 hl
          cases taken with
          | nil => rw [h2] at hl; simp at hl
          | cons y t => simpa [List.getLast?_cons_cons] using hx
      · rename_i hv
        have hgood : Proposable env shard r.2 := hv
        split at h
        · cases h
        · rename_i got' rest' l' hrec
          simp only [Except.ok.injEq, Prod.mk.injEq] at h
          obtain ⟨rfl, rfl, rfl⟩ := h
          obtain ⟨taken, h1, h2, h3, h4, h5, h6⟩ := ih _ _ _ _ _ hrec
          refine ⟨r :: taken, by rw [h1]; rfl, ?_, by simp; omega, fun hr => by simp [h4 hr], ?_, h6⟩
          · rw [List.map_cons, List.filter_cons_of_pos (by simpa using hgood), ← h2]
          · intro hl x hx
            cases taken with
            | nil => simp at hx; subst hx; exact hgood
            | cons y t =>
              apply h5 (by simpa using hl)
              simpa [List.getLast?_cons_cons] using hx

/-- The messages are filed under their own keys. -/
def PoolKeyInv (q : Queue F) : Prop := ∀ r ∈ q.msgs.rows, r.1 = r.2.key
/-- Every waiting live-at message is in the index. -/
def PoolLiveInv (q : Queue F) : Prop := ∀ r ∈ q.msgs.rows, ∀ m, r.2.liveAt? = some m → q.live.get m.fid = some r.1
/-- The index has nothing else. -/
def PoolIndexInv (q : Queue F) : Prop :=
  ∀ f k, q.live.get f = some k → ∃ m, (k, PMsg.user m) ∈ q.msgs.rows ∧ isLiveAt m = true ∧ m.fid = f

theorem pullShard_spec {env : PoolEnv} {shard : Nat} {q q' : Queue F} {n : Nat} {got : List (PMsg F)}
    (h : pullShard env shard q n = .ok (got, q')) :
    ∃ taken, q.msgs.rows = taken ++ q'.msgs.rows ∧
      got = (taken.map (·.2)).filter (fun p => decide (Proposable env shard p)) ∧
      got.length ≤ n ∧ (q'.msgs.rows ≠ [] → got.length = n) ∧
      (got.length = n → ∀ x, taken.getLast? = some x → Proposable env shard x.2) ∧ q'.live = unindexAll q.live taken := by
  unfold pullShard at h
  split at h
  · cases h
  · rename_i got' rest live hp
    simp only [Except.ok.injEq, Prod.mk.injEq] at h
    obtain ⟨rfl, rfl⟩ := h
    obtain ⟨taken, h1, h⟩ := pullRows_spec env shard _ _ _ _ _ _ hp
    have hs : OMapL.Sorted rest := by
      have := q.msgs.sorted
      rw [h1] at this
      exact (List.pairwise_append.1 this).2.1
    refine ⟨taken, ?_, ?_⟩
    · rw [ofRows_rows hs]; exact h1
    · rw [ofRows_rows hs]; exact h

theorem pull_keyInv {env : PoolEnv} {shard : Nat} {q q' : Queue F} {n : Nat} {got : List (PMsg F)}
    (h : pullShard env shard q n = .ok (got, q')) (hk : PoolKeyInv q) : PoolKeyInv q' := by
  obtain ⟨taken, h1, _⟩ := pullShard_spec h
  intro r hr
  exact hk r (by rw [h1]; exact List.mem_append_right _ hr)

theorem taken_ne {q q' : Queue F} {taken : List (MKey × PMsg F)} (h1 : q.msgs.rows = taken ++ q'.msgs.rows)
    {r : MKey × PMsg F} (hr : r ∈ q'.msgs.rows) : ∀ x ∈ taken, x.1 ≠ r.1 := by
  intro x hx e
  have := q.msgs.sorted
  rw [h1] at this
  have := (List.pairwise_append.1 this).2.2 x hx r hr
  rw [e] at this
  exact StrictOrd.irrefl _ this

theorem pull_liveInv {env : PoolEnv} {shard : Nat} {q q' : Queue F} {n : Nat} {got : List (PMsg F)}
    (h : pullShard env shard q n = .ok (got, q')) (hl : PoolLiveInv q) : PoolLiveInv q' := by
  obtain ⟨taken, h1, _, _, _, _, h6⟩ := pullShard_spec h
  intro r hr m hm
  rw [h6]
  exact unindexAll_keeps taken _ _ (taken_ne h1 hr) (hl r (by rw [h1]; exact List.mem_append_right _ hr) m hm)

theorem pull_indexInv {env : PoolEnv} {shard : Nat} {q q' : Queue F} {n : Nat} {got : List (PMsg F)}
    (h : pullShard env shard q n = .ok (got, q')) (hi : PoolIndexInv q) : PoolIndexInv q' := by
  obtain ⟨taken, h1, _, _, _, _, h6⟩ := pullShard_spec h
  intro f k hk
  rw [h6] at hk
  rcases unindexAll_get taken q.live f with g | g
  · rw [hk] at g
    obtain ⟨m, hm, hlm, hf⟩ := hi f k g.symm
    rw [h1] at hm
    rcases List.mem_append.1 hm with hm | hm
    · refine absurd hk ?_
      rw [← hf]
      exact unindexAll_hit (liveAt_user hlm) taken _ hm
    · exact ⟨m, hm, hlm, hf⟩
  · rw [hk] at g; cases g

/-! Committed messages. -/

theorem removeOne_keyInv {q : Queue F} {p : PMsg F} (h : PoolKeyInv q) : PoolKeyInv (removeOne q p) :=
  fun r hr => h r (OMapL.mem_del hr)

theorem mem_del_iff {q : OMap MKey (PMsg F)} {k : MKey} {r : MKey × PMsg F} :
    r ∈ (q.del k).rows ↔ r ∈ q.rows ∧ r.1 ≠ k := by
  obtain ⟨k', v⟩ := r
  rw [← OMap.get_eq_some_iff, ← OMap.get_eq_some_iff]
  by_cases e : k' = k
  · subst e; simp
  · rw [OMap.get_del_ne _ e]; simp [e]

theorem mem_put_iff {q : OMap MKey (PMsg F)} {k : MKey} {p : PMsg F} {r : MKey × PMsg F} :
    r ∈ (q.put k p).rows ↔ r = (k, p) ∨ (r ∈ q.rows ∧ r.1 ≠ k) := by
  obtain ⟨k', v⟩ := r
  rw [← OMap.get_eq_some_iff, ← OMap.get_eq_some_iff]
  by_cases e : k' = k
  · subst e; simp [eq_comm]
  · rw [OMap.get_put_ne _ _ e]; simp [e]

theorem removeOne_liveInv {q : Queue F} {p : PMsg F} (h : PoolLiveInv q) : PoolLiveInv (removeOne q p) := by
  intro r hr m hm
  obtain ⟨hr, hne⟩ := mem_del_iff.1 hr
  have := h r hr m hm
  show (unindexLive q.live p.key p).get m.fid = some r.1
  rcases unindex_get (live := q.live) (key := p.key) (p := p) m.fid with g | g
  · rw [g]; exact this
  · rw [this] at g; exact absurd (Option.some.inj g.2.1) hne

theorem removeOne_indexInv {q : Queue F} {p : PMsg F} (h : PoolIndexInv q)
    (hp : ∀ r ∈ q.msgs.rows, r.1 = p.key → r.2 = p) : PoolIndexInv (removeOne q p) := by
  intro f k hk
  have hk : (unindexLive q.live p.key p).get f = some k := hk
  rcases unindex_get (live := q.live) (key := p.key) (p := p) f with g | g
  · rw [hk] at g
    obtain ⟨m, hm, hlm, hf⟩ := h f k g.symm
    refine ⟨m, mem_del_iff.2 ⟨hm, ?_⟩, hlm, hf⟩
    intro e
    have e : k = p.key := e
    subst e
    have := hp _ hm rfl
    have hl : p.liveAt? = some m := by rw [← this]; exact liveAt_user hlm
    rw [← hf] at hk
    exact unindex_hit hl hk
  · rw [hk] at g; cases g.1

theorem removeCommitted_keyInv (ps : List (PMsg F)) : ∀ {q : Queue F}, PoolKeyInv q → PoolKeyInv (removeCommitted q ps) := by
  induction ps with
  | nil => intro q h; exact h
  | cons p ps ih => intro q h; exact ih (removeOne_keyInv h)

theorem removeCommitted_liveInv (ps : List (PMsg F)) : ∀ {q : Queue F}, PoolLiveInv q → PoolLiveInv (removeCommitted q ps) := by
  induction ps with
  | nil => intro q h; exact h
  | cons p ps ih => intro q h; exact ih (removeOne_liveInv h)

theorem removeCommitted_rows (ps : List (PMsg F)) : ∀ {q : Queue F} {r : MKey × PMsg F},
    r ∈ (removeCommitted q ps).msgs.rows ↔ r ∈ q.msgs.rows ∧ ∀ p ∈ ps, r.1 ≠ p.key := by
  induction ps with
  | nil => intro q r; simp [removeCommitted]
  | cons p ps ih =>
    intro q r
    show r ∈ (removeCommitted (removeOne q p) ps).msgs.rows ↔ _
    rw [ih]
    show (r ∈ (q.msgs.del p.key).rows ∧ _) ↔ _
    rw [mem_del_iff]
    simp [and_assoc]

theorem removeCommitted_indexInv (ps : List (PMsg F)) : ∀ {q : Queue F}, PoolIndexInv q →
    (∀ p ∈ ps, ∀ r ∈ q.msgs.rows, r.1 = p.key → r.2 = p) → PoolIndexInv (removeCommitted q ps) := by
  induction ps with
  | nil => intro q h _; exact h
  | cons p ps ih =>
    intro q h hp
    refine ih (removeOne_indexInv h (hp p List.mem_cons_self)) ?_
    intro p' hp' r hr
    exact hp p' (List.mem_cons_of_mem _ hp') r (OMapL.mem_del hr)

/-! Offered messages. -/

/-- What an offered message does to the queue. -/
theorem insertShard_cases (env : PoolEnv) (limited : Bool) (shard : Nat) (q : Queue F) (p : PMsg F) :
    (∃ e, (insertShard env limited shard q p).1 = .error e ∧
      (insertShard env limited shard q p).2.msgs = q.msgs ∧
      ((insertShard env limited shard q p).2.live = q.live ∨
        (insertShard env limited shard q p).2.live = (prepareLive q p).2)) ∨
    ((insertShard env limited shard q p).1 = .ok () ∧ q.msgs.get p.key = none ∧ stillValid env shard p = .ok () ∧
      limited = false ∧
      ∃ old, (prepareLive q p).1 = .ok old ∧
        (insertShard env limited shard q p).2 = ⟨(dropOld q.msgs old).put p.key p, indexLive (prepareLive q p).2 p⟩) := by
  unfold insertShard
  split
  · exact .inl ⟨_, rfl, rfl, .inl rfl⟩
  · rename_i hnone
    split
    · rename_i e live hp; exact .inl ⟨e, rfl, rfl, .inr (by rw [hp])⟩
    · rename_i old live hp
      split
      · rename_i e ha; exact .inl ⟨e, rfl, rfl, .inr (by rw [hp])⟩
      · rename_i ha
        unfold admissible at ha
        split at ha
        · cases ha
        · rename_i hv
          cases limited with
          | true => simp at ha
          | false => exact .inr ⟨rfl, hnone, hv, rfl, old, by rw [hp], by rw [hp]⟩

/-- With an exact index, `prepareLive` changes nothing in it and names exactly the waiting message of that user. -/
theorem prepareLive_spec {q : Queue F} (hi : PoolIndexInv q) (p : PMsg F) :
    (prepareLive q p).2 = q.live ∧
    (((prepareLive q p).1 = .ok none ∧ ∀ m, p.liveAt? = some m → q.live.get m.fid = none) ∨
      ∃ m old k, p.liveAt? = some m ∧ q.live.get m.fid = some k ∧ (k, PMsg.user old) ∈ q.msgs.rows ∧
        isLiveAt old = true ∧ old.fid = m.fid ∧
        (((prepareLive q p).1 = .ok (some k) ∧ liveAtCompare old m ≤ 0) ∨
          ((prepareLive q p).1 = .error .duplicate ∧ liveAtCompare old m > 0))) := by
  unfold prepareLive
  cases hm : p.liveAt? with
  | none => exact ⟨rfl, .inl ⟨rfl, by simp⟩⟩
  | some m =>
    simp only
    cases hk : q.live.get m.fid with
    | none =>
      refine ⟨rfl, .inl ⟨rfl, ?_⟩⟩
      intro m' hm'
      cases hm'; exact hk
    | some k =>
      obtain ⟨old, ho, hol, hof⟩ := hi _ _ hk
      have hg : q.msgs.get k = some (.user old) := OMap.get_eq_some_iff _ |>.2 ho
      simp only [hg]
      split
      · rename_i hc
        exact ⟨rfl, .inr ⟨m, old, k, rfl, hk, ho, hol, hof, .inr ⟨rfl, hc⟩⟩⟩
      · rename_i hc
        exact ⟨rfl, .inr ⟨m, old, k, rfl, hk, ho, hol, hof, .inl ⟨rfl, by omega⟩⟩⟩

theorem dropOld_rows {q : OMap MKey (PMsg F)} {old : Option MKey} {r : MKey × PMsg F} :
    r ∈ (dropOld q old).rows ↔ r ∈ q.rows ∧ old ≠ some r.1 := by
  cases old with
  | none => simp [dropOld]
  | some k =>
    show r ∈ (q.del k).rows ↔ _
    rw [mem_del_iff]
    simp [eq_comm]

theorem insert_keyInv {env : PoolEnv} {limited : Bool} {shard : Nat} {q : Queue F} {p : PMsg F} (h : PoolKeyInv q) :
    PoolKeyInv (insertShard env limited shard q p).2 := by
  rcases insertShard_cases env limited shard q p with ⟨e, _, h2, _⟩ | ⟨_, _, _, _, old, _, h2⟩
  · intro r hr; rw [h2] at hr; exact h r hr
  · rw [h2]
    intro r hr
    rcases mem_put_iff.1 hr with hr | hr
    · rw [hr]
    · exact h r (dropOld_rows.1 hr.1).1

/-- If the index had an entry for the user of a live-at message, the row under it is the one replaced. -/
theorem prepareLive_replaces {q : Queue F} {p : PMsg F} {m : Msg} {old : Option MKey} {r : MKey × PMsg F}
    (hl : PoolLiveInv q) (hm : p.liveAt? = some m) (h : (prepareLive q p).1 = .ok old) (hr : r ∈ q.msgs.rows)
    {m' : Msg} (hm' : r.2.liveAt? = some m') (hf : m'.fid = m.fid) : old = some r.1 := by
  have hk := hl r hr m' hm'
  rw [hf] at hk
  have hg : q.msgs.get r.1 = some r.2 := OMap.get_eq_some_iff _ |>.2 hr
  unfold prepareLive at h
  rw [hm] at h
  simp only [hk] at h
  rw [(liveAt_some hm').1] at hg
  simp only [hg] at h
  split at h
  · cases h
  · simp only [Except.ok.injEq] at h; exact h.symm

theorem prepareLive_live {q : Queue F} {p : PMsg F} (f : Nat) (h : ∀ m, p.liveAt? = some m → m.fid ≠ f) :
    (prepareLive q p).2.get f = q.live.get f := by
  unfold prepareLive
  split
  · rfl
  · rename_i m hm
    have hne := h m hm
    split
    · rfl
    · split
      · exact OMap.get_del_ne _ (fun e => hne e.symm)
      · split <;> rfl
      · exact OMap.get_del_ne _ (fun e => hne e.symm)

theorem prepareLive_liveInv {q : Queue F} {p : PMsg F} (hl : PoolLiveInv q) :
    PoolLiveInv ⟨q.msgs, (prepareLive q p).2⟩ := by
  intro r hr m' hm'
  have hk := hl r hr m' hm'
  show (prepareLive q p).2.get m'.fid = some r.1
  have hg : q.msgs.get r.1 = some r.2 := OMap.get_eq_some_iff _ |>.2 hr
  rw [(liveAt_some hm').1] at hg
  unfold prepareLive
  split
  · exact hk
  · rename_i m hm
    by_cases e : m'.fid = m.fid
    · rw [e] at hk
      simp only [hk, hg]
      split <;> (rw [e]; exact hk)
    · split
      · exact hk
      · split
        · rw [OMap.get_del_ne _ e]; exact hk
        · split <;> exact hk
        · rw [OMap.get_del_ne _ e]; exact hk

theorem insert_liveInv {env : PoolEnv} {limited : Bool} {shard : Nat} {q : Queue F} {p : PMsg F} (h : PoolLiveInv q) :
    PoolLiveInv (insertShard env limited shard q p).2 := by
  rcases insertShard_cases env limited shard q p with ⟨e, _, h2, h3⟩ | ⟨_, hnone, _, _, old, hold, h2⟩
  · intro r hr m hm
    rw [h2] at hr
    rcases h3 with h3 | h3
    · rw [h3]; exact h r hr m hm
    · rw [h3]; exact prepareLive_liveInv h r hr m hm
  · rw [h2]
    intro r hr m' hm'
    show (indexLive (prepareLive q p).2 p).get m'.fid = some r.1
    rcases mem_put_iff.1 hr with hr | hr
    · subst hr
      unfold indexLive
      rw [hm']
      simp only
      rw [OMap.get_put_self]
      have := (liveAt_some hm').1
      simp only at this
      rw [this]; rfl
    · obtain ⟨hr1, hr2⟩ := dropOld_rows.1 hr.1
      have hp := prepareLive_liveInv (p := p) h r hr1 m' hm'
      unfold indexLive
      split
      · exact hp
      · rename_i m hm
        by_cases e : m'.fid = m.fid
        · exact absurd (prepareLive_replaces h hm hold hr1 hm' e) hr2
        · rw [OMap.get_put_ne _ _ e]; exact hp

theorem insert_indexInv {env : PoolEnv} {limited : Bool} {shard : Nat} {q : Queue F} {p : PMsg F} (hk : PoolKeyInv q)
    (h : PoolIndexInv q) : PoolIndexInv (insertShard env limited shard q p).2 := by
  obtain ⟨hp2, hpr⟩ := prepareLive_spec h p
  rcases insertShard_cases env limited shard q p with ⟨e, _, h2, h3⟩ | ⟨_, hnone, _, _, old, hold, h2⟩
  · rw [hp2] at h3
    have h3 : (insertShard env limited shard q p).2.live = q.live := by rcases h3 with h | h <;> exact h
    intro f k hf
    rw [h3] at hf
    obtain ⟨m, hm, hx⟩ := h f k hf
    exact ⟨m, by rw [h2]; exact hm, hx⟩
  · rw [h2]
    intro f k hf
    have hf : (indexLive (prepareLive q p).2 p).get f = some k := hf
    rw [hp2] at hf
    show ∃ m, (k, PMsg.user m) ∈ ((dropOld q.msgs old).put p.key p).rows ∧ _
    have hput : ∀ m k, (k, PMsg.user m) ∈ q.msgs.rows → old ≠ some k →
        (k, PMsg.user m) ∈ ((dropOld q.msgs old).put p.key p).rows := by
      intro m k hm ho
      refine mem_put_iff.2 (.inr ⟨dropOld_rows.2 ⟨hm, ho⟩, ?_⟩)
      intro e
      have e : k = p.key := e
      rw [e] at hm
      rw [OMap.get_eq_some_iff _ |>.2 hm] at hnone
      cases hnone
    unfold indexLive at hf
    cases hm : p.liveAt? with
    | none =>
      rw [hm] at hf
      simp only at hf
      obtain ⟨m, hm', hlm, hff⟩ := h f k hf
      refine ⟨m, hput m k hm' ?_, hlm, hff⟩
      rcases hpr with hpr | ⟨_, _, _, hx, _⟩
      · rw [hpr.1] at hold
        cases hold; simp
      · rw [hm] at hx; cases hx
    | some m0 =>
      rw [hm] at hf
      simp only at hf
      by_cases e : f = m0.fid
      · rw [e, OMap.get_put_self] at hf
        cases hf
        obtain ⟨hpu, hpl⟩ := liveAt_some hm
        exact ⟨m0, mem_put_iff.2 (.inl (by rw [hpu]; rfl)), hpl, e.symm⟩
      · rw [OMap.get_put_ne _ _ e] at hf
        obtain ⟨m, hm', hlm, hff⟩ := h f k hf
        refine ⟨m, hput m k hm' ?_, hlm, hff⟩
        intro ho
        subst ho
        rcases hpr with hpr | ⟨m1, old1, k1, hx1, hx2, hx3, hx4, hx5, hx6⟩
        · rw [hpr.1] at hold; cases hold
        · rw [hm] at hx1
          cases hx1
          rcases hx6 with ⟨hx6, _⟩ | ⟨hx6, _⟩
          · rw [hx6] at hold
            simp only [Except.ok.injEq, Option.some.injEq] at hold
            subst hold
            have e1 := (OMap.get_eq_some_iff _ |>.2 hx3).symm.trans (OMap.get_eq_some_iff _ |>.2 hm')
            simp only [Option.some.injEq, PMsg.user.injEq] at e1
            subst e1
            exact e (hff.symm.trans hx5)
          · rw [hx6] at hold; cases hold

/-! Histories. -/

/-- What holds of every queue a history leads to. -/
structure PoolInv (S : PMsg F → Prop) (q : Queue F) : Prop where
  keys : PoolKeyInv q
  live : PoolLiveInv q
  source : ∀ r ∈ q.msgs.rows, S r.2

theorem noMessages_inv (S : PMsg F → Prop) : PoolInv S (noMessages : Queue F) ∧ PoolIndexInv (noMessages : Queue F) := by
  refine ⟨⟨?_, ?_, ?_⟩, ?_⟩
  · intro r hr; cases hr
  · intro r hr; cases hr
  · intro r hr; cases hr
  · intro f k h; cases h

theorem poolStep_inv {S : PMsg F → Prop} {shard : Nat} {q q' : Queue F} {op : PoolOp F} {a : PoolAnswer F}
    (h : poolStep shard q op = some (a, q')) (hS : ∀ p ∈ opMsgs op, S p) (hi : PoolInv S q) : PoolInv S q' := by
  cases op with
  | offer env limited p =>
    have hq : q' = (insertShard env limited shard q p).2 := by
      simp only [poolStep] at h
      split at h
      · cases h
      · rename_i r q1 _ hr
        simp only [Option.some.injEq, Prod.mk.injEq] at h
        rw [hr]; exact h.2.symm
    subst hq
    refine ⟨insert_keyInv hi.keys, insert_liveInv hi.live, ?_⟩
    intro r hr
    rcases insertShard_cases env limited shard q p with ⟨e, _, h2, h3⟩ | ⟨_, hnone, _, _, old, hold, h2⟩
    · rw [h2] at hr; exact hi.source r hr
    · rw [h2] at hr
      rcases mem_put_iff.1 hr with hr | hr
      · rw [hr]; exact hS p (List.mem_singleton.2 rfl)
      · exact hi.source r (dropOld_rows.1 hr.1).1
  | pull env n =>
    simp only [poolStep] at h
    split at h
    · cases h
    · rename_i ps q1 hp
      simp only [Option.some.injEq, Prod.mk.injEq] at h
      obtain ⟨_, rfl⟩ := h
      refine ⟨pull_keyInv hp hi.keys, pull_liveInv hp hi.live, ?_⟩
      intro r hr
      obtain ⟨taken, h1, _⟩ := pullShard_spec hp
      exact hi.source r (by rw [h1]; exact List.mem_append_right _ hr)
  | decided ps =>
    simp only [poolStep, Option.some.injEq, Prod.mk.injEq] at h
    obtain ⟨_, rfl⟩ := h
    refine ⟨removeCommitted_keyInv ps hi.keys, removeCommitted_liveInv ps hi.live, ?_⟩
    intro r hr
    exact hi.source r ((removeCommitted_rows ps).1 hr).1

theorem poolStep_index {S : PMsg F → Prop} (hd : ∀ p p', S p → S p' → p.key = p'.key → p = p') {shard : Nat}
    {q q' : Queue F} {op : PoolOp F} {a : PoolAnswer F}
    (h : poolStep shard q op = some (a, q')) (hS : ∀ p ∈ opMsgs op, S p) (hi : PoolInv S q) (hx : PoolIndexInv q) :
    PoolIndexInv q' := by
  cases op with
  | offer env limited p =>
    have hq : q' = (insertShard env limited shard q p).2 := by
      simp only [poolStep] at h
      split at h
      · cases h
      · rename_i r q1 _ hr
        simp only [Option.some.injEq, Prod.mk.injEq] at h
        rw [hr]; exact h.2.symm
    subst hq
    exact insert_indexInv hi.keys hx
  | pull env n =>
    simp only [poolStep] at h
    split at h
    · cases h
    · rename_i ps q1 hp
      simp only [Option.some.injEq, Prod.mk.injEq] at h
      obtain ⟨_, rfl⟩ := h
      exact pull_indexInv hp hx
  | decided ps =>
    simp only [poolStep, Option.some.injEq, Prod.mk.injEq] at h
    obtain ⟨_, rfl⟩ := h
    refine removeCommitted_indexInv ps hx ?_
    intro p hp r hr e
    exact hd _ _ (hi.source r hr) (hS p hp) ((hi.keys r hr).symm.trans e)

theorem poolRun_inv {S : PMsg F → Prop} {shard : Nat} (ops : List (PoolOp F)) : ∀ {q q' : Queue F},
    poolRun shard q ops = some q' → (∀ op ∈ ops, ∀ p ∈ opMsgs op, S p) → PoolInv S q → PoolInv S q' := by
  induction ops with
  | nil => intro q q' h _ hi; simp only [poolRun, Option.some.injEq] at h; exact h ▸ hi
  | cons op ops ih =>
    intro q q' h hS hi
    simp only [poolRun] at h
    split at h
    · cases h
    · rename_i a q1 hs
      exact ih h (fun o ho => hS o (List.mem_cons_of_mem _ ho)) (poolStep_inv hs (hS op List.mem_cons_self) hi)

theorem poolRun_index {S : PMsg F → Prop} (hd : ∀ p p', S p → S p' → p.key = p'.key → p = p') {shard : Nat}
    (ops : List (PoolOp F)) : ∀ {q q' : Queue F},
    poolRun shard q ops = some q' → (∀ op ∈ ops, ∀ p ∈ opMsgs op, S p) → PoolInv S q → PoolIndexInv q → PoolIndexInv q' := by
  induction ops with
  | nil => intro q q' h _ _ hx; simp only [poolRun, Option.some.injEq] at h; exact h ▸ hx
  | cons op ops ih =>
    intro q q' h hS hi hx
    simp only [poolRun] at h
    split at h
    · cases h
    · rename_i a q1 hs
      exact ih h (fun o ho => hS o (List.mem_cons_of_mem _ ho)) (poolStep_inv hs (hS op List.mem_cons_self) hi)
        (poolStep_index hd hs (hS op List.mem_cons_self) hi hx)

theorem reach_inv {shard : Nat} {ops : List (PoolOp F)} {q : Queue F} (h : poolRun shard noMessages ops = some q) :
    PoolInv (fun p => ∃ op ∈ ops, p ∈ opMsgs op) q :=
  poolRun_inv ops h (fun op ho p hp => ⟨op, ho, hp⟩) (noMessages_inv _).1

theorem reach_index {shard : Nat} {ops : List (PoolOp F)} {q : Queue F} (h : poolRun shard noMessages ops = some q)
    (hd : PlacesDiffer ops) : PoolIndexInv q := by
  refine poolRun_index (S := fun p => ∃ op ∈ ops, p ∈ opMsgs op) ?_ ops h (fun op ho p hp => ⟨op, ho, hp⟩)
    (noMessages_inv _).1 (noMessages_inv (fun _ => True)).2
  intro p p' ⟨o, ho, hp⟩ ⟨o', ho', hp'⟩ e
  exact hd o ho o' ho' p hp p' hp' e

end Verif
