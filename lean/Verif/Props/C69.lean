import Verif.Props.C57
/-!
C69.  Where offered messages go, and how many may wait.
-/
namespace Verif
open Spec
variable {F : Type}

theorem pool_queue_put (pool : Pool F) (s s' : Nat) (q : Queue F) :
    Pool.queue (pool.put s q) s' = if s' = s then q else pool.queue s' := by
  unfold Pool.queue
  by_cases e : s' = s
  · subst e; rw [OMap.get_put_self]; simp
  · rw [OMap.get_put_ne _ _ e, if_neg e]

/-- The shards a message is sent to are the block shard 0 or the data shards 1 to `n`, no shard twice. -/
theorem C69_routes {sha256 : Bytes → Bytes} {version : EngineVersion} {n : Nat} {p : PMsg F} {shards : List Nat}
    (h : routes sha256 version n p = some shards) (hb : ∀ s h d, p = .blockEvent s h d → s ≤ n) :
    shards ≠ [] ∧ shards.Nodup ∧ ∀ s ∈ shards, s ≤ n := by
  have hfid : ∀ {fid s}, routeFid sha256 fid n = some s → 1 ≤ s ∧ s ≤ n := by
    intro fid s hs
    unfold routeFid at hs
    simp only at hs
    split at hs
    · cases hs
    · rename_i hn
      simp only [Option.some.injEq] at hs
      have := Nat.mod_lt (fromBe ((sha256 (be 4 (fid % 2 ^ 32))).take 4)) (Nat.pos_of_ne_zero hn)
      omega
  unfold routes at h
  split at h
  · cases h
  · rename_i s hs
    have hs := hfid hs
    split at h
    · split at h <;> simp only [Option.some.injEq] at h <;> subst h
      · refine ⟨?_, ?_, ?_⟩
        · intro e
          have := congrArg List.length e
          simp at this
          omega
        · refine List.pairwise_map.2 (List.nodup_range.imp ?_)
          intro a b h e; omega
        · intro x hx
          simp only [List.mem_map, List.mem_range] at hx
          omega
      · simp; omega
    · simp only [Option.some.injEq] at h; subst h; simp
    · simp only [Option.some.injEq] at h; subst h; simp; omega
    · simp only [Option.some.injEq] at h; subst h
      rename_i s' h' d'
      simp; exact hb s' h' d' rfl
    · rename_i m
      rw [Option.map_eq_some_iff] at h
      obtain ⟨x, hx, rfl⟩ := h
      simp
      unfold routeMessage at hx
      split at hx
      all_goals first
        | (simp only [Option.some.injEq] at hx; omega)
        | (split at hx <;> first
            | (simp only [Option.some.injEq] at hx; omega)
            | exact (hfid hx).2)
        | exact (hfid hx).2

/-- An offered message changes no other queue than those it is routed to; in each of those, the effect is that of
offering it to that queue; the answer is "accepted" exactly if every one of them accepted it. -/
theorem C69_offer_reaches_each_shard {env : PoolEnv} {limited : Bool} {p : PMsg F} (shards : List Nat)
    (pool : Pool F) (hn : shards.Nodup) :
    let r := insertAll env limited p pool shards
    (∀ s, s ∉ shards → r.2.queue s = pool.queue s) ∧
    (∀ s ∈ shards, r.2.queue s = (insertShard env limited s (pool.queue s) p).2) ∧
    (r.1 = .ok () ↔ ∀ s ∈ shards, (insertShard env limited s (pool.queue s) p).1 = .ok ()) := by
  induction shards generalizing pool with
  | nil => simp [insertAll]
  | cons s shards ih =>
    obtain ⟨hs, hn⟩ := List.nodup_cons.1 hn
    obtain ⟨h1, h2, h3⟩ := ih (pool.put s (insertShard env limited s (pool.queue s) p).2) hn
    have e2 : (insertAll env limited p pool (s :: shards)).2 =
        (insertAll env limited p (pool.put s (insertShard env limited s (pool.queue s) p).2) shards).2 := by
      simp only [insertAll]
      split <;> rfl
    have hq : ∀ x ∈ shards, Pool.queue (pool.put s (insertShard env limited s (pool.queue s) p).2) x = pool.queue x := by
      intro x hx
      rw [pool_queue_put, if_neg]
      intro e; subst e; exact hs hx
    refine ⟨?_, ?_, ?_⟩
    · intro x hx
      rw [e2, h1 x (fun h => hx (List.mem_cons_of_mem _ h)), pool_queue_put, if_neg]
      intro e; subst e; exact hx List.mem_cons_self
    · intro x hx
      rw [e2]
      rcases List.mem_cons.1 hx with rfl | hx
      · rw [h1 _ hs, pool_queue_put, if_pos rfl]
      · rw [h2 x hx, hq x hx]
    · have h3' : (insertAll env limited p (pool.put s (insertShard env limited s (pool.queue s) p).2) shards).1 = .ok () ↔
          ∀ x ∈ shards, (insertShard env limited x (pool.queue x) p).1 = .ok () := by
        rw [h3]
        constructor
        · intro h x hx; have := h x hx; rw [hq x hx] at this; exact this
        · intro h x hx; rw [hq x hx]; exact h x hx
      simp only [insertAll, List.mem_cons, forall_eq_or_imp]
      split
      · rename_i hr
        rw [hr]
        simp only [true_and]
        exact h3'
      · rename_i e hr
        rw [hr]
        simp

/-- messages in a queue, if there is one -/
def queueLen (o : Option (Queue F)) : Nat := match o with | some q => q.msgs.rows.length | none => 0

theorem sum_put (pool : List (Nat × Queue F)) (hs : OMapL.Sorted pool) (s : Nat) (q : Queue F) :
    ((OMapL.put s q pool).map (fun r => r.2.msgs.rows.length)).sum + queueLen (OMapL.get s pool) =
    (pool.map (fun r => r.2.msgs.rows.length)).sum + q.msgs.rows.length := by
  induction pool with
  | nil => simp [OMapL.put, OMapL.get, queueLen]
  | cons a pool ih =>
    obtain ⟨k, v⟩ := a
    obtain ⟨h1, h2⟩ := List.pairwise_cons.1 hs
    have ih := ih h2
    simp only [OMapL.put]
    split
    · rename_i hlt
      have hn : OMapL.get s ((k, v) :: pool) = none := by
        apply OMapL.get_none_of_lt
        intro x hx
        rcases List.mem_cons.1 hx with e | hx
        · rw [e]; exact hlt
        · exact StrictOrd.trans hlt (h1 x hx)
      rw [hn]
      simp only [List.map_cons, List.sum_cons, queueLen]
      omega
    · rename_i hlt
      split
      · rename_i hgt
        have hg : OMapL.get s ((k, v) :: pool) = OMapL.get s pool := by simp [OMapL.get, hgt]
        rw [hg]
        simp only [List.map_cons, List.sum_cons]
        omega
      · rename_i hgt
        have hg : OMapL.get s ((k, v) :: pool) = some v := by simp [OMapL.get, hlt, hgt]
        rw [hg]
        simp only [List.map_cons, List.sum_cons, queueLen]
        omega

theorem put_length {V : Type} (m : OMap MKey V) (k : MKey) (v : V) : (m.put k v).rows.length ≤ m.rows.length + 1 := by
  show (OMapL.put k v m.rows).length ≤ _
  induction m.rows with
  | nil => simp [OMapL.put]
  | cons a l ih =>
    simp only [OMapL.put]
    split
    · simp
    · split <;> simp [ih]

theorem dropOld_length (m : OMap MKey (PMsg F)) (o : Option MKey) : (dropOld m o).rows.length ≤ m.rows.length := by
  cases o with
  | none => exact Nat.le_refl _
  | some k =>
    show (OMapL.del k m.rows).length ≤ _
    induction m.rows with
    | nil => simp [OMapL.del]
    | cons a l ih =>
      simp only [OMapL.del]
      split
      · simp [ih]
      · simp only [List.length_cons]; omega

theorem insertShard_length (env : PoolEnv) (limited : Bool) (shard : Nat) (q : Queue F) (p : PMsg F) :
    (insertShard env limited shard q p).2.msgs.rows.length ≤ q.msgs.rows.length + 1 := by
  rcases insertShard_cases env limited shard q p with ⟨e, _, h2, _⟩ | ⟨_, _, _, _, old, _, h2⟩
  · rw [h2]; omega
  · rw [h2]
    have := put_length (dropOld q.msgs old) p.key p
    have := dropOld_length q.msgs old
    simp only
    omega

theorem insertAll_size (env : PoolEnv) (limited : Bool) (p : PMsg F) (shards : List Nat) : ∀ pool : Pool F,
    (insertAll env limited p pool shards).2.size ≤ pool.size + shards.length := by
  induction shards with
  | nil => intro pool; simp [insertAll]
  | cons s shards ih =>
    intro pool
    have e2 : (insertAll env limited p pool (s :: shards)).2 =
        (insertAll env limited p (pool.put s (insertShard env limited s (pool.queue s) p).2) shards).2 := by
      simp only [insertAll]
      split <;> rfl
    rw [e2]
    have h := ih (pool.put s (insertShard env limited s (pool.queue s) p).2)
    have h1 := sum_put pool.rows pool.sorted s (insertShard env limited s (pool.queue s) p).2
    have h2 := insertShard_length env limited s (pool.queue s) p
    have h3 : queueLen (OMapL.get s pool.rows) = (pool.queue s).msgs.rows.length := by
      unfold Pool.queue
      show queueLen (pool.get s) = _
      cases pool.get s <;> rfl
    have h4 : Pool.size (pool.put s (insertShard env limited s (pool.queue s) p).2) =
        ((OMapL.put s (insertShard env limited s (pool.queue s) p).2 pool.rows).map
          (fun r => r.2.msgs.rows.length)).sum := rfl
    have h5 : pool.size = (pool.rows.map (fun r => r.2.msgs.rows.length)).sum := rfl
    simp only [List.length_cons]
    omega

/-- With a limit, one tick leaves at most the larger of what waited before and the limit plus 256 times the number of
shards a message may go to. -/
theorem C69_capacity {capacity k : Nat} {pool : Pool F} {inbox : List (Offer F)}
    (hk : ∀ o ∈ inbox, o.shards.length ≤ k) :
    (poolTick false capacity pool inbox).size ≤ max pool.size (capacity - 1 + 256 * k) := by
  have hfold : ∀ (l : List (Offer F)) (pool : Pool F), (∀ o ∈ l, o.shards.length ≤ k) →
      (l.foldl (fun pool o => (insertAll o.env o.limited o.msg pool o.shards).2) pool).size ≤
        pool.size + l.length * k := by
    intro l
    induction l with
    | nil => intro pool _; simp
    | cons o l ih =>
      intro pool h
      simp only [List.foldl_cons, List.length_cons]
      have h1 := ih (insertAll o.env o.limited o.msg pool o.shards).2 (fun x hx => h x (List.mem_cons_of_mem _ hx))
      have h2 := insertAll_size o.env o.limited o.msg o.shards pool
      have h3 := h o List.mem_cons_self
      have h4 : (l.length + 1) * k = l.length * k + k := by rw [Nat.add_mul, Nat.one_mul]
      omega
  unfold poolTick
  split
  · rename_i hc
    have hc : pool.size < capacity := by simpa using hc
    have h1 := hfold (inbox.take 256) pool (fun o ho => hk o (List.mem_of_mem_take ho))
    have h2 : (inbox.take 256).length * k ≤ 256 * k := Nat.mul_le_mul_right _ (by rw [List.length_take]; omega)
    omega
  · omega

section Examples

private def env2 : PoolEnv := ⟨.v21, fun _ => some (some 8), fun _ => some OMap.empty⟩
private def c2 (fid ts : Nat) (h : UInt8) : PMsg Unit :=
  .user { fid := fid, ty := .castAdd, ts := ts, hash := List.replicate 20 h, body := .castAdd none [] }
private def rent2 : PMsg Unit := .onchain (List.replicate 32 7) ⟨3, 5, 1000, 0, 12, 1700000000, .storageRent 2⟩

/-- With sha256 replaced by the identity and two data shards, user 5's cast goes to shard 2, user 6's to shard 1, and an
on-chain event of user 5 to shards 0 and 2. -/
example : routes id .v21 2 (c2 5 1 1) = some [2] ∧ routes id .v21 2 (c2 6 1 1) = some [1] ∧
    routes id .v21 2 rent2 = some [0, 2] := by decide +kernel

/-- An on-chain event already waiting in shard 0 but no longer in shard 2 is put into shard 2 again, and the answer is
an error all the same. -/
example : let pool : Pool Unit := OMap.empty.put 0 (insertShard env2 false 0 noMessages rent2).2
    (insertAll env2 false rent2 pool [0, 2]).1.toOption = none ∧
      ((insertAll env2 false rent2 pool [0, 2]).2.queue 2).msgs.rows.map (·.2) = [rent2] := by decide +kernel

end Examples

/-- The limit, called a capacity per shard, counts the messages of all shards together: two messages waiting in shard 1
keep a message for the empty shard 2 out, with a capacity of two. -/
theorem C69_full_shard_keeps_others_out :
    ∃ (pool : Pool Unit) (o : Offer Unit), (pool.queue 2).msgs.rows = [] ∧ o.shards = [2] ∧
      (insertAll o.env o.limited o.msg pool o.shards).1.toOption.isSome = true ∧
      ((poolTick false 2 pool [o]).queue 2).msgs.rows = [] := by
  refine ⟨OMap.empty.put 1 (insertShard env2 false 1 (insertShard env2 false 1 noMessages (c2 6 1 1)).2 (c2 6 2 2)).2,
    ⟨env2, false, c2 5 1 1, [2]⟩, by decide +kernel, rfl, by decide +kernel, by decide +kernel⟩

/-- And it is checked only once per tick: three messages enter an empty mempool with a capacity of one. -/
theorem C69_limit_exceeded_within_a_tick :
    ∃ (inbox : List (Offer Unit)), (poolTick false 1 (OMap.empty : Pool Unit) inbox).size = 3 := by
  exact ⟨[⟨env2, false, c2 5 1 1, [2]⟩, ⟨env2, false, c2 5 2 2, [2]⟩, ⟨env2, false, c2 5 3 3, [2]⟩], by decide +kernel⟩

end Verif
