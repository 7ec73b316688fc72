import Verif.Lemmas.MempoolKeys
/-!
C57.  The mempool hands out system messages first and loses nothing.
-/
namespace Verif
open Spec
variable {F : Type}

/-- A proposer that asks for `n` messages gets the valid ones of a first part of the queue, in queue order: at most
`n`, and exactly `n` unless the queue runs empty.  That part ends with the `n`th valid message.  The rest of the queue
stays as it was. -/
theorem C57_pull_exact {env : PoolEnv} {shard n : Nat} {q q' : Queue F} {got : List (PMsg F)}
    (h : pullShard env shard q n = .ok (got, q')) :
    ∃ taken, q.msgs.rows.map (·.2) = taken ++ q'.msgs.rows.map (·.2) ∧
      got = taken.filter (fun p => decide (Proposable env shard p)) ∧
      got.length ≤ n ∧ (q'.msgs.rows ≠ [] → got.length = n) ∧
      (got.length = n → ∀ p, taken.getLast? = some p → Proposable env shard p) := by
  obtain ⟨taken, h1, h2, h3, h4, h5, _⟩ := pullShard_spec h
  refine ⟨taken.map (·.2), by rw [h1, List.map_append], h2, h3, h4, ?_⟩
  intro hl p hp
  rw [List.getLast?_map, Option.map_eq_some_iff] at hp
  obtain ⟨x, hx, rfl⟩ := hp
  exact h5 hl x hx

theorem heldBy_iff (db : Db SVal) (m : Msg) (h : m.hash.length = 20) :
    HeldBy db m ↔ ∃ th set v, makeTsHash m.ts m.hash = .ok th ∧ setPostfix? m.ty = some set ∧
      db.get (makeMessagePrimaryKey m.fid set (some th)) = some v ∧ v.decodeMsg.isSome = true := by
  have key : ∀ (ty : MessageType) (set : UInt8), setPostfix? ty = some set ↔
      ∃ D ∈ messageStores, (ty = D.addType ∨ (ty = D.removeType ∧ ty ≠ .none)) ∧ D.set = set := by
    intro ty set
    constructor
    · intro e
      cases ty <;> cases e
      all_goals first
        | exact ⟨castStore, by simp [messageStores], by simp [castStore], rfl⟩
        | exact ⟨linkStore, by simp [messageStores], by simp [linkStore], rfl⟩
        | exact ⟨reactionStore (fun _ => none), by simp [messageStores], by simp [reactionStore], rfl⟩
        | exact ⟨verificationStore, by simp [messageStores], by simp [verificationStore], rfl⟩
        | exact ⟨userDataStore, by simp [messageStores], by simp [userDataStore], rfl⟩
        | exact ⟨nameStore, by simp [messageStores], by simp [nameStore], rfl⟩
        | exact ⟨lendStore, by simp [messageStores], by simp [lendStore], rfl⟩
        | exact ⟨ChanKind.store .update, by simp [messageStores], .inl rfl, rfl⟩
        | exact ⟨ChanKind.store .member, by simp [messageStores], .inl rfl, rfl⟩
        | exact ⟨ChanKind.store .pin, by simp [messageStores], .inl rfl, rfl⟩
        | exact ⟨ChanKind.store .moderate, by simp [messageStores], .inl rfl, rfl⟩
    · rintro ⟨D, hD, ht, rfl⟩
      simp only [messageStores, List.mem_cons, List.not_mem_nil, or_false] at hD
      rcases hD with rfl | rfl | rfl | rfl | rfl | rfl | rfl | rfl | rfl | rfl | rfl <;>
        rcases ht with rfl | ⟨rfl, hne⟩ <;> first | rfl | exact absurd rfl hne
  constructor
  · rintro ⟨D, hD, ht, th, v, h1, h2, h3⟩
    exact ⟨th, D.set, v, h1, (key _ _).2 ⟨D, hD, ht, rfl⟩, h2, h3⟩
  · rintro ⟨th, set, v, h1, h2, h3, h4⟩
    obtain ⟨D, hD, ht, rfl⟩ := (key _ _).1 h2
    exact ⟨D, hD, ht, th, v, h1, h3, h4⟩

theorem featureGate_ok_iff (env : PoolEnv) (m : Msg) :
    featureGate env (.user m : PMsg F) = .ok () ↔ FeatureOn env.version m.ty := by
  unfold featureGate FeatureOn
  cases h : m.ty <;> simp [h]

theorem blockEventGate_ok_iff (env : PoolEnv) (s : Nat) (h : Bytes) (d : BData) :
    blockEventGate env (.blockEvent s h d : PMsg F) = .ok () ↔
      s ≠ 0 ∧ ∃ top, env.maxSeq s = some top ∧ ∀ n, top = some n → n < d.seqnum := by
  unfold blockEventGate
  by_cases hs : s = 0
  · simp [hs]
  · simp only [hs, ↓reduceIte, ne_eq, not_false_eq_true, true_and]
    cases env.maxSeq s with
    | none => simp
    | some top => cases top with
      | none => simp
      | some n => by_cases g : d.seqnum ≤ n <;> simp [g] <;> omega

/-- What is handed out: a user message, whose feature the protocol has and that the stores of this shard do not hold;
a block event that is numbered past the highest one its shard has handled; and anything from the chain or the name
server. -/
theorem C57_proposable_iff (env : PoolEnv) (shard : Nat) (p : PMsg F) :
    Proposable env shard p ↔ match p with
      | .user m => FeatureOn env.version m.ty ∧
          ∀ db, env.db shard = some db → m.hash.length = 20 ∧ ¬ HeldBy db m
      | .blockEvent s _ d => s ≠ 0 ∧ ∃ top, env.maxSeq s = some top ∧ ∀ n, top = some n → n < d.seqnum
      | _ => True := by
  unfold Proposable stillValid
  cases p with
  | user m =>
    simp only
    rw [← featureGate_ok_iff (F := F)]
    cases hf : featureGate env (.user m : PMsg F) with
    | error e => simp
    | ok u =>
      simp only [true_and, blockEventGate, alreadyExists]
      cases hdb : env.db shard with
      | none => simp
      | some db =>
        simp only [Option.some.injEq, forall_eq']
        by_cases hl : m.hash.length = 20
        · rw [heldBy_iff db m hl]
          have : ∃ th, makeTsHash m.ts m.hash = .ok th := by
            unfold makeTsHash; simp [hl]
          obtain ⟨th, hth⟩ := this
          simp only [hth, hl, true_and, Except.ok.injEq]
          cases hset : setPostfix? m.ty with
          | none => simp
          | some set =>
            simp only [Option.some.injEq]
            cases hg : db.get (makeMessagePrimaryKey m.fid set (some th)) with
            | none =>
              simp only [true_iff]
              rintro ⟨_, _, v, rfl, rfl, h, _⟩
              rw [hg] at h; cases h
            | some v =>
              cases hd : v.decodeMsg.isSome with
              | false =>
                simp only [hd, true_iff]
                rintro ⟨_, _, v', rfl, rfl, h, h'⟩
                rw [hg] at h; cases h; rw [hd] at h'; cases h'
              | true =>
                simp only [hd, reduceCtorEq, false_iff, Classical.not_not]
                exact ⟨_, _, v, rfl, rfl, hg, hd⟩
        · have : ∃ e, makeTsHash m.ts m.hash = .error e := by
            unfold makeTsHash; simp [hl]
          obtain ⟨e, he⟩ := this
          simp [he, hl]
  | blockEvent s h d =>
    simp only
    rw [← blockEventGate_ok_iff (F := F) env s h d]
    simp only [featureGate]
    cases hb : blockEventGate env (.blockEvent s h d : PMsg F) with
    | error e => simp
    | ok u => cases hd : env.db shard <;> simp [alreadyExists, hd]
  | onchain => cases hd : env.db shard <;> simp [featureGate, blockEventGate, alreadyExists, hd]
  | migration => cases hd : env.db shard <;> simp [featureGate, blockEventGate, alreadyExists, hd]
  | fname => cases hd : env.db shard <;> simp [featureGate, blockEventGate, alreadyExists, hd]

/-- Pulling works unless the mempool holds a user message whose hash does not have 20 bytes or a block event for a
shard this node does not have. -/
theorem C57_pull_works {env : PoolEnv} {shard n : Nat} {q : Queue F}
    (hh : ∀ m, Waiting q (.user m) → m.hash.length = 20)
    (hb : ∀ s h d, Waiting q (.blockEvent s h d) → env.maxSeq s ≠ none) :
    ∃ got q', pullShard env shard q n = .ok (got, q') := by
  have hsv : ∀ p, Waiting q p → stillValid env shard p ≠ .error .panic := by
    intro p hp
    unfold stillValid
    split
    · rename_i e he
      unfold featureGate at he
      split at he
      · split at he <;> (try cases he)
        all_goals (split at he <;> cases he; simp)
      · cases he
    · split
      · rename_i e he
        unfold blockEventGate at he
        split at he
        · rename_i s h d _
          split at he
          · cases he; simp
          · split at he
            · rename_i hn; exact absurd hn (hb s h d hp)
            · cases he
            · split at he <;> cases he; simp
        · cases he
      · split
        · rename_i e he
          unfold alreadyExists at he
          split at he
          · cases he
          · split at he
            · rename_i m _ _
              have := hh m hp
              rw [show makeTsHash m.ts m.hash = .ok (be 4 m.ts ++ m.hash) by simp [makeTsHash, this]] at he
              simp only at he
              split at he
              · cases he
              · split at he <;> cases he
            · cases he
        · simp
        · simp
  have : ∀ (rows : List (MKey × PMsg F)) n live, (∀ r ∈ rows, stillValid env shard r.2 ≠ .error .panic) →
      ∃ x, pullRows env shard rows n live = .ok x := by
    intro rows
    induction rows with
    | nil => intro n live _; exact ⟨_, rfl⟩
    | cons r rows ih =>
      intro n live hr
      cases n with
      | zero => exact ⟨_, rfl⟩
      | succ n =>
        have hr' := fun x hx => hr x (List.mem_cons_of_mem _ hx)
        simp only [pullRows]
        split
        · rename_i h; exact absurd h (hr r List.mem_cons_self)
        · exact ih _ _ hr'
        · obtain ⟨x, hx⟩ := ih n (unindexLive live r.1 r.2) hr'
          rw [hx]
          exact ⟨_, rfl⟩
  obtain ⟨⟨got, rest, live⟩, hx⟩ := this q.msgs.rows n q.live
    (fun r hr => hsv r.2 (List.mem_map.2 ⟨r, hr, rfl⟩))
  exact ⟨got, ⟨OMap.ofRows rest, live⟩, by unfold pullShard; rw [hx]⟩

theorem key_user {p : PMsg F} : p.key.user = true ↔ ¬ FromSystem p := by
  cases p <;> simp [PMsg.key, userKey, FromSystem]

theorem key_ts {p : PMsg F} : p.key.ts = queueTime p := by
  cases p <;> simp [PMsg.key, userKey, queueTime, farcasterEpoch]

/-- Whatever happened before: of the messages handed out, those of the system come before those of users, and within
each kind the earlier before the later. -/
theorem C57_system_first {shard n : Nat} {ops : List (PoolOp F)} {q q' : Queue F} {env : PoolEnv}
    {got : List (PMsg F)} (hq : poolRun shard noMessages ops = some q)
    (h : pullShard env shard q n = .ok (got, q')) :
    got.Pairwise (fun a b => (FromSystem b → FromSystem a) ∧
      ((FromSystem a ↔ FromSystem b) → queueTime a ≤ queueTime b)) := by
  obtain ⟨taken, h1, h2, _⟩ := pullShard_spec h
  have hk := (reach_inv hq).keys
  have hs := q.msgs.sorted
  rw [h1] at hs
  have hs := (List.pairwise_append.1 hs).1
  rw [h2]
  apply List.Pairwise.filter
  rw [List.pairwise_map]
  refine List.Pairwise.imp_of_mem ?_ hs
  intro a b ha hb hlt
  have ka := hk a (by rw [h1]; exact List.mem_append_left _ ha)
  have kb := hk b (by rw [h1]; exact List.mem_append_left _ hb)
  have hlt : MKey.lt a.1 b.1 := hlt
  rw [ka, kb] at hlt
  unfold MKey.lt at hlt
  rw [key_ts, key_ts] at hlt
  have ua := key_user (p := a.2)
  have ub := key_user (p := b.2)
  by_cases fa : FromSystem a.2 <;> by_cases fb : FromSystem b.2
  · have : a.2.key.user = false := by simpa using (not_congr ua).2 (by simpa using fa)
    have : b.2.key.user = false := by simpa using (not_congr ub).2 (by simpa using fb)
    simp_all
    omega
  · simp_all
  · have : a.2.key.user = true := ua.2 fa
    have : b.2.key.user = false := by simpa using (not_congr ub).2 (by simpa using fb)
    simp_all
  · have : a.2.key.user = true := ua.2 fa
    have : b.2.key.user = true := ub.2 fb
    simp_all
    omega

/-- A refused message leaves the waiting messages as they were. -/
theorem C57_refused_changes_nothing {shard : Nat} {env : PoolEnv} {limited : Bool} {p : PMsg F} {q q' : Queue F}
    {e : HubErr} (h : poolStep shard q (.offer env limited p) = some (.offered (.error e), q')) : q'.msgs = q.msgs := by
  simp only [poolStep] at h
  split at h
  · cases h
  · rename_i r q1 _ hr
    simp only [Option.some.injEq, Prod.mk.injEq, PoolAnswer.offered.injEq] at h
    obtain ⟨h1, h2⟩ := h
    subst h2
    rcases insertShard_cases env limited shard q p with ⟨_, _, g, _⟩ | ⟨g, _⟩
    · rw [hr] at g; exact g
    · rw [hr, h1] at g; cases g

/-- An accepted message waits in the queue; it was valid and within the rate limit. -/
theorem C57_accepted_waits {shard : Nat} {env : PoolEnv} {limited : Bool} {p : PMsg F} {q q' : Queue F}
    (h : poolStep shard q (.offer env limited p) = some (.offered (.ok ()), q')) :
    Waiting q' p ∧ Proposable env shard p ∧ limited = false := by
  simp only [poolStep] at h
  split at h
  · cases h
  · rename_i r q1 _ hr
    simp only [Option.some.injEq, Prod.mk.injEq, PoolAnswer.offered.injEq] at h
    obtain ⟨h1, h2⟩ := h
    subst h2
    rcases insertShard_cases env limited shard q p with ⟨e, g, _⟩ | ⟨_, _, g2, g3, old, _, g⟩
    · rw [hr, h1] at g; cases g
    · rw [hr] at g
      simp only at g
      refine ⟨?_, g2, g3⟩
      rw [g]
      exact List.mem_map.2 ⟨(p.key, p), mem_put_iff.2 (.inl rfl), rfl⟩

theorem compare_notNewer {a b : Msg} (ha : a.ts < 2 ^ 32) (hb : b.ts < 2 ^ 32) (h : liveAtCompare a b ≤ 0) :
    NotNewer a b := by
  unfold liveAtCompare at h
  split at h
  · rename_i x y hx hy
    unfold makeTsHash at hx hy
    split at hx
    · cases hx
    · split at hy
      · cases hy
      · rename_i la lb
        simp only [Except.ok.injEq] at hx hy
        subst hx hy
        have hne : ¬ Bytes.blt (be 4 b.ts ++ b.hash) (be 4 a.ts ++ a.hash) = true ∨
            be 4 b.ts ++ b.hash = be 4 a.ts ++ a.hash := by
          rcases bytesCompare_cases (be 4 a.ts ++ a.hash) (be 4 b.ts ++ b.hash) with ⟨_, g⟩ | ⟨_, g⟩ | ⟨g, _⟩
          · left; intro g'
            have := Bytes.blt_trans g g'
            rw [Bytes.blt_irrefl] at this; cases this
          · exact .inr g.symm
          · omega
        rcases Nat.lt_trichotomy a.ts b.ts with g | g | g
        · exact .inl g
        · refine .inr ⟨g, ?_⟩
          rw [g] at hne
          rcases StrictOrd.tri a.hash b.hash with k | k | k
          · exact .inl k
          · exact .inr k
          · rcases hne with hne | hne
            · rw [Bytes.blt_append_left] at hne
              exact absurd k hne
            · exact .inr (List.append_cancel_left hne).symm
        · rcases hne with hne | hne
          · refine absurd ?_ hne
            exact Bytes.blt_append_of_blt (by simp [be_length]) ((be_blt_iff (w := 4) hb ha).2 g) _ _
          · have := List.append_inj_left hne (by simp [be_length])
            have := be_inj (w := 4) hb ha this
            omega
  · omega

/-- A message is refused only for one of these reasons: its place is taken, it is invalid, it is over the rate limit, or
it announces a user's live activity and an announcement of the same user that is not older waits. -/
theorem C57_refused_for_a_reason {shard : Nat} {ops : List (PoolOp F)} {env : PoolEnv} {limited : Bool} {p : PMsg F}
    {q q' : Queue F} {e : HubErr} (hq : poolRun shard noMessages ops = some q) (hd : PlacesDiffer ops)
    (h : poolStep shard q (.offer env limited p) = some (.offered (.error e), q')) :
    (∃ p', Waiting q p' ∧ p'.key = p.key) ∨ ¬ Proposable env shard p ∨ limited = true ∨
      ∃ fid m m', Announces fid m p ∧ Waiting q (.user m') ∧ Announces fid m' (.user m' : PMsg F) ∧
        liveAtCompare m' m > 0 := by
  have hinv := reach_inv hq
  have hidx := reach_index hq hd
  have hb : ∀ m, isLiveAt m = true → ∃ v, m.body = .userData 14 v := by
    intro m hm
    unfold isLiveAt at hm
    split at hm
    · exact ⟨_, by assumption⟩
    · cases hm
  cases hg : q.msgs.get p.key with
  | some p' =>
    have hr := OMap.get_eq_some_iff _ |>.1 hg
    exact .inl ⟨p', List.mem_map.2 ⟨_, hr, rfl⟩, (hinv.keys _ hr).symm⟩
  | none =>
    by_cases hv : Proposable env shard p
    · cases limited with
      | true => exact .inr (.inr (.inl rfl))
      | false =>
        refine .inr (.inr (.inr ?_))
        have hv : stillValid env shard p = .ok () := hv
        have ha : admissible env false shard p = .ok () := by unfold admissible; rw [hv]; rfl
        obtain ⟨_, hpr⟩ := prepareLive_spec hidx p
        rcases hpr with hpr | ⟨m, m', k, hx1, hx2, hx3, hx4, hx5, hx6⟩
        · simp only [poolStep, insertShard, hg] at h
          cases hpl : prepareLive q p with
          | mk r live =>
            rw [hpl] at h hpr
            simp only at hpr
            rw [hpr.1] at h
            simp only [ha, Option.some.injEq, Prod.mk.injEq, PoolAnswer.offered.injEq] at h
            cases h.1
        · rcases hx6 with ⟨hx6, _⟩ | ⟨_, hc⟩
          · simp only [poolStep, insertShard, hg] at h
            cases hpl : prepareLive q p with
            | mk r live =>
              rw [hpl] at h hx6
              simp only at hx6
              rw [hx6] at h
              simp only [ha, Option.some.injEq, Prod.mk.injEq, PoolAnswer.offered.injEq] at h
              cases h.1
          · obtain ⟨hp1, hp2⟩ := liveAt_some hx1
            exact ⟨m.fid, m, m', ⟨hp1, rfl, hb _ hp2⟩, List.mem_map.2 ⟨_, hx3, rfl⟩, ⟨rfl, hx5, hb _ hx4⟩, hc⟩
    · exact .inr (.inl hv)

/-- Nothing else than this takes a waiting message out of the queue: a proposer pulled it, or dropped it while pulling
because it had become invalid; a decided block contained it; or it announced a user's live activity and the same user's
newer announcement was accepted.  Assumes that different messages of the history have different places in the queue. -/
theorem C57_nothing_lost {shard : Nat} {ops : List (PoolOp F)} {op : PoolOp F} {a : PoolAnswer F} {q q' : Queue F}
    {p : PMsg F} (hq : poolRun shard noMessages ops = some q) (hd : PlacesDiffer (ops ++ [op]))
    (ht : TimesFit (ops ++ [op])) (hs : poolStep shard q op = some (a, q')) (hw : Waiting q p)
    (hgone : ¬ Waiting q' p) :
    (∃ env n got, op = .pull env n ∧ a = .pulled got ∧ (p ∈ got ∨ ¬ Proposable env shard p)) ∨
    (∃ ps, op = .decided ps ∧ p ∈ ps) ∨
    (∃ env fid m m', op = .offer env false (.user m') ∧ Announces fid m p ∧
      Announces fid m' (.user m' : PMsg F) ∧ NotNewer m m') := by
  have hinv := reach_inv hq
  have hd' : PlacesDiffer ops := fun o ho o' ho' =>
    hd o (List.mem_append_left _ ho) o' (List.mem_append_left _ ho')
  have hidx := reach_index hq hd'
  obtain ⟨r, hr, hrp⟩ := List.mem_map.1 hw
  cases op with
  | pull env n =>
    simp only [poolStep] at hs
    split at hs
    · cases hs
    · rename_i got q1 hp
      simp only [Option.some.injEq, Prod.mk.injEq] at hs
      obtain ⟨rfl, rfl⟩ := hs
      refine .inl ⟨env, n, got, rfl, rfl, ?_⟩
      obtain ⟨taken, h1, h2, _⟩ := pullShard_spec hp
      by_cases hv : Proposable env shard p
      · left
        rw [h2, List.mem_filter]
        refine ⟨?_, by simpa using hv⟩
        rw [h1] at hr
        rcases List.mem_append.1 hr with hr | hr
        · exact List.mem_map.2 ⟨r, hr, hrp⟩
        · exact absurd (List.mem_map.2 ⟨r, hr, hrp⟩) hgone
      · exact .inr hv
  | decided ps =>
    simp only [poolStep, Option.some.injEq, Prod.mk.injEq] at hs
    obtain ⟨_, rfl⟩ := hs
    refine .inr (.inl ⟨ps, rfl, ?_⟩)
    by_cases hx : ∃ p' ∈ ps, r.1 = p'.key
    · obtain ⟨p', hp', e⟩ := hx
      rw [hinv.keys r hr, hrp] at e
      obtain ⟨o, ho, hpo⟩ := hinv.source r hr
      rw [hrp] at hpo
      have := hd o (List.mem_append_left _ ho) (.decided ps) (by simp) p hpo p' hp' e
      rw [this]; exact hp'
    · exact absurd (List.mem_map.2 ⟨r, (removeCommitted_rows ps).2 ⟨hr, fun p' hp' e => hx ⟨p', hp', e⟩⟩, hrp⟩) hgone
  | offer env limited p' =>
    refine .inr (.inr ?_)
    have hq' : q' = (insertShard env limited shard q p').2 := by
      simp only [poolStep] at hs
      split at hs
      · cases hs
      · rename_i r q1 _ hr
        simp only [Option.some.injEq, Prod.mk.injEq] at hs
        rw [hr]; exact hs.2.symm
    subst hq'
    rcases insertShard_cases env limited shard q p' with ⟨e, _, h2, _⟩ | ⟨_, hnone, _, hlim, old, hold, h2⟩
    · exact absurd (List.mem_map.2 ⟨r, by rw [h2]; exact hr, hrp⟩) hgone
    · subst hlim
      obtain ⟨_, hpr⟩ := prepareLive_spec hidx p'
      have hrne : r.1 ≠ p'.key := by
        intro e
        rw [← e, OMap.get_eq_some_iff _ |>.2 hr] at hnone
        cases hnone
      by_cases ho : old = some r.1
      · subst ho
        rcases hpr with hpr | ⟨m', m, k, hx1, hx2, hx3, hx4, hx5, hx6⟩
        · rw [hpr.1] at hold; cases hold
        · rcases hx6 with ⟨hx6, hc⟩ | ⟨hx6, _⟩
          · rw [hx6] at hold
            simp only [Except.ok.injEq, Option.some.injEq] at hold
            subst hold
            obtain ⟨hp1, hp2⟩ := liveAt_some hx1
            have hpm : p = .user m := by
              have e1 := (OMap.get_eq_some_iff _ |>.2 hx3).symm.trans (OMap.get_eq_some_iff _ |>.2 hr)
              rw [hrp] at e1
              exact (Option.some.inj e1).symm
            have hb : ∀ m, isLiveAt m = true → ∃ v, m.body = .userData 14 v := by
              intro m hm
              unfold isLiveAt at hm
              split at hm
              · exact ⟨_, by assumption⟩
              · cases hm
            obtain ⟨o, ho, hpo⟩ := hinv.source r hr
            rw [hrp, hpm] at hpo
            subst hp1
            refine ⟨env, m'.fid, m, m', rfl, ⟨hpm, hx5, hb _ hx4⟩, ⟨rfl, rfl, hb _ hp2⟩, ?_⟩
            exact compare_notNewer (ht o (List.mem_append_left _ ho) m hpo)
              (ht (.offer env false (.user m')) (by simp) m' (by simp [opMsgs])) hc
          · rw [hx6] at hold; cases hold
      · refine absurd (List.mem_map.2 ⟨r, ?_, hrp⟩) hgone
        rw [h2]
        exact mem_put_iff.2 (.inr ⟨dropOld_rows.2 ⟨hr, ho⟩, hrne⟩)

/-- Two messages that look real have the same place in the queue only if they have the same origin. -/
theorem C57_same_place_same_origin {p p' : PMsg F} (hp : Plausible p) (hp' : Plausible p') (h : p.key = p'.key) :
    origin p = origin p' := by
  have hlog : ∀ {h h' : Bytes} {n n' : Nat}, h.length = 32 → h'.length = 32 → n < 2 ^ 32 → n' < 2 ^ 32 →
      hexEncode h ++ decimal n = hexEncode h' ++ decimal n' → h = h' ∧ n = n' := by
    intro h h' n n' hl hl' hn hn' e
    have hl2 : (hexEncode h).length = (hexEncode h').length := by rw [hexEncode_length, hexEncode_length, hl, hl']
    exact ⟨hexEncode_inj (List.append_inj_left e hl2),
      decimal_inj (by omega) (by omega) (List.append_inj_right e hl2)⟩
  have hlong : ∀ {h : Bytes} {n k : Nat}, h.length = 32 → hexEncode h ++ decimal n = decimal k → False := by
    intro h n k hl e
    have := congrArg List.length e
    have h1 := (decimalAux_length 19 k).2
    rw [List.length_append, hexEncode_length, hl] at this
    unfold decimal at this
    omega
  have hdec : ∀ {a b : Nat}, a < 2 ^ 64 → b < 2 ^ 64 → decimal a = decimal b → a = b :=
    fun ha hb e => decimal_inj (by omega) (by omega) e
  cases p <;> cases p' <;>
    simp only [PMsg.key, userKey, MKey.mk.injEq, reduceCtorEq, false_and, Plausible, true_and] at h hp hp' <;>
    simp only [origin]
  case user.user a b =>
    rw [hexEncode_inj h.2, show a.ts = b.ts by omega]
  case onchain.onchain => obtain ⟨e1, e2⟩ := hlog hp.1 hp'.1 hp.2 hp'.2 h.2; rw [h.1, e1, e2]
  case onchain.migration => obtain ⟨e1, e2⟩ := hlog hp.1 hp'.1 hp.2 hp'.2 h.2; rw [h.1, e1, e2]
  case migration.onchain => obtain ⟨e1, e2⟩ := hlog hp.1 hp'.1 hp.2 hp'.2 h.2; rw [h.1, e1, e2]
  case migration.migration => obtain ⟨e1, e2⟩ := hlog hp.1 hp'.1 hp.2 hp'.2 h.2; rw [h.1, e1, e2]
  case onchain.fname => exact (hlong hp.1 h.2).elim
  case onchain.blockEvent => exact (hlong hp.1 h.2).elim
  case migration.fname => exact (hlong hp.1 h.2).elim
  case migration.blockEvent => exact (hlong hp.1 h.2).elim
  case fname.onchain => exact (hlong hp'.1 h.2.symm).elim
  case fname.migration => exact (hlong hp'.1 h.2.symm).elim
  case blockEvent.onchain => exact (hlong hp'.1 h.2.symm).elim
  case blockEvent.migration => exact (hlong hp'.1 h.2.symm).elim
  case fname.fname => rw [h.1, hdec hp.1 hp'.1 h.2]
  case blockEvent.blockEvent => rw [h.1, hdec hp.1 hp'.1 h.2]
  case fname.blockEvent => omega
  case blockEvent.fname => omega

/-- Messages offered with the same origin are refused while one of them waits: a forged copy of a user message, with
its timestamp and hash but other contents, keeps the genuine message out of the mempool.  Offered messages are not
otherwise validated: gossip hands them over unchecked (/repo/src/network/gossip.rs:1231-1244). -/
theorem C57_forged_copy_keeps_genuine_out {shard : Nat} {env : PoolEnv} {limited : Bool} {q : Queue F}
    {ops : List (PoolOp F)} (hq : poolRun shard noMessages ops = some q) {forged genuine : Msg}
    (hw : Waiting q (.user forged)) (ht : forged.ts = genuine.ts) (hh : forged.hash = genuine.hash) :
    poolStep shard q (.offer env limited (.user genuine)) = some (.offered (.error .duplicate), q) := by
  obtain ⟨r, hr, hrp⟩ := List.mem_map.1 hw
  have hk := (reach_inv hq).keys r hr
  have hrp : r.2 = .user forged := hrp
  rw [hrp] at hk
  have hkey : r.1 = (PMsg.user genuine : PMsg F).key := by
    rw [hk]; simp [PMsg.key, userKey, ht, hh]
  have hg : q.msgs.get (PMsg.user genuine : PMsg F).key = some r.2 := by
    rw [← hkey]; exact OMap.get_eq_some_iff _ |>.2 hr
  simp only [poolStep, insertShard, hg]

/-- A user message whose hash does not have 20 bytes stops the mempool, whatever else is in it: checking it for
duplicates panics. -/
theorem C57_short_hash_stops_mempool {shard : Nat} {env : PoolEnv} {db : Db SVal} (hdb : env.db shard = some db)
    {m : Msg} (hm : m.hash.length ≠ 20) (ht : m.ty = .castAdd) (hb : isLiveAt m = false) {q : Queue F}
    (hq : q.msgs.get (PMsg.user m : PMsg F).key = none) (limited : Bool) :
    poolStep shard q (.offer env limited (.user m)) = none := by
  have hl : (PMsg.user m : PMsg F).liveAt? = none := by simp [PMsg.liveAt?, hb]
  have hv : stillValid env shard (.user m : PMsg F) = .error .panic := by
    simp [stillValid, featureGate, ht, blockEventGate, alreadyExists, hdb, makeTsHash, hm]
  simp only [poolStep, insertShard, hq, prepareLive, hl, admissible, hv]

/-- Block events of the same block whose numbers have equally many digits are queued in the order of their numbers. -/
theorem C57_block_events_in_order {s s' : Nat} {h h' : Bytes} {d d' : BData} (hd : d.seqnum < 2 ^ 64)
    (hd' : d'.seqnum < 2 ^ 64) (ht : d.ts = d'.ts) (hl : (decimal d.seqnum).length = (decimal d'.seqnum).length) :
    (PMsg.blockEvent s h d : PMsg F).key ≺ (PMsg.blockEvent s' h' d' : PMsg F).key ↔ d.seqnum < d'.seqnum := by
  rw [← decimal_lt (by omega) (by omega) hl]
  show MKey.lt _ _ ↔ _
  simp [MKey.lt, PMsg.key, ht]

/-- Otherwise not: of the events 9 and 10 of one block, 10 is handed out first. -/
theorem C57_block_event_ten_before_nine :
    ∃ (env : PoolEnv) (q : Queue Unit) (nine ten : PMsg Unit),
      origin nine = .event 100 9 ∧ origin ten = .event 100 10 ∧
      (poolRun 1 noMessages [.offer env false nine, .offer env false ten]).map (fun q => q.msgs.rows) =
        some q.msgs.rows ∧
      (pullShard env 1 q 10).toOption.map (·.1) = some [ten, nine] := by
  let env : PoolEnv := ⟨.v21, fun _ => some (some 8), fun _ => none⟩
  let nine : PMsg Unit := .blockEvent 1 [] ⟨9, 1, 40, 0, 100, none⟩
  let ten : PMsg Unit := .blockEvent 1 [] ⟨10, 1, 40, 1, 100, none⟩
  exact ⟨env, ⟨OMap.ofRows [(ten.key, ten), (nine.key, nine)], OMap.empty⟩, nine, ten, rfl, rfl,
    by decide +kernel, by decide +kernel⟩

/-- A name transfer dated like a block event (before 2021 by its own clock) takes the place of the block event with the
same number, which is then refused as a duplicate. -/
theorem C57_name_transfer_hides_block_event :
    ∃ (env : PoolEnv) (t e : PMsg Unit), origin t = .transfer 100 9 ∧ origin e = .event 100 9 ∧
      ∃ q, poolRun 1 noMessages [.offer env false t] = some q ∧
        poolStep 1 q (.offer env false e) = some (.offered (.error .duplicate), q) := by
  let env : PoolEnv := ⟨.v21, fun _ => some (some 8), fun _ => none⟩
  let t : PMsg Unit := .fname 9 100 5 ()
  let e : PMsg Unit := .blockEvent 1 [] ⟨9, 1, 40, 0, 100, none⟩
  exact ⟨env, t, e, rfl, rfl, _, rfl, rfl⟩

section Examples

private def env0 : PoolEnv := ⟨.v21, fun _ => some (some 8), fun _ => some OMap.empty⟩
private def cast (fid ts : Nat) (h : UInt8) : PMsg Unit :=
  .user { fid := fid, ty := .castAdd, ts := ts, hash := List.replicate 20 h, body := .castAdd none [] }
private def rent : PMsg Unit := .onchain (List.replicate 32 7) ⟨3, 5, 1000, 0, 12, 1700000000, .storageRent 2⟩
private def beat (n : Nat) : PMsg Unit := .blockEvent 1 [] ⟨n, 1, 40, 0, 100, some .heartbeat⟩
private def hist : List (PoolOp Unit) :=
  [.offer env0 false (cast 5 9 1), .offer env0 false (cast 6 3 2), .offer env0 false rent, .offer env0 false (beat 9),
    .offer env0 true (cast 6 4 3)]

/-- Five messages offered, one over the rate limit; three pulled: the system's first, then the older cast. -/
example : ((poolRun 1 noMessages hist).bind (fun q => (pullShard env0 1 q 3).toOption.map (fun r =>
    (r.1, r.2.msgs.rows.map (·.2))))) = some ([beat 9, rent, cast 6 3 2], [cast 5 9 1]) := by decide +kernel

example : PlacesDiffer hist := by
  unfold PlacesDiffer
  decide +kernel

example : ∀ p ∈ hist.flatMap opMsgs, Plausible p := by
  intro p hp
  simp only [hist, opMsgs, List.flatMap_cons, List.flatMap_nil, List.singleton_append, List.mem_cons,
    List.not_mem_nil, or_false] at hp
  rcases hp with rfl | rfl | rfl | rfl | rfl <;> simp [Plausible, cast, rent, beat]

example : TimesFit hist := by
  intro op hop m hm
  simp only [hist, List.mem_cons, List.not_mem_nil, or_false] at hop
  rcases hop with rfl | rfl | rfl | rfl | rfl <;> simp [opMsgs, cast, rent, beat] at hm <;> subst hm <;> decide

/-- A message of user 5 waits; another one with the same time and hash, by user 6, is refused. -/
example : (poolRun 1 noMessages hist).map (fun q => (insertShard env0 false 1 q (cast 6 9 1)).1.toOption) =
    some none := by decide +kernel

/-- A cast with a hash of three bytes stops the mempool. -/
example : (poolRun 1 noMessages (hist ++ [.offer env0 false
    (.user { fid := 5, ty := .castAdd, ts := 1, hash := [1, 2, 3], body := .castAdd none [] })])).isNone = true := by
  decide +kernel

end Examples

end Verif
