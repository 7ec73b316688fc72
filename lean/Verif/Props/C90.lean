import Verif.Lemmas.RowSource
import Verif.Props.C89
/-!
C90: every message a shard holds was offered to it, as a user message that passed validation or in a block event of
shard 0.  The engine is the one of C89.  The first two theorems speak about every row of the database, in every state;
the last two also say that the message is well formed for its store, in the states that C84 covers.
-/
namespace Verif
open Spec StoreDef

section
variable {R F : Type} {c : ShardCfg R F} {U : Msg → Prop} {E : TrieEntry → Prop}

theorem offered_fine (ver : Nat → EngineVersion) {bs : List (NodeBlock F)} : ∀ b ∈ bs, b.Fine ver
    (fun v ts m => v = ver ts ∧ OfferedUser bs ts m) (OfferedBlockEvent bs) (OfferedOnchain bs) :=
  fun b hb _ hx => ⟨fun _ hm => ⟨rfl, b, hb, _, hx, hm⟩, fun s hs => ⟨fun _ he => ⟨b, hb, _, _, hx, s, hs, he⟩,
    fun _ he => ⟨b, hb, _, _, hx, s, hs, he⟩⟩⟩

/-- Whatever the row, a message in the database of a shard has one of the types of the six stores, and came to the node as
a user message that passed validation while the rest of the node satisfied `I`, or in a block event.  `I` is anything
that the rest of the node keeps, given what was offered. -/
theorem C90_rows_were_offered (HB : Bytes → Bytes) (ver : Nat → EngineVersion) (r : R) (bs : List (NodeBlock F)) (I : R → Prop) (hr : I r)
    (K : ShardCfg.RestKeeps c (fun v ts m => v = ver ts ∧ OfferedUser bs ts m) (OfferedBlockEvent bs) (OfferedOnchain bs) I)
    (st : EngineState (ShardWork R) (ShardWork R) ShardHub F)
    (hrun : nodeRun c.ops HB ver bs (ShardCfg.fresh r) = some st)
    (k : Bytes) (m : Msg) (held : st.d.st.store.view k = some (.msg m)) :
    (ShardCfg.mergeTarget m.ty).isSome ∧ I st.d.rest ∧
      ((∃ ts store rest, OfferedUser bs ts m ∧ I rest ∧ PassedAt c.rest ver ts store rest m) ∨
        ∃ e, OfferedBlockEvent bs e ∧ e.Brings m) := by
  have q := keep_nodeRun (ShardCfg.rows_keeps K) bs _ _ (ShardCfg.rowsOf_fresh hr _) (offered_fine ver) hrun
  obtain ⟨h1, h2⟩ := q.2.view held
  refine ⟨h2, q.1, h1.imp ?_ id⟩
  rintro ⟨v, ts, store, rest, r', ⟨rfl, ho⟩, hi, hv⟩
  exact ⟨ts, store, rest, ho, hi, by simp [PassedAt, hv]⟩

/-- The same for work in progress: what a node would hold if it committed the proposal it validated last. -/
theorem C90_pending_rows_were_offered (HB : Bytes → Bytes) (ver : Nat → EngineVersion) (r : R) (bs : List (NodeBlock F)) (b : NodeBlock F)
    (I : R → Prop) (hr : I r)
    (K : ShardCfg.RestKeeps c (fun v ts m => v = ver ts ∧ OfferedUser (bs ++ [b]) ts m) (OfferedBlockEvent (bs ++ [b])) (OfferedOnchain (bs ++ [b])) I)
    (st0 st : EngineState (ShardWork R) (ShardWork R) ShardHub F)
    (hrun : nodeRun c.ops HB ver bs (ShardCfg.fresh r) = some st0) (hsteps : roundSteps c.ops HB ver b.steps (startRound st0) = some st)
    (work) (hw : st.pending = some work)
    (k : Bytes) (m : Msg) (held : work.w.st.store.view k = some (.msg m)) :
    (ShardCfg.mergeTarget m.ty).isSome ∧ I work.w.rest ∧
      ((∃ ts store rest, OfferedUser (bs ++ [b]) ts m ∧ I rest ∧ PassedAt c.rest ver ts store rest m) ∨
        ∃ e, OfferedBlockEvent (bs ++ [b]) e ∧ e.Brings m) := by
  have f := offered_fine ver (bs := bs ++ [b])
  have q := keep_nodeRun (ShardCfg.rows_keeps K) bs _ _ (ShardCfg.rowsOf_fresh hr _) (fun x hx => f x (by simp [hx])) hrun
  have k := keep_roundSteps (ShardCfg.rows_keeps K) _ (startRound st0) _ ⟨q, by simp [startRound]⟩ (f b (by simp)).steps hsteps
  have q := (k.pending _ hw).1
  obtain ⟨h1, h2⟩ := q.2.view held
  refine ⟨h2, q.1, h1.imp ?_ id⟩
  rintro ⟨v, ts, store, rest, r', ⟨rfl, ho⟩, hi, hv⟩
  exact ⟨ts, store, rest, ho, hi, by simp [PassedAt, hv]⟩

/-- A message in any of the six stores is well formed for the store, and came to the node as a user message that passed
validation while the rest of the node satisfied `I`, or in a block event.  `I` is anything that the rest of the node
keeps, given what was offered. -/
theorem C90_held_was_offered (S : ShardSetting c.env.channelOf U c.ord c.sha256 E) (hH : ∀ x, c.H x ≠ [])
    (HB : Bytes → Bytes) (ver : Nat → EngineVersion) (r : R) (bs : List (NodeBlock F)) (I : R → Prop) (hr : I r)
    (K : ShardCfg.RestKeeps c (fun v ts m => v = ver ts ∧ OfferedUser bs ts m) (OfferedBlockEvent bs) (OfferedOnchain bs) I)
    (st : EngineState (ShardWork R) (ShardWork R) ShardHub F)
    (hrun : nodeRun c.ops HB ver bs (ShardCfg.fresh r) = some st)
    (ops : List ShardTrieOp) (hd : st.d.done = some ops)
    (hok : ({} : StoreState).ShardStepsOK c.env.channelOf c.env.ctx U c.sha256 E {} ops)
    (kind : StoreKind) (m : Msg) (held : st.d.st.store.Has (kind.store c.env.channelOf) m) :
    kind.Valid m ∧ I st.d.rest ∧
      ((∃ ts store rest, OfferedUser bs ts m ∧ I rest ∧ PassedAt c.rest ver ts store rest m) ∨
        ∃ e, OfferedBlockEvent bs e ∧ e.Brings m) := by
  have q := keep_nodeRun (ShardCfg.sourced_keeps K) bs _ _ (ShardCfg.sourced_fresh hr _) (offered_fine ver) hrun
  have q' := keep_nodeRun (ShardCfg.told_keeps c) bs _ _ (ShardCfg.told_fresh r) (fun b _ => fine_true b) hrun
  obtain ⟨h1, _, h3⟩ := held_was_given S c.env.ctx hH hok (q.2 ops hd) (q' ops hd) held
  refine ⟨h1, q.1, h3.imp ?_ id⟩
  rintro ⟨v, ts, store, rest, r', ⟨rfl, ho⟩, hi, hv⟩
  exact ⟨ts, store, rest, ho, hi, by simp [PassedAt, hv]⟩

/-- The same for work in progress: what a node would hold if it committed the proposal it validated last. -/
theorem C90_pending_was_offered (S : ShardSetting c.env.channelOf U c.ord c.sha256 E) (hH : ∀ x, c.H x ≠ [])
    (HB : Bytes → Bytes) (ver : Nat → EngineVersion) (r : R) (bs : List (NodeBlock F)) (b : NodeBlock F) (I : R → Prop) (hr : I r)
    (K : ShardCfg.RestKeeps c (fun v ts m => v = ver ts ∧ OfferedUser (bs ++ [b]) ts m) (OfferedBlockEvent (bs ++ [b])) (OfferedOnchain (bs ++ [b])) I)
    (st0 st : EngineState (ShardWork R) (ShardWork R) ShardHub F)
    (hrun : nodeRun c.ops HB ver bs (ShardCfg.fresh r) = some st0) (hsteps : roundSteps c.ops HB ver b.steps (startRound st0) = some st)
    (work) (hw : st.pending = some work)
    (ops : List ShardTrieOp) (hd : work.w.done = some ops)
    (hok : ({} : StoreState).ShardStepsOK c.env.channelOf c.env.ctx U c.sha256 E {} ops)
    (kind : StoreKind) (m : Msg) (held : work.w.st.store.Has (kind.store c.env.channelOf) m) :
    kind.Valid m ∧ I work.w.rest ∧
      ((∃ ts store rest, OfferedUser (bs ++ [b]) ts m ∧ I rest ∧ PassedAt c.rest ver ts store rest m) ∨
        ∃ e, OfferedBlockEvent (bs ++ [b]) e ∧ e.Brings m) := by
  have f := offered_fine ver (bs := bs ++ [b])
  have q := keep_nodeRun (ShardCfg.sourced_keeps K) bs _ _ (ShardCfg.sourced_fresh hr _) (fun x hx => f x (by simp [hx])) hrun
  have q' := keep_nodeRun (ShardCfg.told_keeps c) bs _ _ (ShardCfg.told_fresh r) (fun b _ => fine_true b) hrun
  have k := keep_roundSteps (ShardCfg.sourced_keeps K) _ (startRound st0) _ ⟨q, by simp [startRound]⟩ (f b (by simp)).steps hsteps
  have k' := keep_roundSteps (ShardCfg.told_keeps c) _ (startRound st0) _ ⟨q', by simp [startRound]⟩ (fun _ _ => fine_txn _ _ _) hsteps
  have q := (k.pending _ hw).1
  have q' := (k'.pending _ hw).1
  obtain ⟨h1, _, h3⟩ := held_was_given S c.env.ctx hH hok (q.2 ops hd) (q' ops hd) held
  refine ⟨h1, q.1, h3.imp ?_ id⟩
  rintro ⟨v, ts, store, rest, r', ⟨rfl, ho⟩, hi, hv⟩
  exact ⟨ts, store, rest, ho, hi, by simp [PassedAt, hv]⟩

end

namespace Case90

/-- A rest of the node that remembers the users with on-chain events and accepts messages of those. -/
def rest : Elsewhere (List Nat) Unit where
  onchain := fun r e => (e.fid :: r, some (e.fid, e.ty, List.replicate 32 5, e.log))
  fname := fun r _ => (r, none)
  fresh := fun r _ => r
  commit := id
  validate := fun _ _ _ r m => (r, if m.fid ∈ r then none else some .validation)
  merge := fun _ r _ => (r, .error .validation)
  replica := fun r _ => (r, true)
  slot := fun _ _ _ _ _ _ => some { y2025 := 1 }
  pruneNames := fun r _ _ _ => (r, [])
  active := fun _ _ _ _ _ => some true

def cfg : ShardCfg (List Nat) Unit :=
  ⟨{ Case87.e with channelOf := Case.noChannels, ctx := Case.allOn }, toyHash, id, zeroSha, EngineCase.ver, rest⟩

/-- A cast of a user nobody knows. -/
def stranger : Msg := { castB84 with fid := 9 }

def txn2 : ETxn Unit := ⟨7, [], [stranger, Case.unfollow8], []⟩

def next (st : EngineState (ShardWork (List Nat)) (ShardWork (List Nat)) ShardHub Unit) (h : Nat) (t : ETxn Unit) :
    Option (NodeBlock Unit) :=
  (propose cfg.ops EngineCase.hash0 EngineCase.ver EngineCase.env (startRound st) h (100 + h) [t]).map fun x =>
    ⟨[.propose EngineCase.env h (100 + h) [t]], EngineCase.env, ⟨h, 100 + h, x.1.root, x.1.txns, [UInt8.ofNat h]⟩⟩

def start : EngineState (ShardWork (List Nat)) (ShardWork (List Nat)) ShardHub Unit := ShardCfg.fresh []

def chain : Option (List (NodeBlock Unit) × EngineState (ShardWork (List Nat)) (ShardWork (List Nat)) ShardHub Unit) := do
  let b1 ← next start 1 Case89.txn1
  let st ← nodeRun cfg.ops EngineCase.hash0 EngineCase.ver [b1] start
  let b2 ← next st 2 txn2
  let st' ← nodeRun cfg.ops EngineCase.hash0 EngineCase.ver [b1, b2] start
  pure ([b1, b2], st')

theorem chain_done : chain.bind (fun x => x.2.d.done) = some Case89.steps := by decide +kernel

theorem chain_runs : ∃ b1 b2 st, nodeRun cfg.ops EngineCase.hash0 EngineCase.ver ([b1] ++ [b2]) (ShardCfg.fresh []) = some st ∧
    st.d.done = some Case89.steps := by
  obtain ⟨⟨bs, st⟩, h, hd⟩ := Option.bind_eq_some_iff.mp chain_done
  simp only [chain, Option.bind_eq_bind, Option.bind_eq_some_iff, Option.pure_def, Option.some.injEq, Prod.mk.injEq] at h
  obtain ⟨b1, _, st1, _, b2, _, st2, h2, _, rfl⟩ := h
  exact ⟨b1, b2, st2, h2, hd⟩

/-- The follow is undone, the cast is there, and the stranger's cast, which was offered, is not. -/
example : (chain.map fun x => (storedMessages linkStore x.2.d.st.store.db 7, storedMessages castStore x.2.d.st.store.db 7,
    storedMessages castStore x.2.d.st.store.db 9)) = some ([Case.unfollow8], [castB84], []) := by decide +kernel

/-- For this node the theorem says that every message it holds is one of a user with an on-chain event, unless a block
event brought it. -/
example (bs : List (NodeBlock Unit)) (st) (hrun : nodeRun cfg.ops EngineCase.hash0 EngineCase.ver bs (ShardCfg.fresh []) = some st)
    (k : Bytes) (m : Msg) (held : st.d.st.store.view k = some (.msg m)) :
    (∃ e, OfferedOnchain bs e ∧ e.fid = m.fid) ∨ ∃ e, OfferedBlockEvent bs e ∧ e.Brings m := by
  obtain ⟨_, _, h | h⟩ := C90_rows_were_offered (c := cfg) _ _ [] bs
    (fun r => ∀ f ∈ r, ∃ e, OfferedOnchain bs e ∧ e.fid = f) (by simp)
    ⟨fun _ _ h => h, fun _ h => h, fun r e he h f hf => by
        rcases List.mem_cons.1 hf with rfl | hf
        · exact ⟨e, he, rfl⟩
        · exact h f hf,
      fun _ _ h => h, fun _ _ _ _ _ _ h => h, fun _ _ _ _ _ h => h, fun _ _ h => h, fun _ _ _ _ h => h⟩
    st hrun k m held
  · obtain ⟨ts, store, r, _, hr, hp⟩ := h
    refine .inl (hr _ ?_)
    simp only [PassedAt, cfg, rest] at hp
    split at hp
    · assumption
    · cases hp
  · exact .inr h

/-- The last two theorems apply to the blocks above. -/
example : ∃ bs st, nodeRun cfg.ops EngineCase.hash0 EngineCase.ver bs (ShardCfg.fresh []) = some st ∧
    st.d.done = some Case89.steps ∧
    ({} : StoreState).ShardStepsOK Case.noChannels Case.allOn (· ∈ msgs84) zeroSha TrieEntry.Valid {} Case89.steps := by
  obtain ⟨b1, b2, st, h, hd⟩ := chain_runs
  exact ⟨_, st, h, hd, Case89.steps_ok⟩

end Case90
end Verif
