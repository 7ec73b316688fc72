import Verif.Lemmas.ShardEngine
import Verif.Props.C84
import Verif.Props.C87
import Verif.Case.Engine
/-!
C89: the state root in a chunk stands for the messages the shard holds after the chunk, through the engine.  A node starts
empty; heights follow one another, with any rounds, proposals and validations at each, and end with a chunk that is
committed.  The engine is `Model/Engine` with the steps of `Model/ShardEngine`.
-/
namespace Verif
open Spec StoreDef

section
variable {R F : Type} {c : ShardCfg R F} {U : Msg → Prop} {E : TrieEntry → Prop}

theorem shardStepsOK_prefix {channelOf : Bytes → Option Bytes} {ctx : Nat → MergeCtx} {sha256 : Bytes → Bytes} :
    ∀ (a b : List ShardTrieOp) (st : StoreState) (o : KeySets), st.ShardStepsOK channelOf ctx U sha256 E o (a ++ b) →
      st.ShardStepsOK channelOf ctx U sha256 E o a
  | [], _, _, _, _ => trivial
  | _ :: a, b, _, _, h => ⟨h.1, shardStepsOK_prefix a b _ _ h.2⟩

/-- The state a node commits, and the work it was written from. -/
theorem commit_root (S : ShardSetting c.env.channelOf U c.ord c.sha256 E) (hH : ∀ x, c.H x ≠ [])
    {w w' : ShardWork R} {root : Bytes} (hw : ShardCfg.Told c w) (hroot : c.ops.root w = .ok root) (hf : c.finish w = some w')
    {ops : List ShardTrieOp} (hd : w'.done = some ops)
    (hok : ({} : StoreState).ShardStepsOK c.env.channelOf c.env.ctx U c.sha256 E {} ops) : w'.st.trie.rootHash c.H = .ok root := by
  have hw' := ShardCfg.told_finish hw hf
  have hr : w.st.trie.rootHash c.H = .ok root := by
    simp only [ShardCfg.ops] at hroot
    split at hroot
    · rename_i r hr; rw [hr]; simpa using hroot
    · exact absurd hroot (by simp)
  unfold ShardCfg.finish at hf
  split at hf
  · exact absurd hf (by simp)
  · rename_i t ht
    simp only [Option.some.injEq] at hf
    subst hf
    simp only [Option.map_eq_some_iff] at hd
    obtain ⟨l, hl, rfl⟩ := hd
    have h1 := hw l hl
    have h2 := hw' (l ++ [.step (.call .casts .commit)]) (by simp [hl])
    rw [← hr]
    symm
    refine C84_stores_fix_root S c.env.ctx c.H hH l (l ++ [.step (.call .casts .commit)]) (shardStepsOK_prefix _ _ _ _ hok) hok _ _ h1 h2 ?_ ?_
    · intro kind m
      simp only [StoreState.Has]
      rw [view_commit]
    · intro k
      rw [List.foldl_append]
      rfl

/-- After every chunk the trie of the node has the root of the chunk, it has exactly the entries of the messages the
stores hold (and of others), and nothing is left uncommitted. -/
theorem C89_root_stands_for_messages (S : ShardSetting c.env.channelOf U c.ord c.sha256 E) (hH : ∀ x, c.H x ≠ [])
    (HB : Bytes → Bytes) (ver : Nat → EngineVersion) (r : R) (bs : List (NodeBlock F)) (b : NodeBlock F)
    (st : EngineState (ShardWork R) (ShardWork R) ShardHub F)
    (hrun : nodeRun c.ops HB ver (bs ++ [b]) (ShardCfg.fresh r) = some st)
    (ops : List ShardTrieOp) (hd : st.d.done = some ops)
    (hok : ({} : StoreState).ShardStepsOK c.env.channelOf c.env.ctx U c.sha256 E {} ops) :
    st.d.st.trie.rootHash c.H = .ok b.chunk.root ∧
      st.d.st.store.pend.txn = OMap.empty ∧
      (∀ k, k ≠ [] → ∃ v, st.d.st.trie.contains k = .ok v ∧ (v = true ↔
        (∃ (kind : StoreKind) (m : Msg), st.d.st.store.Has (kind.store c.env.channelOf) m ∧ ∃ x ∈ m.entries, k = x.key c.sha256) ∨
          k ∈ (ops.foldl (shardOthersStep c.sha256) {}).current)) ∧
      ∀ (kind : StoreKind) m, kind.Valid m → U m → ∀ x ∈ m.entries, ∃ v, st.d.st.trie.contains (x.key c.sha256) = .ok v ∧
        (v = true ↔ st.d.st.store.Has (kind.store c.env.channelOf) m) := by
  obtain ⟨d, w, es, seq, w', _, hw, hroot, hf, he⟩ := keep_last (ShardCfg.told_keeps c) (ShardCfg.told_fresh r) (fun b _ => fine_true b) hrun
  have he : st.d = w' := he
  have hf : c.finish w = some w' := hf
  subst he
  obtain ⟨s, h1, _, h3, h4⟩ := C84_trie_holds_all_stores S c.env.ctx c.H hH ops hok
  have h5 := ShardCfg.told_finish hw hf ops hd
  rw [h1] at h5
  cases h5
  refine ⟨commit_root S hH hw hroot hf hd hok, ?_, h3, h4⟩
  unfold ShardCfg.finish at hf
  split at hf
  · exact absurd hf (by simp)
  · simp only [Option.some.injEq] at hf
    rw [← hf]; rfl

/-- Two nodes whose last chunks have the same root hold the same messages in every store, or the hash function collides.
The nodes may differ in what the chunks were, in the clock, in the orders in which they handle signers and types, in the
rounds they saw and in everything outside the stores. -/
theorem C89_same_root_same_messages {R' F' : Type} (ver' : Nat → EngineVersion) (rest' : Elsewhere R' F')
    (S : ShardSetting c.env.channelOf U c.ord c.sha256 E) (h20 : ∀ x, (c.H x).length = 20)
    (HB HB' : Bytes → Bytes) (v v' : Nat → EngineVersion) (r : R) (r' : R') (bs : List (NodeBlock F)) (b : NodeBlock F)
    (bs' : List (NodeBlock F')) (b' : NodeBlock F')
    (st : EngineState (ShardWork R) (ShardWork R) ShardHub F) (st' : EngineState (ShardWork R') (ShardWork R') ShardHub F')
    (hrun : nodeRun c.ops HB v (bs ++ [b]) (ShardCfg.fresh r) = some st)
    (hrun' : nodeRun (ShardCfg.ops ⟨c.env, c.H, c.ord, c.sha256, ver', rest'⟩) HB' v' (bs' ++ [b']) (ShardCfg.fresh r') = some st')
    (ops ops' : List ShardTrieOp) (hd : st.d.done = some ops) (hd' : st'.d.done = some ops')
    (hok : ({} : StoreState).ShardStepsOK c.env.channelOf c.env.ctx U c.sha256 E {} ops)
    (hok' : ({} : StoreState).ShardStepsOK c.env.channelOf c.env.ctx U c.sha256 E {} ops')
    (root : b.chunk.root = b'.chunk.root) :
    ∃ keys keys', st.d.st.trie.HoldsKeys keys ∧ st'.d.st.trie.HoldsKeys keys' ∧
      (Collision c.H keys keys' ∨ ∀ (kind : StoreKind) m,
        st.d.st.store.Has (kind.store c.env.channelOf) m ↔ st'.d.st.store.Has (kind.store c.env.channelOf) m) := by
  have hH : ∀ x, c.H x ≠ [] := fun x e => by have := h20 x; rw [e] at this; cases this
  obtain ⟨d, w, es, seq, w1, _, hw, hroot, hf, he⟩ := keep_last (ShardCfg.told_keeps c) (ShardCfg.told_fresh r) (fun b _ => fine_true b) hrun
  obtain ⟨d', w', es', seq', w1', _, hw', hroot', hf', he'⟩ := keep_last (ShardCfg.told_keeps _) (ShardCfg.told_fresh r') (fun b _ => fine_true b) hrun'
  have he : st.d = w1 := he
  have he' : st'.d = w1' := he'
  rw [← he] at hf
  rw [← he'] at hf'
  have e1 := commit_root S hH hw hroot hf hd hok
  have e2 := commit_root (c := ⟨c.env, c.H, c.ord, c.sha256, ver', rest'⟩) S hH hw' hroot' hf' hd' hok'
  have t1 := ShardCfg.told_finish hw hf ops hd
  have t2 := ShardCfg.told_finish hw' hf' ops' hd'
  obtain ⟨keys, keys', a, b, h⟩ := C84_root_fixes_stores S c.env.ctx c.H h20 ops ops' hok hok' _ _ t1 t2 (by rw [e1, root]; exact e2.symm)
  exact ⟨keys, keys', a, b, h.imp id (fun h kind m => (h kind).1 m)⟩

/-- A proposal that a node accepts has the root of the messages the node would hold after it: another node that commits
a chunk with this root holds these messages, or the hash function collides. -/
theorem C89_accepted_root_binds {R' F' : Type} (ver' : Nat → EngineVersion) (rest' : Elsewhere R' F')
    (S : ShardSetting c.env.channelOf U c.ord c.sha256 E) (h20 : ∀ x, (c.H x).length = 20)
    (HB HB' : Bytes → Bytes) (v v' : Nat → EngineVersion) (r : R) (r' : R') (bs : List (NodeBlock F))
    (steps : List (RoundStep F)) (env : NodeEnv) (height : Nat) (p : Proposal F)
    (bs' : List (NodeBlock F')) (b' : NodeBlock F')
    (st0 st : EngineState (ShardWork R) (ShardWork R) ShardHub F) (st' : EngineState (ShardWork R') (ShardWork R') ShardHub F')
    (hrun : nodeRun c.ops HB v bs (ShardCfg.fresh r) = some st0) (hsteps : roundSteps c.ops HB v steps (startRound st0) = some st)
    (accepted : (validateChange c.ops HB v env st height p).1 = true)
    (hrun' : nodeRun (ShardCfg.ops ⟨c.env, c.H, c.ord, c.sha256, ver', rest'⟩) HB' v' (bs' ++ [b']) (ShardCfg.fresh r') = some st')
    (root : p.root = b'.chunk.root) :
    ∃ work, (validateChange c.ops HB v env st height p).2.pending = some work ∧
      ∀ (ops ops' : List ShardTrieOp), work.w.done = some ops → st'.d.done = some ops' →
        ({} : StoreState).ShardStepsOK c.env.channelOf c.env.ctx U c.sha256 E {} ops →
        ({} : StoreState).ShardStepsOK c.env.channelOf c.env.ctx U c.sha256 E {} ops' →
        ∃ keys keys', work.w.st.trie.HoldsKeys keys ∧ st'.d.st.trie.HoldsKeys keys' ∧
          (Collision c.H keys keys' ∨ ∀ (kind : StoreKind) m,
            work.w.st.store.Has (kind.store c.env.channelOf) m ↔ st'.d.st.store.Has (kind.store c.env.channelOf) m) := by
  have hH : ∀ x, c.H x ≠ [] := fun x e => by have := h20 x; rw [e] at this; cases this
  have q0 := keep_nodeRun (ShardCfg.told_keeps c) bs _ _ (ShardCfg.told_fresh r) (fun b _ => fine_true b) hrun
  have k0 : KeptNode c.ops (ShardCfg.Told c) (ShardCfg.Told c) (startRound st0) := ⟨q0, by simp [startRound]⟩
  have k1 := keep_roundSteps (ShardCfg.told_keeps c) _ _ _ k0 (fun _ _ => fine_txn _ _ _) hsteps
  obtain ⟨d', w', es', seq', w1', _, hw', hroot', hf', he'⟩ := keep_last (ShardCfg.told_keeps _) (ShardCfg.told_fresh r') (fun b _ => fine_true b) hrun'
  have he' : st'.d = w1' := he'
  rw [← he'] at hf'
  unfold validateChange at accepted ⊢
  split at accepted
  · exact absurd accepted (by simp)
  · rename_i s hs
    refine ⟨_, rfl, ?_⟩
    intro ops ops' hd hd' hok hok'
    obtain ⟨tw, hr⟩ := keep_replayProposal (ShardCfg.told_keeps c) k1.state (fun _ _ => fine_txn _ _ _) hs
    have e1 : s.w.st.trie.rootHash c.H = .ok p.root := by
      simp only [ShardCfg.ops] at hr
      split at hr
      · rename_i r hr'; rw [hr']; simpa using hr
      · exact absurd hr (by simp)
    have e2 := commit_root (c := ⟨c.env, c.H, c.ord, c.sha256, ver', rest'⟩) S hH hw' hroot' hf' hd' hok'
    obtain ⟨keys, keys', a, b, h⟩ := C84_root_fixes_stores S c.env.ctx c.H h20 ops ops' hok hok' _ _ (tw ops hd)
      (ShardCfg.told_finish hw' hf' ops' hd') (by rw [e1, root]; exact e2.symm)
    exact ⟨keys, keys', a, b, h.imp id (fun h kind m => (h kind).1 m)⟩

end
/-! A shard with nothing else in it: user 7 gets a signer on chain, casts and follows 8 in the first chunk, undoes the
follow in the second.  The chunks are what the node itself proposes. -/
namespace Case89

def rest : Elsewhere Unit Unit where
  onchain := fun _ e => ((), some (e.fid, e.ty, List.replicate 32 5, e.log))
  fname := fun _ _ => ((), none)
  fresh := fun _ _ => ()
  commit := id
  validate := fun _ _ _ _ _ => ((), none)
  merge := fun _ _ _ => ((), .error .validation)
  replica := fun _ _ => ((), true)
  slot := fun _ _ _ _ _ _ => some { y2025 := 1 }
  pruneNames := fun _ _ _ _ => ((), [])
  active := fun _ _ _ _ _ => some true

def cfg : ShardCfg Unit Unit :=
  ⟨{ Case87.e with channelOf := Case.noChannels, ctx := Case.allOn }, toyHash, id, zeroSha, EngineCase.ver, rest⟩

def signer : SysMsg Unit := ⟨some ⟨1, 7, 1, 0, 0, 0, .none⟩, none, none⟩
def txn1 : ETxn Unit := ⟨7, [signer], [Case.follow8, castB84], []⟩
def txn2 : ETxn Unit := ⟨7, [], [Case.unfollow8], []⟩

/-- A node proposes the transactions and then commits the chunk. -/
def next (st : EngineState (ShardWork Unit) (ShardWork Unit) ShardHub Unit) (h : Nat) (t : ETxn Unit) :
    Option (NodeBlock Unit) :=
  (propose cfg.ops EngineCase.hash0 EngineCase.ver EngineCase.env (startRound st) h (100 + h) [t]).map fun x =>
    ⟨[.propose EngineCase.env h (100 + h) [t]], EngineCase.env, ⟨h, 100 + h, x.1.root, x.1.txns, [UInt8.ofNat h]⟩⟩

def start : EngineState (ShardWork Unit) (ShardWork Unit) ShardHub Unit := ShardCfg.fresh ()

/-- The blocks, and the node after them. -/
def chain : Option (List (NodeBlock Unit) × EngineState (ShardWork Unit) (ShardWork Unit) ShardHub Unit) := do
  let b1 ← next start 1 txn1
  let st ← nodeRun cfg.ops EngineCase.hash0 EngineCase.ver [b1] start
  let b2 ← next st 2 txn2
  let st' ← nodeRun cfg.ops EngineCase.hash0 EngineCase.ver [b1, b2] start
  pure ([b1, b2], st')

def steps : List ShardTrieOp :=
  [.step (.call .casts (.block 1)), .other (.onchain (some (7, 1, List.replicate 32 5, 0))),
    .step (.call .links (.merge Case.follow8)), .step (.call .casts (.merge castB84)),
    .step (.call .links (.prune 7 1 200)), .step (.call .casts (.prune 7 1 100)), .step (.call .casts .commit),
    .step (.call .casts (.block 2)), .step (.call .links (.merge Case.unfollow8)), .step (.call .links (.prune 7 2 200)),
    .step (.call .casts .commit)]

theorem chain_done : chain.bind (fun x => x.2.d.done) = some steps := by decide +kernel

theorem steps_ok : ({} : StoreState).ShardStepsOK Case.noChannels Case.allOn (· ∈ msgs84) zeroSha TrieEntry.Valid {} steps := by
  have v := Case.links_valid
  refine ⟨⟨trivial, ?_⟩, ?_, ⟨⟨v _ (by decide), by decide⟩, ?_⟩, ⟨⟨castB84_valid, by decide⟩, ?_⟩, ⟨⟨by decide, ?_⟩, ?_⟩,
    ⟨⟨by decide, ?_⟩, ?_⟩, ?_, ⟨trivial, ?_⟩, ⟨⟨v _ (by decide), by decide⟩, ?_⟩, ⟨⟨by decide, ?_⟩, ?_⟩, ?_, trivial⟩
  case refine_2 =>
    intro k hk
    simp only [trieKeysForEvent, Option.toList, List.map_cons, List.map_nil, List.append_nil, List.mem_singleton] at hk
    refine ⟨.onchain 7 1 (List.replicate 32 5) 0, ⟨by decide, by decide, by decide, by decide, by decide⟩, hk, ?_⟩
    intro kind m _ h
    obtain ⟨_, _, e⟩ := entries_hash h
    cases e
  all_goals first
    | (intro h; revert h; decide +kernel)
    | (simp only [StoreState.Oldest, StoreState.Has]; decide +kernel)

/-- The blocks exist, and the node holds the cast and the removal of the follow after them. -/
theorem chain_runs : ∃ b1 b2 st, nodeRun cfg.ops EngineCase.hash0 EngineCase.ver ([b1] ++ [b2]) (ShardCfg.fresh ()) = some st ∧
    st.d.done = some steps := by
  obtain ⟨⟨bs, st⟩, h, hd⟩ := Option.bind_eq_some_iff.mp chain_done
  simp only [chain, Option.bind_eq_bind, Option.bind_eq_some_iff, Option.pure_def, Option.some.injEq, Prod.mk.injEq] at h
  obtain ⟨b1, _, st1, _, b2, _, st2, h2, _, rfl⟩ := h
  exact ⟨b1, b2, st2, h2, hd⟩

example : (chain.map fun x => (storedMessages linkStore x.2.d.st.store.db 7, storedMessages castStore x.2.d.st.store.db 7)) =
    some ([Case.unfollow8], [castB84]) := by decide +kernel

/-- So the theorem applies to it. -/
example : ∃ (b : NodeBlock Unit) (st : EngineState (ShardWork Unit) (ShardWork Unit) ShardHub Unit),
    st.d.st.trie.rootHash toyHash = .ok b.chunk.root ∧ st.d.st.store = steps.foldl (StoreState.shardFollow Case.noChannels Case.allOn) {} := by
  obtain ⟨b1, b2, st, h, hd⟩ := chain_runs
  refine ⟨b2, st, (C89_root_stands_for_messages (c := cfg) setting84 toyHash_ne _ _ () [b1] b2 st h steps hd steps_ok).1, ?_⟩
  obtain ⟨s, h1, h2, _⟩ := C84_trie_holds_all_stores setting84 Case.allOn toyHash toyHash_ne steps steps_ok
  obtain ⟨_, w, _, _, w', _, hw, _, hf, he⟩ := keep_last (ShardCfg.told_keeps cfg) (ShardCfg.told_fresh ()) (fun b _ => fine_true b) h
  have he : st.d = w' := he
  subst he
  have := ShardCfg.told_finish hw hf steps hd
  rw [show StoreTrie.shardRun cfg.H cfg.ord cfg.sha256 cfg.env.channelOf cfg.env.ctx steps {} = .ok s from h1] at this
  cases this
  exact h2

/-- Another node sees no proposals and only replays the chunks; it ends with the same root and the same record. -/
example : (chain.bind fun x => (nodeRun cfg.ops EngineCase.hash0 EngineCase.ver (x.1.map fun b => { b with steps := [] }) start).bind
    fun st => st.d.done) = some steps := by decide +kernel

/-- And a third accepts the first proposal. -/
example : ((propose cfg.ops EngineCase.hash0 EngineCase.ver EngineCase.env (startRound start) 1 101 [txn1]).map fun x =>
    (validateChange cfg.ops EngineCase.hash0 EngineCase.ver EngineCase.env (startRound start) 1 x.1).1) = some true := by
  decide +kernel

end Case89
end Verif
