import Verif.Lemmas.AdmitEngine
import Verif.Props.C86
import Verif.Props.C91
/-!
C92: every message a data shard holds was posted by somebody who may post for the user.  C90 and C86, put together: the
engine of C89 with the on-chain and key tables of C86.
-/
namespace Verif
open Spec StoreDef

section
variable {X F : Type} {a : AdmitCfg X F} {c : ShardCfg (AdmitNode × X) F}

/-- What validation lets through is authorised. -/
theorem passed_authorised {ver : Nat → EngineVersion} {bs : List (NodeBlock F)} (hc : c.rest = a.rest) (s : a.Sound bs)
    {ts : Nat} {st : StoreState} {r : AdmitNode × X} (k : a.Known ver bs r.1) {m : Msg} (ho : OfferedUser bs ts m)
    (hp : PassedAt c.rest ver ts st r m) (hv : 7 ≤ (ver ts).num) (hk : m.ty ≠ .keyAdd ∧ m.ty ≠ .keyRemove) :
    ¬ NotHere (ver ts).num m.ty.num ∧ a.Authorised ver bs ts m := by
  unfold PassedAt at hp
  rw [hc] at hp
  obtain ⟨hcar, hlt⟩ := s.user ts m ho
  obtain ⟨d, hd, hf, ht, _, hsg, _⟩ := id hcar
  have hval : ∃ t, validateUserMessage a.env a.net (a.view st r.2) r.1 (ver ts) ts (a.wire m) = .ok t := by
    have hp : (a.validate (ver ts) ts st r m).2 = none := hp
    unfold AdmitCfg.validate at hp
    split at hp
    · cases hp
    · rename_i t h; exact ⟨t, h⟩
  obtain ⟨t, hval⟩ := hval
  obtain ⟨ops, hof, hn⟩ := k
  rw [hn] at hval
  obtain ⟨⟨said, bytes, h1, h1', h1''⟩, ⟨e, h2, h2'⟩, h3, h4⟩ :=
    C86_admitted_is_authorised a.env a.crypto a.net (hof.fits s) (a.view st r.2) hv ts hd (hf ▸ hlt) hval
  rw [ht] at h3 h4
  rw [hf] at h2' h4
  rw [hsg] at h4
  refine ⟨h3, r.1, ⟨ops, hof, hn⟩, hcar, ⟨said, bytes, h1, h1', fun h => by rw [hd, h1'' h]⟩, ⟨e, ?_, h2'⟩, ?_⟩
  · rcases admit_log_mem _ _ _ ops {} e h2 with h | h | h
    · exact hof.chain e h
    · cases h
    · cases h
  · rw [hn]
    rcases h4 with h | h | h
    · exact absurd h hk.1
    · exact absurd h hk.2
    · exact h

theorem not_key_of_target {t : MessageType} (h : (ShardCfg.mergeTarget t).isSome) : t ≠ .keyAdd ∧ t ≠ .keyRemove := by
  constructor <;> (rintro rfl; cases h)

/-- Whatever the row, a message in the database was brought by a block event of shard 0, or was offered as a user message
at some time `ts` and authorised then.  Loans come only from shard 0, and verifications offered in version 21 or later
too.  Before version 7, the committed tables decide (C86); that case is left out here. -/
theorem C92_held_was_authorised (hc : c.rest = a.rest) (HB : Bytes → Bytes) (ver : Nat → EngineVersion) (x : X)
    (bs : List (NodeBlock F)) (s : a.Sound bs)
    (st : EngineState (ShardWork (AdmitNode × X)) (ShardWork (AdmitNode × X)) ShardHub F)
    (hrun : nodeRun c.ops HB ver bs (ShardCfg.fresh ({}, x)) = some st)
    (k : Bytes) (m : Msg) (held : st.d.st.store.view k = some (.msg m)) :
    (∃ e, OfferedBlockEvent bs e ∧ e.Brings m) ∨
    ∃ ts, OfferedUser bs ts m ∧ (7 ≤ (ver ts).num →
      a.Authorised ver bs ts m ∧ m.ty ≠ .lendStorage ∧
        ((ver ts).num ≥ 21 → m.ty ≠ .verificationAdd ∧ m.ty ≠ .verificationRemove)) := by
  obtain ⟨ht, _, h | h⟩ := C90_rows_were_offered HB ver ({}, x) bs (fun r => a.Known ver bs r.1) AdmitCfg.known_new
    (AdmitCfg.known_keeps hc s) st hrun k m held
  · obtain ⟨ts, store, r, ho, hr, hp⟩ := h
    refine .inr ⟨ts, ho, fun h7 => ?_⟩
    obtain ⟨h1, h2⟩ := passed_authorised hc s hr ho hp h7 (not_key_of_target ht)
    refine ⟨h2, ?_, fun h21 => ⟨?_, ?_⟩⟩ <;> (intro he; rw [he] at h1; simp [NotHere, MessageType.num] at h1; try omega)
  · exact .inl h

/-- The same for what a node would hold if it committed the proposal it validated last. -/
theorem C92_pending_was_authorised (hc : c.rest = a.rest) (HB : Bytes → Bytes) (ver : Nat → EngineVersion) (x : X)
    (bs : List (NodeBlock F)) (b : NodeBlock F)
    (s : a.Sound (bs ++ [b])) (st0 st : EngineState (ShardWork (AdmitNode × X)) (ShardWork (AdmitNode × X)) ShardHub F)
    (hrun : nodeRun c.ops HB ver bs (ShardCfg.fresh ({}, x)) = some st0)
    (hsteps : roundSteps c.ops HB ver b.steps (startRound st0) = some st) (work) (hw : st.pending = some work)
    (k : Bytes) (m : Msg) (held : work.w.st.store.view k = some (.msg m)) :
    (∃ e, OfferedBlockEvent (bs ++ [b]) e ∧ e.Brings m) ∨
    ∃ ts, OfferedUser (bs ++ [b]) ts m ∧ (7 ≤ (ver ts).num →
      a.Authorised ver (bs ++ [b]) ts m ∧ m.ty ≠ .lendStorage ∧
        ((ver ts).num ≥ 21 → m.ty ≠ .verificationAdd ∧ m.ty ≠ .verificationRemove)) := by
  obtain ⟨ht, _, h | h⟩ := C90_pending_rows_were_offered HB ver ({}, x) bs b (fun r => a.Known ver (bs ++ [b]) r.1)
    AdmitCfg.known_new (AdmitCfg.known_keeps hc s) st0 st hrun hsteps work hw k m held
  · obtain ⟨ts, store, r, ho, hr, hp⟩ := h
    refine .inr ⟨ts, ho, fun h7 => ?_⟩
    obtain ⟨h1, h2⟩ := passed_authorised hc s hr ho hp h7 (not_key_of_target ht)
    refine ⟨h2, ?_, fun h21 => ⟨?_, ?_⟩⟩ <;> (intro he; rw [he] at h1; simp [NotHere, MessageType.num] at h1; try omega)
  · exact .inl h

/-- Seen from the other side: a message that was never sent by shard 0 and whose user has no registration among the
on-chain events offered is not held, whatever the proposers of blocks put into them. -/
theorem C92_strangers_hold_nothing (hc : c.rest = a.rest) (HB : Bytes → Bytes) (ver : Nat → EngineVersion)
    (h7 : ∀ ts, 7 ≤ (ver ts).num) (x : X) (bs : List (NodeBlock F)) (s : a.Sound bs)
    (st : EngineState (ShardWork (AdmitNode × X)) (ShardWork (AdmitNode × X)) ShardHub F)
    (hrun : nodeRun c.ops HB ver bs (ShardCfg.fresh ({}, x)) = some st)
    (m : Msg) (hm : ∀ e, OfferedBlockEvent bs e → ¬ e.Brings m) (hreg : ∀ e, OfferedOnchain bs e → ¬ Registers m.fid e)
    (k : Bytes) : st.d.st.store.view k ≠ some (.msg m) := by
  intro held
  rcases C92_held_was_authorised hc HB ver x bs s st hrun k m held with ⟨e, h1, h2⟩ | ⟨ts, _, h⟩
  · exact hm e h1 h2
  · obtain ⟨⟨_, _, _, _, ⟨e, h1, h2⟩, _⟩, _⟩ := h (h7 ts)
    exact hreg e h1 h2

end

namespace Case92
open AdmissionCase (idReg signerAdd aCast crypto view)

/-- Validation, on-chain events and keys as in C86, and nothing else. -/
def a : AdmitCfg Unit Unit where
  env := demoEnv aCast
  crypto := crypto
  net := .devnet
  wire := fun m => { demoMsg aCast with signer := m.signer, hash := m.hash }
  view := fun _ _ => view
  txHash := fun e => List.replicate 32 (UInt8.ofNat e.ty)
  keyEvents := fun _ _ => []
  fresh := fun _ _ => ()
  commit := id
  fname := fun _ _ _ => ((), none)
  merge := fun _ _ _ _ => ((), .error .validation)
  replica := fun _ _ _ => ((), true)
  slot := fun _ _ _ _ _ _ => some { y2025 := 1 }
  pruneNames := fun _ _ _ _ => ((), [])
  active := fun _ _ _ _ _ => some true

def cfg : ShardCfg (AdmitNode × Unit) Unit :=
  ⟨{ Case87.e with channelOf := Case.noChannels, ctx := Case.allOn }, toyHash, id, zeroSha, fun _ => .v21, a.rest⟩

/-- The same cast, signed with the key the user added on chain and with another. -/
def cast : Msg := ⟨11, .castAdd, 1000, List.replicate 20 7, List.replicate 32 9, .castAdd none []⟩
def forged : Msg := { cast with signer := List.replicate 32 7 }

def txn1 : ETxn Unit := ⟨11, [⟨some idReg, none, none⟩], [cast], []⟩
def txn2 : ETxn Unit := ⟨11, [⟨some signerAdd, none, none⟩], [forged, cast], []⟩

abbrev Node := EngineState (ShardWork (AdmitNode × Unit)) (ShardWork (AdmitNode × Unit)) ShardHub Unit

def next (st : Node) (h : Nat) (t : ETxn Unit) : Option (NodeBlock Unit) :=
  (propose cfg.ops EngineCase.hash0 (fun _ => .v21) EngineCase.env (startRound st) h (1000 + h) [t]).map fun x =>
    ⟨[.propose EngineCase.env h (1000 + h) [t]], EngineCase.env, ⟨h, 1000 + h, x.1.root, x.1.txns, [UInt8.ofNat h]⟩⟩

def start : Node := ShardCfg.fresh ({}, ())

def chain : Option (List (NodeBlock Unit) × Node) := do
  let b1 ← next start 1 txn1
  let st ← nodeRun cfg.ops EngineCase.hash0 (fun _ => .v21) [b1] start
  let b2 ← next st 2 txn2
  let st' ← nodeRun cfg.ops EngineCase.hash0 (fun _ => .v21) [b1, b2] start
  pure ([b1, b2], st')

def steps : List ShardTrieOp :=
  [.step (.call .casts (.block 1)), .other (.onchain (some (11, 3, List.replicate 32 3, 0))), .step (.call .casts .commit),
    .step (.call .casts (.block 2)), .other (.onchain (some (11, 1, List.replicate 32 1, 0))),
    .step (.call .casts (.merge cast)), .step (.call .casts (.prune 11 1 100)), .step (.call .casts .commit)]

/-- What the blocks offer. -/
def plain (b : NodeBlock Unit) : Bool :=
  b.offers.all fun x => x.2.user.all (fun m => m = cast ∨ m = forged) &&
    x.2.sys.all (fun s => s.block.isNone && s.onchain.all (fun e => e = idReg ∨ e = signerAdd))

theorem chain_done : chain.bind (fun x => if x.1.all plain then x.2.d.done else none) = some steps := by decide +kernel

/-- The cast is refused at first, since its key is not there yet.  Later it is stored, and the forged one is not. -/
example : (chain.map fun x => storedMessages castStore x.2.d.st.store.db 11) = some [cast] := by decide +kernel

theorem cast_valid : StoreKind.casts.Valid cast :=
  ⟨by decide, by decide, by decide, by decide, .inl ⟨rfl, _, _, rfl, by simp⟩⟩

theorem steps_ok : ({} : StoreState).ShardStepsOK Case.noChannels Case.allOn (· = cast) zeroSha TrieEntry.Valid {} steps := by
  refine ⟨⟨trivial, ?_⟩, ?_, ?_, ⟨trivial, ?_⟩, ?_, ⟨⟨cast_valid, rfl⟩, ?_⟩, ⟨⟨by decide, ?_⟩, ?_⟩, ?_, trivial⟩
  case refine_2 =>
    intro k hk
    simp only [trieKeysForEvent, Option.toList, List.map_cons, List.map_nil, List.append_nil, List.mem_singleton] at hk
    refine ⟨.onchain 11 3 (List.replicate 32 3) 0, ⟨by decide, by decide, by decide, by decide, by decide⟩, hk, ?_⟩
    intro kind m _ h
    obtain ⟨_, _, e⟩ := entries_hash h
    cases e
  case refine_5 =>
    intro k hk
    simp only [trieKeysForEvent, Option.toList, List.map_cons, List.map_nil, List.append_nil, List.mem_singleton] at hk
    refine ⟨.onchain 11 1 (List.replicate 32 1) 0, ⟨by decide, by decide, by decide, by decide, by decide⟩, hk, ?_⟩
    intro kind m _ h
    obtain ⟨_, _, e⟩ := entries_hash h
    cases e
  all_goals first
    | (intro h; revert h; decide +kernel)
    | (simp only [StoreState.Oldest, StoreState.Has]; decide +kernel)

theorem sound_of_plain {bs : List (NodeBlock Unit)} (h : bs.all plain = true) : a.Sound bs := by
  have hall : ∀ b ∈ bs, ∀ x ∈ b.offers, (∀ m ∈ x.2.user, m = cast ∨ m = forged) ∧
      ∀ s ∈ x.2.sys, s.block = none ∧ ∀ e, s.onchain = some e → e = idReg ∨ e = signerAdd := by
    intro b hb x hx
    have := List.all_eq_true.1 (List.all_eq_true.1 h b hb) x hx
    simp only [Bool.and_eq_true, List.all_eq_true, Option.isNone_iff_eq_none, Option.all_eq_true, decide_eq_true_eq] at this
    exact ⟨this.1, fun s hs => ⟨(this.2 s hs).1, fun e he => (this.2 s hs).2 e he⟩⟩
  refine ⟨?_, ?_, ?_⟩
  · rintro e ⟨b, hb, ts, t, ht, s, hs, he⟩
    rcases ((hall b hb _ ht).2 s hs).2 e he with rfl | rfl <;> (unfold Spec.OEvent.Fits; decide)
  · rintro ts m ⟨b, hb, t, ht, hm⟩
    rcases (hall b hb _ ht).1 m hm with rfl | rfl <;>
      exact ⟨⟨aCast, rfl, by decide, by decide, by decide, rfl, rfl⟩, by decide⟩
  · rintro e m ⟨b, hb, ts, t, ht, s, hs, he⟩
    rw [((hall b hb _ ht).2 s hs).1] at he
    cases he

/-- The theorem applies to this node: whoever signed what it holds may post for the user. -/
example : ∃ bs st, nodeRun cfg.ops EngineCase.hash0 (fun _ => .v21) bs start = some st ∧
    st.d.st.store.Has castStore cast ∧ ∃ ts, a.Authorised (fun _ => .v21) bs ts cast := by
  obtain ⟨⟨bs, st⟩, h, hd⟩ := Option.bind_eq_some_iff.mp chain_done
  simp only [chain, Option.bind_eq_bind, Option.bind_eq_some_iff, Option.pure_def, Option.some.injEq, Prod.mk.injEq] at h
  obtain ⟨b1, _, st1, _, b2, _, st2, h2, rfl, rfl⟩ := h
  split at hd
  case isFalse => cases hd
  rename_i hp
  have hs := sound_of_plain hp
  have held : st2.d.st.store.Has castStore cast := by
    obtain ⟨ops, h3, h4, _⟩ := C91_node_worked (c := cfg) (U := (· = cast)) (E := TrieEntry.Valid) _ _ ({}, ()) _ _ h2 steps hd steps_ok
    obtain rfl : steps = ops := by rw [hd] at h3; exact Option.some.inj h3
    rw [shardRun_store steps {} _ h4]
    simp only [StoreState.Has]; decide +kernel
  refine ⟨_, st2, h2, held, ?_⟩
  rcases C92_held_was_authorised (c := cfg) rfl _ _ () _ hs st2 h2 _ cast held with h | h
  · obtain ⟨e, ⟨b, hb, ts, t, ht, s, hs', he⟩, hbr⟩ := h
    have := List.all_eq_true.1 (List.all_eq_true.1 hp b hb) _ ht
    simp only [Bool.and_eq_true, List.all_eq_true, Option.isNone_iff_eq_none] at this
    rw [(this.2 s hs').1] at he
    cases he
  · obtain ⟨ts, _, h⟩ := h
    exact ⟨ts, (h (by decide)).1⟩

end Case92
end Verif
