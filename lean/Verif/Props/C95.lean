import Verif.Lemmas.ZeroTold
import Verif.Props.C38
import Verif.Props.C92
import Verif.Props.C93
/-!
C95: shard 0 and the data shards together.  The engine of C93 numbers its block events as C38 says, hands on every channel
message it keeps, and what the data shards make of these events was posted with authority.
-/
namespace Verif
open Spec ZeroCfg

section
variable {F : Type} {c : ZeroCfg}

theorem shard0Run_length {H : Bytes → Bytes} {enc : BData → Bytes} : ∀ (bs : List Spec.ZBlock) (db db' : Db BEvent)
    (ess : List (List BEvent)), shard0Run H enc bs db = some (db', ess) → ess.length = bs.length
  | [], db, db', ess, h => by cases h; rfl
  | b :: bs, db, db', ess, h => by
    unfold shard0Run at h
    split at h
    · cases h
    · split at h
      · cases h
      · rename_i h1
        cases h
        simp [shard0Run_length bs _ _ _ h1]

theorem rowsTold_new (v : EngineVersion) : RowsTold [] v [] {} := StoreState.From.empty

/-- **C95**: after any calls, the block events of shard 0 are those of the committed blocks with data, in order: they carry
the numbers 1, 2, 3, ...; the node answers each number with that event and no other number with anything, and their count is
the greatest number.  Every event names its block and its place there, carries the hash of its contents, and the block's
header has the hash of its events; a block has a heartbeat exactly if its height is a multiple of the interval.  And nothing
of a channel stays behind: whatever the row, a channel message shard 0 holds is in one of these events. -/
theorem C95_events_of_shard_zero (calls : List (ZCall F)) (d : ZWork) (hrun : c.run calls {} = some d) :
    ∃ ess : List (List BEvent), ess.length = (c.dataBlocks calls).length ∧ (ess.flatten.length < 2 ^ 64 →
      ess.flatten.map (fun e => e.data.map (·.seqnum)) = (List.range' 1 ess.flatten.length).map some ∧
      (∀ n, n < 2 ^ 64 → blockEventBySeqnum some d.bev n = .ok (if n = 0 then none else ess.flatten[n - 1]?)) ∧
      maxSeqnum some d.bev = .ok ess.flatten.length ∧
      (∀ (n : Nat) (b : ZBlock F) (es : List BEvent), (c.dataBlocks calls)[n]? = some b → ess[n]? = some es →
        (∀ (i : Nat) (e : BEvent), es[i]? = some e → ∃ x, e.data = some x ∧ x.index = i ∧ x.blockNumber = b.height ∧ x.ts = b.ts) ∧
        (∀ e ∈ es, Authentic c.HB c.encB e) ∧ eventsHash c.HB es = b.eventsHash ∧
        ((∃ e ∈ es, ∃ x, e.data = some x ∧ x.body = some .heartbeat) ↔ b.height % heartbeatInterval c.net = 0)) ∧
      ∀ k m, d.st.store.view k = some (.msg m) → 18 ≤ m.ty.num → ∃ e ∈ ess.flatten, e.Brings m) := by
  obtain ⟨bs, ess, h1, h2, htold⟩ := told_run (v := .v0) calls [] {} d (rowsTold_new _) hrun
  have hlen : bs.length = (c.dataBlocks calls).length := by
    have := congrArg List.length h2
    simpa [dataBlocks] using this
  have hlen' := shard0Run_length bs _ _ ess h1
  refine ⟨ess, hlen'.trans hlen, fun hfit => ?_⟩
  · obtain ⟨_, hall⟩ := C38_every_event_once h1 hfit
    obtain ⟨ha, hb, hc⟩ := C38_numbered_without_gaps h1 hfit
    refine ⟨ha, hb, hc, ?_, ?_⟩
    rotate_left
    · intro k m hk h18
      rcases htold.view hk h18 with ⟨zb, hzb, hen, hm⟩ | ⟨_, _, h⟩
      rotate_left
      · cases h
      · obtain ⟨n, hn⟩ := List.getElem?_of_mem hzb
        have hlt := (List.getElem?_eq_some_iff.1 hn).1
        have hlt' : n < ess.length := by rw [hlen']; exact hlt
        have he : ess[n]? = some ess[n] := List.getElem?_eq_getElem hlt'
        obtain ⟨k1, _⟩ := hall n zb _ hn he
        have hnews : some (BBody.message (some m)) ∈ (ess[n]).map (fun e => e.data.bind (·.body)) := by
          rw [k1]
          refine List.mem_map.2 ⟨_, ?_, rfl⟩
          unfold news
          refine List.mem_append.2 (.inl (List.mem_filterMap.2 ⟨_, hm, ?_⟩))
          simp only
          rw [if_pos]
          refine .inr (.inr ⟨?_, hen⟩)
          cases hty : m.ty <;> rw [hty] at h18 <;> first | exact absurd h18 (by decide) | simp
        obtain ⟨e, he', hb'⟩ := List.mem_map.1 hnews
        obtain ⟨x, hx, hbody⟩ := Option.bind_eq_some_iff.1 hb'
        exact ⟨e, List.mem_flatten.2 ⟨_, List.getElem_mem _, he'⟩, x, hx, hbody⟩
    intro n b es hn he
    have h3 := congrArg (fun l => l[n]?) h2
    simp only [List.getElem?_map] at h3
    rw [show ((((commits calls).map (·.2)).filter (fun b => (c.ver b.ts).isEnabled .writeDataToShardZero)))[n]? = some b from hn] at h3
    cases hbn : bs[n]? with
    | none => rw [hbn] at h3; cases h3
    | some zb =>
      rw [hbn] at h3
      simp only [Option.map_some, Option.some.injEq, Prod.mk.injEq] at h3
      obtain ⟨hctx, hcl⟩ := h3
      obtain ⟨k1, k2, k3, k4⟩ := hall n zb es hbn he
      rw [hctx] at k1 k2
      refine ⟨k2, k3, k4.trans hcl, ?_⟩
      have hmem : (∃ e ∈ es, ∃ x, e.data = some x ∧ x.body = some .heartbeat) ↔
          BBody.heartbeat ∈ news ⟨c.net, b.height, b.ts, c.ver b.ts⟩ zb.hubs := by
        have : (∃ e ∈ es, ∃ x, e.data = some x ∧ x.body = some .heartbeat) ↔
            some BBody.heartbeat ∈ es.map (fun e => e.data.bind (·.body)) := by
          simp only [List.mem_map, Option.bind_eq_some_iff]
        rw [this, k1]
        simp
      rw [hmem]
      unfold news
      rw [List.mem_append]
      constructor
      · rintro (h | h)
        · exfalso
          obtain ⟨hub, _, hh⟩ := List.mem_filterMap.1 h
          split at hh
          · split at hh <;> cases hh
          · split at hh <;> cases hh
          · cases hh
        · split at h
          · assumption
          · cases h
      · intro h
        rw [if_pos h]
        exact .inr (by simp)

end

section
variable {X F F' : Type} {a : AdmitCfg X F} {c : ShardCfg (AdmitNode × X) F} {z : ZeroCfg}

/-- The two shards together: if the block events offered to a data shard are block events of shard 0, then whatever the row,
a message on the data shard was posted with authority there, or on shard 0 and handed on.  (Before version 7 of the data
shard, see C86.) -/
theorem C95_end_to_end (hc : c.rest = a.rest) (HB : Bytes → Bytes) (ver : Nat → EngineVersion) (x : X)
    (bs : List (NodeBlock F)) (s : a.Sound bs)
    (st : EngineState (ShardWork (AdmitNode × X)) (ShardWork (AdmitNode × X)) ShardHub F)
    (hrun : nodeRun c.ops HB ver bs (ShardCfg.fresh ({}, x)) = some st)
    (calls : List (ZCall F')) (sz : z.Sound calls) (d : ZWork) (hrun0 : z.run calls {} = some d)
    (sent : ∀ e, OfferedBlockEvent bs e → ∃ n, blockEventBySeqnum some d.bev n = .ok (some e))
    (k : Bytes) (m : Msg) (held : st.d.st.store.view k = some (.msg m)) :
    (∃ p ∈ d.posts, p.msg = m ∧ PostedIn calls p.ts m ∧ z.Authorised p ∧ HandedOn (z.ver p.ts).num m.ty.num ∧
      ∀ e ∈ p.node.chain.log, OnChainIn calls e) ∨
    ∃ ts, OfferedUser bs ts m ∧ (7 ≤ (ver ts).num → a.Authorised ver bs ts m ∧ m.ty ≠ .lendStorage ∧
      ((ver ts).num ≥ 21 → m.ty ≠ .verificationAdd ∧ m.ty ≠ .verificationRemove)) := by
  rcases C92_held_was_authorised hc HB ver x bs s st hrun k m held with ⟨e, he, hb⟩ | h
  · obtain ⟨n, hn⟩ := sent e he
    have hrow : d.bev.get (blockEventKey n) = some e := by
      unfold blockEventBySeqnum at hn
      split at hn
      · cases hn
      · cases hn; assumption
    obtain ⟨p, h1, h2, h3, h4, h5, h6, _⟩ := (C93_block_events_were_posted calls sz d hrun0 _ e hrow).1 m hb
    exact .inl ⟨p, h1, h2, h3, h4, h5, h6⟩
  · exact .inr h

/-- Seen from the other side: a user whose id no on-chain event offered to either shard registers has nothing on the data
shard. -/
theorem C95_strangers_hold_nothing (hc : c.rest = a.rest) (HB : Bytes → Bytes) (ver : Nat → EngineVersion)
    (h7 : ∀ ts, 7 ≤ (ver ts).num) (x : X) (bs : List (NodeBlock F)) (s : a.Sound bs)
    (st : EngineState (ShardWork (AdmitNode × X)) (ShardWork (AdmitNode × X)) ShardHub F)
    (hrun : nodeRun c.ops HB ver bs (ShardCfg.fresh ({}, x)) = some st)
    (calls : List (ZCall F')) (sz : z.Sound calls) (d : ZWork) (hrun0 : z.run calls {} = some d)
    (sent : ∀ e, OfferedBlockEvent bs e → ∃ n, blockEventBySeqnum some d.bev n = .ok (some e))
    (m : Msg) (hreg : ∀ e, OfferedOnchain bs e ∨ OnChainIn calls e → ¬ Registers m.fid e)
    (k : Bytes) : st.d.st.store.view k ≠ some (.msg m) := by
  intro held
  rcases C95_end_to_end hc HB ver x bs s st hrun calls sz d hrun0 sent k m held with ⟨p, _, rfl, _, h, _, hl⟩ | ⟨ts, _, h⟩
  · obtain ⟨e, he, hr⟩ := h.registered
    exact hreg e (.inr (hl e he)) hr
  · obtain ⟨⟨_, _, _, _, ⟨e, h1, h2⟩, _⟩, _⟩ := h (h7 ts)
    exact hreg e (.inl h1) h2

end

namespace Case95
open AdmissionCase (idReg signerAdd)

/-- A data shard with the messages of `Case93`. -/
def a : AdmitCfg Unit Unit := { Case92.a with env := Case93.env, wire := Case93.cfg.wire }
def cfg : ShardCfg (AdmitNode × Unit) Unit := { Case92.cfg with rest := a.rest }

/-- The block events of `Case93`, each as shard 0 answers it. -/
def sent : List BEvent := (Case93.final.toList.flatMap fun x => [1, 2, 3].filterMap fun n =>
  match blockEventBySeqnum some x.2.bev n with | .ok e => e | .error _ => none)

def txn : ETxn Unit := ⟨0, sent.map fun e => ⟨none, none, some e⟩, [], []⟩

abbrev Node := EngineState (ShardWork (AdmitNode × Unit)) (ShardWork (AdmitNode × Unit)) ShardHub Unit

def block : Option (NodeBlock Unit) :=
  (propose cfg.ops EngineCase.hash0 (fun _ => .v21) EngineCase.env (startRound Case92.start) 1 1001 [txn]).map fun x =>
    ⟨[.propose EngineCase.env 1 1001 [txn]], EngineCase.env, ⟨1, 1001, x.1.root, x.1.txns, [1]⟩⟩

def final : Option (List (NodeBlock Unit) × Node) := do
  let b ← block
  let st ← nodeRun cfg.ops EngineCase.hash0 (fun _ => .v21) [b] Case92.start
  pure ([b], st)

def plain (b : NodeBlock Unit) : Bool :=
  b.offers.all fun x => x.2.user.isEmpty && x.2.sys.all (fun s => s.onchain.isNone && s.block.all (· ∈ sent))

theorem final_done : final.map (fun x => (x.1.all plain, x.2.d.st.store.view Case93.lendKey)) =
    some (true, some (.msg Case93.lend)) := by decide +kernel

theorem sent_bodies : sent.map (fun e => e.data.bind (·.body)) = [some (.message (some Case93.keyAdd)),
    some (.message (some Case93.update)), some (.message (some Case93.lend))] := by decide +kernel

theorem offered_of_plain {bs : List (NodeBlock Unit)} (h : bs.all plain = true) : (∀ ts m, ¬ OfferedUser bs ts m) ∧
    (∀ e, ¬ OfferedOnchain bs e) ∧ ∀ e, OfferedBlockEvent bs e → e ∈ sent := by
  have hall : ∀ b ∈ bs, ∀ x ∈ b.offers, x.2.user = [] ∧ ∀ s ∈ x.2.sys, s.onchain = none ∧ ∀ e, s.block = some e → e ∈ sent := by
    intro b hb x hx
    have := List.all_eq_true.1 (List.all_eq_true.1 h b hb) x hx
    simp only [Bool.and_eq_true, List.all_eq_true, Option.isNone_iff_eq_none, Option.all_eq_true, decide_eq_true_eq,
      List.isEmpty_iff] at this
    exact ⟨this.1, fun s hs => ⟨(this.2 s hs).1, fun e he => (this.2 s hs).2 e he⟩⟩
  refine ⟨?_, ?_, ?_⟩
  · rintro ts m ⟨b, hb, t, ht, hm⟩
    rw [(hall b hb _ ht).1] at hm
    cases hm
  · rintro e ⟨b, hb, ts, t, ht, s, hs, he⟩
    rw [((hall b hb _ ht).2 s hs).1] at he
    cases he
  · rintro e ⟨b, hb, ts, t, ht, s, hs, he⟩
    exact ((hall b hb _ ht).2 s hs).2 e he

theorem sound_of_plain {bs : List (NodeBlock Unit)} (h : bs.all plain = true) : a.Sound bs := by
  obtain ⟨h1, h2, h3⟩ := offered_of_plain h
  refine ⟨fun e he => absurd he (h2 e), fun ts m hm => absurd hm (h1 ts m), ?_⟩
  rintro e m he ⟨d, hd, hb⟩
  have hm : some (BBody.message (some m)) ∈ sent.map (fun e => e.data.bind (·.body)) :=
    List.mem_map.2 ⟨e, h3 e he, by rw [hd]; exact hb⟩
  rw [sent_bodies] at hm
  simp only [List.mem_cons, Option.some.injEq, BBody.message.injEq, List.not_mem_nil, or_false] at hm
  rcases hm with rfl | rfl | rfl
  · exact ⟨⟨Case93.keyData, rfl, by decide, by decide, by decide, rfl, rfl⟩, by decide⟩
  · exact ⟨⟨Case93.updateData, rfl, by decide, by decide, by decide, rfl, rfl⟩, by decide⟩
  · exact ⟨⟨Case93.lendData, rfl, by decide, by decide, by decide, rfl, rfl⟩, by decide⟩

/-- The first theorem applies: two blocks with data, three events, and the update of the channel is in one of them. -/
example : ∃ (calls : List (ZCall Unit)) (d : ZWork), Case93.cfg.run calls {} = some d ∧ (Case93.cfg.dataBlocks calls).length = 2 ∧
    maxSeqnum some d.bev = .ok 3 ∧ d.st.store.view Case93.updateKey = some (.msg Case93.update) ∧ 18 ≤ Case93.update.ty.num := by
  have h : Case93.final.map (fun x => ((Case93.cfg.dataBlocks x.1).length, (maxSeqnum some x.2.bev).toOption,
      x.2.st.store.view Case93.updateKey)) = some (2, some 3, some (.msg Case93.update)) := by decide +kernel
  simp only [Option.map_eq_some_iff, Case93.final, Option.bind_eq_some_iff, Prod.mk.injEq] at h
  obtain ⟨⟨calls, d⟩, ⟨x, hx, d', hr, e⟩, h1, h2, h3⟩ := h
  cases e
  refine ⟨_, d, hr, h1, ?_, h3, by decide⟩
  cases hm : maxSeqnum some d.bev with
  | error _ => simp only [hm] at h2; cases h2
  | ok n => simp only [hm] at h2; cases h2; rfl

/-- The theorem applies: the loan reached the data shard, and was authorised on shard 0. -/
example : ∃ bs st, ∃ (calls : List (ZCall Unit)) (d : ZWork), nodeRun cfg.ops EngineCase.hash0 (fun _ => .v21) bs Case92.start = some st ∧
    Case93.cfg.run calls {} = some d ∧ st.d.st.store.view Case93.lendKey = some (.msg Case93.lend) ∧
    ∃ p ∈ d.posts, p.msg = Case93.lend ∧ Case93.cfg.Authorised p := by
  have h := final_done
  simp only [final, Option.map_eq_some_iff, Option.bind_eq_bind, Option.bind_eq_some_iff, Option.pure_def, Option.some.injEq,
    Prod.mk.injEq] at h
  obtain ⟨⟨bs, st⟩, ⟨b, _, st', hr, e⟩, hp, hl⟩ := h
  cases e
  have h0 := Case93.final_done
  simp only [Option.map_eq_some_iff, Case93.final, Option.bind_eq_some_iff, Prod.mk.injEq] at h0
  obtain ⟨⟨calls, d⟩, ⟨x, hx, d', hr0, e⟩, hp0, _⟩ := h0
  cases e
  have hsent : ∀ e ∈ sent, ∃ n, blockEventBySeqnum some d.bev n = .ok (some e) := by
    intro e he
    have hf : Case93.final = some (x.1, d) := by simp only [Case93.final, hx, Option.bind_some, hr0, Option.map_some]
    unfold sent at he
    rw [hf] at he
    simp only [Option.toList_some, List.flatMap_cons, List.flatMap_nil, List.append_nil, List.mem_filterMap] at he
    obtain ⟨n, _, hn⟩ := he
    split at hn
    · rename_i e' he'; subst hn; exact ⟨n, he'⟩
    · cases hn
  obtain ⟨hu, _, hs⟩ := offered_of_plain hp
  rcases C95_end_to_end (c := cfg) (a := a) rfl _ _ () _ (sound_of_plain hp) st hr _ (Case93.sound_of_plain hp0) d hr0
    (fun e he => hsent e (hs e he)) _ Case93.lend hl with ⟨p, h1, h2, _, h3, _⟩ | ⟨ts, h, _⟩
  · exact ⟨_, st, _, d, hr, hr0, hl, p, h1, h2, h3⟩
  · exact absurd h (hu ts _)

end Case95
end Verif
