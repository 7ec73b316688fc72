import Verif.Lemmas.ChannelReplica
import Verif.Props.C95
import Verif.Props.C96
/-!
C97: a data shard that replays the block events of shard 0 has the channels of shard 0.
-/
namespace Verif
open Spec ZeroCfg

theorem flatten_filterMap {α β γ : Type} (f : α → Option β) (g : γ → List β) : ∀ (bs : List γ) (ess : List (List α)),
    ess.length = bs.length → (∀ (n : Nat) (b : γ) (es : List α), bs[n]? = some b → ess[n]? = some es → es.filterMap f = g b) →
    ess.flatten.filterMap f = bs.flatMap g
  | [], [], _, _ => rfl
  | b :: bs, es :: ess, hl, h => by
    rw [List.flatten_cons, List.filterMap_append, List.flatMap_cons, h 0 b es rfl rfl,
      flatten_filterMap f g bs ess (by simpa using hl) (fun n b es h1 h2 => h (n + 1) b es h1 h2)]

theorem isChannel_iff {t : MessageType} : ShardCfg.isChannelType t = true ↔
    (t = .channelUpdate ∨ t = .channelMember ∨ t = .channelPin ∨ t = .channelModerate) := by
  cases t <;> simp [ShardCfg.isChannelType]

/-- The channel messages of the events of a block. -/
theorem news_channels {ctx : BlockCtx} {hubs : List ZHub} (hn : ctx.version.isEnabled .channelMessages = false → chanNews hubs = []) :
    (news ctx hubs).filterMap (fun b => match b with
      | .message (some m) => if m.ty = .channelUpdate ∨ m.ty = .channelMember ∨ m.ty = .channelPin ∨ m.ty = .channelModerate then some m else none
      | _ => none) = chanNews hubs := by
  unfold news
  rw [List.filterMap_append, List.filterMap_filterMap]
  have h2 : ∀ p : Prop, [Decidable p] → (if p then [BBody.heartbeat] else []).filterMap (fun b => match b with
      | .message (some m) => if m.ty = .channelUpdate ∨ m.ty = .channelMember ∨ m.ty = .channelPin ∨ m.ty = .channelModerate then some m else none
      | _ => none) = [] := by
    intro p _; by_cases hp : p <;> simp [hp]
  rw [h2, List.append_nil]
  cases hv : ctx.version.isEnabled .channelMessages with
  | false =>
    rw [hn hv, List.filterMap_eq_nil_iff]
    intro x hx
    have hx' := (List.filterMap_eq_nil_iff.1 (hn hv)) x hx
    split <;> try rfl
    · rename_i m
      simp only at hx'
      split
      · simp only [Option.bind_some]
        rw [if_neg]
        intro ht
        rw [if_pos (isChannel_iff.2 ht)] at hx'
        cases hx'
      · rfl
    · split <;> rfl
  | true =>
    unfold chanNews
    congr 1
    funext x
    split
    · rename_i m
      by_cases hc : m.ty = .channelUpdate ∨ m.ty = .channelMember ∨ m.ty = .channelPin ∨ m.ty = .channelModerate
      · have hp : Propagated ctx.version m := .inr (.inr ⟨by rcases hc with h | h | h | h <;> simp [h], hv⟩)
        rw [if_pos hp]
        simp only [Option.bind_some]
        rw [if_pos hc, if_pos (isChannel_iff.2 hc)]
      · simp only
        rw [if_neg (fun h => hc (isChannel_iff.1 h))]
        split
        · simp only [Option.bind_some]; rw [if_neg hc]
        · rfl
    · split <;> rfl
    · split <;> first | rfl | simp_all

/-- A block has at most one event for each result, and a heartbeat. -/
theorem generated_length (H : Bytes → Bytes) (enc : BData → Bytes) (ctx : BlockCtx) (n : Nat) (hubs : List ZHub) :
    (generateBlockEvents H enc ctx n hubs).length ≤ hubs.length + 1 := by
  have hp : ∀ s b, (pushBlockEvent H enc ctx s b).2.length = s.2.length + 1 := fun s b => by simp [pushBlockEvent]
  have hl : ∀ (hubs : List ZHub) (s : Nat × List BEvent), (hubs.foldl (blockEventLoop H enc ctx) s).2.length ≤ s.2.length + hubs.length := by
    intro hubs
    induction hubs with
    | nil => intro s; simp
    | cons x l ih =>
      intro s
      have h1 := ih (blockEventLoop H enc ctx s x)
      have h2 : (blockEventLoop H enc ctx s x).2.length ≤ s.2.length + 1 := by
        unfold blockEventLoop
        split
        · omega
        · rw [hp]; omega
      simp only [List.foldl_cons, List.length_cons]
      omega
  have := hl hubs (n, [])
  unfold generateBlockEvents
  simp only
  split
  · rw [hp]; simpa using this
  · simp only [List.length_nil, Nat.zero_add] at this; omega

theorem shard0Run_size {H : Bytes → Bytes} {enc : BData → Bytes} : ∀ (bs : List Spec.ZBlock) (db db' : Db BEvent)
    (ess : List (List BEvent)), shard0Run H enc bs db = some (db', ess) →
    ess.flatten.length ≤ (bs.map (fun b => b.hubs.length + 1)).sum
  | [], db, db', ess, h => by cases h; simp
  | b :: bs, db, db', ess, h => by
    unfold shard0Run at h
    split at h
    · cases h
    · rename_i db1 es hes
      split at h
      · cases h
      · rename_i h1
        cases h
        have hl : es.length ≤ b.hubs.length + 1 := by
          unfold commitBlockEvents at hes
          split at hes
          · cases hes
          · simp only at hes
            split at hes
            · cases hes
            · split at hes <;> cases hes
              exact generated_length ..
        have := shard0Run_size bs _ _ _ h1
        simp only [List.flatten_cons, List.length_append, List.map_cons, List.sum_cons]
        omega

section
variable {F : Type} {c : ZeroCfg}

/-- The channel history behind a state of shard 0, and its events. -/
theorem zero_told {calls : List (ZCall F)} {d : ZWork} (hrun : c.run calls {} = some d) (hd : Distinct d) :
    ∃ (n : ChanNode) (ess : List (List BEvent)), n.st = d.st.store ∧ NodeInv (fun m => ∃ p ∈ d.posts, p.msg = m) c.caps n ∧
      (((c.dataBlocks calls).map ZBlock.size).sum < 2 ^ 64 → (∀ k, k < 2 ^ 64 → blockEventBySeqnum some d.bev k = .ok (if k = 0 then none else ess.flatten[k - 1]?)) ∧
        maxSeqnum some d.bev = .ok ess.flatten.length ∧ ess.flatten.length < 2 ^ 64 ∧ n.log = (chanMsgs ess.flatten).reverse ∧ Chain (fun m => ∃ p ∈ d.posts, p.msg = m) c.caps [] (chanMsgs ess.flatten) ∧
        ∀ e ∈ ess.flatten, ∀ m, e.channelMessage = some m → ∃ x, e.data = some x ∧ (c.ver x.ts).isEnabled .channelMessages = true) := by
  obtain ⟨_, bs, ess, h1, ⟨new, ops, a⟩, hsize, h3⟩ := traced_run (P := fun _ => True) calls {} d rfl (fun _ _ _ _ => trivial) hrun
  have hpost : d.posts = new := by rw [a.posts]; rfl
  have hst : (ChanNode.run c.caps {} ops).st = d.st.store := a.moved {} rfl
  have hlog := a.logged {} rfl
  have hfair : ∀ o ∈ ops, o.Fair (fun m => ∃ p ∈ d.posts, p.msg = m) ∧ o.OnShardZero ∧ o ≠ .drop := by
    intro o ho
    have hc := a.calm o ho
    refine ⟨?_, hc.2⟩
    cases o with
    | submit owner m =>
      obtain ⟨pre, rest, e⟩ := List.append_of_mem ho
      obtain ⟨p, hp, rfl, _⟩ := a.admitted {} rfl pre owner m rest e
      exact ⟨⟨p, hpost ▸ hp, rfl⟩, hd.times p (hpost ▸ hp)⟩
    | merge K w m => exact hc.2.1.elim
    | other k v => exact hc.1 k v rfl
    | drop => exact absurd rfl hc.2.2
    | commit => trivial
    | block h => trivial
    | numbers g => trivial
  have hnode := node_run (caps := c.caps) hd.hashes ops (fun o ho => (hfair o ho).1) node_init
  obtain ⟨told, ht, hchain⟩ := chain_run (caps := c.caps) hd.hashes ops {} node_init hfair
  refine ⟨ChanNode.run c.caps {} ops, ess, hst, hnode, fun hfit => ?_⟩
  have hfit : ess.flatten.length < 2 ^ 64 := by
    have := shard0Run_size bs _ _ _ h1
    omega
  obtain ⟨hlen, hall⟩ := C38_every_event_once h1 hfit
  obtain ⟨_, hserve, hmax⟩ := C38_numbered_without_gaps h1 hfit
  have hch : chanMsgs ess.flatten = bs.flatMap (fun b => chanNews b.hubs) := by
    refine flatten_filterMap _ _ bs ess hlen (fun n b es hb he => ?_)
    obtain ⟨k1, _⟩ := hall n b es hb he
    rw [← news_channels (h3 b (List.mem_of_getElem? hb)).2]
    have e1 : es.filterMap BEvent.channelMessage = (es.map (fun e => e.data.bind (·.body))).filterMap (fun o => match o with
        | some (.message (some m)) =>
          if m.ty = .channelUpdate ∨ m.ty = .channelMember ∨ m.ty = .channelPin ∨ m.ty = .channelModerate then some m else none
        | _ => none) := by
      rw [List.filterMap_map]; rfl
    rw [e1, k1, List.filterMap_map]
    congr 1
    funext x
    cases x with
    | message m => cases m <;> rfl
    | onchain e => rfl
    | heartbeat => rfl
  have htold : told = chanMsgs ess.flatten := by
    rw [hch]
    have : told.reverse = (bs.flatMap (fun b => chanNews b.hubs)).reverse := by
      rw [hlog] at ht
      simpa using ht.symm
    simpa using congrArg List.reverse this
  refine ⟨hserve, hmax, hfit, by rw [hlog, hch]; simp, htold ▸ hchain, ?_⟩
  intro e he m hm
  obtain ⟨es, hes, hee⟩ := List.mem_flatten.1 he
  obtain ⟨n, hn⟩ := List.getElem?_of_mem hes
  have hlt : n < bs.length := by
    rw [← hlen]; exact (List.getElem?_eq_some_iff.1 hn).1
  have hb : bs[n]? = some bs[n] := List.getElem?_eq_getElem hlt
  obtain ⟨_, k2, _⟩ := hall n _ es hb hn
  obtain ⟨i, hi⟩ := List.getElem?_of_mem hee
  obtain ⟨x, hx, _, _, hts⟩ := k2 i e hi
  obtain ⟨g1, g2⟩ := h3 _ (List.mem_of_getElem? hb)
  refine ⟨x, hx, ?_⟩
  rw [hts, ← g1]
  cases hv : (bs[n]).ctx.version.isEnabled .channelMessages with
  | true => rfl
  | false =>
    exfalso
    obtain ⟨k1, _⟩ := hall n _ es hb hn
    have hz := g2 hv
    have hnews : es.filterMap BEvent.channelMessage = [] := by
      rw [← hz, ← news_channels g2]
      have e1 : es.filterMap BEvent.channelMessage = (es.map (fun e => e.data.bind (·.body))).filterMap (fun o => match o with
          | some (.message (some m)) =>
            if m.ty = .channelUpdate ∨ m.ty = .channelMember ∨ m.ty = .channelPin ∨ m.ty = .channelModerate then some m else none
          | _ => none) := by
        rw [List.filterMap_map]; rfl
      rw [e1, k1, List.filterMap_map]
      congr 1
      funext x
      cases x with
      | message m => cases m <;> rfl
      | onchain e => rfl
      | heartbeat => rfl
    rw [List.filterMap_eq_nil_iff.1 hnews e hee] at hm
    cases hm

theorem same_of_log {U : Msg → Prop} {caps : SlotCaps} {n n' : ChanNode} (h : NodeInv U caps n) (h' : NodeInv U caps n')
    (hl : n.log = n'.log) : SameChannels n n' := by
  have hs : ∀ s : ChanSlot, s.WF → n.slot s = n'.slot s := fun s hs => by rw [node_slot h hs, node_slot h' hs, hl]
  refine ⟨hs, fun ch f hc hf => by rw [node_role h hc hf, node_role h' hc hf, hl], fun ch hc => ?_,
    fun ch hc => by rw [node_mods h hc, node_mods h' hc, hl], fun K ch hc => ?_⟩
  · have := hs (.config ch) hc
    have e : loadSlot .update n.st.db n.st.pend.txn (24 :: 1 :: ch) = loadSlot .update n'.st.db n'.st.pend.txn (24 :: 1 :: ch) := this
    unfold ChanNode.mode membershipMode
    rw [e]
  · cases K with
    | update => rfl
    | pin => rfl
    | member => rw [(node_slots h hc rfl rfl).1, (node_slots h' hc rfl rfl).1, hl]
    | moderate => rw [(node_slots h hc rfl rfl).1, (node_slots h' hc rfl rfl).1, hl]

/-- **C97**: let shard 0 have run any calls, and let `es` be the block events it answers.  A data shard that replays these
events in order, in any batches, some of them dropped and replayed again, between any work of its other stores, refuses none
of the channel messages; and once it has replayed them all, it shows the channels of shard 0: the same configurations,
members, roles, pins, moderated casts and counters.  Before that, each slot holds the last message for it among the events
replayed so far. -/
theorem C97_same_channels (calls : List (ZCall F)) (d : ZWork) (hrun : c.run calls {} = some d) (hd : Distinct d)
    (hfit : ((c.dataBlocks calls).map ZBlock.size).sum < 2 ^ 64) (es : List BEvent) (hmax : maxSeqnum some d.bev = .ok es.length)
    (hserve : ∀ i (h : i < es.length), blockEventBySeqnum some d.bev (i + 1) = .ok (some es[i]))
    (ops : List ReplicaOp) (hf : ChanReplica.Follows c.ver c.caps es {} ops) :
    let r := ChanReplica.run c.ver c.caps {} ops
    r.refused = [] ∧ r.heard <+: es ∧ (r.heard.length = es.length → SameChannels r.node d.channels) ∧
    ∀ s : ChanSlot, s.WF →
      r.node.slot s = .ok ((r.heard.filterMap BEvent.channelMessage).reverse.find? (fun m => m.chanSlot = some s)) := by
  obtain ⟨n, ess, h1, h2, h3⟩ := zero_told hrun hd
  obtain ⟨hserve', hmax', h64, hlog, hchain, hgate⟩ := h3 hfit
  have hes : es = ess.flatten := by
    rw [hmax] at hmax'
    have hlen : es.length = ess.flatten.length := Except.ok.inj hmax'
    refine List.ext_getElem hlen (fun i h1 h2 => ?_)
    have e := (hserve i h1).symm.trans (hserve' (i + 1) (by omega))
    rw [if_neg (by omega), Nat.add_sub_cancel, List.getElem?_eq_getElem h2] at e
    exact Option.some.inj (Except.ok.inj e)
  subst hes
  have hr := replica_run hd.hashes hchain hgate ops {} chanReplica_init hf
  refine ⟨hr.refused, hr.heard, fun hlen => ?_, fun s hs => ?_⟩
  · have hall := hr.heard.eq_of_length hlen
    have hsame := same_of_log hr.inv h2 (by rw [hr.log, hlog, hall])
    have e : d.channels = { n with log := [], saved := [] } := by
      unfold ZWork.channels; rw [← h1]
    rw [e]
    exact ⟨hsame.slots, hsame.roles, hsame.modes, hsame.moderators, hsame.counters⟩
  · rw [node_slot hr.inv hs, hr.log]; rfl

end

namespace Case97
open Case93 (chan)
open Case96 (cfg chain isRole isRole_eq distinct_of)

/-- The events shard 0 answers. -/
def events (d : ZWork) : List BEvent :=
  match maxSeqnum some d.bev with
  | .ok n => (List.range n).filterMap fun i => match blockEventBySeqnum some d.bev (i + 1) with
    | .ok e => e
    | .error _ => none
  | .error _ => []

/-- A data shard that drops a batch, and replays the events again. -/
def ops (es : List BEvent) : List ReplicaOp :=
  (es.take 1).map .event ++ [.drop, .block 7] ++ es.flatMap (fun e => [.event e, .commit])

def isNat (r : Except HubErr Nat) (n : Nat) : Bool :=
  match r with
  | .ok x => x = n
  | .error _ => false

def isEvent (r : Except HubErr (Option BEvent)) (e : BEvent) : Bool :=
  match r with
  | .ok x => x = some e
  | .error _ => false

def hasNumber (g : IdGen) : Bool :=
  match g.generateId false with
  | (.ok _, _) => true
  | _ => false

/-- `Follows` for a data shard without other stores. -/
def follows (es : List BEvent) : ChanReplica → List ReplicaOp → Bool
  | _, [] => true
  | r, .event e :: l => es[r.heard.length]? = some e && hasNumber r.node.st.pend.gen && follows es (r.exec cfg.ver cfg.caps (.event e)) l
  | _, .other _ _ :: _ => false
  | r, .commit :: l => follows es (r.exec cfg.ver cfg.caps .commit) l
  | r, .drop :: l => follows es (r.exec cfg.ver cfg.caps .drop) l
  | r, .block h :: l => follows es (r.exec cfg.ver cfg.caps (.block h)) l
  | r, .numbers g :: l => follows es (r.exec cfg.ver cfg.caps (.numbers g)) l

theorem follows_ok {es : List BEvent} : ∀ (l : List ReplicaOp) (r : ChanReplica), follows es r l = true →
    ChanReplica.Follows cfg.ver cfg.caps es r l
  | [], _, _ => trivial
  | .event e :: l, r, h => by
    simp only [follows, Bool.and_eq_true, decide_eq_true_eq] at h
    refine ⟨h.1.1, ?_, follows_ok l _ h.2⟩
    have := h.1.2
    unfold hasNumber at this
    split at this
    · rename_i id g hg; exact ⟨id, g, hg⟩
    · cases this
  | .other _ _ :: _, _, h => by cases h
  | .commit :: l, r, h => follows_ok l _ h
  | .drop :: l, r, h => follows_ok l _ h
  | .block _ :: l, r, h => follows_ok l _ h
  | .numbers _ :: l, r, h => follows_ok l _ h

theorem isNat_eq {r : Except HubErr Nat} {n : Nat} (h : isNat r n = true) : r = .ok n := by
  unfold isNat at h
  split at h
  · rw [of_decide_eq_true h]
  · cases h

theorem isEvent_eq {r : Except HubErr (Option BEvent)} {e : BEvent} (h : isEvent r e = true) : r = .ok (some e) := by
  unfold isEvent at h
  split at h
  · rw [of_decide_eq_true h]
  · cases h

/-- Whether the case meets all hypotheses. -/
def fine (x : (List (ZCall Unit) × ZWork) × List (ZCall Unit) × ZWork) : Bool :=
  let es := events x.2.2
  ((cfg.dataBlocks (x.1.1 ++ x.2.1)).map ZBlock.size).sum < 2 ^ 64 && isNat (maxSeqnum some x.2.2.bev) es.length &&
  (List.range es.length).all (fun i => (es[i]?).all fun e => isEvent (blockEventBySeqnum some x.2.2.bev (i + 1)) e) &&
  follows es {} (ops es) && (ChanReplica.run cfg.ver cfg.caps {} (ops es)).heard.length = es.length &&
  es.filterMap BEvent.channelMessage = [Case96.ban, Case96.free] && isRole (x.2.2.channels.role chan 40) (some .removed)

theorem chain_fine : chain.map (fun x => (fine x, x.2.2.posts.map (·.msg))) = some (true, [Case96.ban, Case96.free]) := by
  decide +kernel

/-- The theorem applies: a data shard hears of the ban and of its end, the first time in a batch that is dropped, and then
gives user 40 the role that shard 0 gives. -/
example : ∃ (calls : List (ZCall Unit)) (d : ZWork) (es : List BEvent), cfg.run calls {} = some d ∧ Distinct d ∧
    es.filterMap BEvent.channelMessage = [Case96.ban, Case96.free] ∧ ChanReplica.Follows cfg.ver cfg.caps es {} (ops es) ∧
    d.channels.role chan 40 = .ok (some .removed) ∧
    SameChannels (ChanReplica.run cfg.ver cfg.caps {} (ops es)).node d.channels := by
  have h := chain_fine
  simp only [Option.map_eq_some_iff, chain, Option.bind_eq_bind, Option.bind_eq_some_iff, Prod.mk.injEq] at h
  obtain ⟨x, ⟨a, _, b, _, e, _, d, hd, d', hd', hx⟩, h1, h2⟩ := h
  cases hx
  simp only [fine, Bool.and_eq_true, decide_eq_true_eq] at h1
  obtain ⟨⟨⟨⟨⟨⟨g1, g2⟩, g3⟩, g4⟩, g5⟩, g6⟩, g7⟩ := h1
  have hdis := distinct_of h2
  have hrun : cfg.run ((a.1 ++ b.1) ++ e.1) {} = some d' := by rw [zrun_append, hd]; exact hd'
  have hserve : ∀ i (h : i < (events d').length), blockEventBySeqnum some d'.bev (i + 1) = .ok (some (events d')[i]) := by
    intro i hi
    have := List.all_eq_true.1 g3 i (List.mem_range.2 hi)
    rw [List.getElem?_eq_getElem hi] at this
    exact isEvent_eq this
  have hf := follows_ok _ _ g4
  obtain ⟨_, _, hs, _⟩ := C97_same_channels _ d' hrun hdis g1 (events d') (isNat_eq g2) hserve _ hf
  exact ⟨_, d', _, hrun, hdis, g6, hf, isRole_eq g7, hs g5⟩

/-- A data shard that has no event number left in its block when it replays the event. -/
def late (es : List BEvent) : List ReplicaOp :=
  [.numbers { height := 1, seq := 2 ^ sequenceBits }] ++ es.map .event ++ [.commit, .block 2]

def lost (x : (List (ZCall Unit) × ZWork) × List (ZCall Unit) × ZWork) : Bool :=
  let es := events x.1.2
  let r := ChanReplica.run cfg.ver cfg.caps {} (late es)
  (List.range es.length).all (fun i => (es[i]?).all fun e => isEvent (blockEventBySeqnum some x.1.2.bev (i + 1)) e) &&
  es.filterMap BEvent.channelMessage = [Case96.ban] && r.kept = es && r.refused = [Case96.ban] &&
  isRole (x.1.2.channels.role chan 40) (some .banned) && isRole (r.node.role chan 40) none

theorem chain_lost : chain.map lost = some true := by decide +kernel

/-- What the hypothesis on event numbers keeps out: a data shard that has no number left in its block refuses the message of
the owner and goes on with the next event.  It has replayed all events of shard 0, and the user that is banned there has no
role here. -/
theorem C97_lost_without_numbers : ∃ (calls : List (ZCall Unit)) (d : ZWork) (es : List BEvent), cfg.run calls {} = some d ∧
    es.filterMap BEvent.channelMessage = [Case96.ban] ∧
    (∀ i (h : i < es.length), blockEventBySeqnum some d.bev (i + 1) = .ok (some es[i])) ∧
    d.channels.role chan 40 = .ok (some .banned) ∧
    let r := ChanReplica.run cfg.ver cfg.caps {} (late es)
    r.kept = es ∧ r.refused = [Case96.ban] ∧ r.node.role chan 40 = .ok none := by
  have h := chain_lost
  simp only [Option.map_eq_some_iff, chain, Option.bind_eq_bind, Option.bind_eq_some_iff] at h
  obtain ⟨x, ⟨a, _, b, _, e, _, d, hd, d', hd', hx⟩, h1⟩ := h
  cases hx
  simp only [lost, Bool.and_eq_true, decide_eq_true_eq] at h1
  obtain ⟨⟨⟨⟨⟨g1, g2⟩, g3⟩, g4⟩, g5⟩, g6⟩ := h1
  refine ⟨_, d, _, hd, g2, fun i hi => ?_, isRole_eq g5, g3, g4, isRole_eq g6⟩
  have := List.all_eq_true.1 g1 i (List.mem_range.2 hi)
  rw [List.getElem?_eq_getElem hi] at this
  exact isEvent_eq this

end Case97
end Verif
