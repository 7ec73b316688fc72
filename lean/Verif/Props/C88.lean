import Verif.Lemmas.SubscribeInv
/-!
C88: what a subscriber to the event stream gets.  A history interleaves, in any way, the commits of the shards (writing the
events of a block, handing them to the channel one by one, storing the chunk) with the work for the subscriber (reading
the old events page by page, subscribing to the channel of a shard, receiving from it).  The steps before the first one
for the subscriber are the history before the subscription.  `Orderly` (Spec/Subscribe.lean) says how blocks and their
event ids follow one another.
-/
namespace Verif
open SubNode

variable {req : SubRequest} {cap : Nat}

/-- What a subscriber following a shard has got from it: the events from the first id asked for among those written when
the reading of the log ended, then the events sent since the channel was subscribed, up to where the subscriber is, all of
the types asked for; nothing else, and in that order.  If the subscriber was too slow at some time, events of the second
part may be missing. -/
theorem C88_stream (hn : req.shards.Nodup) (hf : req.fromId.getD 0 < 2 ^ 64) (steps : List SubStep)
    (ho : (begins req).OrderlyRun req cap steps) (i p : Nat) :
    let n := (begins req).run req cap steps
    n.position i = some p →
    ∃ read since later, (req.fromId = none → read = 0) ∧ (req.fromId ≠ none → n.ended i = some read) ∧ n.begun i = some since ∧
      read ≤ (n.shards i).written.length ∧ since ≤ p ∧ p ≤ (n.shards i).sent.length ∧
      n.received i = req.view i (((n.shards i).written.take read).filter (fun e => decide (req.fromId.getD 0 ≤ e.id))) ++ later ∧
      List.Sublist later (req.view i (((n.shards i).written.drop since).take (p - since))) ∧
      (n.lagged i = false → later = req.view i (((n.shards i).written.drop since).take (p - since))) := by
  intro n hp
  have h : SubInv req n := SubInv.run hf steps (SubInv.start req hn) ho
  obtain ⟨h0, b, L, h1, h2, h3, h4, h5, h6⟩ := h.following hp
  have hend : req.fromId ≠ none → n.ended i ≠ none := by
    have hph := h.phase
    unfold SubNode.position at hp
    cases hc : n.phase with
    | stopped => rw [hc] at hph; exact hph.elim
    | replay todo token last => rw [hc] at hp; simp at hp
    | live pos => rw [hc] at hph; exact hph.1 i h0
  by_cases hfn : req.fromId = none
  · have hno : n.received i = req.view i ([] : List HEvent) ++ L := by
      rw [h4]
      have := (run_noRead (req := req) (cap := cap) steps (begins req) ⟨fun _ => rfl, by
        simp only [SubNode.start, hfn]; exact ⟨_, rfl⟩⟩).1 i
      unfold SubNode.readPart
      rw [show n.ended i = none from this]
      simp
    exact ⟨0, b, L, fun _ => rfl, fun h => absurd hfn h, h1, Nat.zero_le _, h2, h3, by simpa using hno, h5, h6⟩
  · obtain ⟨r, hr⟩ := Option.ne_none_iff_exists'.1 (hend hfn)
    refine ⟨r, b, L, fun h => absurd h hfn, fun _ => hr, h1, h.ended i r hr, h2, h3, ?_, h5, h6⟩
    rw [h4]
    unfold SubNode.readPart
    rw [hr]
    rfl

/-- While the log of a shard is being read, the subscriber has got the first part of what the log holds from the first id
on, of the types asked for; all of what it held when the reading ended, once it has. -/
theorem C88_reading (hn : req.shards.Nodup) (hf : req.fromId.getD 0 < 2 ^ 64) (steps : List SubStep)
    (ho : (begins req).OrderlyRun req cap steps) (i : Nat) :
    let n := (begins req).run req cap steps
    n.position i = none →
    n.received i <+: req.view i ((n.shards i).written.filter (fun e => decide (req.fromId.getD 0 ≤ e.id))) ∧
    ∀ read, n.ended i = some read →
      n.received i = req.view i (((n.shards i).written.take read).filter (fun e => decide (req.fromId.getD 0 ≤ e.id))) := by
  intro n hp
  have h : SubInv req n := SubInv.run hf steps (SubInv.start req hn) ho
  refine ⟨h.reading i hp, fun r hr => ?_⟩
  have := h.reads_all i hp hr
  unfold SubNode.readPart at this
  rw [hr] at this
  exact this

/-- Whatever the schedule, each thing delivered is of a shard and a type asked for and is an event that shard wrote, with
its shard and block number. -/
theorem C88_genuine (hn : req.shards.Nodup) (hf : req.fromId.getD 0 < 2 ^ 64) (steps : List SubStep)
    (ho : (begins req).OrderlyRun req cap steps) :
    let n := (begins req).run req cap steps
    ∀ d ∈ n.out, d.shard ∈ req.shards ∧ d.ty ∈ req.types ∧ ∃ e ∈ (n.shards d.shard).written, d.undated = e.reported d.shard := by
  intro n d hd
  have h : SubInv req n := SubInv.run hf steps (SubInv.start req hn) ho
  obtain ⟨h1, h2, _⟩ := h.out d hd
  refine ⟨h2, h1, h.genuine d.shard ?_⟩
  exact List.mem_map.2 ⟨d, List.mem_filter.2 ⟨hd, by simp⟩, rfl⟩

/-- The timestamp of an event delivered is 0 or that of the block that wrote it. -/
theorem C88_timestamps (hn : req.shards.Nodup) (hf : req.fromId.getD 0 < 2 ^ 64) (steps : List SubStep)
    (ho : (begins req).OrderlyRun req cap steps) :
    let n := (begins req).run req cap steps
    ∀ d ∈ n.out, d.ts = 0 ∨ ∃ h ts es, SubStep.node d.shard (.write h ts es) ∈ steps ∧ d.ts = ts ∧ (∃ e ∈ es, e.id = d.id) ∧
      ∃ e ∈ (n.shards d.shard).sent ++ (n.shards d.shard).queue, e.id = d.id ∧ e.ts = d.ts := by
  intro n d hd
  have h : SubInv req n := SubInv.run hf steps (SubInv.start req hn) ho
  obtain ⟨_, _, h3⟩ := h.out d hd
  rcases h3 with h3 | ⟨e, he, h4, h5⟩
  · exact .inl h3
  · right
    rcases sends_dated steps (begins req) d.shard e he with hx | ⟨hh, ts, es, a1, a2, x, hx, hxe⟩
    · cases hx
    · exact ⟨hh, ts, es, a1, h5 ▸ a2, ⟨x, hx, hxe.trans h4⟩, e, he, h4, h5⟩

/-- Nothing is missed by a subscriber that was never too slow if the channel was subscribed no later than the reading
ended: every event of the shard from the first id on, up to where the subscriber is, of a type asked for, is received. -/
theorem C88_nothing_missed (hn : req.shards.Nodup) (hf : req.fromId.getD 0 < 2 ^ 64) (steps : List SubStep)
    (ho : (begins req).OrderlyRun req cap steps) (i p read since : Nat) :
    let n := (begins req).run req cap steps
    n.position i = some p → n.ended i = some read → n.begun i = some since → since ≤ read → n.lagged i = false →
    ∀ e ∈ (n.shards i).written.take p, req.fromId.getD 0 ≤ e.id → e.ty ∈ req.types → e.reported i ∈ n.received i := by
  intro n hp hr hb hle hl e he hfe hty
  obtain ⟨r', b', L, _, h1, h2, _, _, _, h3, _, h4⟩ := C88_stream hn hf steps ho i p hp
  have hb' : b' = since := by
    have : some b' = some since := h2.symm.trans hb
    exact Option.some.inj this
  subst hb'
  have hL := h4 hl
  have hfn : req.fromId ≠ none := by
    intro hfn
    have := (run_noRead (req := req) (cap := cap) steps (begins req) ⟨fun _ => rfl, by
      simp only [SubNode.start, hfn]; exact ⟨_, rfl⟩⟩).1 i
    rw [show n.ended i = none from this] at hr
    cases hr
  have hr' : r' = read := Option.some.inj ((h1 hfn).symm.trans hr)
  subst hr'
  show e.reported i ∈ SubNode.received _ i
  rw [h3, hL]
  obtain ⟨k, hk, hke⟩ := List.mem_iff_getElem.1 he
  simp only [List.length_take] at hk
  rw [List.getElem_take] at hke
  apply List.mem_append.2
  by_cases hkr : k < r'
  · left
    refine List.mem_map.2 ⟨e, List.mem_filter.2 ⟨List.mem_filter.2 ⟨?_, decide_eq_true hfe⟩, decide_eq_true hty⟩, rfl⟩
    exact List.mem_iff_getElem.2 ⟨k, by simp; omega, by rw [List.getElem_take]; exact hke⟩
  · right
    refine List.mem_map.2 ⟨e, List.mem_filter.2 ⟨?_, decide_eq_true hty⟩, rfl⟩
    exact List.mem_iff_getElem.2 ⟨k - b', by
      show k - b' < (((n.shards i).written.drop b').take (p - b')).length
      rw [List.length_take, List.length_drop]
      omega, by
      rw [List.getElem_take, List.getElem_drop]
      rw [← hke]
      congr 1
      omega⟩

/-- Nothing is received twice, and the ids ascend, if the channel was subscribed no earlier than all that had been read
had been sent; also for a slow subscriber. -/
theorem C88_nothing_twice (hn : req.shards.Nodup) (hf : req.fromId.getD 0 < 2 ^ 64) (steps : List SubStep)
    (ho : (begins req).OrderlyRun req cap steps) (i p : Nat) :
    let n := (begins req).run req cap steps
    n.position i = some p → (∀ read since, n.ended i = some read → n.begun i = some since → read ≤ since) →
    (n.received i).Pairwise (fun a b => a.id < b.id) := by
  intro n hp hrb
  have h : SubInv req n := SubInv.run hf steps (SubInv.start req hn) ho
  obtain ⟨r, b, L, h0, h1, h2, h3, h4, h5, h6, h7, _⟩ := C88_stream hn hf steps ho i p hp
  have hrb' : r ≤ b := by
    by_cases hfn : req.fromId = none
    · rw [h0 hfn]; exact Nat.zero_le _
    · exact hrb r b (h1 hfn) h2
  rw [h6]
  have hsub : List.Sublist (req.view i (((n.shards i).written.take r).filter (fun e => decide (req.fromId.getD 0 ≤ e.id))) ++ L)
      ((n.shards i).written.map (HEvent.reported i)) := by
    have h1 : List.Sublist (req.view i (((n.shards i).written.take r).filter (fun e => decide (req.fromId.getD 0 ≤ e.id))))
        (((n.shards i).written.take b).map (HEvent.reported i)) :=
      ((List.filter_sublist.trans List.filter_sublist).trans (List.take_prefix_take_left hrb').sublist).map _
    have h2 : List.Sublist L (((n.shards i).written.drop b).map (HEvent.reported i)) :=
      h7.trans ((List.filter_sublist.trans (List.take_sublist _ _)).map _)
    have := h1.append h2
    rw [← List.map_append, List.take_append_drop] at this
    exact this
  refine List.Pairwise.sublist hsub ?_
  rw [List.pairwise_map]
  exact (h.ev i).asc

/-- If a shard is idle when the subscriber has read all of its log, and does nothing until its channel is subscribed, then
the subscriber, as long as it is never too slow, gets every event of the shard from the first id on, of the types asked
for, exactly once and in order, up to where it is. -/
theorem C88_complete_if_quiet (hn : req.shards.Nodup) (hf : req.fromId.getD 0 < 2 ^ 64) (s1 s2 s3 : List SubStep)
    (ho : (begins req).OrderlyRun req cap (s1 ++ (s2 ++ s3))) (i p : Nat) :
    let n1 := (begins req).run req cap s1
    let n2 := n1.run req cap s2
    let n := n2.run req cap s3
    n1.ended i = some (n1.shards i).written.length → (n1.shards i).queue = [] → n1.position i = none →
    (∀ c, SubStep.node i c ∉ s2) → n2.position i ≠ none → n.position i = some p → n.lagged i = false →
    (n.received i).filter (fun d => decide (req.fromId.getD 0 ≤ d.id)) =
      req.view i (((n.shards i).written.take p).filter (fun e => decide (req.fromId.getD 0 ≤ e.id))) := by
  intro n1 n2 n he hq hp1 hs hp2 hp hl
  obtain ⟨ho1, ho23⟩ := OrderlyRun.append s1 (s2 ++ s3) ho
  obtain ⟨ho2, ho3⟩ := OrderlyRun.append s2 s3 ho23
  have i1 : SubInv req n1 := SubInv.run hf s1 (SubInv.start req hn) ho1
  have i2 : SubInv req n2 := SubInv.run hf s2 i1 ho2
  have hlen : (n1.shards i).sent.length = (n1.shards i).written.length := by
    have := congrArg List.length (i1.ev i).sent
    rw [hq] at this
    simpa using this
  have hb1 : n1.begun i = none := by
    have hph := i1.phase
    unfold SubNode.position at hp1
    cases hc : n1.phase with
    | stopped => rw [hc] at hph; exact hph.elim
    | replay todo token last => rw [hc] at hph; exact (hph.2.2.1 i).1
    | live pos =>
      rw [hc] at hph hp1
      have := hph.2 i
      simp only at hp1
      rw [hp1] at this
      exact this.1
  obtain ⟨_, hb2⟩ := i1.quiet hf s2 ho2 hs (.inl hb1)
  have he2 : n2.ended i = some (n1.shards i).written.length := by
    have : ∀ (steps : List SubStep) {m : SubNode} {r : Nat}, SubInv req m → m.OrderlyRun req cap steps → m.ended i = some r →
        (m.run req cap steps).ended i = some r := by
      intro steps
      induction steps with
      | nil => intro m r _ _ h; exact h
      | cons s steps ih => intro m r h ho h1; exact ih (h.exec hf s ho.1) ho.2 (h.ended_stays s h1)
    exact this s2 i1 ho2 he
  have hb2' : n2.begun i = some (n1.shards i).written.length := by
    obtain ⟨p2, hp2⟩ := Option.ne_none_iff_exists'.1 hp2
    obtain ⟨_, b, _, hb, _⟩ := i2.following hp2
    rcases hb2 with hb2 | hb2
    · rw [show n2.begun i = none from hb2] at hb; cases hb
    · rw [hlen] at hb2; exact hb2
  obtain ⟨he3, hb3⟩ := i2.stays hf s3 ho3 he2 hb2'
  have hn' : n = (begins req).run req cap (s1 ++ (s2 ++ s3)) := by
    rw [subRun_append, subRun_append]
  have hst := C88_stream hn hf (s1 ++ (s2 ++ s3)) ho i p
  rw [← hn'] at hst
  obtain ⟨r, b, L, _, g1, g2, g3, g4, g5, g6, _, g7⟩ := hst hp
  have hfn : req.fromId ≠ none := by
    intro hfn
    have := (run_noRead (req := req) (cap := cap) s1 (begins req) ⟨fun _ => rfl, by
      simp only [SubNode.start, hfn]; exact ⟨_, rfl⟩⟩).1 i
    rw [show n1.ended i = none from this] at he
    cases he
  have hr : r = (n1.shards i).written.length := Option.some.inj ((g1 hfn).symm.trans he3)
  have hb : b = (n1.shards i).written.length := Option.some.inj (g2.symm.trans hb3)
  have hrb : r = b := hr.trans hb.symm
  rw [g6, g7 hl, ← view_append]
  have hfilt : ∀ l : List HEvent, (req.view i l).filter (fun d => decide (req.fromId.getD 0 ≤ d.id)) =
      req.view i (l.filter (fun e => decide (req.fromId.getD 0 ≤ e.id))) := by
    intro l
    unfold SubRequest.view
    rw [List.filter_map, List.filter_filter, List.filter_filter]
    congr 1
    apply List.filter_congr
    intro e _
    exact Bool.and_comm _ _
  rw [hfilt, List.filter_append, List.filter_filter]
  congr 1
  have htake : (n.shards i).written.take p = (n.shards i).written.take r ++ ((n.shards i).written.drop b).take (p - b) := by
    rw [hrb, show p = b + (p - b) by omega, List.take_add]
    simp
  rw [htake, List.filter_append]
  congr 1
  apply List.filter_congr
  intro e _
  simp

/-- The timestamps on a page read from the log: that of the stored chunk of the event's block, 0 if there is none. -/
theorem C88_page_timestamps (s : EvShard) (hz : ∀ r ∈ s.log.rows, r.2.ts = 0) (i start : Nat) (stop : Option Nat) (po : PageOptions)
    (p : MessagesPage HEvent) (last : Option (Nat × Nat)) (h : eventsFromStore s.log s.chunks i start stop po none = .ok (p, last)) :
    ∀ d ∈ p.messages, d.ts = (s.chunks (d.id / 2 ^ 14)).getD 0 := by
  unfold eventsFromStore at h
  split at h
  · cases h
  · next q hq =>
    simp only [Except.ok.injEq, Prod.mk.injEq] at h
    rw [← h.1]
    simp only
    have hmem : ∀ e ∈ q.messages, e.ts = 0 := fun e he => by
      obtain ⟨r, hr, hre⟩ := getEvents_mem hq e he
      cases hre
      exact hz r hr
    exact fillIn_exact s.chunks i q.messages hmem none (fun _ _ h => by cases h)

/-- Following the tokens of the event query for one shard gives the events of the id range, with shard and block number,
each once and in order; the end is a token list with nothing in it. -/
theorem C88_query_one (i : Nat) (s : EvShard) (hl : EventLayout s.log) (start : Nat) (stop : Option Nat) (hstart : start < 2 ^ 64)
    (hstop : ∀ t, stop = some t → t < 2 ^ 64) (size : Option Nat) (rev : Bool) :
    ∃ es, FollowTokens (getEventsOne i s start stop size rev) none es ∧
      es.map HEvent.undated = (inDirection rev (eventsInRange s.log start stop)).map (fun e => e.2.reported i) := by
  have h := C19_query_exact (some : HEvent → Option HEvent) s.log hl start stop hstart hstop (fun _ _ => rfl) size rev
  rw [List.filterMap_eq_map'] at h
  have key : ∀ {t es}, FollowTokens (fun t => getEvents some s.log start stop { pageSize := size, pageToken := t, reverse := rev }) t es →
      ∃ es', FollowTokens (getEventsOne i s start stop size rev) t es' ∧ es'.map HEvent.undated = es.map (HEvent.reported i) := by
    have hone : ∀ t p, getEvents some s.log start stop { pageSize := size, pageToken := t, reverse := rev } = .ok p →
        getEventsOne i s start stop size rev t = .ok ⟨(fillIn s.chunks i none p.messages).1, p.nextPageToken⟩ := by
      intro t p hp
      unfold getEventsOne getEventsApi
      cases t <;> simp [eventsFromStore, hp]
    intro t es hfl
    induction hfl with
    | last hp => exact ⟨_, .last (hone _ _ hp), fillIn_undated _ _ _ _⟩
    | next hp _ ih =>
      obtain ⟨es', h1, h2⟩ := ih
      exact ⟨_, .next (hone _ _ hp) h1, by rw [List.map_append, List.map_append, fillIn_undated, h2]⟩
  obtain ⟨es, h1, h2⟩ := key h
  refine ⟨es, h1, ?_⟩
  rw [h2, List.map_map]
  rfl

/-! ### A case -/

namespace SubCase

/-- The event of a block, and the steps of a whole commit of it, with timestamp 10 · height. -/
def ev (h : Nat) (ty : Int := 1) : HEvent := { ty := ty, id := h * 16384, body := some (.other [1]) }
def block (i h : Nat) (ty : Int := 1) : List SubStep := [.node i (.write h (10 * h) [ev h ty]), .node i .send, .node i .chunk]
def both : SubRequest := { types := [1], fromId := some 16384, shards := [1, 2] }
/-- Reads two shards with one page each, and ends the reading. -/
def readAll : List SubStep := [.page, .page, .page]

/-- Two shards; the first has blocks before and after the subscription, the second an event of another type. -/
def history : List SubStep :=
  block 1 1 ++ block 2 1 ++ block 2 2 5 ++ block 1 2 ++ readAll ++ [.begin 1, .begin 2] ++ block 1 3 ++ block 2 3 ++ [.recv 1, .recv 2]

/-- The hypotheses are met, and the subscriber gets what the theorems say, with timestamps. -/
example : (begins both).OrderlyRun both 10000 history ∧ both.shards.Nodup ∧
    (let n := (begins both).run both 10000 history
     n.position 1 = some 3 ∧ n.ended 1 = some 2 ∧ n.begun 1 = some 2 ∧ n.lagged 1 = false ∧
     n.out.map (fun e => (e.shard, e.block, e.ts)) = [(1, 1, 10), (1, 2, 20), (2, 1, 10), (1, 3, 30), (2, 3, 30)]) := by
  decide +kernel

/-- The shard is idle at the end of the reading and until its channel is subscribed. -/
example :
    let s1 := block 1 1 ++ block 1 2 ++ readAll
    let s2 := [SubStep.begin 2] ++ block 2 1 ++ [.begin 1]
    let s3 := block 1 3 ++ [.recv 1]
    let n1 := (begins both).run both 10000 s1
    let n2 := n1.run both 10000 s2
    let n := n2.run both 10000 s3
    (begins both).OrderlyRun both 10000 (s1 ++ (s2 ++ s3)) ∧ n1.ended 1 = some (n1.shards 1).written.length ∧ (n1.shards 1).queue = [] ∧
      n1.position 1 = none ∧ n2.position 1 = some 2 ∧ n.position 1 = some 3 ∧ n.lagged 1 = false ∧
      (n.received 1).map (·.block) = [1, 2, 3] := by
  decide +kernel

/-- More events than fit on a page. -/
example :
    let s : EvShard := (block 1 1 ++ block 1 2 ++ block 1 3).foldl (fun s x => match x with | .node _ c => s.step c | _ => s) {}
    (getEventsOne 1 s 0 none (some 2) false none).map (fun p => (p.messages.map (·.ts), p.nextPageToken)) =
      .ok ([10, 20], some (eventKey 32768)) ∧
    (getEventsOne 1 s 0 none (some 2) false (some (eventKey 32768))).map (fun p => (p.messages.map (·.ts), p.nextPageToken)) = .ok ([30], none) := by
  decide +kernel

end SubCase

/-! ### What the stream does not do -/

/-- An event committed and sent between the end of the reading and the subscription to the channel is never delivered,
though the subscriber goes past it and is never slow. -/
theorem C88_event_in_gap_lost :
    let req : SubRequest := { types := [1], fromId := some 0, shards := [1] }
    let steps := SubCase.block 1 1 ++ [.page, .page] ++ SubCase.block 1 2 ++ [.begin 1] ++ SubCase.block 1 3 ++ [.recv 1]
    let n := (begins req).run req 10000 steps
    (begins req).OrderlyRun req 10000 steps ∧ n.position 1 = some (n.shards 1).written.length ∧ n.lagged 1 = false ∧
      (n.shards 1).written.map (·.id / 2 ^ 14) = [1, 2, 3] ∧ (n.received 1).map (·.block) = [1, 3] := by
  decide +kernel

/-- An event written before the reading ends and sent after the subscription is delivered twice. -/
theorem C88_event_twice :
    let req : SubRequest := { types := [1], fromId := some 0, shards := [1] }
    let steps := [.node 1 (.write 1 10 [SubCase.ev 1]), .page, .page, .begin 1, .node 1 .send, .recv 1]
    let n := (begins req).run req 10000 steps
    (begins req).OrderlyRun req 10000 steps ∧ (n.shards 1).written.map (·.id / 2 ^ 14) = [1] ∧ (n.received 1).map (·.block) = [1, 1] := by
  decide +kernel

/-- A subscriber further behind than the channel is long loses events, and what it gets does not show it: it has the same
deliveries as if the lost events had not been of its types. -/
theorem C88_slow_subscriber_not_told :
    let req : SubRequest := { types := [1], fromId := none, shards := [1] }
    let steps (ty : Int) := SubStep.begin 1 :: (SubCase.block 1 1 ty ++ SubCase.block 1 2 ++ [.recv 1, .recv 1])
    let n := (begins req).run req 1 (steps 1)
    (begins req).OrderlyRun req 1 (steps 1) ∧ n.position 1 = some 2 ∧ (n.shards 1).written.map (·.ty) = [1, 1] ∧
      (n.received 1).map (·.block) = [2] ∧ n.out = ((begins req).run req 1 (steps 2)).out := by
  decide +kernel

/-- An event read from the log before its chunk is stored is delivered with timestamp 0. -/
theorem C88_timestamp_missing :
    let req : SubRequest := { types := [1], fromId := some 0, shards := [1] }
    let steps := [.node 1 (.write 1 10 [SubCase.ev 1]), .page]
    let n := (begins req).run req 10000 steps
    (begins req).OrderlyRun req 10000 steps ∧ n.out.map (fun e => (e.block, e.ts)) = [(1, 0)] := by
  decide +kernel

/-- The first id asked for holds for the old events only: what comes from the channel is delivered whatever its id. -/
theorem C88_first_id_ignored_live :
    let req : SubRequest := { types := [1], fromId := some (5 * 16384), shards := [1] }
    let steps := [.page, .page, .begin 1] ++ SubCase.block 1 1 ++ [.recv 1]
    let n := (begins req).run req 10000 steps
    (begins req).OrderlyRun req 10000 steps ∧ n.out.map (·.id) = [16384] := by
  decide +kernel

/-- Event queries over two shards: following the tokens, a shard that has been read to its end is read again from the
beginning, as its place in the token list is then empty, so events come again and again. -/
theorem C88_query_repeats :
    let shard (hs : List Nat) : EvShard :=
      (hs.flatMap (SubCase.block 1 ·)).foldl (fun s x => match x with | .node _ c => s.step c | _ => s) {}
    let shards := [(1, shard [1]), (2, shard [1, 2, 3])]
    let ask := fun t => (getEventsApi shards 2 0 none (some 2) false t).map (fun r => (r.1.map (fun e => (e.shard, e.block)), r.2))
    ask none = .ok ([(1, 1), (2, 1), (2, 2)], [none, some (eventKey 32768)]) ∧
    ask (some [none, some (eventKey 32768)]) = .ok ([(1, 1), (2, 3)], [none, none]) ∧
    ask (some [none, none]) = ask none := by
  exact ⟨rfl, rfl, rfl⟩

/-- A node that does not hold all shards: its answer has a token for each shard it holds, which it then refuses. -/
theorem C88_query_own_token_refused :
    let shard : EvShard := (SubCase.block 1 1).foldl (fun s x => match x with | .node _ c => s.step c | _ => s) {}
    (getEventsApi [(1, shard)] 2 0 none (some 1) false none).map (·.2) = .ok [some (eventKey 16384)] ∧
    (getEventsApi [(1, shard)] 2 0 none (some 1) false (some [some (eventKey 16384)])).map (·.2) = .error .invalidParameter := by
  decide +kernel

end Verif
