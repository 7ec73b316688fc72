import Verif.Spec.BlockEvents
import Verif.Lemmas.Numbered
import Verif.Lemmas.Scan
/-! Block event numbering. -/
namespace Verif
open Spec
variable {H : Bytes → Bytes} {enc : BData → Bytes}

/-- The body of an event. -/
def BEvent.body? (e : BEvent) : Option BBody := e.data.bind (·.body)

theorem fansOut_iff (v : EngineVersion) (m : Msg) : fansOut v m.ty = true ↔ Propagated v m := by
  unfold Propagated
  cases m.ty <;> simp [fansOut]

/-- The database holds exactly the events `es`, numbered from 1. -/
def HoldsEvents (db : Db BEvent) (es : List BEvent) : Prop :=
  es.length < 2 ^ 64 ∧
  (∀ i e, es[i]? = some e → ∃ d, e.data = some d ∧ d.seqnum = i + 1) ∧
  ∀ k v, db.get k = some v ↔ ∃ i, es[i]? = some v ∧ k = blockEventKey (i + 1)

theorem getElem?_lt {α : Type} {l : List α} {i : Nat} {x : α} (h : l[i]? = some x) : i < l.length := by
  obtain ⟨h, _⟩ := List.getElem?_eq_some_iff.1 h
  exact h

theorem HoldsEvents.numbered {db : Db BEvent} {es : List BEvent} (h : HoldsEvents db es) : Numbered 19 db := by
  intro k v hg _ _
  obtain ⟨i, hi, hk⟩ := (h.2.2 k v).1 hg
  have := getElem?_lt hi
  exact ⟨i + 1, by have := h.1; omega, hk⟩

theorem HoldsEvents.get {db : Db BEvent} {es : List BEvent} (h : HoldsEvents db es) {n : Nat} (hn : n < 2 ^ 64) :
    db.get (blockEventKey n) = if n = 0 then none else es[n - 1]? := by
  cases hg : db.get (blockEventKey n) with
  | none =>
    split
    · rfl
    · cases he : es[n - 1]? with
      | none => rfl
      | some v =>
        have := (h.2.2 (blockEventKey n) v).2 ⟨n - 1, he, by rw [Nat.sub_add_cancel (by omega)]⟩
        rw [hg] at this; exact absurd this (by simp)
  | some v =>
    obtain ⟨i, hi, hk⟩ := (h.2.2 _ _).1 hg
    have hlt := getElem?_lt hi
    have : n = i + 1 := numKey_inj (p := 19) hn (by have := h.1; omega) hk
    subst this
    simp [hi]

theorem HoldsEvents.last {db : Db BEvent} {es : List BEvent} (h : HoldsEvents db es) :
    lastBlockEvent some db = .ok es.getLast? := by
  have hs := scan_last (p := 19) (by decide) h.numbered
  unfold lastBlockEvent blockEventPage
  simp only [Option.getD_none, Option.getD_some, forEachPaged, iterBounds, if_true]
  have e : scanRows db (blockEventKey 0) [20] true =
      scanRows db (numKey 19 0) [19 + 1] true := rfl
  rw [e]
  cases hl : scanRows db (numKey 19 0) [19 + 1] true with
  | nil =>
    rw [hl] at hs
    simp only [List.head?_nil] at hs
    have : es = [] := by
      cases es with
      | nil => rfl
      | cons e es =>
        have h1 := h.get (n := 1) (by decide)
        have h2 := hs 1 (by decide)
        simp only [numKey, blockEventKey] at h1 h2
        rw [h2] at h1
        simp at h1
    subst this
    simp [iterate]
  | cons r rest =>
    rw [hl] at hs
    simp only [List.head?_cons] at hs
    obtain ⟨n, hn, hk, hg, hmax⟩ := hs
    have hg' : db.get (blockEventKey n) = some r.2 := hg
    rw [h.get hn] at hg'
    split at hg'
    · exact absurd hg' (by simp)
    · have hlt := getElem?_lt hg'
      have hge : ¬ n < es.length := by
        intro hc
        have := hmax es.length h.1 hc
        have h2 := h.get (n := es.length) h.1
        rw [show db.get (blockEventKey es.length) = db.get (numKey 19 es.length) from rfl, this, if_neg (by omega)] at h2
        have : es.length - 1 < es.length := by omega
        rw [List.getElem?_eq_getElem this] at h2
        exact absurd h2 (by simp)
      have : n = es.length := by omega
      obtain ⟨k, v⟩ := r
      simp only [iterate, List.nil_append, List.length_singleton, Option.getD_some, ge_iff_le, Nat.le_refl, if_true]
      rw [this] at hg'
      rw [List.getLast?_eq_getElem?]
      simp [hg']

theorem HoldsEvents.maxSeqnum {db : Db BEvent} {es : List BEvent} (h : HoldsEvents db es) :
    maxSeqnum some db = .ok es.length := by
  unfold Verif.maxSeqnum
  rw [h.last, List.getLast?_eq_getElem?]
  cases he : es[es.length - 1]? with
  | none =>
    have : es.length = 0 := by
      rw [List.getElem?_eq_none_iff] at he
      omega
    simp [this]
  | some e =>
    obtain ⟨d, hd, hs⟩ := h.2.1 _ _ he
    have := getElem?_lt he
    simp only [hd, hs]
    congr 1
    omega

/-- What the loop has produced so far. -/
structure LoopInv (H : Bytes → Bytes) (enc : BData → Bytes) (c : BlockCtx) (m : Nat) (bodies : List (Nat × BBody))
    (s : Nat × List BEvent) : Prop where
  count : s.1 = (m + s.2.length) % 2 ^ 64
  events : s.2 = bodies.mapIdx (fun i b =>
    buildBlockEvent H enc ⟨(m + i + 1) % 2 ^ 64, b.1, c.height, i, c.ts, some b.2⟩)

theorem LoopInv.push {c : BlockCtx} {m : Nat} {bs : List (Nat × BBody)} {s : Nat × List BEvent}
    (h : LoopInv H enc c m bs s) (b : Nat × BBody) : LoopInv H enc c m (bs ++ [b]) (pushBlockEvent H enc c s b) := by
  have hl : s.2.length = bs.length := by rw [h.events]; simp
  constructor
  · simp only [pushBlockEvent, h.count, List.length_append, List.length_singleton]
    omega
  · simp only [pushBlockEvent, List.mapIdx_append, List.mapIdx_cons, List.mapIdx_nil, Nat.zero_add, hl]
    rw [h.events, h.count, hl]
    simp only [List.append_cancel_left_eq, List.cons.injEq, and_true]
    have e : ((m + bs.length) % 2 ^ 64 + 1) % 2 ^ 64 = (m + bs.length + 1) % 2 ^ 64 := by omega
    rw [e]

theorem loopInv_fold {c : BlockCtx} {m : Nat} : ∀ (hubs : List ZHub) (bs : List (Nat × BBody)) (s : Nat × List BEvent),
    LoopInv H enc c m bs s →
    LoopInv H enc c m (bs ++ hubs.filterMap (blockEventBody c.version)) (hubs.foldl (blockEventLoop H enc c) s)
  | [], bs, s, h => by simpa using h
  | hub :: hubs, bs, s, h => by
    simp only [List.foldl_cons, List.filterMap_cons]
    cases hb : blockEventBody c.version hub with
    | none =>
      have e : blockEventLoop H enc c s hub = s := by simp [blockEventLoop, hb]
      rw [e]
      exact loopInv_fold hubs bs s h
    | some b =>
      have e : blockEventLoop H enc c s hub = pushBlockEvent H enc c s b := by simp [blockEventLoop, hb]
      rw [e]
      have := loopInv_fold hubs (bs ++ [b]) _ (h.push b)
      simpa using this

/-- Number and content of each event of a block. -/
theorem generate_eq (c : BlockCtx) {m : Nat} (hm : m < 2 ^ 64) (hubs : List ZHub) :
    ∃ bodies : List (Nat × BBody), bodies.map (·.2) = news c hubs ∧
      generateBlockEvents H enc c m hubs = bodies.mapIdx (fun i b =>
        buildBlockEvent H enc ⟨(m + i + 1) % 2 ^ 64, b.1, c.height, i, c.ts, some b.2⟩) := by
  have h0 : LoopInv H enc c m [] (m, []) := ⟨by simp; omega, by simp⟩
  have h1 := loopInv_fold hubs [] _ h0
  simp only [List.nil_append] at h1
  have hmap : (hubs.filterMap (blockEventBody c.version)).map (·.2) = hubs.filterMap (fun
    | .mergeMessage (some m) => if Propagated c.version m then some (BBody.message (some m)) else none
    | .mergeOnChain (some e) =>
      if e.ty = 6 ∧ c.version.isEnabled .channelOwnershipEvents = true then some (BBody.onchain (some e)) else none
    | _ => none) := by
    rw [List.map_filterMap]
    congr 1
    funext hub
    cases hub with
    | mergeMessage o =>
      cases o with
      | none => rfl
      | some msg =>
        simp only [blockEventBody]
        by_cases hf : Propagated c.version msg
        · rw [if_pos ((fansOut_iff _ _).2 hf), if_pos hf]; rfl
        · rw [if_neg (fun h => hf ((fansOut_iff _ _).1 h)), if_neg hf]; rfl
    | mergeOnChain o =>
      cases o with
      | none => rfl
      | some e =>
        simp only [blockEventBody]
        by_cases h1 : e.ty = 6 <;> cases h2 : c.version.isEnabled .channelOwnershipEvents <;> simp [h1, h2]
    | other => rfl
  unfold generateBlockEvents news
  by_cases hh : c.height % heartbeatInterval c.network = 0
  · refine ⟨hubs.filterMap (blockEventBody c.version) ++ [(0, .heartbeat)], ?_, ?_⟩
    · rw [List.map_append, hmap, if_pos hh]; rfl
    · simp only [if_pos hh]
      exact (h1.push (0, .heartbeat)).events
  · refine ⟨hubs.filterMap (blockEventBody c.version), ?_, ?_⟩
    · rw [hmap, if_neg hh, List.append_nil]; rfl
    · simp only [if_neg hh]
      exact h1.events

theorem stage_spec : ∀ (es : List BEvent) (t : Txn BEvent) (m : Nat),
    (∀ i e, es[i]? = some e → ∃ d, e.data = some d ∧ d.seqnum = m + i + 1) → m + es.length < 2 ^ 64 →
    ∃ t', stageBlockEvents t es = .ok t' ∧ ∀ k, t'.get k =
      match (if k.length = 9 ∧ k.head? = some 19 ∧ m < fromBe k.tail then es[fromBe k.tail - m - 1]? else none) with
      | some e => some (some e)
      | none => t.get k
  | [], t, m, _, _ => ⟨t, rfl, fun k => by simp⟩
  | e :: es, t, m, h, hm => by
    obtain ⟨d, hd, hs⟩ := h 0 e rfl
    simp only [List.length_cons] at hm
    obtain ⟨t', ht', hg⟩ := stage_spec es (t.stagePut (blockEventKey d.seqnum) e) (m + 1)
      (by
        intro i e' he'
        obtain ⟨d', h1, h2⟩ := h (i + 1) e' (by simpa using he')
        exact ⟨d', h1, by omega⟩) (by omega)
    refine ⟨t', ?_, ?_⟩
    · simp only [stageBlockEvents, putBlockEvent, hd, id]
      exact ht'
    · intro k
      rw [hg k]
      by_cases hk : k = blockEventKey d.seqnum
      · have hb : fromBe (be 8 d.seqnum) = d.seqnum := fromBe_be_of_lt (by show d.seqnum < 2 ^ 64; omega)
        have c1 : ¬ (k.length = 9 ∧ k.head? = some 19 ∧ m + 1 < fromBe k.tail) := by
          rw [hk]; simp only [blockEventKey, List.tail_cons, hb]; omega
        have c2 : k.length = 9 ∧ k.head? = some 19 ∧ m < fromBe k.tail := by
          rw [hk]; simp only [blockEventKey, List.tail_cons, hb]
          simp; omega
        have c3 : fromBe k.tail - m - 1 = 0 := by
          rw [hk]; simp only [blockEventKey, List.tail_cons, hb]; omega
        rw [if_neg c1, if_pos c2, c3]
        simp only [List.getElem?_cons_zero, Txn.get_stagePut]
        simp [hk]
      · have hput : (t.stagePut (blockEventKey d.seqnum) e).get k = t.get k := by
          rw [Txn.get_stagePut]; simp [hk]
        rw [hput]
        by_cases c1 : k.length = 9 ∧ k.head? = some 19 ∧ m + 1 < fromBe k.tail
        · rw [if_pos c1, if_pos ⟨c1.1, c1.2.1, by omega⟩]
          have : fromBe k.tail - m - 1 = (fromBe k.tail - (m + 1) - 1) + 1 := by omega
          rw [this, List.getElem?_cons_succ]
        · rw [if_neg c1]
          by_cases c2 : k.length = 9 ∧ k.head? = some 19 ∧ m < fromBe k.tail
          · exfalso
            apply hk
            have e1 : fromBe k.tail = m + 1 := by
              have h3 := c2.2.2
              by_cases h4 : m + 1 < fromBe k.tail
              · exact absurd ⟨c2.1, c2.2.1, h4⟩ c1
              · omega
            cases k with
            | nil => simp at c2
            | cons a tl =>
              simp only [List.length_cons, List.head?_cons, Option.some.injEq, List.tail_cons] at c2 e1
              have := be_fromBe tl
              rw [show tl.length = 8 by omega, e1] at this
              rw [c2.2.1, ← this, hs]
              rfl
          · rw [if_neg c2]

theorem holds_empty : HoldsEvents OMap.empty [] :=
  ⟨by decide, by simp, by simp⟩

/-- Writing staged events that continue the numbering appends them. -/
theorem holds_append {db : Db BEvent} {old es : List BEvent} {t : Txn BEvent} (h : HoldsEvents db old)
    (hes : ∀ i e, es[i]? = some e → ∃ d, e.data = some d ∧ d.seqnum = old.length + i + 1)
    (hfit : old.length + es.length < 2 ^ 64) (ht : stageBlockEvents OMap.empty es = .ok t) :
    HoldsEvents (db.commit t) (old ++ es) := by
  obtain ⟨t', ht', hg⟩ := stage_spec es OMap.empty old.length hes hfit
  rw [ht] at ht'
  simp only [Except.ok.injEq] at ht'
  subst ht'
  refine ⟨by simpa using hfit, ?_, ?_⟩
  · intro i e he
    rw [List.getElem?_append] at he
    split at he
    · exact h.2.1 i e he
    · obtain ⟨d, h1, h2⟩ := hes _ _ he
      exact ⟨d, h1, by omega⟩
  · intro k v
    rw [Db.get_commit]
    unfold getFromDbOrTxn
    have hgk := hg k
    by_cases hcond : k.length = 9 ∧ k.head? = some 19 ∧ old.length < fromBe k.tail
    · rw [if_pos hcond] at hgk
      have hkk : k = blockEventKey (fromBe k.tail) := by
        cases k with
        | nil => simp at hcond
        | cons a tl =>
          simp only [List.length_cons, List.head?_cons, Option.some.injEq, List.tail_cons] at hcond ⊢
          have := be_fromBe tl
          rw [show tl.length = 8 by omega] at this
          rw [hcond.2.1, blockEventKey, this]
      have hkn : fromBe k.tail < 2 ^ 64 := by
        have := fromBe_lt k.tail
        rw [show k.tail.length = 8 by simp [hcond.1]] at this
        exact this
      cases he : es[fromBe k.tail - old.length - 1]? with
      | none =>
        rw [he] at hgk
        simp only [OMap.get_empty] at hgk
        rw [hgk]
        simp only
        have hd : db.get k = none := by
          rw [hkk, h.get hkn, if_neg (by omega)]
          rw [List.getElem?_eq_none_iff]; omega
        rw [hd]
        constructor
        · intro h'; exact absurd h' (by simp)
        · rintro ⟨i, hi, hik⟩
          have hlt := getElem?_lt hi
          simp only [List.length_append] at hlt
          rw [hkk] at hik
          have := numKey_inj (p := 19) hkn (by omega) hik
          rw [List.getElem?_append, if_neg (by omega)] at hi
          rw [show fromBe k.tail - old.length - 1 = i - old.length by omega, hi] at he
          exact absurd he (by simp)
      | some e =>
        rw [he] at hgk
        simp only at hgk
        rw [hgk]
        simp only [Option.some.injEq]
        have hlt := getElem?_lt he
        constructor
        · intro e1
          subst e1
          refine ⟨fromBe k.tail - 1, ?_, by rw [Nat.sub_add_cancel (by omega)]; exact hkk⟩
          rw [List.getElem?_append, if_neg (by omega)]
          rw [show fromBe k.tail - 1 - old.length = fromBe k.tail - old.length - 1 by omega]
          exact he
        · rintro ⟨i, hi, hik⟩
          have hlt' := getElem?_lt hi
          simp only [List.length_append] at hlt'
          rw [hkk] at hik
          have := numKey_inj (p := 19) hkn (by omega) hik
          rw [List.getElem?_append, if_neg (by omega)] at hi
          rw [show fromBe k.tail - old.length - 1 = i - old.length by omega, hi] at he
          simpa using he.symm
    · rw [if_neg hcond] at hgk
      simp only [OMap.get_empty] at hgk
      rw [hgk]
      simp only
      rw [h.2.2]
      constructor
      · rintro ⟨i, hi, hk⟩
        have := getElem?_lt hi
        exact ⟨i, by rw [List.getElem?_append, if_pos this]; exact hi, hk⟩
      · rintro ⟨i, hi, hk⟩
        have hlt := getElem?_lt hi
        simp only [List.length_append] at hlt
        by_cases hi' : i < old.length
        · rw [List.getElem?_append, if_pos hi'] at hi
          exact ⟨i, hi, hk⟩
        · exfalso
          apply hcond
          rw [hk]
          have hb : fromBe (be 8 (i + 1)) = i + 1 := fromBe_be_of_lt (by show i + 1 < 2 ^ 64; omega)
          simp only [blockEventKey, List.length_cons, be_length, List.head?_cons, List.tail_cons, hb]
          exact ⟨trivial, trivial, by omega⟩

/-- One block appends its events. -/
theorem commit_holds {db db' : Db BEvent} {c : BlockCtx} {hubs : List ZHub} {claimed : Bytes} {old es : List BEvent}
    (h : HoldsEvents db old) (hc : commitBlockEvents H enc db c hubs claimed = some (db', es))
    (hfit : old.length + es.length < 2 ^ 64) :
    HoldsEvents db' (old ++ es) ∧ eventsHash H es = claimed ∧ es = generateBlockEvents H enc c old.length hubs := by
  unfold commitBlockEvents at hc
  rw [h.maxSeqnum] at hc
  simp only at hc
  obtain ⟨bodies, hb1, hb2⟩ := generate_eq (H := H) (enc := enc) c h.1 hubs
  split at hc
  · exact absurd hc (by simp)
  · rename_i t ht
    split at hc
    · exact absurd hc (by simp)
    · rename_i hcl
      simp only [Option.some.injEq, Prod.mk.injEq] at hc
      obtain ⟨hc1, hc2⟩ := hc
      have hes : ∀ i e, es[i]? = some e → ∃ d, e.data = some d ∧ d.seqnum = old.length + i + 1 := by
        intro i e he
        have hlt := getElem?_lt he
        rw [← hc2, hb2, List.getElem?_mapIdx] at he
        cases hbi : bodies[i]? with
        | none => rw [hbi] at he; exact absurd he (by simp)
        | some b =>
          rw [hbi] at he
          simp only [Option.map_some, Option.some.injEq] at he
          subst he
          exact ⟨_, rfl, Nat.mod_eq_of_lt (by omega)⟩
      rw [hc2] at ht
      refine ⟨?_, by rw [← hc2]; simpa using hcl, hc2.symm⟩
      rw [← hc1]
      exact holds_append h hes hfit ht

end Verif
