import Verif.Lemmas.BlockEvents
/-!
C38: block events are numbered without gaps.
-/
namespace Verif
open Spec
variable {H : Bytes → Bytes} {enc : BData → Bytes}

theorem shard0Run_holds : ∀ (bs : List ZBlock) (db db' : Db BEvent) (old : List BEvent) (ess : List (List BEvent)),
    HoldsEvents db old → shard0Run H enc bs db = some (db', ess) → old.length + ess.flatten.length < 2 ^ 64 →
    HoldsEvents db' (old ++ ess.flatten)
  | [], db, db', old, ess, h, hr, _ => by
    simp only [shard0Run, Option.some.injEq, Prod.mk.injEq] at hr
    obtain ⟨rfl, rfl⟩ := hr
    simpa using h
  | b :: bs, db, db', old, ess, h, hr, hfit => by
    unfold shard0Run at hr
    split at hr
    · exact absurd hr (by simp)
    · rename_i db1 es hc
      split at hr
      · exact absurd hr (by simp)
      · rename_i db2 ess' hr'
        simp only [Option.some.injEq, Prod.mk.injEq] at hr
        obtain ⟨rfl, rfl⟩ := hr
        simp only [List.flatten_cons, List.length_append] at hfit
        have h1 := (commit_holds h hc (by omega)).1
        have := shard0Run_holds bs db1 db2 (old ++ es) ess' h1 hr' (by simp only [List.length_append]; omega)
        simpa using this

/-- Over any history of blocks, whatever they merge and at whatever heights, the events of shard 0 taken in order
carry the numbers 1, 2, 3, ...; the store answers each number with that event and no other number with anything, and
reports their count as the greatest number. -/
theorem C38_numbered_without_gaps {blocks : List ZBlock} {db : Db BEvent} {ess : List (List BEvent)}
    (hrun : shard0Run H enc blocks OMap.empty = some (db, ess)) (hfit : ess.flatten.length < 2 ^ 64) :
    ess.flatten.map (fun e => e.data.map (·.seqnum)) = (List.range' 1 ess.flatten.length).map some ∧
    (∀ n, n < 2 ^ 64 → blockEventBySeqnum some db n = .ok (if n = 0 then none else ess.flatten[n - 1]?)) ∧
    maxSeqnum some db = .ok ess.flatten.length := by
  have h := shard0Run_holds blocks _ _ [] ess holds_empty hrun (by simpa using hfit)
  simp only [List.nil_append] at h
  refine ⟨?_, ?_, h.maxSeqnum⟩
  · apply List.ext_getElem?
    intro i
    simp only [List.getElem?_map]
    cases he : ess.flatten[i]? with
    | none =>
      rw [List.getElem?_eq_none_iff] at he
      rw [List.getElem?_eq_none_iff.2 (by simpa using he)]
      rfl
    | some e =>
      obtain ⟨d, hd, hs⟩ := h.2.1 _ _ he
      have hlt := getElem?_lt he
      rw [List.getElem?_range' hlt]
      simp [hd, hs, Nat.add_comm]
  · intro n hn
    unfold blockEventBySeqnum
    rw [h.get hn]
    split
    · rename_i hx; rw [hx]
    · rename_i v hx; rw [hx]

/-- The events of each block are exactly its news, in order: nothing propagated is left out or repeated; each says
which block it comes from, when, and its place in the block. -/
theorem C38_every_event_once {blocks : List ZBlock} {db : Db BEvent} {ess : List (List BEvent)}
    (hrun : shard0Run H enc blocks OMap.empty = some (db, ess)) (hfit : ess.flatten.length < 2 ^ 64) :
    ess.length = blocks.length ∧ ∀ (n : Nat) (b : ZBlock) (es : List BEvent), blocks[n]? = some b → ess[n]? = some es →
      es.map (fun e => e.data.bind (·.body)) = (news b.ctx b.hubs).map some ∧
      (∀ (i : Nat) (e : BEvent), es[i]? = some e → ∃ d, e.data = some d ∧ d.index = i ∧ d.blockNumber = b.ctx.height ∧ d.ts = b.ctx.ts) ∧
      (∀ e ∈ es, Authentic H enc e) ∧ eventsHash H es = b.claimed := by
  suffices key : ∀ (bs : List ZBlock) (db0 db' : Db BEvent) (old : List BEvent) (ess : List (List BEvent)),
      HoldsEvents db0 old → shard0Run H enc bs db0 = some (db', ess) → old.length + ess.flatten.length < 2 ^ 64 →
      ess.length = bs.length ∧ ∀ (n : Nat) (b : ZBlock) (es : List BEvent), bs[n]? = some b → ess[n]? = some es →
      es.map (fun e => e.data.bind (·.body)) = (news b.ctx b.hubs).map some ∧
      (∀ (i : Nat) (e : BEvent), es[i]? = some e → ∃ d, e.data = some d ∧ d.index = i ∧ d.blockNumber = b.ctx.height ∧ d.ts = b.ctx.ts) ∧
      (∀ e ∈ es, Authentic H enc e) ∧ eventsHash H es = b.claimed from
    key blocks _ _ [] ess holds_empty hrun (by simpa using hfit)
  intro bs
  induction bs with
  | nil =>
    intro db0 db' old ess _ hr _
    simp only [shard0Run, Option.some.injEq, Prod.mk.injEq] at hr
    obtain ⟨_, rfl⟩ := hr
    exact ⟨rfl, by simp⟩
  | cons b bs ih =>
    intro db0 db' old ess h hr hfit
    unfold shard0Run at hr
    split at hr
    · exact absurd hr (by simp)
    · rename_i db1 es hc
      split at hr
      · exact absurd hr (by simp)
      · rename_i db2 ess' hr'
        simp only [Option.some.injEq, Prod.mk.injEq] at hr
        obtain ⟨rfl, rfl⟩ := hr
        simp only [List.flatten_cons, List.length_append] at hfit
        obtain ⟨h1, h2, h3⟩ := commit_holds h hc (by omega)
        obtain ⟨ih1, ih2⟩ := ih db1 db2 (old ++ es) ess' h1 hr' (by simp only [List.length_append]; omega)
        refine ⟨by simp [ih1], ?_⟩
        intro n b' es' hb' hes'
        cases n with
        | succ n => exact ih2 n b' es' (by simpa using hb') (by simpa using hes')
        | zero =>
        simp only [List.getElem?_cons_zero, Option.some.injEq] at hb' hes'
        subst hb' hes'
        obtain ⟨bodies, hb1, hb2⟩ := generate_eq (H := H) (enc := enc) b.ctx h.1 b.hubs
        rw [hb2] at h3
        refine ⟨?_, ?_, ?_, h2⟩
        · rw [h3, ← hb1]
          apply List.ext_getElem?
          intro i
          simp only [List.getElem?_map, List.getElem?_mapIdx]
          cases bodies[i]? <;> simp [buildBlockEvent]
        · intro i e he
          rw [h3, List.getElem?_mapIdx] at he
          cases hbi : bodies[i]? with
          | none => rw [hbi] at he; exact absurd he (by simp)
          | some bd =>
            rw [hbi] at he
            simp only [Option.map_some, Option.some.injEq] at he
            subst he
            exact ⟨_, rfl, rfl, rfl, rfl⟩
        · intro e he
          obtain ⟨i, he⟩ := List.getElem?_of_mem he
          rw [h3, List.getElem?_mapIdx] at he
          cases hbi : bodies[i]? with
          | none => rw [hbi] at he; exact absurd he (by simp)
          | some bd =>
            rw [hbi] at he
            simp only [Option.map_some, Option.some.injEq] at he
            subst he
            exact ⟨_, rfl, rfl⟩

theorem flatMap_hash_inj (hlen : ∀ x, (H x).length = 32) : ∀ (es fs : List BEvent),
    (∀ e ∈ es, Authentic H enc e) → (∀ e ∈ fs, Authentic H enc e) →
    es.flatMap (·.hash) = fs.flatMap (·.hash) → es.map (·.hash) = fs.map (·.hash)
  | [], [], _, _, _ => rfl
  | [], f :: fs, _, hf, h => by
    obtain ⟨d, _, hh⟩ := hf f (by simp)
    have := congrArg List.length h
    simp only [List.flatMap_nil, List.flatMap_cons, List.length_append, List.length_nil, hh, hlen] at this
    omega
  | e :: es, [], he, _, h => by
    obtain ⟨d, _, hh⟩ := he e (by simp)
    have := congrArg List.length h
    simp only [List.flatMap_nil, List.flatMap_cons, List.length_append, List.length_nil, hh, hlen] at this
    omega
  | e :: es, f :: fs, he, hf, h => by
    obtain ⟨d, _, hh⟩ := he e (by simp)
    obtain ⟨d', _, hh'⟩ := hf f (by simp)
    simp only [List.flatMap_cons] at h
    obtain ⟨h1, h2⟩ := List.append_inj h (by rw [hh, hh', hlen, hlen])
    simp only [List.map_cons, h1]
    rw [flatMap_hash_inj hlen es fs (fun x hx => he x (by simp [hx])) (fun x hx => hf x (by simp [hx])) h2]

/-- The events hash in a header fixes the list of events: two lists of authentic events with the same hash are the
same list, unless the hash function collides on inputs made from those very events. -/
theorem C38_hash_commits_to_events (hlen : ∀ x, (H x).length = 32)
    {es fs : List BEvent}
    (henc : ∀ x ∈ es.filterMap (·.data), ∀ y ∈ fs.filterMap (·.data), enc x = enc y → x = y)
    (he : ∀ e ∈ es, Authentic H enc e) (hf : ∀ e ∈ fs, Authentic H enc e)
    (hcoll : ∀ x ∈ es.flatMap (·.hash) :: (es.filterMap (·.data)).map enc,
      ∀ y ∈ fs.flatMap (·.hash) :: (fs.filterMap (·.data)).map enc, H x = H y → x = y)
    (h : eventsHash H es = eventsHash H fs) : es = fs := by
  have hcat : es.flatMap (·.hash) = fs.flatMap (·.hash) := by
    unfold eventsHash at h
    cases es with
    | nil =>
      cases fs with
      | nil => rfl
      | cons f fs =>
        have := congrArg List.length h
        simp [hlen] at this
    | cons e es =>
      cases fs with
      | nil =>
        have := congrArg List.length h
        simp [hlen] at this
      | cons f fs =>
        simp only [List.isEmpty_cons, Bool.false_eq_true, if_false] at h
        exact hcoll _ (by simp) _ (by simp) h
  have hm := flatMap_hash_inj hlen es fs he hf hcat
  apply List.ext_getElem?
  intro i
  have hi := congrArg (·[i]?) hm
  simp only [List.getElem?_map] at hi
  cases h1 : es[i]? with
  | none =>
    rw [h1] at hi
    cases h2 : fs[i]? with
    | none => rfl
    | some f => rw [h2] at hi; exact absurd hi (by simp)
  | some e =>
    rw [h1] at hi
    cases h2 : fs[i]? with
    | none => rw [h2] at hi; exact absurd hi (by simp)
    | some f =>
      rw [h2] at hi
      simp only [Option.map_some, Option.some.injEq] at hi
      have me := List.mem_of_getElem? h1
      have mf := List.mem_of_getElem? h2
      obtain ⟨d, hd, hh⟩ := he e me
      obtain ⟨d', hd', hh'⟩ := hf f mf
      have : enc d = enc d' := by
        apply hcoll _ _ _ _ (by rw [← hh, ← hh', hi])
        · apply List.mem_cons_of_mem
          exact List.mem_map.2 ⟨d, List.mem_filterMap.2 ⟨e, me, hd⟩, rfl⟩
        · apply List.mem_cons_of_mem
          exact List.mem_map.2 ⟨d', List.mem_filterMap.2 ⟨f, mf, hd'⟩, rfl⟩
      have := henc _ (List.mem_filterMap.2 ⟨e, me, hd⟩) _ (List.mem_filterMap.2 ⟨f, mf, hd'⟩) this
      subst this
      cases e; cases f
      simp_all

namespace C38Case

def hash0 (b : Bytes) : Bytes := be 32 (fromBe b % 2 ^ 240 + b.length * 2 ^ 240)
def enc0 (d : BData) : Bytes := be 8 d.seqnum ++ be 8 d.index ++ [UInt8.ofNat d.ty]
def key1 : Msg := { fid := 7, ty := .keyAdd, ts := 5, hash := [1], body := .other }
def cast1 : Msg := { fid := 7, ty := .castAdd, ts := 5, hash := [2], body := .castAdd none [] }
def chan1 : OEvent := { ty := 6, fid := 0, block := 10, tx := 1, log := 2, ts := 3, body := .none }
def ctx (h : Nat) : BlockCtx := ⟨.devnet, h, 100 + h, .v21⟩
def hubs1 : List ZHub := [.mergeMessage (some cast1), .mergeMessage (some key1), .other, .mergeOnChain (some chan1)]
def b1 : ZBlock := ⟨ctx 4, hubs1, eventsHash hash0 (generateBlockEvents hash0 enc0 (ctx 4) 0 hubs1)⟩
def b2 : ZBlock := ⟨ctx 5, hubs1, eventsHash hash0 (generateBlockEvents hash0 enc0 (ctx 5) 2 hubs1)⟩

/-- Two blocks, five events: a key, a registration; a key, a registration, a heartbeat. -/
example : (shard0Run hash0 enc0 [b1, b2] OMap.empty).map (fun r => r.2.map (·.map (fun e => e.data.map (·.seqnum)))) =
    some [[some 1, some 2], [some 3, some 4, some 5]] := by decide +kernel

/-- A header with another hash is refused. -/
example : commitBlockEvents hash0 enc0 OMap.empty (ctx 4) hubs1 [] = none := by decide +kernel

def es1 : List BEvent := generateBlockEvents hash0 enc0 (ctx 4) 0 hubs1
def fs1 : List BEvent := generateBlockEvents hash0 enc0 (ctx 4) 0 [.mergeMessage (some key1)]

/-- Dropping the registration changes the hash. -/
example : eventsHash hash0 es1 ≠ eventsHash hash0 fs1 := by
  intro h
  have auth : ∀ hubs, ∀ e ∈ generateBlockEvents hash0 enc0 (ctx 4) 0 hubs, Authentic hash0 enc0 e := by
    intro hubs e he
    obtain ⟨bodies, _, hb2⟩ := generate_eq (H := hash0) (enc := enc0) (ctx 4) (m := 0) (by decide) hubs
    rw [hb2] at he
    obtain ⟨i, he⟩ := List.getElem?_of_mem he
    rw [List.getElem?_mapIdx] at he
    cases hbi : bodies[i]? with
    | none => rw [hbi] at he; exact absurd he (by simp)
    | some bd =>
      rw [hbi] at he
      simp only [Option.map_some, Option.some.injEq] at he
      subst he
      exact ⟨_, rfl, rfl⟩
  have := C38_hash_commits_to_events (H := hash0) (enc := enc0) (fun x => by simp [hash0]) (es := es1) (fs := fs1)
    (by decide +kernel) (auth _) (auth _) (by decide +kernel) h
  exact absurd this (by decide +kernel)

end C38Case
end Verif
