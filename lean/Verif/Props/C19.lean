import Verif.Lemmas.Event
import Verif.Props.C06
/-!
# C19: event queries and pruning respect ids and heights
-/
namespace Verif
variable {V M : Type}

/-- The id of an event row, read off its key. -/
def eventIdOf : Bytes → Option Nat
  | 9 :: rest => if rest.length = 8 then some (fromBe rest) else none
  | _ => none

/-- The event log as a list of (id, value). -/
def storedEvents (db : Db V) : List (Nat × V) :=
  db.rows.filterMap (fun r => (eventIdOf r.1).map (fun id => (id, r.2)))

/-- The key layout of the node: rows with first byte 9 are event rows, first byte 10 is unused. -/
def EventLayout (db : Db V) : Prop :=
  ∀ r ∈ db.rows, r.1 = [] ∨ (∃ b rest, r.1 = b :: rest ∧ b ≠ 9 ∧ b ≠ 10) ∨ ∃ id < 2 ^ 64, r.1 = eventKey id

theorem eventIdOf_key (id : Nat) (h : id < 2 ^ 64) : eventIdOf (eventKey id) = some id := by
  have h1 : (be 8 id).length = 8 := by simp
  show (if (be 8 id).length = 8 then some (fromBe (be 8 id)) else none) = some id
  rw [if_pos h1, fromBe_be_of_lt (by rw [show (256 : Nat) ^ 8 = 2 ^ 64 by decide]; exact h)]

theorem eventIdOf_other (b : UInt8) (rest : Bytes) (h : b ≠ 9) : eventIdOf (b :: rest) = none := by
  unfold eventIdOf
  split
  · rename_i heq; injection heq with h1 _; exact absurd h1 h
  · rfl

/-- The exclusive upper key of an event query. -/
def eventStop (stop : Option Nat) : Bytes :=
  match stop with | some id => eventKey id | none => incrementVec (eventKey (2 ^ 64 - 1))

theorem eventStop_none : eventStop none = 10 :: List.replicate 8 0 := by decide

theorem in_event_range (db : Db V) (hl : EventLayout db) (start : Nat) (stop : Option Nat)
    (hstart : start < 2 ^ 64) (hstop : ∀ s, stop = some s → s < 2 ^ 64) (r : Bytes × V) (hr : r ∈ db.rows) :
    (!Bytes.blt r.1 (eventKey start) && Bytes.blt r.1 (eventStop stop)) = true ↔
      ∃ id < 2 ^ 64, r.1 = eventKey id ∧ start ≤ id ∧ ∀ s, stop = some s → id < s := by
  have key_inj : ∀ a b : Nat, a < 2 ^ 64 → b < 2 ^ 64 → eventKey a = eventKey b → a = b := by
    intro a b ha hb e
    have h1 := eventIdOf_key a ha
    have h2 := eventIdOf_key b hb
    rw [e, h2] at h1; injection h1 with h1; exact h1.symm
  rcases hl r hr with h | ⟨b, rest, h, h9, h10⟩ | ⟨id, hid, h⟩
  · rw [h]
    constructor
    · intro hh; simp [eventKey, Bytes.blt] at hh
    · rintro ⟨id, _, e, _⟩; simp [eventKey] at e
  · rw [h]
    constructor
    · intro hh
      exfalso
      simp only [Bool.and_eq_true, Bool.not_eq_true'] at hh
      obtain ⟨h1, h2⟩ := hh
      have hb9 : b.toNat ≠ 9 := fun e => h9 (UInt8.toNat_inj' (by simpa using e))
      have hb10 : b.toNat ≠ 10 := fun e => h10 (UInt8.toNat_inj' (by simpa using e))
      have h1' : ¬ b < 9 := by
        intro hlt
        rw [UInt8.lt_iff_toNat_lt] at hlt
        simp [eventKey, Bytes.blt] at h1 hlt
        omega
      have h1'' : ¬ b.toNat < 9 := by rw [UInt8.lt_iff_toNat_lt] at h1'; simpa using h1'
      have hgt9 : ¬ b < 9 ∧ ¬ b = 9 := ⟨h1', h9⟩
      cases stop with
      | some s =>
        simp only [eventStop, eventKey, Bytes.blt] at h2
        grind
      | none =>
        rw [eventStop_none] at h2
        simp only [Bytes.blt] at h2
        have : ¬ b < 10 := by
          rw [UInt8.lt_iff_toNat_lt]
          simp; omega
        grind
    · rintro ⟨id, _, e, _⟩
      simp only [eventKey] at e
      injection e with e _
      exact absurd e h9
  · rw [h, eventKey_blt _ _ hid hstart]
    constructor
    · intro hh
      refine ⟨id, hid, rfl, ?_, ?_⟩
      · simp at hh; exact hh.1
      · intro s hs
        have hs' := hstop s hs
        subst hs
        simp only [eventStop] at hh
        rw [eventKey_blt _ _ hid hs'] at hh
        simp at hh; exact hh.2
    · rintro ⟨id', hid', e, h1, h2⟩
      have := key_inj _ _ hid hid' e
      subst this
      simp only [Bool.and_eq_true, Bool.not_eq_true', decide_eq_false_iff_not]
      refine ⟨by omega, ?_⟩
      cases stop with
      | some s =>
        simp only [eventStop]
        rw [eventKey_blt _ _ hid (hstop s rfl)]
        simpa using h2 s rfl
      | none => rw [eventStop_none]; simp [eventKey, Bytes.blt]

/-- The events a query should return: start inclusive, stop exclusive, ascending or descending. -/
def eventsInRange (db : Db V) (start : Nat) (stop : Option Nat) : List (Nat × V) :=
  (storedEvents db).filter (fun e => decide (start ≤ e.1) && stop.all (fun s => decide (e.1 < s)))

theorem scan_events (db : Db V) (hl : EventLayout db) (start : Nat) (stop : Option Nat)
    (hstart : start < 2 ^ 64) (hstop : ∀ s, stop = some s → s < 2 ^ 64) :
    (db.rows.filter (fun r => !Bytes.blt r.1 (eventKey start) && Bytes.blt r.1 (eventStop stop))).map Prod.snd
      = (eventsInRange db start stop).map Prod.snd := by
  unfold eventsInRange storedEvents
  have main : ∀ rows : List (Bytes × V), (∀ r ∈ rows, r ∈ db.rows) →
      (rows.filter (fun r => !Bytes.blt r.1 (eventKey start) && Bytes.blt r.1 (eventStop stop))).map Prod.snd
      = ((rows.filterMap (fun r => (eventIdOf r.1).map (fun id => (id, r.2)))).filter
          (fun e => decide (start ≤ e.1) && stop.all (fun s => decide (e.1 < s)))).map Prod.snd := by
    intro rows
    induction rows with
    | nil => intro _; rfl
    | cons r rows ih =>
      intro hm
      have hr := hm r (by simp)
      have hrng := in_event_range db hl start stop hstart hstop r hr
      have ih := ih (fun q hq => hm q (by simp [hq]))
      rcases hl r hr with h | ⟨b, rest, h, h9, h10⟩ | ⟨id, hid, h⟩
      · have hno : (!Bytes.blt r.1 (eventKey start) && Bytes.blt r.1 (eventStop stop)) = false := by
          rw [← Bool.not_eq_true, hrng]
          rintro ⟨id, _, e, _⟩; rw [h] at e; simp [eventKey] at e
        have hid : eventIdOf r.1 = none := by rw [h]; rfl
        rw [List.filter_cons, hno, List.filterMap_cons, hid]
        simpa using ih
      · have hid : eventIdOf r.1 = none := by rw [h]; exact eventIdOf_other b rest h9
        have hno : (!Bytes.blt r.1 (eventKey start) && Bytes.blt r.1 (eventStop stop)) = false := by
          rw [← Bool.not_eq_true, hrng]
          rintro ⟨id, _, e, _⟩
          rw [h] at e; simp only [eventKey] at e; injection e with e _; exact h9 e
        rw [List.filter_cons, hno, List.filterMap_cons, hid]
        simpa using ih
      · have hid' : eventIdOf r.1 = some id := by rw [h]; exact eventIdOf_key id hid
        have hiff : (!Bytes.blt r.1 (eventKey start) && Bytes.blt r.1 (eventStop stop)) =
            (decide (start ≤ id) && stop.all (fun s => decide (id < s))) := by
          rw [Bool.eq_iff_iff, hrng]
          constructor
          · rintro ⟨id', hid2, e, h1, h2⟩
            have : id' = id := by
              have := eventIdOf_key id' hid2
              rw [← e, hid'] at this; injection this with this; exact this.symm
            subst this
            cases stop with
            | none => simpa using h1
            | some s => simpa using ⟨h1, h2 s rfl⟩
          · intro hh
            refine ⟨id, hid, h, ?_⟩
            cases stop with
            | none => simpa using hh
            | some s => simpa using hh
        rw [List.filter_cons, hiff, List.filterMap_cons, hid']
        simp only [Option.map_some, List.filter_cons]
        split
        · simpa using ih
        · simpa using ih
  exact main db.rows (fun r hr => hr)

theorem getEvents_eq (decode : V → Option M) (db : Db V) (start : Nat) (stop : Option Nat) (po : PageOptions) :
    getEvents decode db start stop po =
      rangePage decode db (eventKey start) (eventStop stop) po (po.pageSize.getD 1000) (fun _ => true) := by
  have h0 : getEvents decode db start stop po =
      match iterate po.pageSize (pageStep decode (fun _ => true) (po.pageSize.getD 1000))
        (scanRows db (iterBounds (some (eventKey start)) (some (eventStop stop)) po).1
          (iterBounds (some (eventKey start)) (some (eventStop stop)) po).2 po.reverse) 0 ([], []) with
      | .error e => .error e
      | .ok ((msgs, lastKey), _) =>
        .ok { messages := msgs, nextPageToken := if lastKey.isEmpty then none else some lastKey } := by
    have hcb : (fun (s : List M × Bytes) (k : Bytes) (v : V) =>
        match decode v with
        | none => (.error .decode : Except HubErr ((List M × Bytes) × Bool))
        | some m =>
          let ms := s.1 ++ [m]
          if ms.length ≥ po.pageSize.getD eventPageSizeMax then .ok ((ms, k), true)
          else .ok ((ms, s.2), false))
      = pageStep decode (fun _ => true) (po.pageSize.getD 1000) := by
      funext s k v
      simp only [pageStep]
      cases decode v <;> rfl
    rw [← hcb]
    rfl
  rw [h0]
  unfold rangePage
  cases hps : po.pageSize with
  | none => rfl
  | some n =>
    have h := iterate_limit_eq decode n
      (scanRows db (iterBounds (some (eventKey start)) (some (eventStop stop)) po).1
        (iterBounds (some (eventKey start)) (some (eventStop stop)) po).2 po.reverse)
      [] [] (by simp; omega)
    simp only [List.length_nil] at h
    simp only [Option.getD_some]
    revert h
    generalize iterate (some n) _ _ 0 _ = x
    generalize iterate none _ _ 0 _ = y
    intro h
    cases x <;> cases y <;> simp_all [Except.map]

/-- **C19 (query).** Reading events from an id (up to an exclusive stop id, or to the end) and following
the page tokens returns exactly the stored events of that id range, in id order (reverse order when
reversed), each once, for every page size. -/
theorem C19_query_exact (decode : V → Option M) (db : Db V) (hl : EventLayout db) (start : Nat)
    (stop : Option Nat) (hstart : start < 2 ^ 64) (hstop : ∀ s, stop = some s → s < 2 ^ 64)
    (hd : ∀ e ∈ storedEvents db, (decode e.2).isSome) (n : Option Nat) (rev : Bool) :
    FollowTokens (fun t => getEvents decode db start stop { pageSize := n, pageToken := t, reverse := rev })
      none ((inDirection rev (eventsInRange db start stop)).filterMap (fun e => decode e.2)) := by
  have hscan := scan_events db hl start stop hstart hstop
  have hrows : (scanRows db (eventKey start) (eventStop stop) rev).map Prod.snd
      = (inDirection rev (eventsInRange db start stop)).map Prod.snd := by
    cases rev
    · simpa [scanRows, inDirection] using hscan
    · simp only [scanRows, inDirection, if_true, List.map_reverse, hscan]
  have hdec : ∀ r ∈ scanRows db (eventKey start) (eventStop stop) rev, (decode r.2).isSome := by
    intro r hr
    have : r.2 ∈ (inDirection rev (eventsInRange db start stop)).map Prod.snd := by
      rw [← hrows]; exact List.mem_map.2 ⟨r, hr, rfl⟩
    obtain ⟨e, he, e2⟩ := List.mem_map.1 this
    rw [← e2]
    have he' : e ∈ eventsInRange db start stop := by cases rev <;> simpa [inDirection] using he
    exact hd e (List.mem_filter.1 he').1
  have h := follow_range decode db (eventKey start) (eventStop stop) (by simp [eventKey]) rev hdec n
    (n.getD 1000) (fun _ => true)
  have e1 : (((scanRows db (eventKey start) (eventStop stop) rev).filterMap (fun r => decode r.2)).filter
      (fun _ => true)) = (inDirection rev (eventsInRange db start stop)).filterMap (fun e => decode e.2) := by
    have : ∀ {α : Type} (l : List (α × V)), l.filterMap (fun r => decode r.2) = (l.map Prod.snd).filterMap decode := by
      intro α l; rw [List.filterMap_map]; rfl
    rw [this, this, hrows]
    simp
  rw [e1] at h
  simp only [getEvents_eq]
  exact h

theorem fromBe_lt_of_len (l : Bytes) (n : Nat) (h : l.length = n) : fromBe l < 256 ^ n := by
  rw [← h]; exact fromBe_lt l

/-- The event log is listed in strictly increasing id order. -/
theorem C19_log_sorted (db : Db V) : (storedEvents db).Pairwise (fun a b => a.1 < b.1) := by
  have hkey : ∀ k id, eventIdOf k = some id → k = eventKey id ∧ id < 2 ^ 64 := by
    intro k id h
    unfold eventIdOf at h
    split at h
    · rename_i rest
      split at h
      · rename_i hlen
        injection h with h
        have hlt := fromBe_lt_of_len rest 8 hlen
        rw [h] at hlt
        refine ⟨?_, by rw [show (256 : Nat) ^ 8 = 2 ^ 64 by decide] at hlt; exact hlt⟩
        unfold eventKey
        rw [← h, ← hlen, be_fromBe]
      · simp at h
    · simp at h
  unfold storedEvents
  rw [List.pairwise_filterMap]
  refine db.sorted.imp ?_
  rintro a b hab x hx y hy
  obtain ⟨ia, ha, rfl⟩ := Option.map_eq_some_iff.1 hx
  obtain ⟨ib, hb, rfl⟩ := Option.map_eq_some_iff.1 hy
  obtain ⟨ea, la⟩ := hkey _ _ ha
  obtain ⟨eb, lb⟩ := hkey _ _ hb
  have hab' : Bytes.blt a.1 b.1 = true := hab
  rw [ea, eb, eventKey_blt _ _ la lb] at hab'
  simpa using hab'

/-- **C19 (lookup).** An event can be read back by its id exactly when it is stored. -/
theorem C19_lookup (decode : V → Option M) (db : Db V) (id : Nat) (t : Txn V) (v : V) (m : M)
    (hm : decode v = some m) : getEvent decode (db.commit (putEvent t id v)) id = .ok m := by
  unfold getEvent putEvent
  rw [Db.get_commit, getFromDbOrTxn_stagePut]
  simp [hm]

/-- **C19 (prune).** Pruning below a height terminates and deletes exactly the events whose height is
below it, leaving every other row of the database as it was. -/
theorem C19_prune_exact (db : Db V) (hl : EventLayout db) (h : Nat) (hh : h < 2 ^ 50) (n : Option Nat)
    (rev : Bool) :
    ∃ db' : Db V, ∃ pages : Nat,
      (∀ fuel ≥ pages, ∃ count, pruneEvents fuel db h { pageSize := n, reverse := rev } = some (.ok (db', count))) ∧
      (∀ id < 2 ^ 64, db'.get (eventKey id) =
        if (IdGen.extract id).1 < h then none else db.get (eventKey id)) ∧
      (∀ k, (∀ id < 2 ^ 64, k ≠ eventKey id) → db'.get k = db.get k) := by
  obtain ⟨db', pages, h1, h2⟩ := C06_range_deleted_exactly db (eventKey 0)
    (eventKey (IdGen.makeEventIdForBlockNumber h)) n rev
  have hid : IdGen.makeEventIdForBlockNumber h = h * 2 ^ 14 := by
    unfold IdGen.makeEventIdForBlockNumber; rw [makeEventId_eq _ _ hh]; simp
  have hlt : h * 2 ^ 14 < 2 ^ 64 := by omega
  refine ⟨db', pages, fun fuel hf => ⟨_, h1 fuel hf⟩, ?_, ?_⟩
  · intro id hid64
    rw [h2, hid, eventKey_blt _ _ hid64 (by decide), eventKey_blt _ _ hid64 hlt, extract_eq]
    simp only [Nat.not_lt_zero, decide_false, true_and, decide_eq_true_eq]
    have : id < h * 2 ^ 14 ↔ id / 2 ^ 14 < h := by omega
    simp [this]
  · intro k hk
    rw [h2]
    split
    · rename_i hrng
      cases hg : db.get k with
      | none => rfl
      | some v =>
        exfalso
        have hmem := (OMap.get_eq_some_iff db).1 hg
        have := (in_event_range db hl 0 (some (h * 2 ^ 14)) (by decide)
          (by intro s hs; injection hs with hs; omega) (k, v) hmem).1
          (by rw [hid] at hrng; simp only [eventStop]; simp [hrng])
        obtain ⟨id, hid', e, _⟩ := this
        exact hk id hid' e
    · rfl

/-- **Boundary.** A stop height of 2^50 wraps to id 0, so nothing is pruned. -/
theorem C19_prune_wraps : IdGen.makeEventIdForBlockNumber (2 ^ 50) = 0 := by decide

/-- Non-vacuity: two events, a foreign row on each side, and a query from the first id on. -/
example :
    let db : Db Nat := (((OMap.empty.put (eventKey 16385) 7).put (eventKey 32769) 8).put [8, 1] 1).put [11, 1] 2
    EventLayout db ∧ eventsInRange db 16386 none = [(32769, 8)] ∧
      (getEvents some db 16385 (some 32769) {}) = .ok ⟨[7], none⟩ := by
  refine ⟨?_, by decide, by rfl⟩
  intro r hr
  have : r = ([8, 1], 1) ∨ r = (eventKey 16385, 7) ∨ r = (eventKey 32769, 8) ∨ r = ([11, 1], 2) := by
    have e : ((((OMap.empty.put (eventKey 16385) 7).put (eventKey 32769) 8).put [8, 1] 1).put [11, 1] 2 : Db Nat).rows
      = [([8, 1], 1), (eventKey 16385, 7), (eventKey 32769, 8), ([11, 1], 2)] := by rfl
    rw [e] at hr
    simpa using hr
  rcases this with rfl | rfl | rfl | rfl
  · exact .inr (.inl ⟨8, [1], rfl, by decide, by decide⟩)
  · exact .inr (.inr ⟨16385, by decide, rfl⟩)
  · exact .inr (.inr ⟨32769, by decide, rfl⟩)
  · exact .inr (.inl ⟨11, [1], rfl, by decide, by decide⟩)

end Verif
