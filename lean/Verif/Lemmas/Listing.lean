import Verif.Spec.Listing
import Verif.Lemmas.KeyedPage
import Verif.Lemmas.StoreRowsOf
import Verif.Lemmas.OnChainRun
/-! Paging through an index. -/
namespace Verif

/-- The message an index or message key leads to. -/
def lookupMsg (db : Db SVal) (k : Bytes) : Option Msg := (db.get k).bind SVal.decodeMsg

/-- The message key an index key leads to. -/
def cutKey (plen : Nat) (set : UInt8) (k : Bytes) : Bytes :=
  makeMessagePrimaryKey (fromBe ((k.drop (plen + 24)).take 4)) set (some ((k.drop plen).take 24))

theorem getMany_ok (db : Db SVal) (ks : List Bytes) (h : ∀ k ∈ ks, (lookupMsg db k).isSome) :
    getMany db ks = .ok (ks.filterMap (lookupMsg db)) := by
  induction ks with
  | nil => rfl
  | cons k ks ih =>
    have h1 := h k (by simp)
    have h2 := ih (fun k hk => h k (by simp [hk]))
    unfold lookupMsg at h1
    cases hg : db.get k with
    | none => simp [hg] at h1
    | some v =>
      cases hm : v.decodeMsg with
      | none => simp [hg, hm] at h1
      | some m =>
        have h3 : lookupMsg db k = some m := by simp [lookupMsg, hg, hm]
        simp [getMany, hg, hm, h2, h3]

/-- What the index step makes of a row, as a decoder: the key it cuts and whether the row is kept. -/
def cutDec (plen : Nat) (set : UInt8) (keep : SVal → Bool) (kv : Bytes × SVal) : Option (Bytes × Bool) :=
  if keep kv.2 && decide (kv.1.length < plen + 28) then none else some (cutKey plen set kv.1, keep kv.2)

theorem indexStep_of_page (plen : Nat) (set : UInt8) (keep : SVal → Bool) (lim : Nat)
    (rows : List (Bytes × SVal)) (c : Nat) (acc x : List (Bytes × Bool) × Bytes) (d : Bool)
    (h : iterate none (pageStep (cutDec plen set keep) Prod.snd lim)
      (rows.map (fun r => (r.1, (r.1, r.2)))) c acc = .ok (x, d)) :
    iterate none (indexStep plen set keep lim) rows c (acc.1.map Prod.fst, acc.2) =
      .ok ((x.1.map Prod.fst, x.2), d) := by
  induction rows generalizing c acc with
  | nil =>
    simp only [List.map_nil, iterate, Except.ok.injEq, Prod.mk.injEq] at h ⊢
    rw [h.1, h.2]; simp
  | cons a rows ih =>
    obtain ⟨k, v⟩ := a
    simp only [List.map_cons, iterate, pageStep, cutDec] at h
    simp only [iterate, indexStep]
    cases hk : keep v with
    | false =>
      simp only [hk, Bool.false_and, Bool.false_eq_true, if_false] at h
      simp only [Bool.false_eq_true, if_false]
      exact ih _ _ h
    | true =>
      simp only [hk, Bool.true_and, decide_eq_true_eq] at h
      by_cases hl : k.length < plen + 28
      · simp [hl] at h
      · simp only [hl, if_false, if_true] at h
        have h1 : readFidKey k (plen + 24) = some (fromBe ((k.drop (plen + 24)).take 4)) := by
          unfold readFidKey; rw [if_pos (by omega)]
        have h2 : readTsHash k plen = some ((k.drop plen).take 24) := by
          unfold readTsHash; rw [if_pos (by omega)]
        simp only [if_true, h1, h2]
        have e : (acc.1.map Prod.fst ++ [makeMessagePrimaryKey (fromBe ((k.drop (plen + 24)).take 4)) set
            (some ((k.drop plen).take 24))]) = (acc.1 ++ [(cutKey plen set k, true)]).map Prod.fst := by
          simp [cutKey]
        rw [e]
        simp only [List.length_map]
        by_cases hm : (acc.1 ++ [(cutKey plen set k, true)]).length ≥ lim
        · simp only [if_pos hm] at h ⊢
          simp only [Except.ok.injEq, Prod.mk.injEq] at h ⊢
          rw [← h.1, ← h.2]; simp
        · simp only [if_neg hm] at h ⊢
          exact ih _ (acc.1 ++ [(cutKey plen set k, true)], acc.2) h

theorem FollowTokens.mapPage {M N : Type} {page : Option Bytes → Except HubErr (MessagesPage M)}
    {page' : Option Bytes → Except HubErr (MessagesPage N)} {Q : M → Prop} (f : List M → List N)
    (hf : ∀ a b, f (a ++ b) = f a ++ f b)
    (h : ∀ t p, page t = .ok p → (∀ m ∈ p.messages, Q m) → page' t = .ok ⟨f p.messages, p.nextPageToken⟩)
    {t : Option Bytes} {ms : List M} (hf' : FollowTokens page t ms) (hQ : ∀ m ∈ ms, Q m) :
    FollowTokens page' t (f ms) := by
  induction hf' with
  | last e => exact .last (h _ _ e hQ)
  | next e _ ih =>
    rw [hf]
    exact .next (h _ _ e (fun m hm => hQ m (by simp [hm]))) (ih (fun m hm => hQ m (by simp [hm])))

/-- Following an index whose kept rows all lead to stored messages lists those messages. -/
theorem follow_index (db : Db SVal) (p : Bytes) (set : UInt8) (keep : SVal → Bool)
    (hp : ∃ b ∈ p, b ≠ 255) (hs : NoShortKey db p)
    (hk : ∀ r ∈ rowsStartingWith db p, keep r.2 = true → p.length + 28 ≤ r.1.length ∧
      (lookupMsg db (cutKey p.length set r.1)).isSome) (n : Option Nat) (rev : Bool) :
    FollowTokens (fun t => indexPage db p set keep { pageSize := n, pageToken := t, reverse := rev }) none
      (inDirection rev (((rowsStartingWith db p).filter (fun r => keep r.2)).filterMap
        (fun r => lookupMsg db (cutKey p.length set r.1)))) := by
  have hne : p ≠ [] := by rintro rfl; simp at hp
  have hscan := scan_prefix_eq db p hp hs rev
  have hmem : ∀ r, r ∈ scanRows db p (incrementVec p) rev ↔ r ∈ rowsStartingWith db p := by
    intro r; rw [hscan]; cases rev <;> simp [inDirection]
  have h := follow_range (cutDec p.length set keep) db.withKeys p (incrementVec p) hne rev
    (by
      intro r hr
      rw [scanRows_withKeys] at hr
      obtain ⟨q, hq, rfl⟩ := List.mem_map.1 hr
      have := hk q ((hmem q).1 hq)
      unfold cutDec
      cases hkq : keep q.2 with
      | false => simp
      | true =>
        have := (this hkq).1
        have h : ¬ q.1.length < p.length + 28 := by omega
        simp [h]) n (n.getD pageSizeMax) Prod.snd
  rw [scanRows_withKeys] at h
  have e1 : (((scanRows db p (incrementVec p) rev).map (fun r => (r.1, (r.1, r.2)))).filterMap
      (fun r => cutDec p.length set keep r.2)).filter Prod.snd =
      ((scanRows db p (incrementVec p) rev).filter (fun r => keep r.2)).map (fun r => (cutKey p.length set r.1, true)) := by
    have : ∀ rows : List (Bytes × SVal), (∀ r ∈ rows, keep r.2 = true → p.length + 28 ≤ r.1.length) →
        ((rows.map (fun r => (r.1, (r.1, r.2)))).filterMap
          (fun r => cutDec p.length set keep r.2)).filter Prod.snd =
        (rows.filter (fun r => keep r.2)).map (fun r => (cutKey p.length set r.1, true)) := by
      intro rows hr
      induction rows with
      | nil => rfl
      | cons a rows ih =>
        have ih := ih (fun r h => hr r (by simp [h]))
        cases hka : keep a.2 with
        | false =>
          have : cutDec p.length set keep (a.1, a.2) = some (cutKey p.length set a.1, false) := by
            simp [cutDec, hka]
          simp only [List.map_cons, List.filterMap_cons, this, List.filter_cons, hka, Bool.false_eq_true,
            if_false]
          exact ih
        | true =>
          have hl := hr a (by simp) hka
          have : cutDec p.length set keep (a.1, a.2) = some (cutKey p.length set a.1, true) := by
            have : ¬ a.1.length < p.length + 28 := by omega
            simp [cutDec, hka, this]
          simp only [List.map_cons, List.filterMap_cons, this, List.filter_cons, hka, if_true]
          rw [ih]
    exact this _ (fun r hr hkr => (hk r ((hmem r).1 hr) hkr).1)
  rw [e1] at h
  have h2 := h.mapPage (Q := fun x => (lookupMsg db x.1).isSome)
    (page' := fun t => indexPage db p set keep { pageSize := n, pageToken := t, reverse := rev })
    (fun xs => xs.filterMap (fun x => lookupMsg db x.1)) (by simp)
    (by
      intro t pg hpg hQ
      unfold rangePage at hpg
      unfold indexPage forEachByPrefix forEachPaged
      simp only at hpg ⊢
      have ei : ∀ (a b : Option Nat), iterBounds (some p) (some (incrementVec p))
          { pageSize := a, pageToken := t, reverse := rev } = iterBounds (some p) (some (incrementVec p))
          { pageSize := b, pageToken := t, reverse := rev } := fun _ _ => rfl
      rw [ei none n]
      rw [scanRows_withKeys] at hpg
      generalize scanRows db _ _ _ = rows at hpg ⊢
      cases hx : iterate none (pageStep (cutDec p.length set keep) Prod.snd (n.getD pageSizeMax))
          (rows.map (fun r => (r.1, (r.1, r.2)))) 0 ([], []) with
      | error e => simp [hx] at hpg
      | ok y =>
        obtain ⟨⟨ms, lk⟩, d⟩ := y
        simp only [hx, Except.ok.injEq] at hpg
        subst hpg
        have := indexStep_of_page _ _ _ _ _ _ _ _ _ hx
        simp only [List.map_nil] at this
        rw [this]
        simp only
        rw [getMany_ok db (ms.map Prod.fst) (by
          intro k hk'
          obtain ⟨x, hx', rfl⟩ := List.mem_map.1 hk'
          exact hQ x hx')]
        simp [List.filterMap_map, Function.comp_def])
    (by
      intro x hx
      obtain ⟨r, hr, rfl⟩ := List.mem_map.1 hx
      obtain ⟨hr1, hr2⟩ := List.mem_filter.1 hr
      exact (hk r ((hmem r).1 hr1) hr2).2)
  rw [hscan] at h2
  have e3 : ∀ rows : List (Bytes × SVal),
      (((inDirection rev rows).filter (fun r => keep r.2)).map (fun r => (cutKey p.length set r.1, true))).filterMap
        (fun x => lookupMsg db x.1) =
      inDirection rev ((rows.filter (fun r => keep r.2)).filterMap (fun r => lookupMsg db (cutKey p.length set r.1))) := by
    intro rows
    cases rev <;> simp [inDirection, List.filterMap_map, Function.comp_def, List.filter_reverse, List.filterMap_reverse]
  rw [e3] at h2
  exact h2

theorem cutKey_index (p : Bytes) (set : UInt8) (m : Msg) (hf : m.fid < 2 ^ 32) (hh : m.hash.length = 20) :
    cutKey p.length set (p ++ (m.tsHash ++ be 4 m.fid)) = makeMessagePrimaryKey m.fid set (some m.tsHash) := by
  have hl : m.tsHash.length = 24 := by simp [Msg.tsHash, be_length, hh]
  unfold cutKey
  have e1 : (p ++ (m.tsHash ++ be 4 m.fid)).drop (p.length + 24) = be 4 m.fid := by
    rw [← List.drop_drop, List.drop_left, ← hl, List.drop_left]
  have e2 : ((p ++ (m.tsHash ++ be 4 m.fid)).drop p.length).take 24 = m.tsHash := by
    rw [List.drop_left, ← hl, List.take_left]
  rw [e1, e2]
  have : (be 4 m.fid).take 4 = be 4 m.fid := List.take_of_length_le (by simp [be_length])
  rw [this, fromBe_be_of_lt (by simpa using hf)]

theorem listedBefore_of_blt {a b : Msg} (ha : a.ts < 2 ^ 32) (hb : b.ts < 2 ^ 32) (hah : a.hash.length = 20)
    (hbh : b.hash.length = 20) (haf : a.fid < 2 ^ 32) (hbf : b.fid < 2 ^ 32)
    (h : Bytes.blt (a.tsHash ++ be 4 a.fid) (b.tsHash ++ be 4 b.fid) = true) : a.ListedBefore b := by
  rcases Bytes.blt_of_append (by simp [Msg.tsHash, hah, hbh]) h with h | ⟨e, h⟩
  · unfold Msg.tsHash at h
    rcases Bytes.blt_of_append (by simp) h with h | ⟨e, h⟩
    · exact .inl ((be_blt_iff (w := 4) (by omega) (by omega)).1 h)
    · exact .inr ⟨be_inj (w := 4) (by omega) (by omega) e, .inl h⟩
  · unfold Msg.tsHash at e
    obtain ⟨e1, e2⟩ := List.append_inj e (by simp)
    exact .inr ⟨be_inj (w := 4) (by omega) (by omega) e1,
      .inr ⟨e2, (be_blt_iff (w := 4) (by omega) (by omega)).1 h⟩⟩

/-- The listing of a family of messages through an index. -/
theorem lists_exactly (db : Db SVal) (p : Bytes) (D : StoreDef) (keep : SVal → Bool) (P : Msg → Prop)
    (hp : ∃ b ∈ p, b ≠ 255) (hs : NoShortKey db p)
    (h1 : ∀ k v, db.get k = some v → p <+: k → keep v = true → ∃ m, P m ∧ k = p ++ (m.tsHash ++ be 4 m.fid))
    (h2 : ∀ m, P m → ∃ v, keep v = true ∧ db.get (p ++ (m.tsHash ++ be 4 m.fid)) = some v)
    (h3 : ∀ m, P m → m.fid < 2 ^ 32 ∧ m.ts < 2 ^ 32 ∧ m.hash.length = 20 ∧ Committed D db m) :
    ListsExactly (indexPage db p D.set keep) P := by
  have hlook : ∀ m, P m → lookupMsg db (cutKey p.length D.set (p ++ (m.tsHash ++ be 4 m.fid))) = some m := by
    intro m hm
    obtain ⟨hf, ht, hh, hc⟩ := h3 m hm
    rw [cutKey_index p D.set m hf hh]
    unfold lookupMsg
    rw [hc]; rfl
  have hrow : ∀ r ∈ rowsStartingWith db p, keep r.2 = true → ∃ m, P m ∧ r.1 = p ++ (m.tsHash ++ be 4 m.fid) := by
    intro r hr hk
    obtain ⟨hr1, hr2⟩ := List.mem_filter.1 hr
    exact h1 r.1 r.2 ((OMap.get_eq_some_iff db).2 hr1) (List.isPrefixOf_iff_prefix.1 hr2) hk
  refine ⟨_, ?_, ?_, fun n rev => follow_index db p D.set keep hp hs ?_ n rev⟩
  · have hsorted : ((rowsStartingWith db p).filter (fun r => keep r.2)).Pairwise
        (fun a b => Bytes.blt a.1 b.1 = true) := by
      have := db.sorted
      unfold OMapL.Sorted at this
      exact (this.filter _).filter _
    rw [List.pairwise_filterMap]
    refine hsorted.imp_of_mem ?_
    intro a b ha hb hab x hx y hy
    obtain ⟨ma, hma, ea⟩ := hrow a (List.mem_filter.1 ha).1 (List.mem_filter.1 ha).2
    obtain ⟨mb, hmb, eb⟩ := hrow b (List.mem_filter.1 hb).1 (List.mem_filter.1 hb).2
    rw [ea, hlook ma hma] at hx
    rw [eb, hlook mb hmb] at hy
    cases hx; cases hy
    obtain ⟨f1, t1, l1, _⟩ := h3 _ hma
    obtain ⟨f2, t2, l2, _⟩ := h3 _ hmb
    rw [ea, eb, Bytes.blt_append_left] at hab
    exact listedBefore_of_blt t1 t2 l1 l2 f1 f2 hab
  · intro m
    rw [List.mem_filterMap]
    constructor
    · rintro ⟨r, hr, e⟩
      obtain ⟨m', hm', e'⟩ := hrow r (List.mem_filter.1 hr).1 (List.mem_filter.1 hr).2
      rw [e', hlook m' hm'] at e
      cases e
      exact hm'
    · intro hm
      obtain ⟨v, hv, hg⟩ := h2 m hm
      refine ⟨(p ++ (m.tsHash ++ be 4 m.fid), v), ?_, hlook m hm⟩
      rw [List.mem_filter]
      refine ⟨?_, hv⟩
      unfold rowsStartingWith
      rw [List.mem_filter]
      exact ⟨(OMap.get_eq_some_iff db).1 hg, List.isPrefixOf_iff_prefix.2 (List.prefix_append _ _)⟩
  · intro r hr hk
    obtain ⟨m, hm, e⟩ := hrow r hr hk
    obtain ⟨hf, ht, hh, hc⟩ := h3 m hm
    rw [e]
    refine ⟨?_, by rw [hlook m hm]; rfl⟩
    simp only [List.length_append, be_length, Msg.tsHash, hh]; omega

/-- The upper bound of a prefix scan starts with the prefix's first byte or the next one. -/
theorem incrementVec_head {x : UInt8} {q : Bytes} (hx : x.toNat < 255) :
    ∃ z r, incrementVec (x :: q) = z :: r ∧ (z = x ∨ z.toNat = x.toNat + 1) := by
  by_cases hq : ∃ b ∈ q, b ≠ 255
  · have := incrementVec_append (a := [x]) hq
    exact ⟨x, _, this, .inl rfl⟩
  · have hq' : ∀ b ∈ q.reverse, b = 255 := by
      intro b hb
      apply Classical.byContradiction
      exact fun h => hq ⟨b, by simpa using hb, h⟩
    have key : ∀ l : Bytes, (∀ b ∈ l, b = 255) →
        incrRev (l ++ [x]) = some (List.replicate l.length 0 ++ [UInt8.ofNat (x.toNat + 1)]) := by
      intro l hl
      induction l with
      | nil => simp [incrRev, hx]
      | cons a l ih =>
        have : a = 255 := hl a (by simp)
        subst this
        simp [incrRev, ih (fun b hb => hl b (by simp [hb])), List.replicate_succ]
    refine ⟨UInt8.ofNat (x.toNat + 1), List.replicate q.length 0, ?_, .inr ?_⟩
    · unfold incrementVec
      rw [List.reverse_cons, key _ hq']
      simp
    · simp; omega

theorem noShortKey_of_head {V : Type} (db : Db V) {x : UInt8} {q : Bytes} (hx : x.toNat < 255)
    (h : ∀ y k v, db.get (y :: k) = some v → (y = x ∨ y.toNat = x.toNat + 1) → q.length ≤ k.length) :
    NoShortKey db (x :: q) := by
  intro r hr h1 h2
  have hp : ∃ b ∈ x :: q, b ≠ 255 := ⟨x, by simp, by rintro rfl; simp at hx⟩
  apply h2.eq_of_length_le
  rw [incrementVec_length hp]
  obtain ⟨k, v⟩ := r
  cases k with
  | nil => simp [Bytes.blt] at h1
  | cons y k =>
    obtain ⟨z, t, e, hz⟩ := incrementVec_head (q := q) hx
    rw [e] at h2
    have : y = z := by
      obtain ⟨s, hs⟩ := h2
      simp only [List.cons_append, List.cons.injEq] at hs
      exact hs.1
    subst this
    have := h y k v ((OMap.get_eq_some_iff db).2 hr) hz
    simpa using this

theorem noShortKey_of_text {V : Type} (db : Db V) {x : UInt8} {u : Bytes} (hx : x ≠ 255) (hu : 255 ∉ u) :
    NoShortKey db (x :: u) := by
  rcases List.eq_nil_or_concat u with rfl | ⟨u', b, rfl⟩
  · exact noShortKey_of_last db [] x hx
  · have := noShortKey_of_last db (x :: u') b (by rintro rfl; simp at hu)
    simpa using this

/-! ### Databases of a store -/

/-- The rows of a database are those of its committed messages, events apart. -/
def CommittedRows (kind : StoreKind) (channelOf : Bytes → Option Bytes) (ctx : Nat → MergeCtx) (U : Msg → Prop)
    (db : Db SVal) : Prop :=
  ∀ k, (∀ id, k ≠ eventKey id) → ∀ v, db.get k = some v ↔
    ∃ m, kind.Valid m ∧ U m ∧ Committed (kind.store channelOf) db m ∧
      ∃ r, (r, v) ∈ kind.rows channelOf (ctx m.ts).follows m ∧ k = r.bytes

variable {U : Msg → Prop} {channelOf : Bytes → Option Bytes} {ctx : Nat → MergeCtx} {db : Db SVal} {kind : StoreKind}

theorem kind_committed (hch : ChannelNaming channelOf) (hU : HashesIdentify U) (ops : List StoreOp)
    (hr : kind.ProperRun channelOf ctx U {} ops) :
    CommittedRows kind channelOf ctx U (({} : StoreState).run (kind.store channelOf) ctx ops).db := by
  intro k hk v
  obtain ⟨L0, L, h⟩ := kind_run kind hch hU ops (kind_init kind) hr
  have h' : KindInv kind channelOf ctx U L0 L0
      ⟨(({} : StoreState).run (kind.store channelOf) ctx ops).db, ⟨OMap.empty, {}⟩⟩ :=
    ⟨⟨h.committed, h.committed⟩, h.blank0, h.blank0⟩
  have := kind_view kind hch hU h' k hk v
  simpa only [StoreState.Has, StoreState.view, getFromDbOrTxn, OMap.get_empty, Committed] using this

theorem rows_msg {follows : Bool} {m m' : Msg} {r : RowKey}
    (h : (r, SVal.msg m) ∈ kind.rows channelOf follows m') : m = m' := by
  unfold StoreKind.rows at h
  rw [List.mem_cons] at h
  rcases h with h | h
  · simp only [Prod.mk.injEq, SVal.msg.injEq] at h; exact h.2
  · exfalso
    split at h <;> try (simp at h; done)
    · rw [List.mem_cons, List.mem_append] at h
      rcases h with h | h | h
      · simp at h
      · split at h <;> simp at h
      · simp at h
    · rw [List.mem_cons, List.mem_cons] at h
      rcases h with h | h | h
      · simp at h
      · simp at h
      · split at h
        · split at h
          · split at h <;> simp at h
          · simp at h
        · simp at h

theorem CommittedRows.valid (h : CommittedRows kind channelOf ctx U db) {m : Msg}
    (hm : Committed (kind.store channelOf) db m) : kind.Valid m ∧ U m := by
  have := (h _ (by intro id; simp [makeMessagePrimaryKey, makeUserKey, eventKey]) _).1 hm
  obtain ⟨m', hv, hu, _, r, hr, _⟩ := this
  rw [rows_msg hr]
  exact ⟨hv, hu⟩

end Verif
