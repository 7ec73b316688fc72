import Verif.Spec.StoreTrie
import Verif.Lemmas.StoreNear
import Verif.Lemmas.TriePages
import Verif.Props.C25
/-! The trie follows the store. -/
namespace Verif
open StoreDef

variable {sha256 : Bytes → Bytes}

theorem keys_entries (m : Msg) : trieKeysForMessage sha256 m = m.entries.map (fun x => x.key sha256) := by
  rw [C25_message_entries, Msg.entries, List.map_map]; rfl

/-- Keys of entries fit the trie. -/
theorem entries_keysFit {E : TrieEntry → Prop} (h : EntriesFit sha256 E) :
    KeysFit (fun k => ∃ x, E x ∧ k = x.key sha256) := by
  refine ⟨?_, ?_⟩
  · rintro k ⟨x, hx, rfl⟩
    rcases C25_key_length sha256 x (h.valid x hx) with h | h <;> omega
  · rintro k k' ⟨x, hx, rfl⟩ ⟨y, hy, rfl⟩ hp
    rw [C25_prefix_free sha256 x y (h.valid x hx) (h.valid y hy) hp]

theorem entries_clear {E : TrieEntry → Prop} (h : EntriesFit sha256 E) :
    ∀ k, (∃ x, E x ∧ k = x.key sha256) → Clear (erased (fun k => ∃ x, E x ∧ k = x.key sha256)) (expandNibbles k) := by
  apply clear_of_noShift
  rintro k ⟨x, hx, rfl⟩ k' ⟨y, hy, rfl⟩
  exact h.noShift x y hx hy

/-! ### Updates of the trie -/

section trie
variable {H : Bytes → Bytes} {ord : List UInt8 → List UInt8} {U Z : Bytes → Prop}

theorem insertEach_spec (hH : ∀ x, H x ≠ []) (hord : ∀ l, (ord l).Perm l) (hU : KeysFit U)
    (h8 : ∀ k, U k → Clear Z (expandNibbles k)) (keys : List Bytes) :
    ∀ {s : TrieState} {ks : KeySets}, CacheInv H s ks → (∀ k ∈ ks.current, U k) → (∀ k ∈ keys, U k) →
    ∃ s' cur, s.insertEach H ord keys = .ok s' ∧ CacheInv H s' { ks with current := cur } ∧
      ∀ k, k ∈ cur ↔ k ∈ ks.current ∨ k ∈ keys := by
  induction keys with
  | nil => intro s ks h _ _; exact ⟨s, ks.current, rfl, h, by simp⟩
  | cons a l ih =>
    intro s ks h hs hk
    obtain ⟨s1, res, h1, h2, _⟩ := cache_insert hH hord hU h8 h hs (keys := [a]) (fun k hk' => hk k (by simp_all))
    obtain ⟨s', cur, h3, h4, h5⟩ := ih h2 (fun k hk' => by
      rcases mem_addKeys.1 hk' with h | h
      · exact hs k h
      · exact hk k (by simp_all)) (fun k hk' => hk k (List.mem_cons_of_mem _ hk'))
    refine ⟨s', cur, ?_, h4, ?_⟩
    · simp only [TrieState.insertEach, h1, h3]
    · intro k
      rw [h5, mem_addKeys]
      simp only [List.mem_cons, List.not_mem_nil, or_false]
      exact or_assoc

theorem deleteEach_spec (hH : ∀ x, H x ≠ []) (hord : ∀ l, (ord l).Perm l) (hU : KeysFit U)
    (h8 : ∀ k, U k → Clear Z (expandNibbles k)) (keys : List Bytes) :
    ∀ {s : TrieState} {ks : KeySets}, CacheInv H s ks → (∀ k ∈ ks.current, U k) → (∀ k ∈ keys, U k) →
    ∃ s' cur, s.deleteEach H ord keys = .ok s' ∧ CacheInv H s' { ks with current := cur } ∧
      ∀ k, k ∈ cur ↔ k ∈ ks.current ∧ k ∉ keys := by
  induction keys with
  | nil => intro s ks h _ _; exact ⟨s, ks.current, rfl, h, by simp⟩
  | cons a l ih =>
    intro s ks h hs hk
    obtain ⟨s1, res, h1, h2, _⟩ := cache_delete hH hord hU h8 h hs (keys := [a]) (fun k hk' => hk k (by simp_all))
    obtain ⟨s', cur, h3, h4, h5⟩ := ih h2 (fun k hk' => hs k (mem_removeKeys.1 hk').1)
      (fun k hk' => hk k (List.mem_cons_of_mem _ hk'))
    refine ⟨s', cur, ?_, h4, ?_⟩
    · simp only [TrieState.deleteEach, h1, h3]
    · intro k
      rw [h5, mem_removeKeys]
      simp only [List.mem_cons, List.not_mem_nil, or_false, not_or]
      exact and_assoc

theorem updateForEvent_spec (hH : ∀ x, H x ≠ []) (hord : ∀ l, (ord l).Perm l) (hU : KeysFit U)
    (h8 : ∀ k, U k → Clear Z (expandNibbles k)) (e : TrieEvent) {s : TrieState} {ks : KeySets} (h : CacheInv H s ks)
    (hs : ∀ k ∈ ks.current, U k) (hk : ∀ k ∈ (trieKeysForEvent sha256 e).1 ++ (trieKeysForEvent sha256 e).2, U k) :
    ∃ s' cur, s.updateForEvent H ord sha256 e = .ok s' ∧ CacheInv H s' { ks with current := cur } ∧
      ∀ k, k ∈ cur ↔ (k ∈ ks.current ∨ k ∈ (trieKeysForEvent sha256 e).1) ∧ k ∉ (trieKeysForEvent sha256 e).2 := by
  obtain ⟨s1, c1, h1, h2, h3⟩ := insertEach_spec hH hord hU h8 _ h hs (fun k hk' => hk k (List.mem_append_left _ hk'))
  obtain ⟨s', cur, h4, h5, h6⟩ := deleteEach_spec hH hord hU h8 (trieKeysForEvent sha256 e).2 h2
    (fun k hk' => ((h3 k).1 hk').elim (hs k) (fun h => hk k (List.mem_append_left _ h)))
    (fun k hk' => hk k (List.mem_append_right _ hk'))
  refine ⟨s', cur, ?_, h5, ?_⟩
  · simp only [TrieState.updateForEvent, h1, h4]
  · intro k; rw [h6, h3]

/-- Events that only delete. -/
theorem deletes_spec (hH : ∀ x, H x ≠ []) (hord : ∀ l, (ord l).Perm l) (hU : KeysFit U)
    (h8 : ∀ k, U k → Clear Z (expandNibbles k)) (es : List TrieEvent) (hes : ∀ e ∈ es, (trieKeysForEvent sha256 e).1 = []) :
    ∀ {s : TrieState} {ks : KeySets}, CacheInv H s ks → (∀ k ∈ ks.current, U k) →
    (∀ e ∈ es, ∀ k ∈ (trieKeysForEvent sha256 e).2, U k) →
    ∃ s' cur, s.updateForEvents H ord sha256 es = .ok s' ∧ CacheInv H s' { ks with current := cur } ∧
      ∀ k, k ∈ cur ↔ k ∈ ks.current ∧ ∀ e ∈ es, k ∉ (trieKeysForEvent sha256 e).2 := by
  induction es with
  | nil => intro s ks h _ _; exact ⟨s, ks.current, rfl, h, by simp⟩
  | cons e es ih =>
    intro s ks h hs hk
    have he := hes e List.mem_cons_self
    obtain ⟨s1, c1, h1, h2, h3⟩ := updateForEvent_spec (sha256 := sha256) hH hord hU h8 e h hs (by
      rw [he]; exact fun k hk' => hk e List.mem_cons_self k (by simpa using hk'))
    obtain ⟨s', cur, h4, h5, h6⟩ := ih (fun e he => hes e (List.mem_cons_of_mem _ he)) h2
      (fun k hk' => by
        have := ((h3 k).1 hk').1
        rw [he] at this
        exact hs k (by simpa using this))
      (fun e he => hk e (List.mem_cons_of_mem _ he))
    refine ⟨s', cur, ?_, h5, ?_⟩
    · simp only [TrieState.updateForEvents, h1, h4]
    · intro k
      rw [h6, h3, he]
      simp only [List.not_mem_nil, or_false, List.forall_mem_cons]
      exact and_assoc
end trie

/-! ### Events of the store calls -/

theorem revoke_event {D : StoreDef} {m : Msg} {s s' : SSt} {e : StoreEvent} (h : D.revoke m s = (.ok e, s')) : e = .revoke m := by
  unfold StoreDef.revoke at h
  have hb : ∀ {α β : Type} {x : SM α} {f : α → SM β} {s s' : SSt} {b : β}, (x >>= f) s = (.ok b, s') →
      ∃ a s1, x s = (.ok a, s1) ∧ f a s1 = (.ok b, s') := by
    intro α β x f s s' b h
    rcases hx : x s with ⟨r | a, s1⟩
    · rw [SM.bind_error hx] at h; cases h
    · rw [SM.bind_ok hx] at h; exact ⟨a, s1, rfl, h⟩
  obtain ⟨_, s1, _, h⟩ := hb h
  obtain ⟨_, s2, _, h⟩ := hb h
  rcases event_cases (.revoke m) s2 with ⟨id, g, he⟩ | ⟨g, he⟩
  · rw [he] at h; cases h; rfl
  · rw [he] at h; cases h

/-- Revocation by signer returns events for a part of the matching messages, in order. -/
theorem revokeLoop_sublist {D : StoreDef} {signer : Bytes} (ms : List Msg) :
    ∀ {s s' : SSt} {es : List StoreEvent}, D.revokeLoop signer (msgRows D ms) s = (.ok es, s') →
      es.Sublist ((ms.filter (fun m => m.signer = signer)).map .revoke) := by
  induction ms with
  | nil =>
    intro s s' es h
    have h : (Except.ok [], s) = ((.ok es, s') : Except HubErr (List StoreEvent) × SSt) := h
    cases h; simp
  | cons m ms ih =>
    intro s s' es h
    have hrows : msgRows D (m :: ms) = (D.prim m, .msg m) :: msgRows D ms := rfl
    rw [hrows] at h
    have hcmp : bytesCompare m.signer signer = 0 ↔ m.signer = signer := by
      rcases bytesCompare_cases m.signer signer with ⟨h, h'⟩ | ⟨h, h'⟩ | ⟨h, h'⟩
      · constructor
        · intro e; omega
        · intro e; rw [e, Bytes.blt_irrefl] at h'; cases h'
      · exact ⟨fun _ => h', fun _ => h⟩
      · constructor
        · intro e; omega
        · intro e; rw [e, Bytes.blt_irrefl] at h'; cases h'
    by_cases hs : m.signer = signer
    · rw [revokeLoop_hit (hcmp.2 hs)] at h
      simp only [List.filter_cons, hs, decide_true, if_true, List.map_cons]
      rcases hr : D.revoke m s with ⟨r | e, s1⟩
      · rw [hr] at h
        exact (ih h).cons _
      · rw [hr] at h
        simp only at h
        rcases hl : D.revokeLoop signer (msgRows D ms) s1 with ⟨r | es', s2⟩
        · rw [SM.bind_error hl] at h; cases h
        · rw [SM.bind_ok hl] at h
          cases h
          rw [revoke_event hr]
          exact (ih hl).cons_cons _
    · rw [revokeLoop_miss (fun e => hs (hcmp.1 e))] at h
      simp only [List.filter_cons, hs, decide_false, Bool.false_eq_true, if_false]
      exact ih h

/-! ### The invariant -/

variable {U : Msg → Prop} {channelOf : Bytes → Option Bytes} {ctx : Nat → MergeCtx} {kind : StoreKind} {E : TrieEntry → Prop}
  {H : Bytes → Bytes} {ord : List UInt8 → List UInt8} {N : Bytes → Prop}

/-- A key of an entry that no message of the store has. -/
def Foreign (sha256 : Bytes → Bytes) (kind : StoreKind) (E : TrieEntry → Prop) (k : Bytes) : Prop :=
  ∃ x, E x ∧ k = x.key sha256 ∧ ∀ m, kind.Valid m → x ∉ m.entries

/-- The keys are those of the messages `L` and of others. -/
def KeysAre (sha256 : Bytes → Bytes) (keys : List Bytes) (L : List Msg) (others : List Bytes) : Prop :=
  ∀ k, k ∈ keys ↔ (∃ m ∈ L, k ∈ trieKeysForMessage sha256 m) ∨ k ∈ others

structure Mirror (H sha256 : Bytes → Bytes) (kind : StoreKind) (channelOf : Bytes → Option Bytes) (ctx : Nat → MergeCtx)
    (U : Msg → Prop) (E : TrieEntry → Prop) (N : Bytes → Prop) (L0 L : List Msg) (ks o : KeySets) (s : StoreTrie) : Prop where
  store : SafeIn (kind.store channelOf) (okIn kind U) ctx N L0 L s.store
  trie : CacheInv H s.trie ks
  current : KeysAre sha256 ks.current L o.current
  committed : KeysAre sha256 ks.committed L0 o.committed
  foreign : ∀ k ∈ o.current, Foreign sha256 kind E k
  foreign0 : ∀ k ∈ o.committed, Foreign sha256 kind E k

theorem HashesAlone.identify (h : HashesAlone U) : HashesIdentify U := fun a b ha hb _ _ he => h a b ha hb he

theorem entries_hash {m : Msg} {x : TrieEntry} (h : x ∈ m.entries) : ∃ f t, x = .message f t m.hash := by
  simp only [Msg.entries, List.mem_map] at h
  obtain ⟨f, _, rfl⟩ := h
  exact ⟨_, _, rfl⟩

/-- Two messages with a common key are the same. -/
theorem keys_identify (hU : HashesAlone U) (hE : EntriesFit sha256 E) (hmE : ∀ m, kind.Valid m → U m → ∀ x ∈ m.entries, E x)
    {a b : Msg} (ha : okIn kind U a) (hb : okIn kind U b) {k : Bytes} (hka : k ∈ trieKeysForMessage sha256 a)
    (hkb : k ∈ trieKeysForMessage sha256 b) : a = b := by
  rw [keys_entries, List.mem_map] at hka hkb
  obtain ⟨x, hx, rfl⟩ := hka
  obtain ⟨y, hy, e⟩ := hkb
  have := C25_distinct sha256 y x (hE.valid y (hmE b hb.1 hb.2 y hy)) (hE.valid x (hmE a ha.1 ha.2 x hx)) e
  subst this
  obtain ⟨_, _, e1⟩ := entries_hash hx
  obtain ⟨_, _, e2⟩ := entries_hash hy
  rw [e1, TrieEntry.message.injEq] at e2
  exact hU a b ha.2 hb.2 e2.2.2

theorem foreign_keys (hE : EntriesFit sha256 E) (hmE : ∀ m, kind.Valid m → U m → ∀ x ∈ m.entries, E x) {m : Msg}
    (hm : okIn kind U m) {k : Bytes} (hk : k ∈ trieKeysForMessage sha256 m) : ¬ Foreign sha256 kind E k := by
  rintro ⟨x, hx, rfl, hn⟩
  rw [keys_entries, List.mem_map] at hk
  obtain ⟨y, hy, e⟩ := hk
  rw [C25_distinct sha256 y x (hE.valid y (hmE m hm.1 hm.2 y hy)) (hE.valid x hx) e] at hy
  exact hn m hm.1 hy

theorem message_keys_in (hmE : ∀ m, kind.Valid m → U m → ∀ x ∈ m.entries, E x) {m : Msg} (hm : okIn kind U m) {k : Bytes}
    (hk : k ∈ trieKeysForMessage sha256 m) : ∃ x, E x ∧ k = x.key sha256 := by
  rw [keys_entries, List.mem_map] at hk
  obtain ⟨y, hy, e⟩ := hk
  exact ⟨y, hmE m hm.1 hm.2 y hy, e.symm⟩

theorem Mirror.keys_in (hmE : ∀ m, kind.Valid m → U m → ∀ x ∈ m.entries, E x) {L0 L : List Msg} {ks o : KeySets} {s : StoreTrie}
    (h : Mirror H sha256 kind channelOf ctx U E N L0 L ks o s) : ∀ k ∈ ks.current, ∃ x, E x ∧ k = x.key sha256 := by
  intro k hk
  rcases (h.current k).1 hk with ⟨m, hm, hk⟩ | hk
  · exact message_keys_in hmE (h.store.holds.valid m hm) hk
  · obtain ⟨x, hx, e, _⟩ := h.foreign k hk
    exact ⟨x, hx, e⟩

/-- A merge that replaces `old`. -/
theorem keysAre_merge (hU : HashesAlone U) (hE : EntriesFit sha256 E) (hmE : ∀ m, kind.Valid m → U m → ∀ x ∈ m.entries, E x)
    {cur cur' : List Bytes} {L L' old : List Msg} {others : List Bytes} {m : Msg} {P : Msg → Prop}
    (h : KeysAre sha256 cur L others) (hL : ∀ x ∈ L, okIn kind U x) (hm : okIn kind U m)
    (hf : ∀ k ∈ others, Foreign sha256 kind E k) (hold : ∀ x, x ∈ old ↔ x ∈ L ∧ P x ∧ x ≠ m)
    (hL' : ∀ x, x ∈ L' ↔ x = m ∨ (x ∈ L ∧ ¬ P x))
    (hc : ∀ k, k ∈ cur' ↔ (k ∈ cur ∨ k ∈ trieKeysForMessage sha256 m) ∧ k ∉ old.flatMap (trieKeysForMessage sha256)) :
    KeysAre sha256 cur' L' others := by
  intro k
  rw [hc, h]
  constructor
  · rintro ⟨(⟨x, hx, hk⟩ | hk) | hk, hn⟩
    · by_cases e : x = m
      · exact .inl ⟨m, (hL' m).2 (.inl rfl), e ▸ hk⟩
      · refine .inl ⟨x, (hL' x).2 (.inr ⟨hx, fun hp => hn ?_⟩), hk⟩
        exact List.mem_flatMap.2 ⟨x, (hold x).2 ⟨hx, hp, e⟩, hk⟩
    · exact .inr hk
    · exact .inl ⟨m, (hL' m).2 (.inl rfl), hk⟩
  · rintro (⟨x, hx, hk⟩ | hk)
    · have hxo : okIn kind U x := by
        rcases (hL' x).1 hx with rfl | ⟨h, _⟩
        · exact hm
        · exact hL x h
      refine ⟨?_, ?_⟩
      · rcases (hL' x).1 hx with rfl | ⟨h, _⟩
        · exact .inr hk
        · exact .inl (.inl ⟨x, h, hk⟩)
      · intro hd
        obtain ⟨y, hy, hyk⟩ := List.mem_flatMap.1 hd
        obtain ⟨hyL, hyP, hym⟩ := (hold y).1 hy
        have := keys_identify hU hE hmE hxo (hL y hyL) hk hyk
        subst this
        rcases (hL' x).1 hx with e | ⟨_, hp⟩
        · exact hym e
        · exact hp hyP
    · refine ⟨.inl (.inr hk), ?_⟩
      intro hd
      obtain ⟨y, hy, hyk⟩ := List.mem_flatMap.1 hd
      exact foreign_keys hE hmE (hL y ((hold y).1 hy).1) hyk (hf k hk)

/-- Deleting some messages. -/
theorem keysAre_delete (hU : HashesAlone U) (hE : EntriesFit sha256 E) (hmE : ∀ m, kind.Valid m → U m → ∀ x ∈ m.entries, E x)
    {cur cur' : List Bytes} {L L' ds : List Msg} {others : List Bytes}
    (h : KeysAre sha256 cur L others) (hL : ∀ x ∈ L, okIn kind U x) (hf : ∀ k ∈ others, Foreign sha256 kind E k)
    (hds : ∀ x ∈ ds, x ∈ L) (hL' : ∀ x, x ∈ L' ↔ x ∈ L ∧ x ∉ ds)
    (hc : ∀ k, k ∈ cur' ↔ k ∈ cur ∧ ∀ x ∈ ds, k ∉ trieKeysForMessage sha256 x) :
    KeysAre sha256 cur' L' others := by
  intro k
  rw [hc, h]
  constructor
  · rintro ⟨⟨x, hx, hk⟩ | hk, hn⟩
    · exact .inl ⟨x, (hL' x).2 ⟨hx, fun hd => hn x hd hk⟩, hk⟩
    · exact .inr hk
  · rintro (⟨x, hx, hk⟩ | hk)
    · obtain ⟨hxL, hxd⟩ := (hL' x).1 hx
      refine ⟨.inl ⟨x, hxL, hk⟩, fun y hy hyk => hxd ?_⟩
      rw [keys_identify hU hE hmE (hL x hxL) (hL y (hds y hy)) hk hyk]; exact hy
    · exact ⟨.inr hk, fun y hy hyk => foreign_keys hE hmE (hL y (hds y hy)) hyk (hf k hk)⟩

/-- The events of a call reach the trie. -/
theorem exec_call {D : StoreDef} {s : StoreTrie} {o : StoreOp} {es : List StoreEvent} {t : TrieState} (hc : o ≠ .commit) (hd : o ≠ .drop)
    (he : es = eventsOf (s.store.returned D ctx o))
    (ht : s.trie.updateForEvents H ord sha256 (es.map StoreEvent.hub) = .ok t) :
    s.exec H ord sha256 D ctx (.call o) = .ok { store := s.store.exec D ctx o, trie := t } := by
  subst he
  cases o with
  | commit => exact absurd rfl hc
  | drop => exact absurd rfl hd
  | _ => simp only [StoreTrie.exec, ht]

theorem hub_deletes {e : StoreEvent} {m : Msg} (h : e = .prune m ∨ e = .revoke m) :
    trieKeysForEvent sha256 e.hub = ([], trieKeysForMessage sha256 m) := by
  rcases h with rfl | rfl <;> simp [StoreEvent.hub, trieKeysForEvent]

/-- Calls that return events deleting the messages `ds`. -/
theorem mirror_delete (hH : ∀ x, H x ≠ []) (hord : ∀ l, (ord l).Perm l) (hU : HashesAlone U)
    (hE : EntriesFit sha256 E) (hmE : ∀ m, kind.Valid m → U m → ∀ x ∈ m.entries, E x)
    {L0 L L' ds : List Msg} {ks o : KeySets} {s : StoreTrie} (h : Mirror H sha256 kind channelOf ctx U E N L0 L ks o s)
    {c : StoreOp} (hc : c ≠ .commit) (hd : c ≠ .drop) {f : Msg → StoreEvent} (hf : f = .prune ∨ f = .revoke)
    (he : ds.map f = eventsOf (s.store.returned (kind.store channelOf) ctx c))
    (hds : ∀ x ∈ ds, x ∈ L) (hL' : ∀ x, x ∈ L' ↔ x ∈ L ∧ x ∉ ds)
    (hst : SafeIn (kind.store channelOf) (okIn kind U) ctx N L0 L' (s.store.exec (kind.store channelOf) ctx c)) :
    ∃ ks' s', s.exec H ord sha256 (kind.store channelOf) ctx (.call c) = .ok s' ∧
      Mirror H sha256 kind channelOf ctx U E N L0 L' ks' o s' ∧ s'.store = s.store.exec (kind.store channelOf) ctx c := by
  have hk : ∀ m, trieKeysForEvent sha256 (f m).hub = ([], trieKeysForMessage sha256 m) := fun m =>
    hub_deletes (by rcases hf with rfl | rfl <;> simp)
  obtain ⟨t, cur, h1, h2, h3⟩ := deletes_spec (sha256 := sha256) hH hord (entries_keysFit hE) (entries_clear hE)
    ((ds.map f).map StoreEvent.hub) (by
      simp only [List.map_map, List.mem_map, forall_exists_index, and_imp, forall_apply_eq_imp_iff₂, Function.comp_apply, hk]
      intros; trivial)
    h.trie (h.keys_in hmE) (by
      simp only [List.map_map, List.mem_map, forall_exists_index, and_imp, forall_apply_eq_imp_iff₂, Function.comp_apply, hk]
      intro m hm k hk
      exact message_keys_in hmE (h.store.holds.valid m (hds m hm)) hk)
  refine ⟨_, _, exec_call hc hd he h1, ⟨hst, h2, ?_, h.committed, h.foreign, h.foreign0⟩, rfl⟩
  refine keysAre_delete hU hE hmE h.current h.store.holds.valid h.foreign hds hL' ?_
  intro k
  rw [h3]
  simp only [List.map_map, List.mem_map, forall_exists_index, and_imp, forall_apply_eq_imp_iff₂, Function.comp_apply, hk]

theorem mirror_step (hH : ∀ x, H x ≠ []) (hord : ∀ l, (ord l).Perm l) (hco : CompactOutIn (kind.store channelOf) (okIn kind U) N) (hch : ChannelNaming channelOf) (hU : HashesAlone U)
    (hE : EntriesFit sha256 E) (hmE : ∀ m, kind.Valid m → U m → ∀ x ∈ m.entries, E x)
    {L0 L : List Msg} {ks o : KeySets} {s : StoreTrie} (h : Mirror H sha256 kind channelOf ctx U E N L0 L ks o s)
    {c : StoreTrieOp} (hc : kind.StepOK channelOf ctx U sha256 E s.store o c) :
    ∃ L0' L' ks' s', s.exec H ord sha256 (kind.store channelOf) ctx c = .ok s' ∧
      Mirror H sha256 kind channelOf ctx U E N L0' L' ks' (othersStep sha256 o c) s' ∧
      s'.store = s.store.follow (kind.store channelOf) ctx c := by
  have hlaw := kind_lawful (channelOf := channelOf) kind hch hU.identify
  have hset := (kind_set (channelOf := channelOf) kind).1
  have hfit := entries_keysFit hE
  have hclear := entries_clear hE
  have still : ∀ {c : StoreOp}, c ≠ .commit → c ≠ .drop →
      ([] = eventsOf (s.store.returned (kind.store channelOf) ctx c)) →
      s.store.exec (kind.store channelOf) ctx c = s.store → othersStep sha256 o (.call c) = o →
      ∃ L0' L' ks' s', s.exec H ord sha256 (kind.store channelOf) ctx (.call c) = .ok s' ∧
        Mirror H sha256 kind channelOf ctx U E N L0' L' ks' (othersStep sha256 o (.call c)) s' ∧
        s'.store = s.store.follow (kind.store channelOf) ctx (.call c) := by
    intro c h1 h2 h3 h4 h5
    refine ⟨L0, L, ks, _, exec_call h1 h2 h3 rfl, ?_, rfl⟩
    rw [h4, h5]; exact h
  cases c with
  | other e =>
    obtain ⟨t, cur, h1, h2, h3⟩ := updateForEvent_spec (sha256 := sha256) hH hord hfit hclear e h.trie (h.keys_in hmE)
      (fun k hk => by obtain ⟨x, hx, e, _⟩ := hc k hk; exact ⟨x, hx, e⟩)
    refine ⟨L0, L, _, { s with trie := t }, by simp only [StoreTrie.exec, h1], ⟨h.store, h2, ?_, h.committed, ?_, h.foreign0⟩, rfl⟩
    · intro k
      simp only [othersStep]
      rw [h3, h.current, mem_removeKeys, mem_addKeys]
      constructor
      · rintro ⟨(h1 | h1) | h1, h2⟩
        · exact .inl h1
        · exact .inr ⟨.inl h1, h2⟩
        · exact .inr ⟨.inr h1, h2⟩
      · rintro (⟨m, hm, hk⟩ | ⟨h1 | h1, h2⟩)
        · refine ⟨.inl (.inl ⟨m, hm, hk⟩), fun hd => ?_⟩
          exact foreign_keys hE hmE (h.store.holds.valid m hm) hk (hc k (List.mem_append_right _ hd))
        · exact ⟨.inl (.inr h1), h2⟩
        · exact ⟨.inr h1, h2⟩
    · intro k hk
      simp only [othersStep] at hk
      rw [mem_removeKeys, mem_addKeys] at hk
      rcases hk.1 with h1 | h1
      · exact h.foreign k h1
      · exact hc k (List.mem_append_left _ h1)
  | call c =>
    cases c with
    | merge m =>
      obtain ⟨hm, hrec⟩ : okIn kind U m ∧ _ := hc
      rcases merge_spec hlaw h.store.holds hm (CompactFree.of_blankIn hco h.store.blank hm) with
        ⟨e, hl, _, hr⟩ | ⟨old, s', hl, hr, hh, hf⟩
      · refine still (by simp) (by simp) ?_ ?_ rfl
        · simp only [StoreState.returned, hr, eventsOf]
        · simp only [StoreState.exec, StoreState.after, hr]
      · rcases hr with hr | hr
        · have hret : s.store.returned (kind.store channelOf) ctx (.merge m) = .ok [.merge m old] := by
            simp only [StoreState.returned, hr]
          have hex : s.store.exec (kind.store channelOf) ctx (.merge m) = { s.store with pend := s' } := by
            simp only [StoreState.exec, StoreState.after, hr]
          have hold : ∀ x, x ∈ old ↔ x ∈ L ∧ (kind.store channelOf).ak x = (kind.store channelOf).ak m ∧ x ≠ m := by
            have hl := congrArg Prod.fst hl
            unfold StoreDef.liveMerge at hl
            split at hl
            · rename_i hn
              cases hl
              intro x
              have hn : ∀ x ∈ L, (kind.store channelOf).ak x ≠ (kind.store channelOf).ak m := by simpa using List.find?_eq_none.1 hn
              simp only [List.not_mem_nil, false_iff, not_and]
              intro a b; exact absurd b (hn x a)
            · rename_i y hy
              have hyL : y ∈ L := List.mem_of_find?_eq_some hy
              have hye : (kind.store channelOf).ak y = (kind.store channelOf).ak m := by simpa using List.find?_some hy
              split at hl
              · cases hl
              · split at hl
                · cases hl
                · rename_i h2
                  cases hl
                  intro x
                  rw [List.mem_singleton]
                  constructor
                  · rintro rfl
                    exact ⟨hyL, hye, fun e => h2 (by rw [e, hlaw.cmpSelf])⟩
                  · rintro ⟨a, b, _⟩; exact h.store.holds.unique a hyL (b.trans hye.symm)
          have hin : ∀ k ∈ (trieKeysForEvent sha256 (StoreEvent.merge m old).hub).1 ++ (trieKeysForEvent sha256 (StoreEvent.merge m old).hub).2,
              ∃ x, E x ∧ k = x.key sha256 := by
            intro k hk
            simp only [StoreEvent.hub, trieKeysForEvent, Option.toList, List.flatMap_cons, List.flatMap_nil, List.append_nil] at hk
            rcases List.mem_append.1 hk with hk | hk
            · exact message_keys_in hmE hm hk
            · obtain ⟨x, hx, hk⟩ := List.mem_flatMap.1 hk
              exact message_keys_in hmE (h.store.holds.valid x ((hold x).1 hx).1) hk
          obtain ⟨t, cur, h1, h2, h3⟩ := updateForEvent_spec hH hord hfit hclear _ h.trie (h.keys_in hmE) hin
          refine ⟨L0, m :: L.filter (fun x => (kind.store channelOf).ak x ≠ (kind.store channelOf).ak m), _, _, exec_call (es := [.merge m old]) (t := t) (by simp) (by simp) (by rw [hret]; rfl) ?_, ⟨?_, h2, ?_, h.committed, h.foreign, h.foreign0⟩, rfl⟩
          · simp only [List.map_cons, List.map_nil, TrieState.updateForEvents, h1]
          · simp only; rw [hex]; exact safeIn_pend h.store hh hf
          · refine keysAre_merge hU hE hmE h.current h.store.holds.valid hm h.foreign hold ?_ ?_
            · intro x
              simp only [List.mem_cons, List.mem_filter, ne_eq, decide_not, Bool.not_eq_eq_eq_not, Bool.not_true, decide_eq_false_iff_not]
            · intro k
              rw [h3]
              simp only [StoreEvent.hub, trieKeysForEvent, Option.toList, List.flatMap_cons, List.flatMap_nil, List.append_nil]
        · exfalso
          apply hrec
          simp only [StoreState.returned, hr]
    | force m =>
      obtain ⟨⟨hv, hu, hx⟩, hrec⟩ := hc
      have hm : okIn kind U m := ⟨hv, hu⟩
      rcases force_spec (ctx := ctx) hlaw h.store.holds hm (fun x hxL => hx x ((h.store.has_iff hlaw x).2 hxL)) with
        ⟨_, hr⟩ | ⟨old, s', hr, hold, hh, hf⟩
      · exfalso
        apply hrec
        simp only [StoreState.returned, hr]
      · rcases hr with hr | hr
        · have hret : s.store.returned (kind.store channelOf) ctx (.force m) = .ok [.merge m old] := by
            simp only [StoreState.returned, hr]
          have hex : s.store.exec (kind.store channelOf) ctx (.force m) = { s.store with pend := s' } := by
            simp only [StoreState.exec, StoreState.after, hr]
          have hin : ∀ k ∈ (trieKeysForEvent sha256 (StoreEvent.merge m old).hub).1 ++ (trieKeysForEvent sha256 (StoreEvent.merge m old).hub).2,
              ∃ x, E x ∧ k = x.key sha256 := by
            intro k hk
            simp only [StoreEvent.hub, trieKeysForEvent, Option.toList, List.flatMap_cons, List.flatMap_nil, List.append_nil] at hk
            rcases List.mem_append.1 hk with hk | hk
            · exact message_keys_in hmE hm hk
            · obtain ⟨x, hx, hk⟩ := List.mem_flatMap.1 hk
              exact message_keys_in hmE (h.store.holds.valid x ((hold x).1 hx).1) hk
          obtain ⟨t, cur, h1, h2, h3⟩ := updateForEvent_spec hH hord hfit hclear _ h.trie (h.keys_in hmE) hin
          refine ⟨L0, m :: L.filter (fun x => (kind.store channelOf).ak x ≠ (kind.store channelOf).ak m), _, _, exec_call (es := [.merge m old]) (t := t) (by simp) (by simp) (by rw [hret]; rfl) ?_, ⟨?_, h2, ?_, h.committed, h.foreign, h.foreign0⟩, rfl⟩
          · simp only [List.map_cons, List.map_nil, TrieState.updateForEvents, h1]
          · simp only; rw [hex]; exact safeIn_pend h.store hh hf
          · refine keysAre_merge hU hE hmE h.current h.store.holds.valid hm h.foreign hold ?_ ?_
            · intro x
              simp only [List.mem_cons, List.mem_filter, ne_eq, decide_not, Bool.not_eq_eq_eq_not, Bool.not_true, decide_eq_false_iff_not]
            · intro k
              rw [h3]
              simp only [StoreEvent.hub, trieKeysForEvent, Option.toList, List.flatMap_cons, List.flatMap_nil, List.append_nil]
        · exfalso
          apply hrec
          simp only [StoreState.returned, hr]
    | revokeAdd item =>
      obtain ⟨hm, hrec⟩ : okIn kind U item ∧ _ := hc
      have h0 : item.fid ≠ 0 := by have := hm.1.1; omega
      rcases getAdd_eq (t := s.store.pend.txn) hlaw h.store.holds hm h0 with ⟨x, hx, _, _, hg⟩ | ⟨_, hg⟩
      · obtain ⟨s', hr, hh, hf⟩ := revoke_spec hlaw h.store.holds hx
        rcases hr with hr | hr
        · have hret : s.store.returned (kind.store channelOf) ctx (.revokeAdd item) = .ok [.revoke x] := by
            simp only [StoreState.returned, hg, hr]
          have hex : s.store.exec (kind.store channelOf) ctx (.revokeAdd item) = { s.store with pend := s' } := by
            simp only [StoreState.exec, StoreState.after, hg, hr]
          obtain ⟨ks', s'', h1, h2, h3⟩ := mirror_delete hH hord hU hE hmE h (c := .revokeAdd item) (by simp) (by simp)
            (f := .revoke) (.inr rfl) (ds := [x]) (by rw [hret]; rfl) (by simpa using hx)
            (L' := L.filter (fun y => y ≠ x)) (by intro y; simp)
            (by rw [hex]; exact safeIn_pend h.store hh hf)
          exact ⟨L0, _, ks', s'', h1, h2, h3⟩
        · exfalso
          apply hrec
          simp only [StoreState.returned, hg, hr]
      · refine still (by simp) (by simp) ?_ ?_ rfl
        · simp only [StoreState.returned, hg, eventsOf]
        · simp only [StoreState.exec, hg]
    | prune fid cur max =>
      obtain ⟨hp, hrec⟩ := hc
      obtain ⟨n, s', _, hh, hf, hr⟩ := prune_spec (cur := cur) (max := max) hlaw hset h.store.toPairInv hp.1 hp.2
      rcases hr with ⟨hr, _⟩ | hr
      · have hret : s.store.returned (kind.store channelOf) ctx (.prune fid cur max) =
            .ok (((storedMessages (kind.store channelOf) s.store.db fid).take n).map .prune) := by
          simp only [StoreState.returned, hr]
        have hex : s.store.exec (kind.store channelOf) ctx (.prune fid cur max) = { s.store with pend := s' } := by
          simp only [StoreState.exec, StoreState.after, hr]
        obtain ⟨ks', s'', h1, h2, h3⟩ := mirror_delete hH hord hU hE hmE h (c := .prune fid cur max) (by simp) (by simp)
          (f := .prune) (.inl rfl) (by rw [hret]; rfl)
          (fun x hx => oldest_live hlaw h.store.toPairInv hp.2 x (List.take_subset_take_left _ (by omega) hx))
          (L' := L.filter (fun y => y ∉ (storedMessages (kind.store channelOf) s.store.db fid).take n)) (by intro y; simp)
          (by rw [hex]; exact safeIn_pend h.store hh hf)
        exact ⟨L0, _, ks', s'', h1, h2, h3⟩
      · exfalso
        apply hrec
        simp only [StoreState.returned, hr]
    | revokeSigner fid signer =>
      obtain ⟨hp, hrec⟩ := hc
      obtain ⟨es, s', hr, hh, hf, _⟩ := revokeSigner_spec (signer := signer) hlaw hset h.store.toPairInv hp.1 hp.2
      have hret : s.store.returned (kind.store channelOf) ctx (.revokeSigner fid signer) = .ok es := by
        simp only [StoreState.returned, hr]
      have hex : s.store.exec (kind.store channelOf) ctx (.revokeSigner fid signer) = { s.store with pend := s' } := by
        simp only [StoreState.exec, StoreState.after, hr]
      have hsub : es = ((storedMessages (kind.store channelOf) s.store.db fid).filter (fun m => m.signer = signer)).map .revoke := by
        have e : (kind.store channelOf).revokeBySigner s.store.db fid signer =
            (kind.store channelOf).revokeLoop signer ((kind.store channelOf).msgRows (storedMessages (kind.store channelOf) s.store.db fid)) := by
          rw [← scan_stored hlaw h.store.committed hp.1 hset]; rfl
        rw [e] at hr
        refine (revokeLoop_sublist _ hr).eq_of_length ?_
        rw [List.length_map]
        exact hrec es hret
      obtain ⟨ks', s'', h1, h2, h3⟩ := mirror_delete hH hord hU hE hmE h (c := .revokeSigner fid signer) (by simp) (by simp)
        (f := .revoke) (.inr rfl) (by rw [hret, ← hsub]; rfl)
        (fun x hx => ofSigner_live hlaw h.store.toPairInv hp.2 x (List.mem_filter.1 hx).1 (by simpa using (List.mem_filter.1 hx).2))
        (L' := L.filter (fun x => ¬ (x ∈ storedMessages (kind.store channelOf) s.store.db fid ∧ x.signer = signer)))
        (by intro y; simp only [List.mem_filter, decide_eq_true_eq])
        (by rw [hex]; exact safeIn_pend h.store hh hf)
      exact ⟨L0, _, ks', s'', h1, h2, h3⟩
    | commit =>
      have hne : ks.current ≠ [] := by
        obtain ⟨k, hk⟩ := List.exists_mem_of_ne_nil _ hc
        exact List.ne_nil_of_mem ((h.current k).2 (.inr hk))
      obtain ⟨t, h1, h2⟩ := cache_reload (cache_commit h.trie) hne
      exact ⟨L, L, _, ⟨s.store.exec (kind.store channelOf) ctx .commit, t⟩, by simp only [StoreTrie.exec, h1],
        ⟨safeIn_commit h.store (kind.store channelOf) ctx, h2, h.current, h.current, h.foreign, h.foreign⟩, rfl⟩
    | drop =>
      have hne : ks.committed ≠ [] := by
        obtain ⟨k, hk⟩ := List.exists_mem_of_ne_nil _ hc
        exact List.ne_nil_of_mem ((h.committed k).2 (.inr hk))
      obtain ⟨t, h1, h2⟩ := cache_reload h.trie hne
      exact ⟨L0, L0, _, ⟨s.store.exec (kind.store channelOf) ctx .drop, t⟩, by simp only [StoreTrie.exec, h1],
        ⟨⟨⟨h.store.committed, h.store.committed⟩, h.store.blank0, h.store.blank0⟩, h2, h.committed, h.committed, h.foreign0, h.foreign0⟩, rfl⟩
    | block n =>
      exact ⟨L0, L, ks, ⟨s.store.exec (kind.store channelOf) ctx (.block n), s.trie⟩, rfl,
        ⟨⟨⟨h.store.committed, h.store.holds⟩, h.store.blank0, h.store.blank⟩, h.trie, h.current, h.committed, h.foreign, h.foreign0⟩, rfl⟩

theorem mirror_run (hH : ∀ x, H x ≠ []) (hord : ∀ l, (ord l).Perm l) (hco : CompactOutIn (kind.store channelOf) (okIn kind U) N) (hch : ChannelNaming channelOf) (hU : HashesAlone U)
    (hE : EntriesFit sha256 E) (hmE : ∀ m, kind.Valid m → U m → ∀ x ∈ m.entries, E x) (ops : List StoreTrieOp) :
    ∀ {L0 L : List Msg} {ks o : KeySets} {s : StoreTrie}, Mirror H sha256 kind channelOf ctx U E N L0 L ks o s →
    kind.StepsOK channelOf ctx U sha256 E s.store o ops →
    ∃ L0' L' ks' s', StoreTrie.run H ord sha256 (kind.store channelOf) ctx ops s = .ok s' ∧
      Mirror H sha256 kind channelOf ctx U E N L0' L' ks' (ops.foldl (othersStep sha256) o) s' ∧
      s'.store = ops.foldl (StoreState.follow (kind.store channelOf) ctx) s.store := by
  induction ops with
  | nil => intro L0 L ks o s h _; exact ⟨L0, L, ks, s, rfl, h, rfl⟩
  | cons c ops ih =>
    intro L0 L ks o s h hc
    obtain ⟨L1, L2, ks1, s1, h1, h2, h3⟩ := mirror_step hH hord hco hch hU hE hmE h hc.1
    obtain ⟨L3, L4, ks2, s2, h4, h5, h6⟩ := ih h2 (by rw [h3]; exact hc.2)
    refine ⟨L3, L4, ks2, s2, ?_, h5, by rw [h6, h3]; rfl⟩
    simp only [StoreTrie.run, h1, h4]

theorem compactOut_all (hU : HashesIdentify U) : CompactOutIn (kind.store channelOf) (okIn kind U) (fun _ => True) := by
  intro hs m hm
  obtain ⟨k, a, b, c⟩ := kind_compactOut (channelOf := channelOf) kind hU hs m hm
  exact ⟨k, a, b, c, trivial⟩

theorem mirror_init : Mirror H sha256 kind channelOf ctx U E N [] [] {} {} {} :=
  ⟨(kind_init kind).toIn, cacheInv_new, fun k => by simp, fun k => by simp, by simp, by simp⟩

end Verif
