import Verif.Spec.ShardTrie
import Verif.Lemmas.Shard
import Verif.Lemmas.StoreTrie
/-! The trie follows all stores of a shard. -/
namespace Verif
open StoreDef
variable {U : Msg → Prop} {channelOf : Bytes → Option Bytes} {ctx : Nat → MergeCtx} {E : TrieEntry → Prop}
  {H sha256 : Bytes → Bytes} {ord : List UInt8 → List UInt8}

theorem entries_num {m : Msg} {x : TrieEntry} (h : x ∈ m.entries) : ∃ f, x = .message f m.ty.num m.hash := by
  simp only [Msg.entries, List.mem_map] at h
  obtain ⟨f, _, rfl⟩ := h
  exact ⟨_, rfl⟩

/-- Messages with a common entry belong to the same store. -/
theorem entry_kind {a b : StoreKind} {m m' : Msg} {x : TrieEntry} (ha : a.Valid m) (hb : b.Valid m') (h : x ∈ m.entries)
    (h' : x ∈ m'.entries) : a = b := by
  obtain ⟨f, e⟩ := entries_num h
  obtain ⟨f', e'⟩ := entries_num h'
  rw [e, TrieEntry.message.injEq] at e'
  have hn := e'.2.1
  obtain ⟨_, _, _, _, h1⟩ := ha
  obtain ⟨_, _, _, _, h2⟩ := hb
  have types : ∀ (k : StoreKind) (m : Msg), k.Valid m → m.ty ∈ (match k with
      | .casts => [MessageType.castAdd, .castRemove] | .reactions => [.reactionAdd, .reactionRemove]
      | .links => [.linkAdd, .linkRemove] | .verifications => [.verificationAdd, .verificationRemove]
      | .userData => [.userDataAdd] | .lends => [.lendStorage]) := by
    rintro k m ⟨_, _, _, _, h⟩
    cases k
    · rcases h with h | h <;> simp [h.1]
    · rcases h.1 with h | h <;> simp [h]
    · rcases h.1 with h | h <;> simp [h]
    · rcases h with h | h <;> simp [h.1]
    · simp [h.1]
    · simp [h.1]
  have t1 := types a m ⟨‹_›, ‹_›, ‹_›, ‹_›, h1⟩
  have t2 := types b m' ⟨‹_›, ‹_›, ‹_›, ‹_›, h2⟩
  revert t1 t2 hn
  generalize m.ty = p
  generalize m'.ty = q
  intro hn t1 t2
  cases a <;> cases b <;> first | rfl | skip
  all_goals
    exfalso
    simp only [List.mem_cons, List.not_mem_nil, or_false] at t1 t2
    rcases t1 with rfl | rfl <;> rcases t2 with rfl | rfl <;> simp [MessageType.num] at hn

/-- The keys are those of the messages of all stores and of others. -/
def ShardKeysAre (sha256 : Bytes → Bytes) (keys : List Bytes) (L : StoreKind → List Msg) (others : List Bytes) : Prop :=
  ∀ k, k ∈ keys ↔ (∃ kind, ∃ m ∈ L kind, k ∈ trieKeysForMessage sha256 m) ∨ k ∈ others

def ForeignAll (sha256 : Bytes → Bytes) (E : TrieEntry → Prop) (k : Bytes) : Prop :=
  ∃ x, E x ∧ k = x.key sha256 ∧ ∀ (kind : StoreKind) m, kind.Valid m → x ∉ m.entries

structure ShardMirror (H sha256 : Bytes → Bytes) (channelOf : Bytes → Option Bytes) (ctx : Nat → MergeCtx)
    (U : Msg → Prop) (E : TrieEntry → Prop) (L0 L : StoreKind → List Msg) (ks o : KeySets) (s : StoreTrie) : Prop where
  store : ShardInv channelOf ctx U L0 L s.store
  trie : CacheInv H s.trie ks
  current : ShardKeysAre sha256 ks.current L o.current
  committed : ShardKeysAre sha256 ks.committed L0 o.committed
  foreign : ∀ k ∈ o.current, ForeignAll sha256 E k
  foreign0 : ∀ k ∈ o.committed, ForeignAll sha256 E k

def allKinds : List StoreKind := [.casts, .reactions, .links, .verifications, .userData, .lends]

theorem mem_allKinds (k : StoreKind) : k ∈ allKinds := by cases k <;> decide

/-- The keys of the other stores' messages. -/
def around (sha256 : Bytes → Bytes) (kind : StoreKind) (L : StoreKind → List Msg) : List Bytes :=
  (allKinds.filter (fun j => j ≠ kind)).flatMap (fun j => (L j).flatMap (trieKeysForMessage sha256))

theorem mem_around {kind : StoreKind} {L : StoreKind → List Msg} {k : Bytes} :
    k ∈ around sha256 kind L ↔ ∃ j, j ≠ kind ∧ ∃ m ∈ L j, k ∈ trieKeysForMessage sha256 m := by
  simp [around, mem_allKinds]

theorem keys_split (kind : StoreKind) {keys : List Bytes} {L : StoreKind → List Msg} {others : List Bytes} :
    ShardKeysAre sha256 keys L others ↔ KeysAre sha256 keys (L kind) (around sha256 kind L ++ others) := by
  refine forall_congr' fun k => ?_
  rw [List.mem_append, mem_around]
  refine iff_congr Iff.rfl ?_
  constructor
  · rintro (⟨j, h⟩ | h)
    · by_cases e : j = kind
      · subst e; exact .inl h
      · exact .inr (.inl ⟨j, e, h⟩)
    · exact .inr (.inr h)
  · rintro (h | ⟨j, _, h⟩ | h)
    · exact .inl ⟨kind, h⟩
    · exact .inl ⟨j, h⟩
    · exact .inr h

theorem around_foreign (hmE : ∀ (kind : StoreKind) m, kind.Valid m → U m → ∀ x ∈ m.entries, E x) {kind : StoreKind}
    {L : StoreKind → List Msg} (hL : ∀ j, ∀ m ∈ L j, okIn j U m) {others : List Bytes}
    (ho : ∀ k ∈ others, ForeignAll sha256 E k) : ∀ k ∈ around sha256 kind L ++ others, Foreign sha256 kind E k := by
  intro k hk
  rcases List.mem_append.1 hk with hk | hk
  · obtain ⟨j, hj, m, hm, hk⟩ := mem_around.1 hk
    rw [keys_entries, List.mem_map] at hk
    obtain ⟨x, hx, rfl⟩ := hk
    obtain ⟨hv, hu⟩ := hL j m hm
    exact ⟨x, hmE j m hv hu x hx, rfl, fun m' hm' hx' => hj (entry_kind hv hm' hx hx')⟩
  · obtain ⟨x, h1, h2, h3⟩ := ho k hk
    exact ⟨x, h1, h2, h3 kind⟩

/-- The shard as its store `kind` sees it. -/
theorem ShardMirror.focus (hmE : ∀ (kind : StoreKind) m, kind.Valid m → U m → ∀ x ∈ m.entries, E x) (kind : StoreKind)
    {L0 L : StoreKind → List Msg} {ks o : KeySets} {s : StoreTrie} (h : ShardMirror H sha256 channelOf ctx U E L0 L ks o s) :
    Mirror H sha256 kind channelOf ctx U E kind.Owns (L0 kind) (L kind) ks
      { current := around sha256 kind L ++ o.current, committed := around sha256 kind L0 ++ o.committed } s :=
  ⟨h.store kind, h.trie, (keys_split kind).1 h.current, (keys_split kind).1 h.committed,
    around_foreign hmE (fun j => (h.store j).holds.valid) h.foreign,
    around_foreign hmE (fun j => (h.store j).committed.valid) h.foreign0⟩

theorem around_congr {kind : StoreKind} {L L' : StoreKind → List Msg} (h : ∀ j, j ≠ kind → L j = L' j) {k : Bytes} :
    k ∈ around sha256 kind L ↔ k ∈ around sha256 kind L' := by
  rw [mem_around, mem_around]
  constructor
  · rintro ⟨j, hj, m, hm⟩; exact ⟨j, hj, m, by rwa [← h j hj]⟩
  · rintro ⟨j, hj, m, hm⟩; exact ⟨j, hj, m, by rwa [h j hj]⟩

/-- Removing a message of a store. -/
theorem removeOne_spec {D : StoreDef} {ok : Msg → Prop} {ctx : Nat → MergeCtx} (H : D.Lawful ok) {db : Db SVal} {L : List Msg} {s : SSt}
    (h : D.Holds ok ctx L (viewOf db s.txn)) {m : Msg} (hm : m ∈ L) (prune : Bool)
    (hrec : (D.removeOne prune m s).1 ≠ .error .invalidParameter) :
    ∃ s', D.removeOne prune m s = (.ok [if prune then .prune m else .revoke m], s') ∧
      D.Holds ok ctx (L.filter (fun x => x ≠ m)) (viewOf db s'.txn) ∧
      Frame D ok (viewOf db s.txn) (viewOf db s'.txn) := by
  cases prune with
  | true =>
    obtain ⟨s', hr, hh, hf⟩ := pruneMessage_spec H h hm
    rcases hr with hr | hr
    · exact ⟨s', by simp [removeOne, hr], hh, hf⟩
    · exact absurd (by simp [removeOne, hr]) hrec
  | false =>
    obtain ⟨s', hr, hh, hf⟩ := revoke_spec H h hm
    rcases hr with hr | hr
    · exact ⟨s', by simp [removeOne, hr], hh, hf⟩
    · exact absurd (by simp [removeOne, hr]) hrec

theorem shardMirror_remove (hH : ∀ x, H x ≠ []) (hord : ∀ l, (ord l).Perm l) (hch : ChannelNaming channelOf) (hU : HashesAlone U)
    (hE : EntriesFit sha256 E) (hmE : ∀ (kind : StoreKind) m, kind.Valid m → U m → ∀ x ∈ m.entries, E x)
    {L0 L : StoreKind → List Msg} {ks o : KeySets} {s : StoreTrie} (h : ShardMirror H sha256 channelOf ctx U E L0 L ks o s)
    {kind : StoreKind} {prune : Bool} {m : Msg} (hm : s.store.Has (kind.store channelOf) m)
    (hrec : ((kind.store channelOf).removeOne prune m s.store.pend).1 ≠ .error .invalidParameter) :
    ∃ L' ks' s', s.shardExec H ord sha256 channelOf ctx (.remove kind prune m) = .ok s' ∧
      ShardMirror H sha256 channelOf ctx U E L0 L' ks' o s' ∧
      s'.store = s.store.after ((kind.store channelOf).removeOne prune m s.store.pend) := by
  have hlaw := kind_lawful (channelOf := channelOf) kind hch hU.identify
  have hmL : m ∈ L kind := ((h.store kind).has_iff hlaw m).1 hm
  obtain ⟨s', hr, hh, hf⟩ := removeOne_spec hlaw (h.store kind).holds hmL prune hrec
  have hF := h.focus hmE kind
  have hk : trieKeysForEvent sha256 (if prune then StoreEvent.prune m else .revoke m).hub = ([], trieKeysForMessage sha256 m) := by
    cases prune <;> simp [StoreEvent.hub, trieKeysForEvent]
  obtain ⟨t, cur, h1, h2, h3⟩ := deletes_spec (sha256 := sha256) hH hord (entries_keysFit hE) (entries_clear hE)
    [(if prune then StoreEvent.prune m else .revoke m).hub] (by simp [hk])
    h.trie (hF.keys_in (hmE kind)) (by
      intro e he k hke
      rw [List.mem_singleton] at he
      subst he
      rw [hk] at hke
      exact message_keys_in (hmE kind) (hF.store.holds.valid m hmL) hke)
  have hc : KeysAre sha256 cur ((L kind).filter (fun x => x ≠ m)) (around sha256 kind L ++ o.current) := by
    refine keysAre_delete (ds := [m]) hU hE (hmE kind) hF.current hF.store.holds.valid hF.foreign (by simpa using hmL) (by intro x; simp) ?_
    intro k
    rw [h3]
    simp [hk]
  refine ⟨fun j => if j = kind then (L kind).filter (fun x => x ≠ m) else L j, _,
    ⟨s.store.after ((kind.store channelOf).removeOne prune m s.store.pend), t⟩, ?_,
    ⟨?_, h2, (keys_split kind).2 ?_, h.committed, h.foreign, h.foreign0⟩, rfl⟩
  · simp only [StoreTrie.shardExec]
    rw [hr]
    simp only [eventsOf, List.map_cons, List.map_nil, h1]
  · intro j
    show NearInv channelOf ctx U j (L0 j) _ (s.store.after _)
    rw [hr]
    by_cases e : j = kind
    · subst e
      simp only [if_true]
      exact safeIn_pend (h.store j) hh hf
    · simp only [e, if_false]
      refine (h.store j).elsewhere (fun k hk => frame_owns hf ?_ (owns_not_event hk))
      exact fun hk' => e (owns_unique hk hk')
  · intro k
    simp only [if_true]
    rw [hc k, List.mem_append, List.mem_append,
      around_congr (L := L) (L' := fun j => if j = kind then (L kind).filter (fun x => x ≠ m) else L j) (fun j hj => (if_neg hj).symm)]

theorem shardMirror_step (hH : ∀ x, H x ≠ []) (hord : ∀ l, (ord l).Perm l) (hch : ChannelNaming channelOf) (hU : HashesAlone U)
    (hE : EntriesFit sha256 E) (hmE : ∀ (kind : StoreKind) m, kind.Valid m → U m → ∀ x ∈ m.entries, E x)
    {L0 L : StoreKind → List Msg} {ks o : KeySets} {s : StoreTrie} (h : ShardMirror H sha256 channelOf ctx U E L0 L ks o s)
    {c : ShardTrieOp} (hc : s.store.ShardStepOK channelOf ctx U sha256 E o c) :
    ∃ L0' L' ks' s', s.shardExec H ord sha256 channelOf ctx c = .ok s' ∧
      ShardMirror H sha256 channelOf ctx U E L0' L' ks' (shardOthersStep sha256 o c) s' ∧
      s'.store = s.store.shardFollow channelOf ctx c := by
  have hUi := hU.identify
  have hkeys : ∀ k ∈ ks.current, ∃ x, E x ∧ k = x.key sha256 := (h.focus hmE .casts).keys_in (hmE .casts)
  cases c with
  | other e =>
    obtain ⟨t, cur, h1, h2, h3⟩ := updateForEvent_spec (sha256 := sha256) hH hord (entries_keysFit hE) (entries_clear hE) e h.trie hkeys
      (fun k hk => by obtain ⟨x, hx, e, _⟩ := hc k hk; exact ⟨x, hx, e⟩)
    refine ⟨L0, L, _, { s with trie := t }, by simp only [StoreTrie.shardExec, h1], ⟨h.store, h2, ?_, h.committed, ?_, h.foreign0⟩, rfl⟩
    · intro k
      simp only [shardOthersStep]
      rw [h3, h.current, mem_removeKeys, mem_addKeys]
      constructor
      · rintro ⟨(h1 | h1) | h1, h2⟩
        · exact .inl h1
        · exact .inr ⟨.inl h1, h2⟩
        · exact .inr ⟨.inr h1, h2⟩
      · rintro (⟨kind, m, hm, hk⟩ | ⟨h1 | h1, h2⟩)
        · refine ⟨.inl (.inl ⟨kind, m, hm, hk⟩), fun hd => ?_⟩
          obtain ⟨x, a, b, c⟩ := hc k (List.mem_append_right _ hd)
          exact foreign_keys hE (hmE kind) ((h.store kind).holds.valid m hm) hk ⟨x, a, b, c kind⟩
        · exact ⟨.inl (.inr h1), h2⟩
        · exact ⟨.inr h1, h2⟩
    · intro k hk
      simp only [shardOthersStep] at hk
      rw [mem_removeKeys, mem_addKeys] at hk
      rcases hk.1 with h1 | h1
      · exact h.foreign k h1
      · exact hc k (List.mem_append_left _ h1)
  | remove kind prune m =>
    obtain ⟨L', ks', s', h1, h2, h3⟩ := shardMirror_remove hH hord hch hU hE hmE h hc.1 hc.2
    exact ⟨L0, L', ks', s', h1, h2, h3⟩
  | step c =>
    cases c with
    | put k v =>
      refine ⟨L0, L, ks, _, rfl, ⟨fun kind => (h.store kind).elsewhere (fun k' hk' => put_view (channelOf := channelOf) (ctx := ctx) s.store k k' v ?_),
        h.trie, h.current, h.committed, h.foreign, h.foreign0⟩, rfl⟩
      rintro rfl; exact hc kind hk'
    | del k =>
      refine ⟨L0, L, ks, _, rfl, ⟨fun kind => (h.store kind).elsewhere (fun k' hk' => del_view (channelOf := channelOf) (ctx := ctx) s.store k k' ?_),
        h.trie, h.current, h.committed, h.foreign, h.foreign0⟩, rfl⟩
      rintro rfl; exact hc kind hk'
    | call kind c =>
      rcases isCall_or c with hi | rfl | rfl | ⟨n, rfl⟩
      · have hc' : kind.Proper channelOf U s.store c ∧ s.store.Recorded (kind.store channelOf) ctx c := by
          cases c <;> first | exact hc | (simp [StoreOp.isCall] at hi; done)
        have ho : ∀ o', othersStep sha256 o' (.call c) = o' := by
          intro o'; cases c <;> first | rfl | (simp [StoreOp.isCall] at hi; done)
        have hso : shardOthersStep sha256 o (.step (.call kind c)) = o := by
          cases c <;> first | rfl | (simp [StoreOp.isCall] at hi; done)
        have hstep : kind.StepOK channelOf ctx U sha256 E s.store
            { current := around sha256 kind L ++ o.current, committed := around sha256 kind L0 ++ o.committed } (.call c) := by
          cases c <;> first | exact hc' | (simp [StoreOp.isCall] at hi; done)
        obtain ⟨K0, K, ks', s', h1, h2, h3⟩ := mirror_step hH hord (kind_compactIn kind hUi) hch hU hE (hmE kind) (h.focus hmE kind) hstep
        obtain ⟨_, p, he, _, hf, _⟩ := kind_call kind hch hUi (kind_compactIn kind hUi) (h.store kind) hi hc'.1
        have h3 : s'.store = s.store.exec (kind.store channelOf) ctx c := h3
        rw [ho] at h2
        rw [hso]
        refine ⟨fun j => if j = kind then K0 else L0 j, fun j => if j = kind then K else L j, ks', s', h1,
          ⟨?_, h2.trie, (keys_split kind).2 ?_, (keys_split kind).2 ?_, h.foreign, h.foreign0⟩, h3⟩
        · intro j
          show NearInv channelOf ctx U j (if j = kind then K0 else L0 j) (if j = kind then K else L j) s'.store
          by_cases e : j = kind
          · subst e
            rw [if_pos rfl, if_pos rfl]; exact h2.store
          · rw [if_neg e, if_neg e, h3, he]
            refine (h.store j).elsewhere (fun k hk => frame_owns hf ?_ (owns_not_event hk))
            exact fun hk' => e (owns_unique hk hk')
        · intro k
          simp only [if_true]
          rw [h2.current k, List.mem_append, List.mem_append,
            around_congr (L := L) (L' := fun j => if j = kind then K else L j) (fun j hj => (if_neg hj).symm)]
        · intro k
          simp only [if_true]
          rw [h2.committed k, List.mem_append, List.mem_append,
            around_congr (L := L0) (L' := fun j => if j = kind then K0 else L0 j) (fun j hj => (if_neg hj).symm)]
      · have hne : ks.current ≠ [] := by
          obtain ⟨k, hk⟩ := List.exists_mem_of_ne_nil _ hc
          exact List.ne_nil_of_mem ((h.current k).2 (.inr hk))
        obtain ⟨t, h1, h2⟩ := cache_reload (cache_commit h.trie) hne
        exact ⟨L, L, _, ⟨s.store.exec (kind.store channelOf) ctx .commit, t⟩, by simp only [StoreTrie.shardExec, StoreTrie.exec, h1],
          ⟨fun j => safeIn_commit (h.store j) (kind.store channelOf) ctx, h2, h.current, h.current, h.foreign, h.foreign⟩, rfl⟩
      · have hne : ks.committed ≠ [] := by
          obtain ⟨k, hk⟩ := List.exists_mem_of_ne_nil _ hc
          exact List.ne_nil_of_mem ((h.committed k).2 (.inr hk))
        obtain ⟨t, h1, h2⟩ := cache_reload h.trie hne
        exact ⟨L0, L0, _, ⟨s.store.exec (kind.store channelOf) ctx .drop, t⟩, by simp only [StoreTrie.shardExec, StoreTrie.exec, h1],
          ⟨fun j => safeIn_drop (h.store j) (kind.store channelOf) ctx, h2, h.committed, h.committed, h.foreign0, h.foreign0⟩, rfl⟩
      · exact ⟨L0, L, ks, ⟨s.store.exec (kind.store channelOf) ctx (.block n), s.trie⟩, rfl,
          ⟨fun j => safeIn_block (h.store j) (kind.store channelOf) ctx n, h.trie, h.current, h.committed, h.foreign, h.foreign0⟩, rfl⟩

theorem shardMirror_run (hH : ∀ x, H x ≠ []) (hord : ∀ l, (ord l).Perm l) (hch : ChannelNaming channelOf) (hU : HashesAlone U)
    (hE : EntriesFit sha256 E) (hmE : ∀ (kind : StoreKind) m, kind.Valid m → U m → ∀ x ∈ m.entries, E x) (ops : List ShardTrieOp) :
    ∀ {L0 L : StoreKind → List Msg} {ks o : KeySets} {s : StoreTrie}, ShardMirror H sha256 channelOf ctx U E L0 L ks o s →
    s.store.ShardStepsOK channelOf ctx U sha256 E o ops →
    ∃ L0' L' ks' s', StoreTrie.shardRun H ord sha256 channelOf ctx ops s = .ok s' ∧
      ShardMirror H sha256 channelOf ctx U E L0' L' ks' (ops.foldl (shardOthersStep sha256) o) s' ∧
      s'.store = ops.foldl (StoreState.shardFollow channelOf ctx) s.store := by
  induction ops with
  | nil => intro L0 L ks o s h _; exact ⟨L0, L, ks, s, rfl, h, rfl⟩
  | cons c ops ih =>
    intro L0 L ks o s h hc
    obtain ⟨L1, L2, ks1, s1, h1, h2, h3⟩ := shardMirror_step hH hord hch hU hE hmE h hc.1
    obtain ⟨L3, L4, ks2, s2, h4, h5, h6⟩ := ih h2 (by rw [h3]; exact hc.2)
    refine ⟨L3, L4, ks2, s2, ?_, h5, by rw [h6, h3]; rfl⟩
    simp only [StoreTrie.shardRun, h1, h4]

theorem shardMirror_init : ShardMirror H sha256 channelOf ctx U E (fun _ => []) (fun _ => []) {} {} {} :=
  ⟨shard_init, cacheInv_new, fun k => by simp, fun k => by simp, by simp, by simp⟩

end Verif
