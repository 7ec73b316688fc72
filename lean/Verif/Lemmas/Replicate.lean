import Verif.Lemmas.ReplStore
import Verif.Lemmas.TrieImport
/-! An import from an honest source. -/
namespace Verif
open StoreDef

variable {kind : StoreKind} {channelOf : Bytes → Option Bytes} {U : Msg → Prop} {E : TrieEntry → Prop} {c : ReplCfg}

/-! ### Keys of users -/

theorem decode_key {sha256 : Bytes → Bytes} {x : TrieEntry} (h : x.Valid) :
    ∃ d, decodeTrieKey (x.key sha256) = .ok d ∧ d.fid = x.fid ∧ d.virtualShard = fidShard sha256 x.fid := by
  cases x with
  | message f ty hash => exact ⟨_, C25_decode_message sha256 f ty hash h, rfl, rfl⟩
  | onchain f ty tx log => exact ⟨_, C25_decode_onchain sha256 f ty tx log h, rfl, rfl⟩
  | fname f name => exact ⟨_, C25_decode_fname sha256 f name h, rfl, rfl⟩

theorem valid_fid {x : TrieEntry} (h : x.Valid) : x.fid < 2 ^ 32 := by
  cases x <;> exact h.1

theorem key_shape {sha256 : Bytes → Bytes} (x : TrieEntry) :
    ∃ tail, x.key sha256 = fidShard sha256 x.fid :: (be 4 x.fid ++ tail) := by
  cases x <;> exact ⟨_, by simp only [TrieEntry.key, trieKeyMessage, trieKeyType, trieKeyOnchain, trieKeyFname, trieKeyFid,
    makeFidKey, TrieEntry.fid, List.cons_append, List.append_assoc]; rfl⟩

/-- Keys of one virtual shard are ordered by user. -/
theorem key_order {sha256 : Bytes → Bytes} {x y : TrieEntry} (hx : x.Valid) (hy : y.Valid)
    (hs : fidShard sha256 x.fid = fidShard sha256 y.fid) (h : Bytes.blt (x.key sha256) (y.key sha256) = true) : x.fid ≤ y.fid := by
  obtain ⟨t, e⟩ := key_shape (sha256 := sha256) x
  obtain ⟨t', e'⟩ := key_shape (sha256 := sha256) y
  rw [e, e', hs] at h
  have h : Bytes.blt ([fidShard sha256 y.fid] ++ (be 4 x.fid ++ t)) ([fidShard sha256 y.fid] ++ (be 4 y.fid ++ t')) = true := h
  rw [Bytes.blt_append_left] at h
  have h1 := valid_fid hx
  have h2 := valid_fid hy
  rcases Bytes.blt_of_append (by simp) h with h | ⟨h, _⟩
  · exact Nat.le_of_lt ((be_blt_iff (w := 4) (by omega) (by omega)).1 h)
  · exact Nat.le_of_eq (be_inj (w := 4) (by omega) (by omega) h)

theorem shard_prefix {sha256 : Bytes → Bytes} (x : TrieEntry) (v : UInt8) : [v] <+: x.key sha256 ↔ fidShard sha256 x.fid = v := by
  obtain ⟨t, e⟩ := key_shape (sha256 := sha256) x
  rw [e]
  constructor
  · rintro ⟨l, h⟩
    simp only [List.cons_append, List.cons.injEq] at h
    exact h.1.symm
  · rintro rfl; exact ⟨_, rfl⟩

/-! ### The source -/

/-- A snapshot: the messages `L`, the keys `K` of them and of others `F`. -/
structure Held (c : ReplCfg) (kind : StoreKind) (channelOf : Bytes → Option Bytes) (U : Msg → Prop) (E : TrieEntry → Prop)
    (src : StoreTrie) (L : List Msg) (K F : List Bytes) : Prop where
  store : KindInv kind channelOf c.ctx U L L src.store
  trie : CacheInv c.H src.trie ⟨K, K⟩
  keys : KeysAre c.sha256 K L F
  foreign : ∀ k ∈ F, Foreign c.sha256 kind E k

/-- A snapshot that can be served. -/
structure Source (c : ReplCfg) (kind : StoreKind) (channelOf : Bytes → Option Bytes) (U : Msg → Prop) (E : TrieEntry → Prop)
    (src : StoreTrie) (L : List Msg) (K F : List Bytes) : Prop extends Held c kind channelOf U E src L K F where
  few : ∀ f, (storedMessages (kind.store channelOf) src.store.db f).length < usizeMax

section
variable {src : StoreTrie} {L : List Msg} {K F : List Bytes}

theorem Held.entry (S : Setting c kind channelOf U E) (hs : Held c kind channelOf U E src L K F) {k : Bytes} (hk : k ∈ K) :
    ∃ x, E x ∧ k = x.key c.sha256 ∧ ((∃ m ∈ L, x ∈ m.entries) ∨ (k ∈ F ∧ ∀ m, kind.Valid m → x ∉ m.entries)) := by
  rcases (hs.keys k).1 hk with ⟨m, hm, h⟩ | h
  · rw [keys_entries, List.mem_map] at h
    obtain ⟨x, hx, e⟩ := h
    have ho := hs.store.holds.valid m hm
    exact ⟨x, S.entries m ho.1 ho.2 x hx, e.symm, .inl ⟨m, hm, hx⟩⟩
  · obtain ⟨x, h1, h2, h3⟩ := hs.foreign k h
    exact ⟨x, h1, h2, .inr ⟨h, h3⟩⟩

/-- An entry of a page. -/
def GoodEntry (c : ReplCfg) (E : TrieEntry → Prop) (L : List Msg) (v : UInt8) (f : Nat) (e : ReplEntry) : Prop :=
  ∃ x, E x ∧ e.key = x.key c.sha256 ∧ x.fid = f ∧ fidShard c.sha256 f = v ∧
    ((∃ m ∈ L, e.item = .message m ∧ e.key ∈ trieKeysForMessage c.sha256 m) ∨
      (e.item = .other [e.key] ∧ ∀ m ∈ L, e.key ∉ trieKeysForMessage c.sha256 m))

theorem serve_key (S : Setting c kind channelOf U E) (hs : Source c kind channelOf U E src L K F) {k : Bytes} (hk : k ∈ K)
    {v : UInt8} (hv : [v] <+: k) : ∃ f e, serveItem c src.store.db v k = .ok (f, e) ∧ e.key = k ∧ GoodEntry c E L v f e := by
  obtain ⟨x, hx, rfl, h⟩ := hs.toHeld.entry S hk
  have hval := S.fit.valid x hx
  have hsh := (shard_prefix x v).1 hv
  rcases h with ⟨m, hm, hxm⟩ | ⟨hF, hn⟩
  · have ho := hs.store.holds.valid m hm
    obtain ⟨f, e, _⟩ := entry_fid hxm
    have hty : m.ty.num ∈ servedTypes c.channels := served_type (S.served f m.ty.num m.hash (e ▸ hx)).2.1
    refine ⟨x.fid, ⟨x.key c.sha256, .message m⟩, ?_, ?_, x, hx, rfl, rfl, hsh, .inl ⟨m, hm, rfl, ?_⟩⟩
    · rw [← hsh]
      exact serve_message S.naming S.hashes hs.store hs.few c S.D hm hxm hval hty
    · rfl
    · rw [keys_entries]; exact List.mem_map_of_mem hxm
  · refine ⟨x.fid, ⟨x.key c.sha256, .other [x.key c.sha256]⟩, ?_, ?_, x, hx, rfl, rfl, hsh, .inr ⟨rfl, ?_⟩⟩
    · rw [← hsh]
      exact serve_foreign c S.D S.served hx hval hn src.store.db
    · rfl
    · intro m hm hk
      exact foreign_keys S.fit S.entries (hs.store.holds.valid m hm) hk (hs.foreign _ hF)

theorem serve_keys (S : Setting c kind channelOf U E) (hs : Source c kind channelOf U E src L K F) {v : UInt8} (ks : List Bytes)
    (hk : ∀ k ∈ ks, k ∈ K ∧ [v] <+: k) : ∃ xs, serveItems c src.store.db v ks = .ok xs ∧ xs.map (fun p => p.2.key) = ks ∧
      ∀ p ∈ xs, GoodEntry c E L v p.1 p.2 := by
  induction ks with
  | nil => exact ⟨[], rfl, rfl, by simp⟩
  | cons k ks ih =>
    obtain ⟨xs, h1, h2, h3⟩ := ih (fun k h => hk k (List.mem_cons_of_mem _ h))
    obtain ⟨hkK, hkv⟩ := hk k List.mem_cons_self
    obtain ⟨f, e, h4, h5, h6⟩ := serve_key S hs hkK hkv
    refine ⟨(f, e) :: xs, by simp only [serveItems, h4, h1], by simp [h2, h5], ?_⟩
    intro p hp
    rcases List.mem_cons.1 hp with rfl | hp
    · exact h6
    · exact h3 p hp

/-- Some key in the list is of the user. -/
def HasFid (c : ReplCfg) (E : TrieEntry → Prop) (ks : List Bytes) (f : Nat) : Prop := ∃ x, E x ∧ x.key c.sha256 ∈ ks ∧ x.fid = f

theorem writeRoots_spec (S : List Nat) (g : Nat → AccountRoot) (hg : ∀ f, (g f).fid = f) (old : Nat → Option AccountRoot) (f : Nat) :
    writeRoots (S.eraseDups.map g) old f = if f ∈ S then some (g f) else old f := by
  unfold writeRoots
  cases hq : (S.eraseDups.map g).reverse.find? (fun r => decide (r.fid = f)) with
  | none =>
    rw [List.find?_eq_none] at hq
    rw [if_neg]
    intro hf
    exact hq (g f) (by simp only [List.mem_reverse, List.mem_map, List.mem_eraseDups]; exact ⟨f, hf, rfl⟩) (by simp [hg])
  | some r =>
    have e := List.find?_some hq
    have hm := List.mem_of_find?_eq_some hq
    simp only [List.mem_reverse, List.mem_map, List.mem_eraseDups] at hm
    obtain ⟨f', hf', rfl⟩ := hm
    have : f' = f := by simpa [hg] using e
    subst this
    rw [if_pos hf']

theorem serve_page (S : Setting c kind channelOf U E) (hs : Source c kind channelOf U E src L K F) {v : UInt8} {token : Option Bytes}
    {ks : List Bytes} {next : Option Bytes} (hp : src.trie.pageRequest c.fuel [v] messageLimit token = .ok (ks, next))
    (hk : ∀ k ∈ ks, k ∈ K ∧ [v] <+: k) :
    ∃ page, servePage c src v token = .ok page ∧ page.next = next ∧ page.entries.map (·.key) = ks ∧
      (∀ e ∈ page.entries, ∃ f, GoodEntry c E L v f e) ∧
      (∀ old f, HasFid c E ks f → ∃ a, writeRoots page.roots old f = some a) ∧
      (∀ old f a, writeRoots page.roots old f = some a → a.hash = src.trie.getHash c.H (trieKeyFid c.sha256 f) ∨ old f = some a) := by
  obtain ⟨xs, h1, h2, h3⟩ := serve_keys S hs ks hk
  refine ⟨_, by simp only [servePage, hp, h1]; rfl, rfl, ?_, ?_, ?_, ?_⟩
  · simpa [Function.comp_def] using h2
  · intro e he
    obtain ⟨p, hp, rfl⟩ := List.mem_map.1 he
    exact ⟨p.1, h3 p hp⟩
  · rintro old f ⟨x, hx, hxk, rfl⟩
    simp only
    rw [writeRoots_spec _ _ (by intro f; rfl), if_pos]
    · exact ⟨_, rfl⟩
    · rw [← h2, List.mem_map] at hxk
      obtain ⟨p, hp, e⟩ := hxk
      obtain ⟨y, hy, e', hf, _⟩ := h3 p hp
      have := C25_distinct c.sha256 y x (S.fit.valid y hy) (S.fit.valid x hx) (by rw [← e', e])
      subst this
      exact List.mem_map.2 ⟨p, hp, hf.symm⟩
  · intro old f a
    simp only
    rw [writeRoots_spec _ _ (by intro f; rfl)]
    split
    · intro e
      injection e with e
      exact .inl (by rw [← e])
    · exact .inr

/-! ### The loop over a page -/

theorem replay_loop (S : Setting c kind channelOf U E) (hs : Source c kind channelOf U E src L K F) {v : UInt8} (dup : Bytes → Bool)
    {LR : List Msg} (es : List ReplEntry) (hes : ∀ e ∈ es, ∃ f, GoodEntry c E L v f e) :
    ∀ {r : PageRun} {LV : List Msg}, KindInv kind channelOf c.ctx U LR LV r.store → (∀ m ∈ LV, m ∈ L) →
    ∃ r' LV', replayLoop c dup v es r = .ok r' ∧ KindInv kind channelOf c.ctx U LR LV' r'.store ∧
      (∀ m, m ∈ LV' ↔ m ∈ LV ∨ ∃ e ∈ es, e.item = .message m) ∧
      (∀ f, r'.lastFid = some f → r.lastFid = some f ∨ HasFid c E (es.map (·.key)) f) ∧
      (∀ f ∈ r'.check, f ∈ r.check ∨ ((r.lastFid = some f ∨ HasFid c E (es.map (·.key)) f) ∧
        ∃ x, E x ∧ x.key c.sha256 ∈ es.map (·.key) ∧ f < x.fid)) := by
  have law := kind_lawful (channelOf := channelOf) kind S.naming S.hashes.identify
  induction es with
  | nil => intro r LV h _; exact ⟨r, LV, rfl, h, by simp, fun f h => .inl h, fun f h => .inl h⟩
  | cons e es ih =>
    intro r LV h hsub
    have ih := @ih (fun e he => hes e (List.mem_cons_of_mem _ he))
    obtain ⟨f, x, hx, hkey, hf, hsh, hitem⟩ := hes e List.mem_cons_self
    obtain ⟨d, hd, hdf, _⟩ := decode_key (sha256 := c.sha256) (S.fit.valid x hx)
    rw [← hkey] at hd
    -- what the merge does
    have hstep : (∃ st LV1, replayItem c dup r.store e = (.ok (match e.item with | .message m => trieKeysForMessage c.sha256 m | .other ks => ks), st) ∧
          KindInv kind channelOf c.ctx U LR LV1 st ∧ (∀ m, m ∈ LV1 ↔ m ∈ LV ∨ e.item = .message m)) ∨
        (replayItem c dup r.store e = (.error (.store .duplicate), r.store) ∧ ∀ m, e.item ≠ .message m) := by
      rcases hitem with ⟨m, hm, hi, _⟩ | ⟨hi, _⟩
      · left
        have hmo := hs.store.holds.valid m hm
        have huniq : ∀ y ∈ LV, (kind.store channelOf).ak y = (kind.store channelOf).ak m → y = m := fun y hy e =>
          hs.store.holds.unique (hsub y hy) hm e
        obtain ⟨s', h1, h2, h3⟩ := free_spec law h.holds hmo huniq
        refine ⟨{ r.store with pend := s' }, _, ?_, safe_pend h h2 h3, ?_⟩
        · simp only [replayItem, hi, S.D, h1, S.lends m hmo.1 hmo.2]
          simp [StoreEvent.hub, trieKeysForEvent]
        · intro y
          simp only [hi, List.mem_cons, List.mem_filter, decide_eq_true_eq, ReplItem.message.injEq]
          constructor
          · rintro (rfl | ⟨h, _⟩)
            · exact .inr rfl
            · exact .inl h
          · rintro (h | rfl)
            · by_cases e : y = m
              · exact .inl e
              · exact .inr ⟨h, fun e' => e (huniq y h e')⟩
            · exact .inl rfl
      · by_cases hdup : dup e.key = true
        · right
          exact ⟨by simp [replayItem, hi, hdup], by simp [hi]⟩
        · left
          exact ⟨r.store, LV, by simp [replayItem, hi, hdup], h, by simp [hi]⟩
    have hmemk : e.key ∈ (match e.item with | .message m => trieKeysForMessage c.sha256 m | .other ks => ks) := by
      rcases hitem with ⟨m, _, hi, hk⟩ | ⟨hi, _⟩
      · rw [hi]; exact hk
      · rw [hi]; simp
    have hhead : HasFid c E ((e :: es).map (·.key)) f := ⟨x, hx, by simp [hkey], hf⟩
    have htail : ∀ g, HasFid c E (es.map (·.key)) g → HasFid c E ((e :: es).map (·.key)) g := by
      rintro g ⟨y, h1, h2, h3⟩; exact ⟨y, h1, List.mem_cons_of_mem _ h2, h3⟩
    have htail' : ∀ g, (∃ y, E y ∧ y.key c.sha256 ∈ es.map (·.key) ∧ g < y.fid) →
        ∃ y, E y ∧ y.key c.sha256 ∈ (e :: es).map (·.key) ∧ g < y.fid := by
      rintro g ⟨y, h1, h2, h3⟩; exact ⟨y, h1, List.mem_cons_of_mem _ h2, h3⟩
    rcases hstep with ⟨st, LV1, h1, h2, h3⟩ | ⟨h1, hn⟩
    · have hsub1 : ∀ m ∈ LV1, m ∈ L := by
        intro m hm
        rcases (h3 m).1 hm with h | h
        · exact hsub m h
        · rcases hitem with ⟨m', hm', hi, _⟩ | ⟨hi, _⟩
          · rw [hi] at h; cases h; exact hm'
          · rw [hi] at h; cases h
      by_cases hlt : r.lastFid.getD d.fid < d.fid
      · obtain ⟨r', LV', g1, g2, g3, g4, g5⟩ := ih (r := { store := st, lastFid := some d.fid, check := r.check ++ [r.lastFid.getD d.fid] }) h2 hsub1
        refine ⟨r', LV', ?_, g2, ?_, ?_, ?_⟩
        · simp only [replayLoop, hd, h1]
          rw [if_neg (by simpa using hmemk), if_neg (by rw [hdf, hf]; simpa using hsh), if_pos hlt]
          exact g1
        · intro m
          rw [g3, h3]
          simp only [List.mem_cons, exists_eq_or_imp]
          exact or_assoc
        · intro g hg
          rcases g4 g hg with h | h
          · simp only [Option.some.injEq] at h
            exact .inr (by rw [← h, hdf, hf]; exact hhead)
          · exact .inr (htail g h)
        · intro g hg
          rcases g5 g hg with h | ⟨h, h'⟩
          · rcases List.mem_append.1 h with h | h
            · exact .inl h
            · rw [List.mem_singleton] at h
              right
              have hlast : r.lastFid = some g := by
                cases hl : r.lastFid with
                | none => rw [hl] at hlt; simp at hlt
                | some z => rw [hl] at h; simpa using h.symm
              refine ⟨.inl hlast, x, hx, by simp [hkey], ?_⟩
              rw [hlast] at hlt
              simpa [hdf] using hlt
          · right
            refine ⟨.inr ?_, htail' g h'⟩
            rcases h with h | h
            · simp only [Option.some.injEq] at h
              rw [← h, hdf, hf]; exact hhead
            · exact htail g h
      · obtain ⟨r', LV', g1, g2, g3, g4, g5⟩ := ih (r := { r with store := st, lastFid := some (r.lastFid.getD d.fid) }) h2 hsub1
        have hlast : ∀ g, some (r.lastFid.getD d.fid) = some g → r.lastFid = some g ∨ HasFid c E ((e :: es).map (·.key)) g := by
          intro g hg
          cases hl : r.lastFid with
          | none =>
            rw [hl] at hg
            simp only [Option.getD_none, Option.some.injEq] at hg
            exact .inr (by rw [← hg, hdf, hf]; exact hhead)
          | some z => rw [hl] at hg; exact .inl (by simpa using hg)
        refine ⟨r', LV', ?_, g2, ?_, ?_, ?_⟩
        · simp only [replayLoop, hd, h1]
          rw [if_neg (by simpa using hmemk), if_neg (by rw [hdf, hf]; simpa using hsh), if_neg hlt]
          exact g1
        · intro m
          rw [g3, h3]
          simp only [List.mem_cons, exists_eq_or_imp]
          exact or_assoc
        · intro g hg
          rcases g4 g hg with h | h
          · exact hlast g h
          · exact .inr (htail g h)
        · intro g hg
          rcases g5 g hg with h | ⟨h, h'⟩
          · exact .inl h
          · right
            refine ⟨?_, htail' g h'⟩
            rcases h with h | h
            · exact hlast g h
            · exact .inr (htail g h)
    · obtain ⟨r', LV', g1, g2, g3, g4, g5⟩ := ih (r := { r with store := r.store }) h hsub
      refine ⟨r', LV', ?_, g2, ?_, ?_, ?_⟩
      · simp only [replayLoop, hd, h1, if_true]
        exact g1
      · intro m
        rw [g3]
        simp [hn m]
      · intro g hg
        exact (g4 g hg).imp_right (htail g)
      · intro g hg
        rcases g5 g hg with h | ⟨h, h'⟩
        · exact .inl h
        · exact .inr ⟨h.imp_right (htail g), htail' g h'⟩

/-! ### The replica -/

/-- The replica holds the keys `KR` of the source and the messages they belong to. -/
structure Core (c : ReplCfg) (kind : StoreKind) (channelOf : Bytes → Option Bytes) (U : Msg → Prop) (E : TrieEntry → Prop)
    (src : StoreTrie) (L : List Msg) (K : List Bytes) (r : Replica) (KR : List Bytes) : Prop where
  trie : CacheInv c.H r.trie ⟨KR, KR⟩
  sub : ∀ k ∈ KR, k ∈ K
  store : ∃ LR, KindInv kind channelOf c.ctx U LR LR r.store ∧ ∀ m, m ∈ LR ↔ m ∈ L ∧ ∃ k ∈ trieKeysForMessage c.sha256 m, k ∈ KR
  last : ∀ v f, (r.status v).lastFid = some f → (∃ a, r.roots v f = some a) ∧ fidShard c.sha256 f = v ∧ HasFid c E KR f
  roots : ∀ v f a, r.roots v f = some a → a.hash = src.trie.getHash c.H (trieKeyFid c.sha256 f)

theorem checkRoots_ok {t : TrieState} {roots : Nat → Option AccountRoot} {v : UInt8} (fs : List Nat)
    (h : ∀ f ∈ fs, fidShard c.sha256 f = v ∧ ∃ a, roots f = some a ∧ a.hash = t.getHash c.H (trieKeyFid c.sha256 f)) :
    checkRoots c t roots v fs = .ok () := by
  induction fs with
  | nil => rfl
  | cons f fs ih =>
    obtain ⟨h1, a, h2, h3⟩ := h f List.mem_cons_self
    simp only [checkRoots, h1, h2, h3, ne_eq, not_true, if_false]
    exact ih (fun f hf => h f (List.mem_cons_of_mem _ hf))

/-- A user all of whose keys are there has the source's root. -/
theorem user_root (S : Setting c kind channelOf U E) (hs : Source c kind channelOf U E src L K F) {t : TrieState} {ks : KeySets}
    (ht : CacheInv c.H t ks) (hsub : ∀ k ∈ ks.current, k ∈ K) {f : Nat} (hf : HasFid c E ks.current f)
    (hall : ∀ x, E x → x.fid = f → x.key c.sha256 ∈ K → x.key c.sha256 ∈ ks.current) :
    t.getHash c.H (trieKeyFid c.sha256 f) = src.trie.getHash c.H (trieKeyFid c.sha256 f) := by
  obtain ⟨x, hx, hxk, rfl⟩ := hf
  have hlt := valid_fid (S.fit.valid x hx)
  have hne : ∀ k ∈ K, k ≠ [] := by
    intro k hk
    obtain ⟨y, hy, rfl, _⟩ := hs.toHeld.entry S hk
    obtain ⟨tl, e⟩ := key_shape (sha256 := c.sha256) y
    rw [e]; simp
  refine prefix_hash_same ht hs.trie _ (by simp [trieKeyFid, makeFidKey]) (fun k hk => hne k (hsub k hk)) hne
    ⟨_, hxk, (C25_fid_prefix c.sha256 x (S.fit.valid x hx) x.fid hlt).2 rfl⟩ ?_
  intro k hp
  refine ⟨hsub k, fun hk => ?_⟩
  obtain ⟨y, hy, rfl, _⟩ := hs.toHeld.entry S hk
  exact hall y hy ((C25_fid_prefix c.sha256 y (S.fit.valid y hy) x.fid hlt).1 hp) hk

theorem kind_drop {LR LV : List Msg} {st : StoreState} {ctx : Nat → MergeCtx} (h : KindInv kind channelOf ctx U LR LV st) (D : StoreDef) (ctx' : Nat → MergeCtx) :
    KindInv kind channelOf ctx U LR LR (st.exec D ctx' .drop) := ⟨⟨h.committed, h.committed⟩, h.blank0, h.blank0⟩

theorem kind_block {LR LV : List Msg} {st : StoreState} {ctx : Nat → MergeCtx} (h : KindInv kind channelOf ctx U LR LV st) (D : StoreDef) (ctx' : Nat → MergeCtx)
    (n : Nat) : KindInv kind channelOf ctx U LR LV (st.exec D ctx' (.block n)) := ⟨⟨h.committed, h.holds⟩, h.blank0, h.blank⟩

theorem kind_commit {LR LV : List Msg} {st : StoreState} {ctx : Nat → MergeCtx} (h : KindInv kind channelOf ctx U LR LV st) (D : StoreDef) (ctx' : Nat → MergeCtx) :
    KindInv kind channelOf ctx U LV LV (st.exec D ctx' .commit) := by
  have e : ∀ k, (st.exec D ctx' .commit).view k = st.view k := fun k => view_commit (D := D) (ctx := ctx') st k
  have e' : ∀ k, viewOf (st.exec D ctx' .commit).db OMap.empty k = st.view k := e
  exact ⟨⟨h.holds.congr (fun k _ => e' k), h.holds.congr (fun k _ => e k)⟩,
    fun k hk he => (e' k).trans (h.blank k hk he), fun k hk he => (e k).trans (h.blank k hk he)⟩

theorem fetch_spec (S : Setting c kind channelOf U E) (hs : Source c kind channelOf U E src L K F) {r : Replica} {KR : List Bytes}
    (h : Core c kind channelOf U E src L K r KR) (dup : Bytes → Bool) {v : UInt8} {l : List Bytes} {next : Option Bytes}
    (hp : src.trie.pageRequest c.fuel [v] messageLimit (r.status v).token = .ok (l, next)) {before after : List Bytes}
    (hsort : (before ++ l ++ after).Pairwise (fun a b => Bytes.blt a b = true))
    (hall : ∀ k, k ∈ before ++ l ++ after ↔ k ∈ K ∧ [v] <+: k) (hbef : ∀ k ∈ before, k ∈ KR) :
    ∃ r' KR', r.fetch c src dup v = .ok (r', next.isNone) ∧ Core c kind channelOf U E src L K r' KR' ∧
      (∀ k, k ∈ KR' ↔ k ∈ KR ∨ k ∈ l) ∧ (∀ w, w ≠ v → r'.status w = r.status w) ∧ (r'.status v).token = next ∧
      (r'.status v).finished = false := by
  have hl : ∀ k ∈ l, k ∈ K ∧ [v] <+: k := fun k hk => (hall k).1 (by simp [hk])
  obtain ⟨page, p1, p2, p3, p4, p5, p6⟩ := serve_page S hs hp hl
  obtain ⟨LR, hst, hLR⟩ := h.store
  obtain ⟨run, LV, q1, q2, q3, q4, q5⟩ := replay_loop S hs dup page.entries p4
    (r := { store := (r.store.exec c.D c.ctx .drop).exec c.D c.ctx (.block 0), lastFid := (r.status v).lastFid, check := [] })
    (kind_block (kind_drop hst c.D c.ctx) c.D c.ctx 0) (fun m hm => ((hLR m).1 hm).1)
  rw [p3] at q4 q5
  have hE : ∀ k ∈ K, ∃ x, E x ∧ k = x.key c.sha256 := fun k hk => by
    obtain ⟨x, h1, h2, _⟩ := hs.toHeld.entry S hk; exact ⟨x, h1, h2⟩
  obtain ⟨t, res, t1, t2, _⟩ := cache_insert S.H S.ord (entries_keysFit S.fit) (entries_clear S.fit) h.trie
    (fun k hk => hE k (h.sub k hk)) (keys := c.hashSet (page.entries.map (·.key)))
    (fun k hk => hE k (hl k (by rw [S.set, p3] at hk; exact hk)).1)
  simp only at t2
  have hKR' : ∀ k, k ∈ addKeys KR (c.hashSet (page.entries.map (·.key))) ↔ k ∈ KR ∨ k ∈ l := by
    intro k; rw [mem_addKeys, S.set, p3]
  generalize hdef : addKeys KR (c.hashSet (page.entries.map (·.key))) = KR' at t2 hKR'
  have hsub : ∀ k ∈ KR', k ∈ K := fun k hk => ((hKR' k).1 hk).elim (h.sub k) (fun h => (hl k h).1)
  have hpage : ∀ f, HasFid c E l f → fidShard c.sha256 f = v ∧ HasFid c E KR' f := by
    rintro f ⟨x, hx, hxl, rfl⟩
    exact ⟨(shard_prefix x v).1 (hl _ hxl).2, x, hx, (hKR' _).2 (.inr hxl), rfl⟩
  have hlast : ∀ f, run.lastFid = some f → (∃ a, writeRoots page.roots (r.roots v) f = some a) ∧ fidShard c.sha256 f = v ∧ HasFid c E KR' f := by
    intro f hf
    rcases q4 f hf with h' | h'
    · obtain ⟨⟨a, h1⟩, h2, x, h3, h4, h5⟩ := h.last v f h'
      refine ⟨?_, h2, x, h3, (hKR' _).2 (.inl h4), h5⟩
      unfold writeRoots
      split
      · exact ⟨_, rfl⟩
      · exact ⟨a, h1⟩
    · exact ⟨p5 _ f h', hpage f h'⟩
  have hroots : ∀ f a, writeRoots page.roots (r.roots v) f = some a → a.hash = src.trie.getHash c.H (trieKeyFid c.sha256 f) := by
    intro f a e
    rcases p6 _ f a e with h' | h'
    · exact h'
    · exact h.roots v f a h'
  have hcheck : checkRoots c t (writeRoots page.roots (r.roots v)) v run.check = .ok () := by
    apply checkRoots_ok
    intro f hf
    rcases q5 f hf with h' | ⟨h1, x, hx, hxl, hlt⟩
    · cases h'
    · have h2 : (∃ a, writeRoots page.roots (r.roots v) f = some a) ∧ fidShard c.sha256 f = v ∧ HasFid c E KR' f := by
        rcases h1 with h1 | h1
        · obtain ⟨⟨a, h1⟩, h2, y, h3, h4, h5⟩ := h.last v f h1
          refine ⟨?_, h2, y, h3, (hKR' _).2 (.inl h4), h5⟩
          unfold writeRoots
          split
          · exact ⟨_, rfl⟩
          · exact ⟨a, h1⟩
        · exact ⟨p5 _ f h1, hpage f h1⟩
      obtain ⟨⟨a, ha⟩, hsh, hfid⟩ := h2
      refine ⟨hsh, a, ha, ?_⟩
      rw [hroots f a ha]
      refine (user_root S hs t2 hsub hfid ?_).symm
      intro y hy hyf hyK
      show y.key c.sha256 ∈ KR'
      rw [hKR']
      have hym : y.key c.sha256 ∈ before ++ l ++ after := (hall _).2 ⟨hyK, (shard_prefix y v).2 (by rw [hyf]; exact hsh)⟩
      rcases List.mem_append.1 hym with hm | hm
      · rcases List.mem_append.1 hm with hm | hm
        · exact .inl (hbef _ hm)
        · exact .inr hm
      · exfalso
        have hb := (List.pairwise_append.1 hsort).2.2 (x.key c.sha256) (List.mem_append_right _ hxl) _ hm
        have := key_order (S.fit.valid x hx) (S.fit.valid y hy) (by
          rw [(shard_prefix x v).1 (hl _ hxl).2, hyf, hsh]) hb
        omega
  refine ⟨_, KR', by simp only [Replica.fetch, p1, Replica.importPage, q1, t1, hcheck, p2]; rfl, ⟨?_, hsub, ?_, ?_, ?_⟩, hKR', ?_, ?_, ?_⟩
  · exact cache_commit t2
  · refine ⟨LV, kind_commit q2 c.D c.ctx, ?_⟩
    intro m
    rw [q3, hLR]
    constructor
    · rintro (⟨h1, k, h2, h3⟩ | ⟨e, he, hi⟩)
      · exact ⟨h1, k, h2, (hKR' k).2 (.inl h3)⟩
      · obtain ⟨f, x, _, _, _, _, hg⟩ := p4 e he
        rcases hg with ⟨m', hm', hi', hk⟩ | ⟨hi', _⟩
        · rw [hi'] at hi; cases hi
          exact ⟨hm', e.key, hk, (hKR' _).2 (.inr (by rw [← p3]; exact List.mem_map_of_mem he))⟩
        · rw [hi'] at hi; cases hi
    · rintro ⟨hm, k, hk, hkr⟩
      rcases (hKR' k).1 hkr with h1 | h1
      · exact .inl ⟨hm, k, hk, h1⟩
      · rw [← p3, List.mem_map] at h1
        obtain ⟨e, he, rfl⟩ := h1
        obtain ⟨f, x, _, _, _, _, hg⟩ := p4 e he
        rcases hg with ⟨m', hm', hi', hk'⟩ | ⟨_, hn⟩
        · have := keys_identify S.hashes S.fit S.entries (hs.store.holds.valid m hm) (hs.store.holds.valid m' hm') hk hk'
          subst this
          exact .inr ⟨e, he, hi'⟩
        · exact absurd hk (hn m hm)
  · intro w f
    by_cases hw : w = v
    · subst hw
      simp only [if_true]
      exact hlast f
    · simp only [if_neg hw]
      intro hf
      obtain ⟨h1, h2, x, h3, h4, h5⟩ := h.last w f hf
      exact ⟨h1, h2, x, h3, (hKR' _).2 (.inl h4), h5⟩
  · intro w f a
    by_cases hw : w = v
    · subst hw
      simp only [if_true]
      exact hroots f a
    · simp only [if_neg hw]
      exact h.roots w f a
  · intro w hw; simp only [if_neg hw]
  · simp
  · simp

theorem finish_spec (S : Setting c kind channelOf U E) (hs : Source c kind channelOf U E src L K F) {r : Replica} {KR : List Bytes}
    (h : Core c kind channelOf U E src L K r KR) {v : UInt8} (hall : ∀ k ∈ K, [v] <+: k → k ∈ KR) :
    ∃ r', r.finish c v = .ok r' ∧ Core c kind channelOf U E src L K r' KR ∧ (∀ w, w ≠ v → r'.status w = r.status w) ∧
      (r'.status v).token = (r.status v).token ∧ (r'.status v).finished = true := by
  have hc : checkRoots c r.trie (r.roots v) v (r.status v).lastFid.toList = .ok () := by
    apply checkRoots_ok
    intro f hf
    obtain ⟨⟨a, h1⟩, h2, h3⟩ := h.last v f (by simpa using hf)
    refine ⟨h2, a, h1, ?_⟩
    rw [h.roots v f a h1]
    refine (user_root S hs h.trie h.sub h3 ?_).symm
    intro x hx e hk
    exact hall _ hk ((shard_prefix x v).2 (by rw [e]; exact h2))
  refine ⟨{ r with status := fun w => if w = v then { r.status v with finished := true } else r.status w },
    by simp only [Replica.finish, hc], ⟨h.trie, h.sub, h.store, ?_, h.roots⟩, ?_, by simp, by simp⟩
  · intro w f
    by_cases hw : w = v
    · subst hw
      simp only [if_true]
      exact h.last w f
    · simp only [if_neg hw]
      exact h.last w f
  · intro w hw; simp only [if_neg hw]

theorem restart_spec {r : Replica} {KR : List Bytes} (h : Core c kind channelOf U E src L K r KR) :
    Core c kind channelOf U E src L K (r.restart c) KR := by
  obtain ⟨LR, h1, h2⟩ := h.store
  exact ⟨cache_restart h.trie, h.sub, ⟨LR, kind_drop h1 c.D c.ctx, h2⟩, h.last, h.roots⟩

/-! ### Histories -/

/-- Where the pages of a virtual shard stand: `n` requests are enough from here. -/
def Cursor (c : ReplCfg) (src : StoreTrie) (all : UInt8 → List Bytes) (v : UInt8) (token : Option Bytes) (KR : List Bytes) (n : Nat) : Prop :=
  ∃ pages before, src.trie.collectPages c.fuel [v] messageLimit n token = .ok pages ∧ before ++ pages.flatten = all v ∧
    ∀ k ∈ before, k ∈ KR

/-- The keys of the virtual shards in order, and how many requests fetch them. -/
structure Pages (c : ReplCfg) (src : StoreTrie) (K : List Bytes) (all : UInt8 → List Bytes) (N : Nat) : Prop where
  start : ∀ v, Cursor c src all v none [] N
  sorted : ∀ v, (all v).Pairwise (fun a b => Bytes.blt a b = true)
  mem : ∀ v k, k ∈ all v ↔ k ∈ K ∧ [v] <+: k

structure ReplInv (c : ReplCfg) (kind : StoreKind) (channelOf : Bytes → Option Bytes) (U : Msg → Prop) (E : TrieEntry → Prop)
    (src : StoreTrie) (L : List Msg) (K : List Bytes) (all : UInt8 → List Bytes) (N : Nat) (r : Replica) (KR : List Bytes) : Prop
    extends Core c kind channelOf U E src L K r KR where
  cursor : ∀ v, ∃ n ≤ N, Cursor c src all v (r.status v).token KR n
  finished : ∀ v, (r.status v).finished = true → ∀ k ∈ K, [v] <+: k → k ∈ KR

theorem Cursor.mono {all : UInt8 → List Bytes} {v : UInt8} {token : Option Bytes} {KR KR' : List Bytes} {n : Nat}
    (h : Cursor c src all v token KR n) (hsub : ∀ k ∈ KR, k ∈ KR') : Cursor c src all v token KR' n := by
  obtain ⟨pages, before, h1, h2, h3⟩ := h
  exact ⟨pages, before, h1, h2, fun k hk => hsub k (h3 k hk)⟩

/-- At most `n` pages are left. -/
def Left (c : ReplCfg) (src : StoreTrie) (v : UInt8) (r : Replica) (n : Nat) : Prop :=
  (r.status v).finished = true ∨ ∃ pages, src.trie.collectPages c.fuel [v] messageLimit n (r.status v).token = .ok pages

theorem left_of_status {v : UInt8} {r r' : Replica} {n : Nat} (h : Left c src v r n) (e : r'.status v = r.status v) : Left c src v r' n := by
  unfold Left at h ⊢; rw [e]; exact h

/-- One page of an unfinished virtual shard, up to where the node may stop. -/
theorem page_spec (S : Setting c kind channelOf U E) (hs : Source c kind channelOf U E src L K F) {all : UInt8 → List Bytes} {N : Nat}
    (hP : Pages c src K all N) {r : Replica} {KR : List Bytes} (h : ReplInv c kind channelOf U E src L K all N r KR) (dup : Bytes → Bool) (v : UInt8) :
    ∃ r' KR' last, r.fetch c src dup v = .ok (r', last) ∧ ReplInv c kind channelOf U E src L K all N r' KR' ∧
      (∀ w, w ≠ v → r'.status w = r.status w) ∧ (r'.status v).finished = false ∧
      (last = true → ∀ k ∈ K, [v] <+: k → k ∈ KR') ∧
      (last = false → ∀ n, (r.status v).finished = false → Left c src v r (n + 1) → Left c src v r' n) := by
  obtain ⟨n, hn, pages, before, h1, h2, h3⟩ := h.cursor v
  have hsort := hP.sorted v
  have hmem := hP.mem v
  rw [← h2] at hsort hmem
  have stepLeft : ∀ {l : List Bytes} {t : Bytes} {r' : Replica}, src.trie.pageRequest c.fuel [v] messageLimit (r.status v).token = .ok (l, some t) →
      (r'.status v).token = some t → ∀ n, (r.status v).finished = false → Left c src v r (n + 1) → Left c src v r' n := by
    intro l t r' hp ht n hf hL
    rcases hL with hL | ⟨pages, hL⟩
    · rw [hf] at hL; cases hL
    · right
      obtain ⟨l', hc⟩ := collect_next hL
      rcases hc with ⟨h1, _⟩ | ⟨t', n', rest, hn', h1, h4, _⟩
      · rw [hp] at h1; cases h1
      · rw [hp] at h1
        injection h1 with h1
        injection h1 with h1 h5
        injection h5 with h5
        injection hn' with hn'
        subst h5; subst hn'
        exact ⟨rest, by rw [ht]; exact h4⟩
  obtain ⟨l, hc⟩ := collect_next h1
  rcases hc with ⟨hp, e⟩ | ⟨t, n', rest, e', hp, hrest, e⟩
  · rw [e] at hsort hmem
    have hflat : before ++ [l].flatten = before ++ l ++ [] := by simp
    rw [hflat] at hsort hmem
    obtain ⟨r', KR', g1, g2, g3, g4, g5, g6⟩ := fetch_spec S hs h.toCore dup hp hsort hmem h3
    have hmono : ∀ k ∈ KR, k ∈ KR' := fun k hk => (g3 k).2 (.inl hk)
    have hfull : ∀ k ∈ K, [v] <+: k → k ∈ KR' := by
      intro k hk hv
      have := (hmem k).2 ⟨hk, hv⟩
      rw [List.append_nil, List.mem_append] at this
      exact (g3 k).2 (this.imp_left (h3 k))
    refine ⟨r', KR', true, g1, ⟨g2, ?_, ?_⟩, g4, g6, fun _ => hfull, fun h => by cases h⟩
    · intro w
      by_cases hw : w = v
      · subst hw
        rw [g5]
        exact ⟨N, Nat.le_refl _, (hP.start w).mono (by simp)⟩
      · rw [g4 w hw]
        obtain ⟨n, hn, hcur⟩ := h.cursor w
        exact ⟨n, hn, hcur.mono hmono⟩
    · intro w hw k hk hp
      by_cases e : w = v
      · exact hfull k hk (e ▸ hp)
      · rw [g4 w e] at hw
        exact hmono k (h.finished w hw k hk hp)
  · rw [e, List.flatten_cons, ← List.append_assoc] at hsort hmem
    obtain ⟨r', KR', g1, g2, g3, g4, g5, g6⟩ := fetch_spec S hs h.toCore dup hp hsort hmem h3
    have hmono : ∀ k ∈ KR, k ∈ KR' := fun k hk => (g3 k).2 (.inl hk)
    refine ⟨r', KR', false, g1, ⟨g2, ?_, ?_⟩, g4, g6, (fun h => by cases h), fun _ => stepLeft hp g5⟩
    · intro w
      by_cases hw : w = v
      · subst hw
        rw [g5]
        refine ⟨n', by omega, rest, before ++ l, hrest, ?_, ?_⟩
        · rw [← h2, e, List.flatten_cons, List.append_assoc]
        · intro k hk
          rw [List.mem_append] at hk
          exact (g3 k).2 (hk.imp_left (h3 k))
      · rw [g4 w hw]
        obtain ⟨n, hn, hcur⟩ := h.cursor w
        exact ⟨n, hn, hcur.mono hmono⟩
    · intro w hw k hk hp
      by_cases e : w = v
      · subst e; rw [g6] at hw; cases hw
      · rw [g4 w e] at hw
        exact hmono k (h.finished w hw k hk hp)

theorem ReplInv.restart {all : UInt8 → List Bytes} {N : Nat} {r : Replica} {KR : List Bytes}
    (h : ReplInv c kind channelOf U E src L K all N r KR) : ReplInv c kind channelOf U E src L K all N (r.restart c) KR :=
  ⟨restart_spec h.toCore, h.cursor, h.finished⟩

theorem step_spec (S : Setting c kind channelOf U E) (hs : Source c kind channelOf U E src L K F) {all : UInt8 → List Bytes} {N : Nat}
    (hP : Pages c src K all N) {r : Replica} {KR : List Bytes} (h : ReplInv c kind channelOf U E src L K all N r KR) (op : ReplOp) :
    ∃ r' KR', r.step c src op = .ok r' ∧ ReplInv c kind channelOf U E src L K all N r' KR' ∧
      ∀ v n, op.stopsIn v = false → Left c src v r (n + op.pagesFor v) → Left c src v r' n := by
  cases op with
  | restart =>
    refine ⟨_, KR, rfl, h.restart, ?_⟩
    intro v n _ hL
    exact hL
  | lost w dup =>
    by_cases hf : (r.status w).finished = true
    · exact ⟨r, KR, by simp [Replica.step, hf], h, fun v n _ hL => hL⟩
    · obtain ⟨r', KR', last, g1, g2, g3, _⟩ := page_spec S hs hP h dup w
      refine ⟨r'.restart c, KR', by simp [Replica.step, hf, g1], g2.restart, ?_⟩
      intro v n hv hL
      have hne : v ≠ w := by
        intro e; simp [ReplOp.stopsIn, e] at hv
      exact left_of_status hL (g3 v hne)
  | page w dup =>
    by_cases hf : (r.status w).finished = true
    · refine ⟨r, KR, by simp [Replica.step, hf], h, fun v n _ hL => ?_⟩
      by_cases hv : w = v
      · subst hv; exact .inl hf
      · simpa [ReplOp.pagesFor, hv] using hL
    · obtain ⟨r', KR', last, g1, g2, g3, g4, g5, g6⟩ := page_spec S hs hP h dup w
      have hf' : (r.status w).finished = false := by simpa using hf
      cases last with
      | false =>
        refine ⟨r', KR', by simp [Replica.step, hf, g1], g2, ?_⟩
        intro v n _ hL
        by_cases hv : w = v
        · subst hv
          simp only [ReplOp.pagesFor, if_true] at hL
          exact g6 rfl n hf' hL
        · simp only [ReplOp.pagesFor, hv, if_false, Nat.add_zero] at hL
          exact left_of_status hL (g3 v (fun e => hv e.symm))
      | true =>
        obtain ⟨r2, k1, k2, k3, k4, k5⟩ := finish_spec S hs g2.toCore (g5 rfl)
        refine ⟨r2, KR', by simp [Replica.step, hf, g1, k1], ⟨k2, ?_, ?_⟩, ?_⟩
        · intro v
          by_cases hv : v = w
          · subst hv; rw [k4]; exact g2.cursor v
          · rw [k3 v hv]; exact g2.cursor v
        · intro v
          by_cases hv : v = w
          · subst hv; intro _; exact g5 rfl
          · rw [k3 v hv]; exact g2.finished v
        · intro v n _ hL
          by_cases hv : v = w
          · subst hv; exact .inl k5
          · have : ¬ w = v := fun e => hv e.symm
            simp only [ReplOp.pagesFor, this, if_false, Nat.add_zero] at hL
            exact left_of_status hL ((k3 v hv).trans (g3 v hv))

theorem run_spec (S : Setting c kind channelOf U E) (hs : Source c kind channelOf U E src L K F) {all : UInt8 → List Bytes} {N : Nat}
    (hP : Pages c src K all N) (ops : List ReplOp) :
    ∀ {r : Replica} {KR : List Bytes}, ReplInv c kind channelOf U E src L K all N r KR →
    ∃ r' KR', Replica.run c src ops r = .ok r' ∧ ReplInv c kind channelOf U E src L K all N r' KR' ∧
      ∀ v n, (∀ op ∈ ops, op.stopsIn v = false) → Left c src v r (n + (ops.map (fun op => op.pagesFor v)).sum) → Left c src v r' n := by
  induction ops with
  | nil => intro r KR h; exact ⟨r, KR, rfl, h, fun v n _ hL => hL⟩
  | cons op ops ih =>
    intro r KR h
    obtain ⟨r1, KR1, h1, h2, h3⟩ := step_spec S hs hP h op
    obtain ⟨r', KR', h4, h5, h6⟩ := ih h2
    refine ⟨r', KR', by simp only [Replica.run, h1, h4], h5, ?_⟩
    intro v n hv hL
    refine h6 v n (fun op hop => hv op (List.mem_cons_of_mem _ hop)) (h3 v _ (hv op List.mem_cons_self) ?_)
    have : n + ((op :: ops).map (fun op => op.pagesFor v)).sum = n + (ops.map (fun op => op.pagesFor v)).sum + op.pagesFor v := by
      simp only [List.map_cons, List.sum_cons]; omega
    rw [this] at hL
    exact hL

theorem core_init (src : StoreTrie) (L : List Msg) (K : List Bytes) : Core c kind channelOf U E src L K {} [] := by
  refine ⟨cacheInv_new, by simp, ⟨[], kind_init kind, by simp⟩, ?_, ?_⟩
  · intro v f h; cases h
  · intro v f a h; cases h

end
end Verif
