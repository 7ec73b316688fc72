import Verif.Lemmas.ShardTrie
import Verif.Lemmas.TrieBinding
import Verif.Props.C64
/-!
C84: the state trie of a shard holds exactly the entries of the messages in all its stores and of others, so the state
root stands for the contents of all of them.  The stores, in one database, and the trie start empty; calls to the stores
in any order, commits, dropped batches, writes of others and events of others follow.
-/
namespace Verif
open StoreDef

variable {channelOf : Bytes → Option Bytes} {U : Msg → Prop} {ord : List UInt8 → List UInt8} {sha256 : Bytes → Bytes}
  {E : TrieEntry → Prop}

/-- No step fails, and the trie holds the entries of what the stores hold. -/
theorem C84_trie_holds_all_stores (S : ShardSetting channelOf U ord sha256 E) (ctx : Nat → MergeCtx) (H : Bytes → Bytes)
    (hH : ∀ x, H x ≠ []) (ops : List ShardTrieOp)
    (hr : ({} : StoreState).ShardStepsOK channelOf ctx U sha256 E {} ops) :
    let others := ops.foldl (shardOthersStep sha256) {}
    ∃ s, StoreTrie.shardRun H ord sha256 channelOf ctx ops {} = .ok s ∧
      s.store = ops.foldl (StoreState.shardFollow channelOf ctx) {} ∧
      (∀ k, k ≠ [] → ∃ b, s.trie.contains k = .ok b ∧ (b = true ↔
        (∃ (kind : StoreKind) (m : Msg), s.store.Has (kind.store channelOf) m ∧ ∃ x ∈ m.entries, k = x.key sha256) ∨
          k ∈ others.current)) ∧
      (∀ (kind : StoreKind) m, kind.Valid m → U m → ∀ x ∈ m.entries, ∃ b, s.trie.contains (x.key sha256) = .ok b ∧
        (b = true ↔ s.store.Has (kind.store channelOf) m)) := by
  intro others
  obtain ⟨hch, hU, hord, hE, hmE⟩ := S
  obtain ⟨L0, L, ks, s, h1, h2, h3⟩ := shardMirror_run hH hord hch hU hE hmE ops (shardMirror_init (H := H)
    (channelOf := channelOf) (ctx := ctx) (U := U) (sha256 := sha256) (E := E)) hr
  have hhas : ∀ (kind : StoreKind) m, s.store.Has (kind.store channelOf) m ↔ m ∈ L kind := fun kind =>
    (h2.store kind).has_iff (kind_lawful (channelOf := channelOf) kind hch hU.identify)
  obtain ⟨_, _, _, _, _, hc⟩ := cache_reads h2.trie
  refine ⟨s, h1, h3, ?_, ?_⟩
  · intro k hk
    refine ⟨_, hc k hk, ?_⟩
    rw [decide_eq_true_eq, h2.current k]
    constructor
    · rintro (⟨kind, m, hm, hk⟩ | hk)
      · rw [keys_entries, List.mem_map] at hk
        obtain ⟨x, hx, e⟩ := hk
        exact .inl ⟨kind, m, (hhas kind m).2 hm, x, hx, e.symm⟩
      · exact .inr hk
    · rintro (⟨kind, m, hm, x, hx, rfl⟩ | hk)
      · exact .inl ⟨kind, m, (hhas kind m).1 hm, by rw [keys_entries]; exact List.mem_map_of_mem hx⟩
      · exact .inr hk
  · intro kind m hv hu x hx
    have hm : okIn kind U m := ⟨hv, hu⟩
    have hxk : x.key sha256 ∈ trieKeysForMessage sha256 m := by rw [keys_entries]; exact List.mem_map_of_mem hx
    have hl := C25_key_length sha256 x (hE.valid x (hmE kind m hv hu x hx))
    have hf := h2.focus hmE kind
    refine ⟨_, hc _ (by intro e; rw [e] at hl; simp at hl), ?_⟩
    rw [decide_eq_true_eq, hf.current, hhas]
    constructor
    · rintro (⟨y, hy, hk⟩ | hk)
      · rw [keys_identify hU hE (hmE kind) hm (hf.store.holds.valid y hy) hxk hk]; exact hy
      · exact absurd (hf.foreign _ hk) (foreign_keys hE (hmE kind) hm hxk)
    · intro h; exact .inl ⟨m, h, hxk⟩

/-- Two shards with the same state root hold the same messages in every store and the same rows in every table of the
stores, or the hash function collides on two values hashed for the roots.  Their histories may differ in everything. -/
theorem C84_root_fixes_stores (S : ShardSetting channelOf U ord sha256 E) (ctx : Nat → MergeCtx) (H : Bytes → Bytes)
    (h20 : ∀ x, (H x).length = 20) (ops ops' : List ShardTrieOp)
    (hr : ({} : StoreState).ShardStepsOK channelOf ctx U sha256 E {} ops)
    (hr' : ({} : StoreState).ShardStepsOK channelOf ctx U sha256 E {} ops') (s s' : StoreTrie)
    (hs : StoreTrie.shardRun H ord sha256 channelOf ctx ops {} = .ok s)
    (hs' : StoreTrie.shardRun H ord sha256 channelOf ctx ops' {} = .ok s')
    (root : s.trie.rootHash H = s'.trie.rootHash H) :
    ∃ keys keys', s.trie.HoldsKeys keys ∧ s'.trie.HoldsKeys keys' ∧
      (Collision H keys keys' ∨ ∀ kind : StoreKind,
        (∀ m, s.store.Has (kind.store channelOf) m ↔ s'.store.Has (kind.store channelOf) m) ∧
        ∀ k, kind.Owns k → s.store.view k = s'.store.view k) := by
  obtain ⟨hch, hU, hord, hE, hmE⟩ := S
  have hH : ∀ x, H x ≠ [] := fun x e => by have := h20 x; rw [e] at this; cases this
  obtain ⟨L0, L, ks, t, h1, h2, h3⟩ := shardMirror_run hH hord hch hU hE hmE ops (shardMirror_init (H := H)
    (channelOf := channelOf) (ctx := ctx) (U := U) (sha256 := sha256) (E := E)) hr
  obtain ⟨L0', L', ks', t', h1', h2', h3'⟩ := shardMirror_run hH hord hch hU hE hmE ops' (shardMirror_init (H := H)
    (channelOf := channelOf) (ctx := ctx) (U := U) (sha256 := sha256) (E := E)) hr'
  rw [h1] at hs; cases hs
  rw [h1'] at hs'; cases hs'
  obtain ⟨_, _, _, _, _, hc⟩ := cache_reads h2.trie
  obtain ⟨_, _, _, _, _, hc'⟩ := cache_reads h2'.trie
  refine ⟨ks.current, ks'.current, hc, hc', ?_⟩
  have hten : ∀ k, (∃ x, E x ∧ k = x.key sha256) → k.length % 10 ≠ 0 := by
    rintro k ⟨x, hx, rfl⟩
    rcases C25_key_length sha256 x (hE.valid x hx) with h | h <;> omega
  rcases root_fixes_keys h20 (entries_keysFit hE) hten h2.trie h2'.trie ((h2.focus hmE .casts).keys_in (hmE .casts))
    ((h2'.focus hmE .casts).keys_in (hmE .casts)) root with hsame | hcol
  · right
    -- a message of one is a message of the other
    have half : ∀ {L0 L L0' L' : StoreKind → List Msg} {ks o ks' o' : KeySets} {s s' : StoreTrie},
        ShardMirror H sha256 channelOf ctx U E L0 L ks o s → ShardMirror H sha256 channelOf ctx U E L0' L' ks' o' s' →
        (∀ k, k ∈ ks.current ↔ k ∈ ks'.current) → ∀ kind m, m ∈ L kind → m ∈ L' kind := by
      intro L0 L L0' L' ks o ks' o' s s' h h' hsame kind m hm
      have hf' := h'.focus hmE kind
      have hmo := (h.store kind).holds.valid m hm
      have hk : trieKeyMessage sha256 m.fid (UInt8.ofNat m.ty.num) m.hash ∈ trieKeysForMessage sha256 m := by
        rw [C25_message_entries]; simp [TrieEntry.key]
      have hk1 := (hsame _).1 ((h.current _).2 (.inl ⟨kind, m, hm, hk⟩))
      rcases (hf'.current _).1 hk1 with ⟨y, hy, hyk⟩ | hk2
      · rw [keys_identify hU hE (hmE kind) hmo (hf'.store.holds.valid y hy) hk hyk]; exact hy
      · exact absurd (hf'.foreign _ hk2) (foreign_keys hE (hmE kind) hmo hk)
    intro kind
    have hlaw := kind_lawful (channelOf := channelOf) kind hch hU.identify
    have hh : ∀ m, s.store.Has (kind.store channelOf) m ↔ s'.store.Has (kind.store channelOf) m := by
      intro m
      rw [(h2.store kind).has_iff hlaw, (h2'.store kind).has_iff hlaw]
      exact ⟨half h2 h2' hsame kind m, half h2' h2 (fun k => (hsame k).symm) kind m⟩
    refine ⟨hh, fun k hk => ?_⟩
    apply Option.ext
    intro v
    rw [near_rows kind hch hU.identify (h2.store kind) hk v, near_rows kind hch hU.identify (h2'.store kind) hk v]
    simp only [hh]
  · exact .inl hcol

/-- The other way round: the same messages in all stores and the same entries of others give the same root. -/
theorem C84_stores_fix_root (S : ShardSetting channelOf U ord sha256 E) (ctx : Nat → MergeCtx) (H : Bytes → Bytes)
    (hH : ∀ x, H x ≠ []) (ops ops' : List ShardTrieOp)
    (hr : ({} : StoreState).ShardStepsOK channelOf ctx U sha256 E {} ops)
    (hr' : ({} : StoreState).ShardStepsOK channelOf ctx U sha256 E {} ops') (s s' : StoreTrie)
    (hs : StoreTrie.shardRun H ord sha256 channelOf ctx ops {} = .ok s)
    (hs' : StoreTrie.shardRun H ord sha256 channelOf ctx ops' {} = .ok s')
    (same : ∀ (kind : StoreKind) m, s.store.Has (kind.store channelOf) m ↔ s'.store.Has (kind.store channelOf) m)
    (others : ∀ k, k ∈ (ops.foldl (shardOthersStep sha256) {}).current ↔ k ∈ (ops'.foldl (shardOthersStep sha256) {}).current) :
    s.trie.rootHash H = s'.trie.rootHash H := by
  obtain ⟨hch, hU, hord, hE, hmE⟩ := S
  obtain ⟨L0, L, ks, t, h1, h2, h3⟩ := shardMirror_run hH hord hch hU hE hmE ops (shardMirror_init (H := H)
    (channelOf := channelOf) (ctx := ctx) (U := U) (sha256 := sha256) (E := E)) hr
  obtain ⟨L0', L', ks', t', h1', h2', h3'⟩ := shardMirror_run hH hord hch hU hE hmE ops' (shardMirror_init (H := H)
    (channelOf := channelOf) (ctx := ctx) (U := U) (sha256 := sha256) (E := E)) hr'
  rw [h1] at hs; cases hs
  rw [h1'] at hs'; cases hs'
  refine root_hash_same h2.trie h2'.trie (fun k => ?_)
  rw [h2.current, h2'.current, others]
  have : ∀ kind m, m ∈ L kind ↔ m ∈ L' kind := by
    intro kind m
    have hlaw := kind_lawful (channelOf := channelOf) kind hch hU.identify
    rw [← (h2.store kind).has_iff hlaw, ← (h2'.store kind).has_iff hlaw, same]
  simp only [this]

/-- The hypotheses can be met: user 7 gets a signer on chain, casts and follows; the follow of 8 is undone; the signer
of the cast and of the follow of 9 is lost. -/
def castB84 : Msg := { Case.castB with hash := Case.h20 13 }
def msgs84 : List Msg := castB84 :: Case.links
def case84 : List ShardTrieOp :=
  [.other (.onchain (some (7, 1, List.replicate 32 5, 0))), .step (.call .casts (.merge castB84)),
    .step (.call .links (.merge Case.follow8)), .step (.put [12, 1] (.raw [5])), .step (.call .links (.merge Case.follow9)),
    .step (.call .links .commit), .step (.call .links (.merge Case.unfollow8)), .step (.call .casts .commit),
    .step (.call .casts (.revokeSigner 7 [2])), .step (.call .links (.revokeSigner 7 [2])), .step (.call .links .commit)]

theorem msgs84_alone : HashesAlone (· ∈ msgs84) := by
  have h : ∀ a ∈ msgs84, ∀ b ∈ msgs84, a.hash = b.hash → a = b := by decide
  exact fun a b ha hb => h a ha b hb

theorem msgs84_entries : ∀ (kind : StoreKind) m, kind.Valid m → m ∈ msgs84 → ∀ x ∈ m.entries, x.Valid := by
  intro kind m _ hm x hx
  simp only [msgs84, Case.links, List.mem_cons, List.not_mem_nil, or_false] at hm
  rcases hm with rfl | rfl | rfl | rfl | rfl <;>
    (simp only [Msg.entries, castB84, Case.castB, Case.follow8, Case.unfollow8, Case.follow9, Case.refollow8, List.map_cons, List.map_nil, List.mem_singleton] at hx
     subst hx
     exact ⟨by decide, by decide, by decide, by decide⟩)

theorem castB84_valid : StoreKind.casts.Valid castB84 :=
  ⟨by decide, by decide, by decide, by decide, .inl ⟨rfl, _, _, rfl, by decide⟩⟩

theorem case84_ok : ({} : StoreState).ShardStepsOK Case.noChannels Case.allOn (· ∈ msgs84) zeroSha TrieEntry.Valid {} case84 := by
  have v := Case.links_valid
  refine ⟨?_, ⟨⟨castB84_valid, by decide⟩, ?_⟩, ⟨⟨v _ (by decide), by decide⟩, ?_⟩, ?_, ⟨⟨v _ (by decide), by decide⟩, ?_⟩, ?_,
    ⟨⟨v _ (by decide), by decide⟩, ?_⟩, ?_, ⟨⟨by decide, ?_⟩, ?_⟩, ⟨⟨by decide, ?_⟩, ?_⟩, ?_, trivial⟩
  · intro k hk
    simp only [trieKeysForEvent, Option.toList, List.map_cons, List.map_nil, List.append_nil, List.mem_singleton] at hk
    refine ⟨.onchain 7 1 (List.replicate 32 5) 0, ⟨by decide, by decide, by decide, by decide, by decide⟩, hk, ?_⟩
    intro kind m _ h
    obtain ⟨_, _, e⟩ := entries_hash h
    cases e
  case refine_4 => intro kind; cases kind <;> decide
  all_goals first
    | (simp only [StoreState.Oldest, StoreState.OfSigner, StoreState.Has]; decide +kernel)
    | (intro h; revert h; decide +kernel)
    | exact recorded_of (es0 := [.revoke Case.follow9]) (by decide +kernel) (by decide +kernel)
    | exact recorded_of (es0 := [.revoke castB84]) (by decide +kernel) (by decide +kernel)

/-- What it leaves: the removal of the follow of 8, and the signer event. -/
example : let st := case84.foldl (StoreState.shardFollow Case.noChannels Case.allOn) {}
    storedMessages linkStore st.db 7 = [Case.unfollow8] ∧ storedMessages castStore st.db 7 = [] := by decide +kernel

/-- And the theorem applies to it. -/
theorem setting84 : ShardSetting Case.noChannels (· ∈ msgs84) id zeroSha TrieEntry.Valid :=
  ⟨Case.noChannels_naming, msgs84_alone, fun l => List.Perm.refl l, zeroSha_fit, msgs84_entries⟩

example : ∃ s, StoreTrie.shardRun toyHash id zeroSha Case.noChannels Case.allOn case84 {} = .ok s :=
  (C84_trie_holds_all_stores setting84 Case.allOn toyHash toyHash_ne case84 case84_ok).imp (fun _ h => h.1)

end Verif
