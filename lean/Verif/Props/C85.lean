import Verif.Lemmas.Usage
import Verif.Props.C84
/-!
C85: the usage the node reports and prunes by is the number of the user's messages, and a prune brings the user down to
their limit.  The setting is that of C84: all stores of a shard in one database, their trie, any history.
-/
namespace Verif
open StoreDef

variable {channelOf : Bytes → Option Bytes} {U : Msg → Prop} {ord : List UInt8 → List UInt8} {sha256 : Bytes → Bytes}
  {E : TrieEntry → Prop}

/-- The entries of others include no compact link state of the user. -/
def NoCompactStates (sha256 : Bytes → Bytes) (others : KeySets) (fid : Nat) : Prop :=
  ∀ hash, (TrieEntry.message fid MessageType.linkCompactState.num hash).key sha256 ∉ others.current ∧
    (TrieEntry.message fid MessageType.linkCompactState.num hash).key sha256 ∉ others.committed

/-- While changes are pending: the usage of a store counts the messages in it that the user wrote or, for loans,
received.  `NotEmptied`: of no message type did the pending batch remove the user's last message. -/
theorem C85_usage_pending (S : ShardSetting channelOf U ord sha256 E) (ctx : Nat → MergeCtx) (H : Bytes → Bytes)
    (hH : ∀ x, H x ≠ []) (ops : List ShardTrieOp) (hr : ({} : StoreState).ShardStepsOK channelOf ctx U sha256 E {} ops)
    (s : StoreTrie) (hs : StoreTrie.shardRun H ord sha256 channelOf ctx ops {} = .ok s)
    (kind : StoreKind) (fid : Nat) (h0 : 0 < fid) (hf : fid < 2 ^ 32)
    (hne : ∀ ty ∈ kind.types, s.store.NotEmptied (kind.store channelOf) ctx fid ty)
    (hno : kind = .links → NoCompactStates sha256 (ops.foldl (shardOthersStep sha256) {}) fid) :
    ∃ n, NumberOf (fun m => s.store.Has (kind.store channelOf) m ∧ m.concerns fid) n ∧
      usageOf sha256 s.trie fid kind.limit = UInt32.ofNat n := by
  obtain ⟨hch, hU, hord, hE, hmE⟩ := S
  obtain ⟨L0, L, ks, t, h1, h2, h3⟩ := shardMirror_run hH hord hch hU hE hmE ops (shardMirror_init (H := H)
    (channelOf := channelOf) (ctx := ctx) (U := U) (sha256 := sha256) (E := E)) hr
  rw [h1] at hs; cases hs
  exact usage_number hch hU hE hmE h2 h0 hf hne hno

/-- After a commit nothing else is needed, whatever happened before: the usage is the number of messages; where messages
are not shared with another user, it is the number of the user's committed message rows. -/
theorem C85_usage_committed (S : ShardSetting channelOf U ord sha256 E) (ctx : Nat → MergeCtx) (H : Bytes → Bytes)
    (hH : ∀ x, H x ≠ []) (ops : List ShardTrieOp) (j : StoreKind)
    (hr : ({} : StoreState).ShardStepsOK channelOf ctx U sha256 E {} (ops ++ [.step (.call j .commit)]))
    (s : StoreTrie) (hs : StoreTrie.shardRun H ord sha256 channelOf ctx (ops ++ [.step (.call j .commit)]) {} = .ok s)
    (kind : StoreKind) (fid : Nat) (h0 : 0 < fid) (hf : fid < 2 ^ 32)
    (hno : kind = .links → NoCompactStates sha256 ((ops ++ [ShardTrieOp.step (.call j .commit)]).foldl (shardOthersStep sha256) {}) fid) :
    let D := kind.store channelOf
    (∃ n, NumberOf (fun m => s.store.Has D m ∧ m.concerns fid) n ∧ usageOf sha256 s.trie fid kind.limit = UInt32.ofNat n) ∧
    NumberOf (fun m => s.store.Has D m ∧ m.fid = fid) (storedMessages D s.store.db fid).length ∧
    (kind ≠ .lends → usageOf sha256 s.trie fid kind.limit = UInt32.ofNat (storedMessages D s.store.db fid).length) := by
  intro D
  have S' := S
  have hs' := hs
  obtain ⟨hch, hU, hord, hE, hmE⟩ := S
  obtain ⟨L0, L, ks, t, h1, h2, h3⟩ := shardMirror_run hH hord hch hU hE hmE _ (shardMirror_init (H := H)
    (channelOf := channelOf) (ctx := ctx) (U := U) (sha256 := sha256) (E := E)) hr
  rw [h1] at hs; cases hs
  have hlaw := kind_lawful (channelOf := channelOf) kind hch hU.identify
  have hdrop : ∀ m, (s.store.exec D ctx .drop).Has D m ↔ s.store.Has D m := by
    intro m
    rw [List.foldl_append] at h3
    simp only [List.foldl_cons, List.foldl_nil, StoreState.shardFollow, StoreState.shardExec, StoreState.exec] at h3
    rw [h3]
    exact Iff.rfl
  have hhas0 : ∀ m, (s.store.exec D ctx .drop).Has D m ↔ m ∈ L0 kind := (safeIn_drop (h2.store kind) D ctx).has_iff hlaw
  have use := C85_usage_pending S' ctx H hH _ hr s hs' kind fid h0 hf (by
    intro ty _
    by_cases h : ∃ m, s.store.Has D m ∧ m.concerns fid ∧ m.ty = ty
    · exact .inl h
    · exact .inr (fun m hm hc => h ⟨m, (hdrop m).1 hm, hc⟩)) hno
  have stored : NumberOf (fun m => s.store.Has D m ∧ m.fid = fid) (storedMessages D s.store.db fid).length :=
    ⟨_, stored_nodup hlaw (h2.store kind).committed hf, fun m => by
      rw [mem_stored hlaw (h2.store kind).committed hf, ← hhas0, hdrop], rfl⟩
  refine ⟨use, stored, fun hk => ?_⟩
  obtain ⟨n, hn, hu⟩ := use
  rw [hu, (hn.congr (fun m => and_congr_right (fun hm => concerns_author hk
    ((h2.store kind).holds.valid m (((h2.store kind).has_iff hlaw m).1 hm)).1))).unique stored]

/-- Only loans are received: in the other stores the messages counted are those the user wrote. -/
theorem C85_counted_are_own (kind : StoreKind) (hk : kind ≠ .lends) (m : Msg) (hm : kind.Valid m) (fid : Nat) :
    m.concerns fid ↔ m.fid = fid := concerns_author hk hm

/-- After a merge of any message type of a store that store is pruned; only loans are not. -/
theorem C85_every_store_is_pruned (kind : StoreKind) (ty : MessageType) (h : ty ∈ kind.types) :
    pruneTarget ty = (if kind = .lends then none else some kind) ∧ storeTypeOf ty = kind.limit := by
  cases kind <;> (revert ty; decide)

/-- A prune of the engine, when nothing pending touches the user's committed messages: with `n` messages in the store it
removes the `n - limit` oldest committed ones, so that the limit is kept unless more than the limit are new; the trie
follows. -/
theorem C85_prune_to_limit (S : ShardSetting channelOf U ord sha256 E) (ctx : Nat → MergeCtx) (H : Bytes → Bytes)
    (hH : ∀ x, H x ≠ []) (ops : List ShardTrieOp) (hr : ({} : StoreState).ShardStepsOK channelOf ctx U sha256 E {} ops)
    (s : StoreTrie) (hs : StoreTrie.shardRun H ord sha256 channelOf ctx ops {} = .ok s)
    (ty : MessageType) (kind : StoreKind) (ht : pruneTarget ty = some kind) (slot : Slot)
    (fid : Nat) (h0 : 0 < fid) (hf : fid < 2 ^ 32)
    (hset : s.store.Settled (kind.store channelOf) fid)
    (hno : kind = .links → NoCompactStates sha256 (ops.foldl (shardOthersStep sha256) {}) fid)
    (n : Nat) (hn : NumberOf (fun m => s.store.Has (kind.store channelOf) m ∧ m.fid = fid) n) (hn32 : n < 2 ^ 32) :
    let max := (maxMessages slot (storeTypeOf ty)).toNat
    let old := storedMessages (kind.store channelOf) s.store.db fid
    getUsage sha256 s.trie slot fid ty = (UInt32.ofNat n, maxMessages slot (storeTypeOf ty)) ∧
    (s.store.Recorded (kind.store channelOf) ctx (.prune fid n max) →
      ∃ s', s.pruneType H ord sha256 channelOf ctx slot fid ty = .ok s' ∧
        (∀ m, s'.store.Has (kind.store channelOf) m ↔ s.store.Has (kind.store channelOf) m ∧ m ∉ old.take (n - max)) ∧
        NumberOf (fun m => s'.store.Has (kind.store channelOf) m ∧ m.fid = fid) (n - min old.length (n - max)) ∧
        (n - old.length ≤ max → ∃ n', n' ≤ max ∧ NumberOf (fun m => s'.store.Has (kind.store channelOf) m ∧ m.fid = fid) n') ∧
        StoreTrie.shardRun H ord sha256 channelOf ctx (ops ++ [.step (.call kind (.prune fid n max))]) {} = .ok s' ∧
        ({} : StoreState).ShardStepsOK channelOf ctx U sha256 E {} (ops ++ [.step (.call kind (.prune fid n max))])) := by
  intro max old
  have S' := S
  obtain ⟨hch, hU, hord, hE, hmE⟩ := S
  obtain ⟨L0, L, ks, t, h1, h2, h3⟩ := shardMirror_run hH hord hch hU hE hmE ops (shardMirror_init (H := H)
    (channelOf := channelOf) (ctx := ctx) (U := U) (sha256 := sha256) (E := E)) hr
  rw [h1] at hs; cases hs
  have hlaw := kind_lawful (channelOf := channelOf) kind hch hU.identify
  have hkl : kind ≠ .lends := by rintro rfl; revert ht; cases ty <;> decide
  have hlim : storeTypeOf ty = kind.limit := by
    revert ht; cases kind <;> cases ty <;> first | (intro _; rfl) | (intro h; exact absurd h (by decide))
  have hhas : ∀ m, s.store.Has (kind.store channelOf) m ↔ m ∈ L kind := (h2.store kind).has_iff hlaw
  have hhas0 : ∀ m, (s.store.exec (kind.store channelOf) ctx .drop).Has (kind.store channelOf) m ↔ m ∈ L0 kind :=
    (safeIn_drop (h2.store kind) (kind.store channelOf) ctx).has_iff hlaw
  have own : ∀ m, s.store.Has (kind.store channelOf) m → (m.concerns fid ↔ m.fid = fid) := fun m hm =>
    concerns_author hkl ((h2.store kind).holds.valid m ((hhas m).1 hm)).1
  have hold : ∀ m, m ∈ old ↔ m ∈ L0 kind ∧ m.fid = fid := mem_stored hlaw (h2.store kind).committed hf
  have hne : ∀ ty ∈ kind.types, s.store.NotEmptied (kind.store channelOf) ctx fid ty := by
    intro ty _
    by_cases h : ∃ m, s.store.Has (kind.store channelOf) m ∧ m.concerns fid ∧ m.ty = ty
    · exact .inl h
    · refine .inr (fun m hm hc => h ⟨m, ?_, hc⟩)
      have hm0 := (hhas0 m).1 hm
      exact hset m ((hold m).2 ⟨hm0, (concerns_author hkl ((h2.store kind).committed.valid m hm0).1).1 hc.1⟩)
  obtain ⟨n', hn', hu⟩ := usage_number hch hU hE hmE h2 h0 hf hne hno
  have : n' = n := (hn'.congr (fun m => and_congr_right (own m))).unique hn
  subst this
  have huse : getUsage sha256 s.trie slot fid ty = (UInt32.ofNat n', maxMessages slot (storeTypeOf ty)) := by
    simp only [getUsage, hlim, hu]
  refine ⟨huse, fun hrec => ?_⟩
  have hto : (UInt32.ofNat n').toNat = n' := by rw [UInt32.toNat_ofNat']; exact Nat.mod_eq_of_lt hn32
  have hstep : s.store.ShardStepOK channelOf ctx U sha256 E (ops.foldl (shardOthersStep sha256) {})
      (.step (.call kind (.prune fid n' max))) := ⟨⟨hf, (Settled.oldest hset _)⟩, hrec⟩
  obtain ⟨L0', L', ks', s', e1, e2, e3⟩ := shardMirror_step hH hord hch hU hE hmE h2 hstep
  have hafter : ∀ m, s'.store.Has (kind.store channelOf) m ↔
      s.store.Has (kind.store channelOf) m ∧ m ∉ old.take (n' - max) := by
    obtain ⟨k, p, _, hh, hfr, hres⟩ := prune_spec (cur := n') (max := max) hlaw (kind_set kind).1 (h2.store kind).toPairInv hf (Settled.oldest hset _)
    rcases hres with ⟨hres, hk⟩ | hres
    · have hex : s'.store = { s.store with pend := p } := by
        rw [e3]
        simp only [StoreState.shardFollow, StoreState.shardExec, StoreState.exec, StoreState.after, hres]
      intro m
      rw [hex, (safeIn_pend (h2.store kind) hh hfr).has_iff hlaw m, List.mem_filter, hhas]
      have : old.take k = old.take (n' - max) := by
        by_cases hle : old.length ≤ n' - max
        · rw [hk, Nat.min_eq_left hle, List.take_length, List.take_of_length_le hle]
        · rw [hk, Nat.min_eq_right (by show n' - max ≤ old.length; omega)]
      show m ∈ L kind ∧ decide (m ∉ old.take k) = true ↔ _
      rw [this, decide_eq_true_eq]
    · exact absurd (by simp only [StoreState.returned, hres]) hrec
  have hcount : NumberOf (fun m => s'.store.Has (kind.store channelOf) m ∧ m.fid = fid) (n' - min old.length (n' - max)) := by
    obtain ⟨ms, a1, a2, a3⟩ := hn
    have hgone : NumberOf (fun m => m ∈ old.take (n' - max)) (min old.length (n' - max)) :=
      ⟨old.take (n' - max), (stored_nodup hlaw (h2.store kind).committed hf).sublist (List.take_sublist _ _), fun m => Iff.rfl,
        by rw [List.length_take, Nat.min_comm]⟩
    have hleft : NumberOf (fun m => s'.store.Has (kind.store channelOf) m ∧ m.fid = fid)
        (ms.filter (fun m => m ∉ old.take (n' - max))).length :=
      ⟨_, a1.filter _, fun m => by rw [List.mem_filter, a2, decide_eq_true_eq]; simp only [hafter]; exact ⟨fun ⟨⟨a, b⟩, c⟩ => ⟨⟨a, c⟩, b⟩, fun ⟨⟨a, c⟩, b⟩ => ⟨⟨a, b⟩, c⟩⟩, rfl⟩
    have hboth := hleft.or hgone (fun m h h' => ((hafter m).1 h.1).2 h')
    have : NumberOf (fun m => s.store.Has (kind.store channelOf) m ∧ m.fid = fid)
        ((ms.filter (fun m => m ∉ old.take (n' - max))).length + min old.length (n' - max)) := by
      refine hboth.congr (fun m => ?_)
      simp only [hafter]
      constructor
      · rintro (⟨⟨a, _⟩, b⟩ | h)
        · exact ⟨a, b⟩
        · have := List.mem_of_mem_take h
          exact ⟨hset m this, ((hold m).1 this).2⟩
      · rintro ⟨a, b⟩
        by_cases h : m ∈ old.take (n' - max)
        · exact .inr h
        · exact .inl ⟨⟨a, h⟩, b⟩
    have e := this.unique ⟨ms, a1, a2, a3⟩
    rw [show n' - min old.length (n' - max) = (ms.filter (fun m => m ∉ old.take (n' - max))).length by omega]
    exact hleft
  refine ⟨s', ?_, hafter, hcount, ?_, ?_, ?_⟩
  · simp only [StoreTrie.pruneType, ht, huse, hto]
    exact e1
  · intro hle
    exact ⟨_, by omega, hcount⟩
  · have app : ∀ (xs : List ShardTrieOp) (a b : StoreTrie) (y : ShardTrieOp), StoreTrie.shardRun H ord sha256 channelOf ctx xs a = .ok b →
        StoreTrie.shardRun H ord sha256 channelOf ctx (xs ++ [y]) a = b.shardExec H ord sha256 channelOf ctx y := by
      intro xs
      induction xs with
      | nil =>
        intro a b y h
        cases h
        simp only [List.nil_append, StoreTrie.shardRun]
        cases a.shardExec H ord sha256 channelOf ctx y <;> rfl
      | cons x xs ih =>
        intro a b y h
        simp only [StoreTrie.shardRun, List.cons_append] at h ⊢
        cases hx : a.shardExec H ord sha256 channelOf ctx x with
        | error e => rw [hx] at h; cases h
        | ok a' => rw [hx] at h; exact ih a' b y h
    rw [app ops _ _ _ h1]; exact e1
  · have app : ∀ (xs : List ShardTrieOp) (st : StoreState) (o : KeySets) (y : ShardTrieOp), st.ShardStepsOK channelOf ctx U sha256 E o xs →
        (xs.foldl (StoreState.shardFollow channelOf ctx) st).ShardStepOK channelOf ctx U sha256 E (xs.foldl (shardOthersStep sha256) o) y →
        st.ShardStepsOK channelOf ctx U sha256 E o (xs ++ [y]) := by
      intro xs
      induction xs with
      | nil => intro st o y _ h; exact ⟨h, trivial⟩
      | cons x xs ih => intro st o y h h'; exact ⟨h.1, ih _ _ _ h.2 h'⟩
    refine app ops _ _ _ hr ?_
    rw [← h3]
    exact hstep

/-! ### Cases -/

def signerEvent85 : ShardTrieOp := .other (.onchain (some (7, 1, List.replicate 32 5, 0)))

def follow (m : Msg) : ShardTrieOp := .step (.call .links (.merge m))
def commit85 : ShardTrieOp := .step (.call .links .commit)

/-- The usage after a history. -/
def usageAfter (ops : List ShardTrieOp) (fid : Nat) (k : LimitKind) : Option UInt32 :=
  match StoreTrie.shardRun toyHash id zeroSha Case.noChannels Case.allOn ops {} with
  | .ok s => some (usageOf zeroSha s.trie fid k)
  | .error _ => none

/-- `NotEmptied` is needed: when a pending change removes the user's last message of a type, the usage goes on counting
it until the commit.  User 7 follows 8, and stops following 8 in the next block: they have one message, the usage is 2. -/
theorem C85_emptied_type_still_counted :
    let ops := [signerEvent85, follow Case.follow8, commit85, follow Case.unfollow8]
    usageAfter ops 7 .links = some 2 ∧ usageAfter (ops ++ [commit85]) 7 .links = some 1 ∧
      storedMessages linkStore ((ops ++ [commit85]).foldl (StoreState.shardFollow Case.noChannels Case.allOn) {}).db 7 = [Case.unfollow8] := by
  decide +kernel

/-- A loan counts for the borrower: 9 has lent nothing, and its usage of loans is 1. -/
def loan85 : Msg := { fid := 7, ty := .lendStorage, ts := 100, hash := Case.h20 14, signer := [1], body := .lend 9 1 .y2025 }

theorem C85_received_loans_counted :
    let ops := [signerEvent85, .step (.call .lends (.merge loan85)), .step (.call .lends .commit)]
    usageAfter ops 9 .lends = some 1 ∧ usageAfter ops 7 .lends = some 1 ∧
      storedMessages lendStore (ops.foldl (StoreState.shardFollow Case.noChannels Case.allOn) {}).db 9 = [] := by
  decide +kernel

/-- The hypotheses can be met: the history of C84 with its last commit, where user 7 has one link message left. -/
def head85 : List ShardTrieOp := case84.take 10

theorem head85_case : head85 ++ [ShardTrieOp.step (.call .links .commit)] = case84 := rfl

theorem others85 : NoCompactStates zeroSha (case84.foldl (shardOthersStep zeroSha) {}) 7 := by
  have e : case84.foldl (shardOthersStep zeroSha) {} =
      { current := [(TrieEntry.onchain 7 1 (List.replicate 32 5) 0).key zeroSha],
        committed := [(TrieEntry.onchain 7 1 (List.replicate 32 5) 0).key zeroSha] } := by rfl
  have ne : ∀ hash, (TrieEntry.message 7 14 hash).key zeroSha ≠ (TrieEntry.onchain 7 1 (List.replicate 32 5) 0).key zeroSha := by
    intro hash h
    have := congrArg (fun k : Bytes => k[5]?) h
    exact absurd this (show some (UInt8.ofNat 14 <<< (3 : UInt8)) ≠ some (UInt8.ofNat 1) by decide)
  intro hash
  rw [e]
  simp only [List.mem_singleton]
  exact ⟨ne hash, ne hash⟩

example : ∃ s n, StoreTrie.shardRun toyHash id zeroSha Case.noChannels Case.allOn case84 {} = .ok s ∧
    NumberOf (fun m => s.store.Has linkStore m ∧ m.concerns 7) n ∧ usageOf zeroSha s.trie 7 .links = UInt32.ofNat n := by
  obtain ⟨s, hs, _⟩ := C84_trie_holds_all_stores setting84 Case.allOn toyHash toyHash_ne case84 case84_ok
  obtain ⟨⟨n, h⟩, _⟩ := C85_usage_committed setting84 Case.allOn toyHash toyHash_ne head85 .links case84_ok s hs .links 7
    (by decide) (by decide) (fun _ => others85)
  exact ⟨s, n, hs, h⟩

example : usageAfter case84 7 .links = some 1 := by decide +kernel

/-- A prune: the user's storage has run out, and the message goes. -/
example : ∃ s s', StoreTrie.shardRun toyHash id zeroSha Case.noChannels Case.allOn case84 {} = .ok s ∧
    s.pruneType toyHash id zeroSha Case.noChannels Case.allOn {} 7 .linkAdd = .ok s' ∧
    s.store.Has linkStore Case.unfollow8 ∧ ¬ s'.store.Has linkStore Case.unfollow8 := by
  obtain ⟨s, hs, hst, _⟩ := C84_trie_holds_all_stores setting84 Case.allOn toyHash toyHash_ne case84 case84_ok
  obtain ⟨_, hone, _⟩ := C85_usage_committed setting84 Case.allOn toyHash toyHash_ne head85 .links case84_ok s hs .links 7
    (by decide) (by decide) (fun _ => others85)
  have h : s.store.Has linkStore Case.unfollow8 := by rw [hst]; unfold StoreState.Has; decide +kernel
  have hset : s.store.Settled linkStore 7 := by rw [hst]; unfold StoreState.Settled StoreState.Has; decide +kernel
  have hdb : storedMessages linkStore s.store.db 7 = [Case.unfollow8] := by rw [hst]; decide +kernel
  have hone : NumberOf (fun m => s.store.Has (StoreKind.links.store Case.noChannels) m ∧ m.fid = 7) 1 := by
    have h : NumberOf _ (storedMessages linkStore s.store.db 7).length := hone
    rwa [hdb] at h
  obtain ⟨_, p⟩ := C85_prune_to_limit setting84 Case.allOn toyHash toyHash_ne case84 case84_ok s hs .linkAdd .links rfl {} 7
    (by decide) (by decide) hset (fun _ => others85) 1 hone (by decide)
  obtain ⟨s', h1, h2, _⟩ := p (by rw [hst]; intro h; revert h; decide +kernel)
  refine ⟨s, s', hs, h1, h, fun h' => ?_⟩
  refine ((h2 _).1 h').2 ?_
  show Case.unfollow8 ∈ (storedMessages linkStore s.store.db 7).take 1
  rw [hdb]; simp

end Verif
