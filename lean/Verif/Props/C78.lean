import Verif.Lemmas.Replicate
import Verif.Props.C64
/-!
C78: a node that bootstraps by replication ends up with the store and the state trie of the snapshot it copies.  The
source ran any history of C64 and serves a snapshot of it; the importing node asks for pages of the 256 virtual shards
in any order, is stopped and started again at any point, and may be told that items of other stores are duplicates.
No page is ever refused, nothing is imported that the source does not hold, and when every virtual shard is finished the
rows, the trie and the root hash are those of the source.  The import ends: a bounded number of pages of a virtual shard
finishes it, unless the node stops while it imports the last one.
-/
namespace Verif
open StoreDef

variable {kind : StoreKind} {channelOf : Bytes → Option Bytes} {U : Msg → Prop} {E : TrieEntry → Prop} {c : ReplCfg}

theorem snapshot_source (S : Setting c kind channelOf U E) (history : List StoreTrieOp)
    (hr : kind.StepsOK channelOf c.ctx U c.sha256 E {} {} history) {s : StoreTrie}
    (hs : StoreTrie.run c.H c.ord c.sha256 c.D c.ctx history {} = .ok s) :
    ∃ L K F, Held c kind channelOf U E s.snapshot L K F := by
  obtain ⟨L0, L, ks, s', h1, h2, h3⟩ := mirror_run S.H S.ord (compactOut_all S.hashes.identify) S.naming S.hashes S.fit S.entries history (mirror_init (H := c.H) (kind := kind)
    (channelOf := channelOf) (ctx := c.ctx) (U := U) (sha256 := c.sha256) (E := E)) hr
  rw [S.D, h1] at hs
  injection hs with hs
  subst hs
  exact ⟨L0, ks.committed, _, ⟨⟨⟨h2.store.committed, h2.store.committed⟩, (fun k a b => h2.store.blank0 k a b trivial), (fun k a b => h2.store.blank0 k a b trivial)⟩,
    cache_restart h2.trie, h2.committed, h2.foreign0⟩⟩

theorem source_pages (S : Setting c kind channelOf U E) {src : StoreTrie} {L : List Msg} {K F : List Bytes}
    (hs : Held c kind channelOf U E src L K F) :
    ∃ N, ∀ fuel, N ≤ fuel → ∃ all, Pages { c with fuel := fuel } src K all N := by
  have hlen : ∀ k ∈ K, k ≠ [] ∧ k.length < 2 ^ 30 := by
    intro k hk
    obtain ⟨x, hx, rfl, _⟩ := hs.entry S hk
    have hl := C25_key_length c.sha256 x (S.fit.valid x hx)
    refine ⟨fun e => ?_, by omega⟩
    rw [e] at hl; simp at hl
  obtain ⟨N, hN⟩ := uniform_bound (P := fun v n => ∀ fuel, n ≤ fuel → ∃ pages, src.trie.collectPages fuel [v] messageLimit n none = .ok pages ∧
      pages.flatten.Pairwise (fun a b => Bytes.blt a b = true) ∧ ∀ k, k ∈ pages.flatten ↔ k ∈ K ∧ [v] <+: k) (by
    intro v
    obtain ⟨N, hN⟩ := cache_pages hs.trie (pre := [v]) (by simp) (max := messageLimit) (by decide) hlen
    refine ⟨N, fun n hn fuel hf => ?_⟩
    obtain ⟨pages, h1, _, h2, h3⟩ := hN fuel (by omega) n hn
    exact ⟨pages, h1, h2, h3⟩)
  refine ⟨N, fun fuel hf => ?_⟩
  obtain ⟨pages, hp⟩ := Classical.skolem.1 (fun v => hN N (Nat.le_refl _) v fuel hf)
  exact ⟨fun v => (pages v).flatten, fun v => ⟨pages v, [], (hp v).1, rfl, by simp⟩, fun v => (hp v).2.1, fun v => (hp v).2.2⟩

theorem Setting.refuel (S : Setting c kind channelOf U E) (fuel : Nat) : Setting { c with fuel := fuel } kind channelOf U E :=
  ⟨S.D, S.naming, S.hashes, S.H, S.ord, S.set, S.fit, S.entries, S.served, S.lends⟩

theorem Source.refuel {src : StoreTrie} {L : List Msg} {K F : List Bytes} (hs : Source c kind channelOf U E src L K F) (fuel : Nat) :
    Source { c with fuel := fuel } kind channelOf U E src L K F :=
  ⟨⟨hs.store, hs.trie, hs.keys, hs.foreign⟩, hs.few⟩

theorem replica_init {src : StoreTrie} {L : List Msg} {K : List Bytes} {all : UInt8 → List Bytes} {N : Nat} (hP : Pages c src K all N) :
    ReplInv c kind channelOf U E src L K all N {} [] :=
  ⟨core_init src L K, fun v => ⟨N, Nat.le_refl _, hP.start v⟩, fun v h => by cases h⟩

/-- Rows of the message `m`, outside the event log. -/
theorem rows_of (S : Setting c kind channelOf U E) {L : List Msg} {st : StoreState} (h : KindInv kind channelOf c.ctx U L L st) {k : Bytes}
    (hk : ∀ id, k ≠ eventKey id) (v : SVal) : st.db.get k = some v ↔
      (kind.store channelOf).Space (okIn kind U) k ∧ ∃ m ∈ L, (k, v) ∈ (kind.store channelOf).rowsOf c.ctx m := by
  have hv : viewOf st.db OMap.empty k = st.db.get k := by simp [viewOf, getFromDbOrTxn]
  by_cases hsp : (kind.store channelOf).Space (okIn kind U) k
  · rw [← hv, h.committed.rows k hsp v]
    exact ⟨fun h => ⟨hsp, h⟩, fun h => h.2⟩
  · rw [← hv, h.blank0 k hsp hk]
    exact ⟨(fun h => by cases h), fun h => absurd h.1 hsp⟩

theorem C78_replica_equals_source (S : Setting c kind channelOf U E) (history : List StoreTrieOp)
    (hr : kind.StepsOK channelOf c.ctx U c.sha256 E {} {} history) (s : StoreTrie)
    (hs : StoreTrie.run c.H c.ord c.sha256 c.D c.ctx history {} = .ok s)
    (few : ∀ f, (storedMessages c.D s.store.db f).length < usizeMax) :
    ∃ N, ∀ fuel, N ≤ fuel → ∀ ops : List ReplOp,
      let c' := { c with fuel := fuel }
      ∃ r, Replica.run c' s.snapshot ops {} = .ok r ∧
        -- nothing but what the source holds
        (∀ k, (∀ id, k ≠ eventKey id) → ∀ v, r.store.db.get k = some v → s.store.db.get k = some v) ∧
        (∀ k, k ≠ [] → r.trie.contains k = .ok true → s.snapshot.trie.contains k = .ok true) ∧
        -- and all of it in the end
        ((∀ v, (r.status v).finished = true) →
          (∀ k, (∀ id, k ≠ eventKey id) → r.store.db.get k = s.store.db.get k) ∧
          (∀ k, k ≠ [] → r.trie.contains k = s.snapshot.trie.contains k) ∧
          ∃ root, s.snapshot.trie.rootHash c.H = .ok root ∧ r.verify c' root = true) := by
  obtain ⟨L, K, F, hheld⟩ := snapshot_source S history hr hs
  rw [S.D] at few
  have hsrc : Source c kind channelOf U E s.snapshot L K F := ⟨hheld, few⟩
  obtain ⟨N, hN⟩ := source_pages S hheld
  refine ⟨N, fun fuel hf ops => ?_⟩
  obtain ⟨all, hP⟩ := hN fuel hf
  have S' := S.refuel fuel
  have hsrc' := hsrc.refuel fuel
  obtain ⟨r, KR, h1, h2, _⟩ := run_spec S' hsrc' hP ops (replica_init (kind := kind) (channelOf := channelOf) (U := U) (E := E) (L := L) hP)
  refine ⟨r, h1, ?_, ?_, ?_⟩
  · intro k hk v hg
    obtain ⟨LR, hst, hLR⟩ := h2.store
    obtain ⟨hsp, m, hm, hrow⟩ := (rows_of S' hst hk v).1 hg
    exact (rows_of S' hsrc'.store hk v).2 ⟨hsp, m, ((hLR m).1 hm).1, hrow⟩
  · intro k hk
    obtain ⟨_, _, _, _, _, hc⟩ := cache_reads h2.trie
    obtain ⟨_, _, _, _, _, hc'⟩ := cache_reads hsrc'.trie
    rw [hc k hk, hc' k hk]
    intro e
    injection e with e
    rw [decide_eq_true (h2.sub k (of_decide_eq_true e))]
  · intro hfin
    have hsame : ∀ k, k ∈ KR ↔ k ∈ K := by
      intro k
      refine ⟨h2.sub k, fun hk => ?_⟩
      obtain ⟨x, hx, rfl, _⟩ := hsrc'.toHeld.entry S' hk
      exact h2.finished _ (hfin (fidShard c.sha256 x.fid)) _ hk ((shard_prefix x _).2 rfl)
    obtain ⟨LR, hst, hLR⟩ := h2.store
    have hmsgs : ∀ m, m ∈ LR ↔ m ∈ L := by
      intro m
      rw [hLR]
      refine ⟨fun h => h.1, fun hm => ⟨hm, ?_⟩⟩
      have hk : trieKeyMessage c.sha256 m.fid (UInt8.ofNat m.ty.num) m.hash ∈ trieKeysForMessage c.sha256 m := by
        rw [C25_message_entries]; simp [TrieEntry.key]
      exact ⟨_, hk, (hsame _).2 ((hsrc'.keys _).2 (.inl ⟨m, hm, hk⟩))⟩
    refine ⟨?_, ?_, ?_⟩
    · intro k hk
      apply Option.ext
      intro v
      rw [rows_of S' hst hk v]
      have := rows_of S' hsrc'.store hk v
      simp only [StoreTrie.snapshot] at this
      rw [this]
      simp only [hmsgs]
    · intro k hk
      obtain ⟨_, _, _, _, _, hc⟩ := cache_reads h2.trie
      obtain ⟨_, _, _, _, _, hc'⟩ := cache_reads hsrc'.trie
      rw [hc k hk, hc' k hk]
      simp only [hsame]
    · obtain ⟨t, _, _, hroot, _⟩ := cache_reads hsrc.trie
      refine ⟨_, hroot, ?_⟩
      unfold Replica.verify
      rw [decide_eq_true_eq, ← hroot]
      exact root_hash_same (cache_restart h2.trie) hsrc.trie hsame

/-- After any history, `N` pages of a virtual shard finish it, whatever happens in between: other virtual shards, stops
and restarts, but no stop while a page of it is imported. -/
theorem C78_import_ends (S : Setting c kind channelOf U E) (history : List StoreTrieOp)
    (hr : kind.StepsOK channelOf c.ctx U c.sha256 E {} {} history) (s : StoreTrie)
    (hs : StoreTrie.run c.H c.ord c.sha256 c.D c.ctx history {} = .ok s)
    (few : ∀ f, (storedMessages c.D s.store.db f).length < usizeMax) :
    ∃ N, ∀ fuel, N ≤ fuel → ∀ (ops ops' : List ReplOp) (v : UInt8),
      (∀ op ∈ ops', op.stopsIn v = false) → N ≤ (ops'.map (fun op => op.pagesFor v)).sum →
      ∃ r, Replica.run { c with fuel := fuel } s.snapshot (ops ++ ops') {} = .ok r ∧ (r.status v).finished = true := by
  obtain ⟨L, K, F, hheld⟩ := snapshot_source S history hr hs
  rw [S.D] at few
  have hsrc : Source c kind channelOf U E s.snapshot L K F := ⟨hheld, few⟩
  obtain ⟨N, hN⟩ := source_pages S hheld
  refine ⟨N, fun fuel hf ops ops' v hstop hpages => ?_⟩
  obtain ⟨all, hP⟩ := hN fuel hf
  have S' := S.refuel fuel
  have hsrc' := hsrc.refuel fuel
  obtain ⟨r1, KR1, h1, h2, _⟩ := run_spec S' hsrc' hP ops (replica_init (kind := kind) (channelOf := channelOf) (U := U) (E := E) (L := L) hP)
  obtain ⟨r, KR, h3, h4, h5⟩ := run_spec S' hsrc' hP ops' h2
  have hrun : ∀ (o1 o2 : List ReplOp) (r0 r1 : Replica), Replica.run { c with fuel := fuel } s.snapshot o1 r0 = .ok r1 →
      Replica.run { c with fuel := fuel } s.snapshot (o1 ++ o2) r0 = Replica.run { c with fuel := fuel } s.snapshot o2 r1 := by
    intro o1 o2
    induction o1 with
    | nil => intro r0 r1 h; simp only [Replica.run] at h; cases h; rfl
    | cons o o1 ih =>
      intro r0 r1 h
      simp only [Replica.run, List.cons_append] at h ⊢
      split at h
      · cases h
      · exact ih _ _ h
  refine ⟨r, (hrun _ _ _ _ h1).trans h3, ?_⟩
  have hup : ∀ (n k : Nat) (token : Option Bytes) (pages : List (List Bytes)),
      s.snapshot.trie.collectPages fuel [v] messageLimit n token = .ok pages →
      s.snapshot.trie.collectPages fuel [v] messageLimit (n + k) token = .ok pages := by
    intro n k
    induction n with
    | zero => intro token pages h; cases h
    | succ n ih =>
      intro token pages h
      rw [Nat.add_right_comm]
      simp only [TrieState.collectPages] at h ⊢
      split at h
      · cases h
      · exact h
      · split at h
        · cases h
        · next hr => rw [ih _ _ hr]; exact h
  have hL : Left { c with fuel := fuel } s.snapshot v r1 (0 + (ops'.map (fun op => op.pagesFor v)).sum) := by
    obtain ⟨n, hn, pages, _, hp, _⟩ := h2.cursor v
    right
    refine ⟨pages, ?_⟩
    have := hup n ((ops'.map (fun op => op.pagesFor v)).sum - n) _ _ hp
    rw [show n + ((ops'.map (fun op => op.pagesFor v)).sum - n) = 0 + (ops'.map (fun op => op.pagesFor v)).sum by omega] at this
    exact this
  rcases h5 v 0 hstop hL with h | ⟨pages, h⟩
  · exact h
  · cases h

/-! ### A case -/

/-- Valid entries of types the server answers for. -/
def servedEntry : TrieEntry → Prop
  | .message f ty hash => (TrieEntry.message f ty hash).Valid ∧ 0 < f ∧ (∃ t, t.num = ty ∧ Replicated true t) ∧ ty ≠ 14
  | x => x.Valid

theorem servedEntry_valid : ∀ x, servedEntry x → x.Valid
  | .message .., h => h.1
  | .onchain .., h => h
  | .fname .., h => h

def case78 : ReplCfg where
  H := toyHash
  ord := id
  sha256 := zeroSha
  hashSet := id
  D := linkStore
  ctx := Case.allOn
  fuel := 0

/-- The hypotheses can be met: the history of C64. -/
example : Setting case78 .links Case.noChannels (· ∈ Case.links) servedEntry where
  D := rfl
  naming := Case.noChannels_naming
  hashes := by
    have h : ∀ a ∈ Case.links, ∀ b ∈ Case.links, a.hash = b.hash → a = b := by decide
    exact fun a b ha hb => h a ha b hb
  H := toyHash_ne
  ord := fun l => List.Perm.refl l
  set := fun l k => Iff.rfl
  fit := ⟨servedEntry_valid, fun x y hx hy => zeroSha_fit.noShift x y (servedEntry_valid x hx) (servedEntry_valid y hy)⟩
  entries := by
    intro m hv hm x hx
    have hx' := links_entries m hv hm x hx
    simp only [Case.links, List.mem_cons, List.not_mem_nil, or_false] at hm
    rcases hm with rfl | rfl | rfl | rfl <;>
      (simp only [Msg.entries, Case.follow8, Case.unfollow8, Case.follow9, Case.refollow8, List.map_cons, List.map_nil, List.mem_singleton] at hx
       subst hx
       exact ⟨hx', by decide, ⟨_, rfl, by simp [Replicated]⟩, by decide⟩)
  served := fun f ty hash h => ⟨h.2.1, h.2.2.1, fun _ => h.2.2.2⟩
  lends := by
    intro m _ hm
    simp only [Case.links, List.mem_cons, List.not_mem_nil, or_false] at hm
    rcases hm with rfl | rfl | rfl | rfl <;> rfl

example : StoreKind.links.StepsOK Case.noChannels Case.allOn (· ∈ Case.links) zeroSha servedEntry {} {} case64 := by
  have v := Case.links_valid
  refine ⟨?_, ⟨⟨v _ (by decide), by decide⟩, ?_⟩, ⟨⟨v _ (by decide), by decide⟩, ?_⟩, ?_, ⟨⟨v _ (by decide), by decide⟩, ?_⟩, ?_,
    ⟨⟨by decide, ?_⟩, ?_⟩, ?_, ⟨⟨by decide, ?_⟩, ?_⟩, ?_, trivial⟩
  · intro k hk
    simp only [trieKeysForEvent, Option.toList, List.map_cons, List.map_nil, List.append_nil, List.mem_singleton] at hk
    refine ⟨.onchain 7 1 (List.replicate 32 5) 0, ⟨by decide, by decide, by decide, by decide, by decide⟩, hk, ?_⟩
    intro m _ h
    obtain ⟨_, _, e⟩ := entries_hash h
    cases e
  all_goals first
    | (simp only [StoreState.Oldest, StoreState.OfSigner, StoreState.Has]; decide +kernel)
    | (intro h; revert h; decide +kernel)
    | exact recorded_of (es0 := [.revoke Case.follow9]) (by decide +kernel) (by decide +kernel)

end Verif
