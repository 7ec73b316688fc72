import Verif.Lemmas.ReplPeers
import Verif.Props.C78
import Verif.Model.NameTrie
/-!
C79: what the final root test of an import says.  The pages come from peers that answer as they like, in any order and
across restarts.  If the root of the imported trie is the one of a source, then the tries hold the same keys, or the
hash function collides on two values hashed for them; every imported message is then the source's; and no message of
the source is missing unless something was passed over as a duplicate under its key.

Three limits of the test are shown below: such a duplicate hides a missing message; a compact state of links that comes
in a later page than a link accepted after it deletes that link; and released names, which the trie does not know, are
not imported, so that the new node accepts a transfer the source refuses.  A page with a key of a type that is not
replicated is not served at all.
-/
namespace Verif
open StoreDef

variable {kind : StoreKind} {channelOf : Bytes → Option Bytes} {U : Msg → Prop} {E : TrieEntry → Prop} {c : ReplCfg}

theorem C79_verified_import (S : Setting c kind channelOf U E) (h20 : ∀ x, (c.H x).length = 20) (history : List StoreTrieOp)
    (hr : kind.StepsOK channelOf c.ctx U c.sha256 E {} {} history) (s : StoreTrie)
    (hs : StoreTrie.run c.H c.ord c.sha256 c.D c.ctx history {} = .ok s)
    (ops : List PeerOp) (hp : ∀ op ∈ ops, ∀ e ∈ op.entries, e.Plausible c kind U E)
    (root : Bytes) (hroot : s.snapshot.trie.rootHash c.H = .ok root)
    (hv : (ops.foldl (Replica.peerStep c) {}).verify c root = true) :
    let r := ops.foldl (Replica.peerStep c) {}
    ∃ keys keys', s.snapshot.trie.HoldsKeys keys ∧ r.trie.HoldsKeys keys' ∧
      (Collision c.H keys' keys ∨
        ((∀ k, k ≠ [] → r.trie.contains k = s.snapshot.trie.contains k) ∧
          (∀ k, (∀ id, k ≠ eventKey id) → ∀ v, r.store.db.get k = some v → s.store.db.get k = some v) ∧
          ((∀ op ∈ ops, op.NoFalseDuplicate c kind) →
            ∀ k, (∀ id, k ≠ eventKey id) → r.store.db.get k = s.store.db.get k))) := by
  intro r
  obtain ⟨L, K, F, hh⟩ := snapshot_source S history hr hs
  obtain ⟨KR, hi⟩ := peer_run S hh (P := ∀ op ∈ ops, op.NoFalseDuplicate c kind) ops hp (fun h => h) (peer_init L K _)
  have hi : PeerInv c kind channelOf U E L K _ r KR := hi
  obtain ⟨_, _, _, _, _, hc⟩ := cache_reads hi.trie
  obtain ⟨_, _, _, _, _, hc'⟩ := cache_reads hh.trie
  refine ⟨K, KR, hc', hc, ?_⟩
  have hv : r.verify c root = true := hv
  unfold Replica.verify at hv
  rw [decide_eq_true_eq, ← hroot] at hv
  have hE : ∀ k ∈ K, ∃ x, E x ∧ k = x.key c.sha256 := fun k hk => by
    obtain ⟨x, h1, h2, _⟩ := hh.entry S hk; exact ⟨x, h1, h2⟩
  have hten : ∀ k, (∃ x, E x ∧ k = x.key c.sha256) → k.length % 10 ≠ 0 := by
    rintro k ⟨x, hx, rfl⟩
    rcases C25_key_length c.sha256 x (S.fit.valid x hx) with h | h <;> omega
  rcases root_fixes_keys h20 (entries_keysFit S.fit) hten (cache_restart hi.trie) hh.trie hi.keys hE hv with hsame | hcol
  · right
    obtain ⟨LR, k1, k2, k3⟩ := hi.store (fun k hk => (hsame k).1 hk)
    refine ⟨?_, ?_, ?_⟩
    · intro k hk
      rw [hc k hk, hc' k hk]
      simp only at hsame
      simp only [hsame]
    · intro k hk v hg
      obtain ⟨hsp, m, hm, hrow⟩ := (rows_of S k1 hk v).1 hg
      exact (rows_of S hh.store hk v).2 ⟨hsp, m, k2 m hm, hrow⟩
    · intro hd k hk
      have hmsgs : ∀ m, m ∈ LR ↔ m ∈ L := by
        intro m
        refine ⟨k2 m, fun hm => ?_⟩
        have hk : trieKeyMessage c.sha256 m.fid (UInt8.ofNat m.ty.num) m.hash ∈ trieKeysForMessage c.sha256 m := by
          rw [C25_message_entries]; simp [TrieEntry.key]
        exact k3 hd m hm _ hk ((hsame _).2 ((hh.keys _).2 (.inl ⟨m, hm, hk⟩)))
      apply Option.ext
      intro v
      rw [rows_of S k1 hk v]
      have := rows_of S hh.store hk v
      simp only [StoreTrie.snapshot] at this
      rw [this]
      simp only [hmsgs]
  · exact .inl hcol

/-! ### A case -/

def keyOf79 (m : Msg) : Bytes := trieKeyMessage zeroSha m.fid (UInt8.ofNat m.ty.num) m.hash

/-- A page of virtual shard 0 that is not the last. -/
def page79 (es : List ReplEntry) (dup : Bytes → Bool) : PeerOp := .page 0 ⟨es, [], some [1]⟩ dup

/-- The source holds the registration of user 7 and a follow of 8. -/
def register79 : TrieEntry := .onchain 7 1 (List.replicate 32 5) 0
def source79 : List StoreTrieOp := [.other (.onchain (some (7, 1, List.replicate 32 5, 0))), .call (.merge Case.follow8), .call .commit]

theorem other_key79 : OtherKey zeroSha .links servedEntry (register79.key zeroSha) := by
  refine ⟨register79, ⟨by decide, by decide, by decide, by decide, by decide⟩, rfl, ?_⟩
  intro m _ h
  obtain ⟨_, _, e⟩ := entries_hash h
  cases e

example : StoreKind.links.StepsOK Case.noChannels Case.allOn (· ∈ Case.links) zeroSha servedEntry {} {} source79 := by
  refine ⟨?_, ⟨⟨Case.links_valid _ (by decide), by decide⟩, ?_⟩, ?_, trivial⟩
  · intro k hk
    simp only [trieKeysForEvent, Option.toList, List.map_cons, List.map_nil, List.append_nil, List.mem_singleton] at hk
    subst hk
    exact other_key79
  all_goals first
    | (simp only [StoreState.Oldest, StoreState.OfSigner, StoreState.Has]; decide +kernel)
    | (intro h; revert h; decide +kernel)

theorem key_entry79 : ∃ x, servedEntry x ∧ keyOf79 Case.follow8 = x.key zeroSha :=
  ⟨.message 7 5 (Case.h20 1), ⟨⟨by decide, by decide, by decide, by decide⟩, by decide, ⟨.linkAdd, rfl, by simp [Replicated]⟩, by decide⟩, rfl⟩

theorem plausible79 : (⟨register79.key zeroSha, .other [register79.key zeroSha]⟩ : ReplEntry).Plausible case78 .links (· ∈ Case.links) servedEntry := by
  obtain ⟨x, h1, h2, h3⟩ := other_key79
  refine ⟨⟨x, h1, h2⟩, ?_⟩
  intro k hk
  rw [List.mem_singleton.1 hk]
  exact other_key79

/-- An import that meets the hypotheses, with the follow in it. -/
def import79 : List PeerOp := [.restart, page79 [⟨keyOf79 Case.follow8, .message Case.follow8⟩] (fun _ => false),
  page79 [⟨register79.key zeroSha, .other [register79.key zeroSha]⟩] (fun _ => true)]

example : ∀ op ∈ import79, ∀ e ∈ op.entries, e.Plausible case78 .links (· ∈ Case.links) servedEntry := by
  simp only [import79, page79, List.mem_cons, List.not_mem_nil, or_false, PeerOp.entries, forall_eq_or_imp, forall_eq,
    false_implies, implies_true, true_and]
  refine ⟨⟨key_entry79, by decide, ?_⟩, plausible79⟩
  intro x hx
  simp only [Msg.entries, Case.follow8, List.map_cons, List.map_nil, List.mem_singleton] at hx
  subst hx
  exact ⟨by decide, by decide, by decide, by decide⟩

/-- The result is no error and passes the test. -/
def okAnd {ε α : Type} (r : Except ε α) (p : α → Bool) : Bool :=
  match r with
  | .ok a => p a
  | .error _ => false

theorem ok_of {ε α : Type} {r : Except ε α} {p : α → Bool} (h : okAnd r p = true) :
    ∃ a, r = .ok a ∧ p a = true := by
  unfold okAnd at h
  split at h
  · exact ⟨_, rfl, h⟩
  · cases h

/-- A source after a history, and an import that passes the root test against it. -/
def Verified79 (history : List StoreTrieOp) (ops : List PeerOp) (s : StoreTrie) : Prop :=
  StoreTrie.run toyHash id zeroSha linkStore Case.allOn history {} = .ok s ∧
  ∃ root, s.snapshot.trie.rootHash toyHash = .ok root ∧ (ops.foldl (Replica.peerStep case78) {}).verify case78 root = true

theorem verified_of {history : List StoreTrieOp} {ops : List PeerOp} (p : StoreTrie → Bool)
    (h : okAnd (StoreTrie.run toyHash id zeroSha linkStore Case.allOn history {}) (fun s =>
      okAnd (s.snapshot.trie.rootHash toyHash) (fun root =>
        (ops.foldl (Replica.peerStep case78) {}).verify case78 root && p s)) = true) : ∃ s, Verified79 history ops s ∧ p s = true := by
  obtain ⟨s, h1, h2⟩ := ok_of h
  obtain ⟨root, h3, h4⟩ := ok_of h2
  rw [Bool.and_eq_true] at h4
  exact ⟨s, ⟨h1, root, h3, h4.1⟩, h4.2⟩

example : ∃ s, Verified79 source79 import79 s ∧
    linkStore.getAdd (import79.foldl (Replica.peerStep case78) {}).store.db OMap.empty Case.follow8 = .ok (some Case.follow8) := by
  obtain ⟨s, h1, h2⟩ := verified_of (history := source79) (ops := import79)
    (fun _ => decide (linkStore.getAdd (import79.foldl (Replica.peerStep case78) {}).store.db OMap.empty Case.follow8 = .ok (some Case.follow8)))
    (by decide +kernel)
  exact ⟨s, h1, of_decide_eq_true h2⟩

/-! ### Limits -/

/-- The peer sends something the node has already under the key of the follow. -/
def hidden79 : List PeerOp := [page79 [⟨register79.key zeroSha, .other [register79.key zeroSha]⟩, ⟨keyOf79 Case.follow8, .other []⟩] (fun k => k = keyOf79 Case.follow8)]

/-- A duplicate hides a missing message: the root is right, and the message is not there.  The page is one that
`C79_verified_import` allows. -/
theorem C79_duplicate_hides_missing_message :
    (∀ op ∈ hidden79, ∀ e ∈ op.entries, e.Plausible case78 .links (· ∈ Case.links) servedEntry) ∧
    ∃ s, Verified79 source79 hidden79 s ∧
      linkStore.getAdd s.store.db OMap.empty Case.follow8 = .ok (some Case.follow8) ∧
      linkStore.getAdd (hidden79.foldl (Replica.peerStep case78) {}).store.db OMap.empty Case.follow8 = .ok none := by
  constructor
  · simp only [hidden79, page79, List.mem_cons, List.not_mem_nil, or_false, PeerOp.entries, forall_eq_or_imp, forall_eq]
    exact ⟨plausible79, key_entry79, by simp⟩
  · obtain ⟨s, h1, h2⟩ := verified_of (history := source79) (ops := hidden79)
      (fun s => decide (linkStore.getAdd s.store.db OMap.empty Case.follow8 = .ok (some Case.follow8) ∧
        linkStore.getAdd (hidden79.foldl (Replica.peerStep case78) {}).store.db OMap.empty Case.follow8 = .ok none)) (by decide +kernel)
    exact ⟨s, h1, of_decide_eq_true h2⟩

/-- User 7 drops all follows, and follows 8 in the same second. -/
def unfollowAll : Msg := ⟨7, .linkCompactState, 100, Case.h20 5, [1], .linkCompact [102] []⟩
def compacted79 : List StoreTrieOp :=
  [.call (.merge unfollowAll), .call .commit, .call (.merge Case.follow8), .call .commit]
/-- What the source sends: the follow comes first, because keys are ordered by type. -/
def entries79 : List ReplEntry := [⟨keyOf79 Case.follow8, .message Case.follow8⟩, ⟨keyOf79 unfollowAll, .message unfollowAll⟩]
def split79 : List PeerOp := entries79.map (fun e => page79 [e] (fun _ => false))
def whole79 : List PeerOp := [page79 entries79 (fun _ => false)]

/-- A compact state that comes in a later page than a link accepted after it deletes the link, although every entry is
as an honest source serves it and the root is right.  In one page both survive. -/
theorem C79_compact_state_deletes_earlier_page :
    ∃ s, Verified79 compacted79 split79 s ∧ Verified79 compacted79 whole79 s ∧
      (∀ e ∈ entries79, serveItem case78 s.snapshot.store.db 0 e.key = .ok (7, e)) ∧
      linkStore.getAdd s.store.db OMap.empty Case.follow8 = .ok (some Case.follow8) ∧
      linkStore.getAdd (whole79.foldl (Replica.peerStep case78) {}).store.db OMap.empty Case.follow8 = .ok (some Case.follow8) ∧
      linkStore.getAdd (split79.foldl (Replica.peerStep case78) {}).store.db OMap.empty Case.follow8 = .ok none := by
  obtain ⟨s, h1, h2⟩ := verified_of (history := compacted79) (ops := split79)
    (fun s => decide ((∀ e ∈ entries79, serveItem case78 s.snapshot.store.db 0 e.key = .ok (7, e)) ∧
      linkStore.getAdd s.store.db OMap.empty Case.follow8 = .ok (some Case.follow8) ∧
      linkStore.getAdd (whole79.foldl (Replica.peerStep case78) {}).store.db OMap.empty Case.follow8 = .ok (some Case.follow8) ∧
      linkStore.getAdd (split79.foldl (Replica.peerStep case78) {}).store.db OMap.empty Case.follow8 = .ok none)) (by decide +kernel)
  obtain ⟨s', h3, _⟩ := verified_of (history := compacted79) (ops := whole79) (fun _ => true) (by decide +kernel)
  have : s' = s := by
    have := h3.1.symm.trans h1.1
    injection this
  subst this
  exact ⟨s', h1, h3, of_decide_eq_true h2⟩

/-- A key of a type that is not replicated: the page it is in is not served, whatever else is in it. -/
theorem C79_unreplicated_key_is_not_served (c : ReplCfg) (s : StoreTrie) (v : UInt8) (token next : Option Bytes) (keys : List Bytes)
    (hk : s.trie.pageRequest c.fuel [v] messageLimit token = .ok (keys, next)) (f : Nat) (t : MessageType) (hash : Bytes)
    (hv : (TrieEntry.message f t.num hash).Valid) (ht : ¬ Replicated c.channels t)
    (hm : (TrieEntry.message f t.num hash).key c.sha256 ∈ keys) : ∃ e, servePage c s v token = .error e := by
  have hns : t.num ∉ servedTypes c.channels := by
    intro h
    apply ht
    cases hch : c.channels <;> cases t <;> simp [servedTypes, MessageType.num, hch, Replicated] at h ⊢
  have hone : ∃ e, serveItem c s.store.db v ((TrieEntry.message f t.num hash).key c.sha256) = .error e := by
    unfold serveItem
    simp only [TrieEntry.key, C25_decode_message c.sha256 f t.num hash hv]
    split
    · exact ⟨_, rfl⟩
    · simp only [num_toNat hv.2.2.1, hns, not_false_eq_true, if_true]
      exact ⟨_, rfl⟩
  have hall : ∃ e, serveItems c s.store.db v keys = .error e := by
    clear hk
    induction keys with
    | nil => cases hm
    | cons k ks ih =>
      simp only [serveItems]
      rcases List.mem_cons.1 hm with h | h
      · obtain ⟨e, he⟩ := hone
        rw [← h, he]
        exact ⟨e, rfl⟩
      · obtain ⟨e, he⟩ := ih h
        split
        · exact ⟨_, rfl⟩
        · rw [he]; exact ⟨e, rfl⟩
  obtain ⟨e, he⟩ := hall
  exact ⟨e, by simp only [servePage, hk, he]⟩

/-- Key messages are such. -/
example : (TrieEntry.message 7 MessageType.keyAdd.num (Case.h20 1)).Valid ∧ ¬ Replicated true .keyAdd :=
  ⟨⟨by decide, by decide, by decide, by decide⟩, by simp [Replicated]⟩

/-! ### Names -/

def name79 (fid ts : Nat) : FProof := ⟨[97], fid, ts, [1]⟩
/-- User 7 registers; gets a name and gives it up. -/
def registered79 : List NameTrieOp := [.other (.onchain (some (7, 1, List.replicate 32 5, 0))), .call .commit]
def released79 : List NameTrieOp := [.call (.merge (name79 7 10)), .call (.merge (name79 0 20)), .call .commit]
/-- A late transfer from before the release. -/
def late79 : List NameTrieOp := [.call (.merge (name79 8 15)), .call .commit]

/-- The root after a history. -/
def rootAfter79 (history : List NameTrieOp) : Option (Except TrieErr Bytes) :=
  match NameTrie.run toyHash id zeroSha history {} with
  | .ok s => some (s.trie.rootHash toyHash)
  | .error _ => none

/-- A root does not tell whether a name was released: a node that knows of the release and one that does not have the
same root, and differ after the same transfer. -/
theorem C79_root_hides_released_names :
    ∃ root root', root ≠ root' ∧
      rootAfter79 (registered79 ++ released79) = some (.ok root) ∧ rootAfter79 registered79 = some (.ok root) ∧
      rootAfter79 (registered79 ++ released79 ++ late79) = some (.ok root) ∧ rootAfter79 (registered79 ++ late79) = some (.ok root') :=
  ⟨[168, 1, 105, 92, 10, 185, 44, 98, 148, 15, 57, 69, 61, 111, 91, 170, 83, 41, 26, 56],
    [249, 58, 203, 85, 48, 233, 150, 171, 232, 3, 87, 131, 142, 0, 56, 51, 73, 23, 107, 111],
    by decide, by decide +kernel, by decide +kernel, by decide +kernel, by decide +kernel⟩

end Verif
