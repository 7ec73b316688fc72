import Verif.Lemmas.StoreTrie
import Verif.Case.Store
import Verif.Case.Trie
/-!
C64: the trie holds exactly the keys of the stored messages and of others.  A store and the trie start empty; store
calls (merges, forced merges, revocations, prunes), commits, dropped batches and events of others follow in any order.
The histories covered are those of C11 in which every call recorded its events; what happens when the event numbers of
a block are used up is shown at the end.
-/
namespace Verif
open StoreDef

theorem C64_trie_holds_stored_messages (kind : StoreKind) (channelOf : Bytes → Option Bytes) (hch : ChannelNaming channelOf)
    (ctx : Nat → MergeCtx) (U : Msg → Prop) (hU : HashesAlone U) (H : Bytes → Bytes) (hH : ∀ x, H x ≠ [])
    (ord : List UInt8 → List UInt8) (hord : ∀ l, (ord l).Perm l) (sha256 : Bytes → Bytes) (E : TrieEntry → Prop)
    (hE : EntriesFit sha256 E) (hmE : ∀ m, kind.Valid m → U m → ∀ x ∈ m.entries, E x) (ops : List StoreTrieOp)
    (hr : kind.StepsOK channelOf ctx U sha256 E {} {} ops) :
    let D := kind.store channelOf
    let others := ops.foldl (othersStep sha256) {}
    ∃ s, StoreTrie.run H ord sha256 D ctx ops {} = .ok s ∧ s.store = ops.foldl (StoreState.follow D ctx) {} ∧
      (∀ k, k ≠ [] → ∃ b, s.trie.contains k = .ok b ∧ (b = true ↔
        (∃ m, s.store.Has D m ∧ ∃ x ∈ m.entries, k = x.key sha256) ∨ k ∈ others.current)) ∧
      (∀ m, kind.Valid m → U m → ∀ x ∈ m.entries, ∃ b, s.trie.contains (x.key sha256) = .ok b ∧
        (b = true ↔ s.store.Has D m)) := by
  intro D others
  obtain ⟨L0, L, ks, s, h1, h2, h3⟩ := mirror_run hH hord (compactOut_all hU.identify) hch hU hE hmE ops (mirror_init (H := H) (kind := kind)
    (channelOf := channelOf) (ctx := ctx) (U := U) (sha256 := sha256) (E := E)) hr
  have hlaw := kind_lawful (channelOf := channelOf) kind hch hU.identify
  have hhas := h2.store.has_iff hlaw
  obtain ⟨_, _, _, _, _, hc⟩ := cache_reads h2.trie
  refine ⟨s, h1, h3, ?_, ?_⟩
  · intro k hk
    refine ⟨_, hc k hk, ?_⟩
    rw [decide_eq_true_eq, h2.current k]
    constructor
    · rintro (⟨m, hm, hk⟩ | hk)
      · rw [keys_entries, List.mem_map] at hk
        obtain ⟨x, hx, e⟩ := hk
        exact .inl ⟨m, (hhas m).2 hm, x, hx, e.symm⟩
      · exact .inr hk
    · rintro (⟨m, hm, x, hx, rfl⟩ | hk)
      · exact .inl ⟨m, (hhas m).1 hm, by rw [keys_entries]; exact List.mem_map_of_mem hx⟩
      · exact .inr hk
  · intro m hv hu x hx
    have hm : okIn kind U m := ⟨hv, hu⟩
    have hxk : x.key sha256 ∈ trieKeysForMessage sha256 m := by rw [keys_entries]; exact List.mem_map_of_mem hx
    have hl := C25_key_length sha256 x (hE.valid x (hmE m hv hu x hx))
    refine ⟨_, hc _ (by intro e; rw [e] at hl; simp at hl), ?_⟩
    rw [decide_eq_true_eq, h2.current, hhas]
    constructor
    · rintro (⟨y, hy, hk⟩ | hk)
      · rw [keys_identify hU hE hmE hm (h2.store.holds.valid y hy) hxk hk]; exact hy
      · exact absurd (h2.foreign _ hk) (foreign_keys hE hmE hm hxk)
    · intro h; exact .inl ⟨m, h, hxk⟩

/-- The hypotheses can be met: user 7 gets a signer on chain, follows 8 and 9, unfollows 8, and loses the signer of
the follow of 9. -/
def case64 : List StoreTrieOp :=
  [.other (.onchain (some (7, 1, List.replicate 32 5, 0))), .call (.merge Case.follow8), .call (.merge Case.follow9),
    .call .commit, .call (.merge Case.unfollow8), .call .commit, .call (.revokeSigner 7 [2]), .call .drop,
    .call (.revokeSigner 7 [2]), .call .commit]

theorem recorded_of {r : Except HubErr (List StoreEvent)} {n : Nat} {es0 : List StoreEvent} (h : r = .ok es0)
    (hn : es0.length = n) : ∀ es, r = .ok es → es.length = n := by
  intro es h'; rw [h] at h'; cases h'; exact hn

def zeroSha : Bytes → Bytes := fun _ => List.replicate 32 0

theorem zeroSha_fit : EntriesFit zeroSha TrieEntry.Valid :=
  ⟨fun _ h => h, fun x y hx hy hs => by
    have := (C25_shifted zeroSha x y hx hy hs).1
    have e : fidShard zeroSha x.fid = 0 := by
      have e4 : fromBe ((zeroSha (be 4 (x.fid % 2 ^ 32))).take 4) = 0 := by
        unfold zeroSha; decide
      unfold fidShard routeFid
      simp only [e4]
      decide
    rw [e] at this
    exact absurd this (by decide)⟩

theorem links_entries : ∀ m, StoreKind.links.Valid m → m ∈ Case.links → ∀ x ∈ m.entries, x.Valid := by
  intro m _ hm x hx
  simp only [Case.links, List.mem_cons, List.not_mem_nil, or_false] at hm
  rcases hm with rfl | rfl | rfl | rfl <;>
    (simp only [Msg.entries, Case.follow8, Case.unfollow8, Case.follow9, Case.refollow8, List.map_cons, List.map_nil, List.mem_singleton] at hx
     subst hx
     exact ⟨by decide, by decide, by decide, by decide⟩)

example : StoreKind.links.StepsOK Case.noChannels Case.allOn (· ∈ Case.links) zeroSha TrieEntry.Valid {} {} case64 := by
  have v := Case.links_valid
  refine ⟨?_, ⟨⟨v _ (by decide), by decide⟩, ?_⟩, ⟨⟨v _ (by decide), by decide⟩, ?_⟩, ?_, ⟨⟨v _ (by decide), by decide⟩, ?_⟩, ?_,
    ⟨⟨by decide, ?_⟩, ?_⟩, ?_, ⟨⟨by decide, ?_⟩, ?_⟩, ?_, trivial⟩
  · intro k hk
    simp only [trieKeysForEvent, Option.toList, List.map_cons, List.map_nil, List.append_nil, List.mem_singleton] at hk
    refine ⟨.onchain 7 1 (List.replicate 32 5) 0, ⟨by decide, by decide, by decide, by decide, by decide⟩, hk, ?_⟩
    intro m _ h
    obtain ⟨_, _, e⟩ := entries_hash h
    cases e
  all_goals first
    | (simp only [StoreState.Oldest, StoreState.OfSigner, StoreState.Has]; decide +kernel)
    | (intro h; revert h; decide +kernel)
    | exact recorded_of (es0 := [.revoke Case.follow9]) (by decide +kernel) (by decide +kernel)
example : HashesAlone (· ∈ Case.links) := by
  have h : ∀ a ∈ Case.links, ∀ b ∈ Case.links, a.hash = b.hash → a = b := by decide
  exact fun a b ha hb => h a ha b hb

/-- Without event numbers left, a merge returns an error after it has stored the message: the message is then stored
but the trie does not hold its key. -/
theorem C64_exhausted : ∃ (st : StoreState) (s : StoreTrie),
    StoreTrie.exec toyHash id zeroSha linkStore Case.allOn { store := st } (.call (.merge Case.follow8)) = .ok s ∧
    s.store.Has linkStore Case.follow8 ∧
    ∀ x ∈ Case.follow8.entries, s.trie.contains (x.key zeroSha) = .ok false := by
  refine ⟨⟨OMap.empty, ⟨OMap.empty, ⟨5, 16384⟩⟩⟩, _, exec_call (t := TrieState.initialize {}) (es := []) (by decide) (by decide) ?_ rfl, ?_, ?_⟩
  · decide +kernel
  · unfold StoreState.Has; decide +kernel
  · decide +kernel
end Verif
