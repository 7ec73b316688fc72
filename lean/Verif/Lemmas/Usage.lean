import Verif.Spec.Usage
import Verif.Lemmas.ShardTrie
import Verif.Lemmas.TrieCounts
import Verif.Props.C25
/-! Counting a user's messages by the keys of the trie. -/
namespace Verif
open StoreDef
variable {U : Msg → Prop} {channelOf : Bytes → Option Bytes} {ctx : Nat → MergeCtx} {E : TrieEntry → Prop}
  {H sha256 : Bytes → Bytes} {ord : List UInt8 → List UInt8}

/-- The keys under a user and message type are those of the entries of the user and type. -/
theorem type_prefix {fid ty : Nat} (hf : fid < 2 ^ 32) (h1 : 1 ≤ ty) (h2 : ty < 32) {e : TrieEntry} (hv : e.Valid) :
    trieKeyType sha256 fid (UInt8.ofNat ty) <+: e.key sha256 ↔ ∃ h, e = .message fid ty h := by
  have snoc : ∀ (f : Nat) (b c : UInt8) (tail : Bytes), f < 2 ^ 32 →
      (trieKeyFid sha256 fid ++ [c] <+: trieKeyFid sha256 f ++ b :: tail ↔ f = fid ∧ c = b) := by
    intro f b c tail hlt
    constructor
    · rintro ⟨t, ht⟩
      rw [List.append_assoc] at ht
      obtain ⟨a1, a2⟩ := List.append_inj ht (by simp [trieKeyFid, makeFidKey])
      simp only [trieKeyFid, makeFidKey, List.cons.injEq] at a1
      simp only [List.cons_append, List.cons.injEq] at a2
      exact ⟨(be_inj hf hlt a1.2).symm, a2.1⟩
    · rintro ⟨rfl, rfl⟩; exact ⟨tail, by simp⟩
  have hsh : ∀ n : Nat, n < 32 → ∀ m : Nat, m < 32 → UInt8.ofNat n <<< (3 : UInt8) = UInt8.ofNat m <<< (3 : UInt8) → n = m := by
    decide +kernel
  have hsm : ∀ n : Nat, n < 32 → 1 ≤ n → ∀ m : Nat, m < 8 → UInt8.ofNat n <<< (3 : UInt8) ≠ UInt8.ofNat m := by
    decide +kernel
  cases e with
  | message f t hash =>
    have := snoc f (UInt8.ofNat t <<< (3 : UInt8)) (UInt8.ofNat ty <<< (3 : UInt8)) hash hv.1
    simp only [TrieEntry.key, trieKeyMessage, trieKeyType, List.append_assoc, List.cons_append, List.nil_append]
    rw [this]
    constructor
    · rintro ⟨a, b⟩; exact ⟨hash, by rw [a, ← hsh ty h2 t hv.2.2.1 b]⟩
    · rintro ⟨h, e⟩; cases e; exact ⟨rfl, rfl⟩
  | onchain f t tx log =>
    have := snoc f (UInt8.ofNat t) (UInt8.ofNat ty <<< (3 : UInt8)) (tx ++ be 4 log) hv.1
    simp only [TrieEntry.key, trieKeyOnchain, trieKeyType, List.append_assoc, List.cons_append, List.nil_append]
    rw [this]
    constructor
    · rintro ⟨a, b⟩; exact absurd b (hsm ty h2 h1 t (by have := hv.2.2.1; omega))
    · rintro ⟨h, e⟩; cases e
  | fname f name =>
    have := snoc f fnameMessageType (UInt8.ofNat ty <<< (3 : UInt8)) (name ++ List.replicate (usernameMaxLength - name.length) 0) hv.1
    simp only [TrieEntry.key, trieKeyFname, trieKeyType, List.append_assoc, List.cons_append, List.nil_append]
    rw [this]
    constructor
    · rintro ⟨a, b⟩; exact absurd b (hsm ty h2 h1 7 (by omega))
    · rintro ⟨h, e⟩; cases e

theorem exists_nodup {α : Type} [DecidableEq α] (l : List α) : ∃ l' : List α, l'.Nodup ∧ ∀ x, x ∈ l' ↔ x ∈ l := by
  induction l with
  | nil => exact ⟨[], by simp, by simp⟩
  | cons a l ih =>
    obtain ⟨l', h1, h2⟩ := ih
    by_cases h : a ∈ l
    · exact ⟨l', h1, fun x => by rw [h2, List.mem_cons]; exact ⟨.inr, fun e => e.elim (fun e => e ▸ h) id⟩⟩
    · exact ⟨a :: l', List.nodup_cons.2 ⟨by rwa [h2], h1⟩, fun x => by rw [List.mem_cons, List.mem_cons, h2]⟩

theorem same_length {α : Type} [DecidableEq α] {a b : List α} (ha : a.Nodup) (hb : b.Nodup) (h : ∀ x, x ∈ a ↔ x ∈ b) :
    a.length = b.length :=
  Nat.le_antisymm (Tree.Good.length_le_of_subset ha (fun x hx => (h x).1 hx))
    (Tree.Good.length_le_of_subset hb (fun x hx => (h x).2 hx))

theorem NumberOf.unique {P : Msg → Prop} {a b : Nat} (ha : NumberOf P a) (hb : NumberOf P b) : a = b := by
  obtain ⟨l, l1, l2, rfl⟩ := ha
  obtain ⟨k, k1, k2, rfl⟩ := hb
  exact same_length l1 k1 (fun x => by rw [l2, k2])

theorem NumberOf.congr {P Q : Msg → Prop} {a : Nat} (ha : NumberOf P a) (h : ∀ m, P m ↔ Q m) : NumberOf Q a := by
  obtain ⟨l, l1, l2, rfl⟩ := ha
  exact ⟨l, l1, fun m => by rw [l2, h], rfl⟩

theorem NumberOf.zero {P : Msg → Prop} (h : ∀ m, ¬ P m) : NumberOf P 0 :=
  ⟨[], by simp, fun m => by simp [h m], rfl⟩

theorem NumberOf.or {P Q : Msg → Prop} {a b : Nat} (ha : NumberOf P a) (hb : NumberOf Q b) (h : ∀ m, P m → ¬ Q m) :
    NumberOf (fun m => P m ∨ Q m) (a + b) := by
  obtain ⟨l, l1, l2, rfl⟩ := ha
  obtain ⟨k, k1, k2, rfl⟩ := hb
  refine ⟨l ++ k, ?_, fun m => by rw [List.mem_append, l2, k2], by simp⟩
  refine List.nodup_append.2 ⟨l1, k1, fun x hx y hy e => ?_⟩
  subst e
  exact h x ((l2 x).1 hx) ((k2 x).1 hy)

theorem concerns_entry {m : Msg} {fid : Nat} : m.concerns fid ↔ TrieEntry.message fid m.ty.num m.hash ∈ m.entries := by
  unfold Msg.concerns Msg.entries
  cases m.body <;> simp [eq_comm]

theorem valid_type {kind : StoreKind} {m : Msg} (h : kind.Valid m) : m.ty ∈ kind.types := by
  obtain ⟨_, _, _, _, h⟩ := h
  cases kind
  · rcases h with h | h <;> simp [h.1, StoreKind.types]
  · rcases h.1 with h | h <;> simp [h, StoreKind.types]
  · rcases h.1 with h | h <;> simp [h, StoreKind.types]
  · rcases h with h | h <;> simp [h.1, StoreKind.types]
  · simp [h.1, StoreKind.types]
  · simp [h.1, StoreKind.types]

/-- Every entry of a message type of a store is an entry of some message. -/
theorem entry_exists {kind : StoreKind} {ty : MessageType} (ht : ty ∈ kind.types) {fid : Nat} (h0 : 0 < fid) (hf : fid < 2 ^ 32)
    {h : Bytes} (hl : h.length = 20) : ∃ m, kind.Valid m ∧ TrieEntry.message fid ty.num h ∈ m.entries := by
  have go : ∀ b, (∃ m : Msg, m = { fid := fid, ts := 0, hash := h, ty := ty, body := b } ∧ kind.Valid m) →
      ∃ m, kind.Valid m ∧ TrieEntry.message fid ty.num h ∈ m.entries := by
    rintro b ⟨m, rfl, hv⟩
    exact ⟨_, hv, by simp [Msg.entries]⟩
  cases kind <;> simp only [StoreKind.types, List.mem_cons, List.not_mem_nil, or_false] at ht
  · rcases ht with rfl | rfl
    · exact go (.castAdd none []) ⟨_, rfl, h0, hf, Nat.two_pow_pos 32, hl, .inl ⟨rfl, none, [], rfl, by simp⟩⟩
    · exact go (.castRemove h) ⟨_, rfl, h0, hf, Nat.two_pow_pos 32, hl, .inr ⟨rfl, h, rfl, hl⟩⟩
  · rcases ht with rfl | rfl
    · exact go (.reaction 1 (some (.url []))) ⟨_, rfl, h0, hf, Nat.two_pow_pos 32, hl, .inl rfl, 1, _, rfl, by decide, by decide⟩
    · exact go (.reaction 1 (some (.url []))) ⟨_, rfl, h0, hf, Nat.two_pow_pos 32, hl, .inr rfl, 1, _, rfl, by decide, by decide⟩
  · rcases ht with rfl | rfl
    · exact go (.link [1] (some 1)) ⟨_, rfl, h0, hf, Nat.two_pow_pos 32, hl, .inl rfl, [1], 1, rfl, by decide, by decide, by decide⟩
    · exact go (.link [1] (some 1)) ⟨_, rfl, h0, hf, Nat.two_pow_pos 32, hl, .inr rfl, [1], 1, rfl, by decide, by decide, by decide⟩
  · rcases ht with rfl | rfl
    · exact go (.verificationAdd [1]) ⟨_, rfl, h0, hf, Nat.two_pow_pos 32, hl, .inl ⟨rfl, [1], rfl, by decide⟩⟩
    · exact go (.verificationRemove [1]) ⟨_, rfl, h0, hf, Nat.two_pow_pos 32, hl, .inr ⟨rfl, [1], rfl, by decide⟩⟩
  · subst ht
    exact go (.userData 1 []) ⟨_, rfl, h0, hf, Nat.two_pow_pos 32, hl, rfl, 1, [], rfl, by decide, by decide⟩
  · subst ht
    exact go (.lend 1 1 .legacy) ⟨_, rfl, h0, hf, Nat.two_pow_pos 32, hl, rfl, 1, 1, _, rfl, by decide⟩


theorem type_num_range {kind : StoreKind} {ty : MessageType} (ht : ty ∈ kind.types) : 1 ≤ ty.num ∧ ty.num < 32 := by
  cases kind <;> (revert ty; decide)

theorem type_num_inj {a b : MessageType} (h : a.num = b.num) : a = b := by
  revert h; cases a <;> cases b <;> first | (intro _; rfl) | (intro h; exact absurd h (by decide))

theorem type_kind {a b : StoreKind} {ty : MessageType} (ha : ty ∈ a.types) (hb : ty ∈ b.types) : a = b := by
  cases a <;> cases b <;> first | rfl | (revert ty; decide)

open Classical in
/-- The keys under a user and a message type of a store, counted. -/
theorem keys_count (hU : HashesAlone U) (hE : EntriesFit sha256 E)
    (hmE : ∀ (kind : StoreKind) m, kind.Valid m → U m → ∀ x ∈ m.entries, E x)
    {keys : List Bytes} {L : StoreKind → List Msg} {others : List Bytes} (hk : ShardKeysAre sha256 keys L others)
    (hn : keys.Nodup) (hL : ∀ j, ∀ m ∈ L j, okIn j U m) (ho : ∀ k ∈ others, ForeignAll sha256 E k)
    {kind : StoreKind} {ty : MessageType} (ht : ty ∈ kind.types) {fid : Nat} (h0 : 0 < fid) (hf : fid < 2 ^ 32) :
    NumberOf (fun m => m ∈ L kind ∧ m.concerns fid ∧ m.ty = ty)
      (keys.filter (fun k => (trieKeyType sha256 fid (UInt8.ofNat ty.num)).isPrefixOf k)).length := by
  obtain ⟨hr1, hr2⟩ := type_num_range ht
  obtain ⟨ms, m1, m2⟩ := exists_nodup ((L kind).filter (fun m => m.concerns fid ∧ m.ty = ty))
  have m2 : ∀ m, m ∈ ms ↔ m ∈ L kind ∧ m.concerns fid ∧ m.ty = ty := by
    intro m; rw [m2, List.mem_filter, decide_eq_true_eq]
  refine ⟨ms, m1, m2, ?_⟩
  have hinj : (ms.map (fun m => (TrieEntry.message fid ty.num m.hash).key sha256)).Nodup := by
    refine List.pairwise_map.2 (m1.imp_of_mem ?_)
    intro a b ha hb hne he
    obtain ⟨a1, a2, a3⟩ := (m2 a).1 ha
    obtain ⟨b1, b2, b3⟩ := (m2 b).1 hb
    obtain ⟨va, ua⟩ := hL _ a a1
    obtain ⟨vb, ub⟩ := hL _ b b1
    have ea := hE.valid _ (hmE kind a va ua _ (concerns_entry.1 a2))
    have eb := hE.valid _ (hmE kind b vb ub _ (concerns_entry.1 b2))
    rw [a3] at ea
    rw [b3] at eb
    have := C25_distinct sha256 _ _ ea eb he
    rw [TrieEntry.message.injEq] at this
    exact hne (hU a b ua ub this.2.2)
  rw [← List.length_map (f := fun m : Msg => (TrieEntry.message fid ty.num m.hash).key sha256)]
  refine same_length hinj (hn.filter _) (fun k => ?_)
  rw [List.mem_map, List.mem_filter, List.isPrefixOf_iff_prefix, hk k]
  constructor
  · rintro ⟨m, hm, rfl⟩
    obtain ⟨a1, a2, a3⟩ := (m2 m).1 hm
    obtain ⟨va, ua⟩ := hL _ m a1
    have hx := concerns_entry.1 a2
    rw [a3] at hx
    refine ⟨.inl ⟨kind, m, a1, ?_⟩, ?_⟩
    · rw [keys_entries]; exact List.mem_map_of_mem hx
    · exact (type_prefix hf hr1 hr2 (hE.valid _ (hmE kind m va ua _ hx))).2 ⟨_, rfl⟩
  · rintro ⟨⟨j, m, hm, hx⟩ | hx, hp⟩
    · rw [keys_entries, List.mem_map] at hx
      obtain ⟨x, hx, rfl⟩ := hx
      obtain ⟨va, ua⟩ := hL _ m hm
      obtain ⟨h, rfl⟩ := (type_prefix hf hr1 hr2 (hE.valid _ (hmE j m va ua _ hx))).1 hp
      obtain ⟨f, e⟩ := entries_num hx
      rw [TrieEntry.message.injEq] at e
      obtain ⟨rfl, e1, rfl⟩ := e
      have e1 := type_num_inj e1
      subst e1
      have := type_kind ht (valid_type va)
      subst this
      exact ⟨m, (m2 m).2 ⟨hm, concerns_entry.2 hx, rfl⟩, rfl⟩
    · obtain ⟨x, hxE, rfl, hno⟩ := ho k hx
      have hv := hE.valid _ hxE
      obtain ⟨h, rfl⟩ := (type_prefix hf hr1 hr2 hv).1 hp
      obtain ⟨m, hm, hx⟩ := entry_exists ht h0 hf hv.2.2.2
      exact absurd hx (hno kind m hm)

/-- The trie's count for a user and a message type. -/
theorem type_count (hch : ChannelNaming channelOf) (hU : HashesAlone U) (hE : EntriesFit sha256 E)
    (hmE : ∀ (kind : StoreKind) m, kind.Valid m → U m → ∀ x ∈ m.entries, E x)
    {L0 L : StoreKind → List Msg} {ks o : KeySets} {s : StoreTrie} (h : ShardMirror H sha256 channelOf ctx U E L0 L ks o s)
    {kind : StoreKind} {ty : MessageType} (ht : ty ∈ kind.types) {fid : Nat} (h0 : 0 < fid) (hf : fid < 2 ^ 32)
    (hne : s.store.NotEmptied (kind.store channelOf) ctx fid ty) :
    NumberOf (fun m => s.store.Has (kind.store channelOf) m ∧ m.concerns fid ∧ m.ty = ty)
      (s.trie.getCount (trieKeyType sha256 fid (UInt8.ofNat ty.num))) := by
  have hlaw := kind_lawful (channelOf := channelOf) kind hch hU.identify
  have hhas : ∀ m, s.store.Has (kind.store channelOf) m ↔ m ∈ L kind := (h.store kind).has_iff hlaw
  have hhas0 : ∀ m, (s.store.exec (kind.store channelOf) ctx .drop).Has (kind.store channelOf) m ↔ m ∈ L0 kind :=
    (safeIn_drop (h.store kind) (kind.store channelOf) ctx).has_iff hlaw
  have hlen : (trieKeyType sha256 fid (UInt8.ofNat ty.num)).length ≤ 6 := by simp [trieKeyType, trieKeyFid, makeFidKey]
  obtain ⟨c1, c2⟩ := count_pending h.trie _ hlen
  obtain ⟨t, t', _, _, _, _, hh, _⟩ := h.trie.cached
  obtain ⟨_, _, hh0, _⟩ := h.trie.disk
  have n1 := keys_count hU hE hmE h.current hh.1 (fun j => (h.store j).holds.valid) h.foreign ht h0 hf
  have n0 := keys_count hU hE hmE h.committed hh0.1 (fun j => (h.store j).committed.valid) h.foreign0 ht h0 hf
  by_cases hex : ∃ k ∈ ks.current, trieKeyType sha256 fid (UInt8.ofNat ty.num) <+: k
  · rw [c1 hex]
    exact n1.congr (fun m => by rw [hhas])
  · have hno : ∀ k ∈ ks.current, ¬ trieKeyType sha256 fid (UInt8.ofNat ty.num) <+: k := fun k hk hp => hex ⟨k, hk, hp⟩
    have hz : (ks.current.filter (fun k => (trieKeyType sha256 fid (UInt8.ofNat ty.num)).isPrefixOf k)).length = 0 := by
      rw [List.length_eq_zero_iff, List.filter_eq_nil_iff]
      intro k hk; simpa [List.isPrefixOf_iff_prefix] using hno k hk
    rw [hz] at n1
    have none1 : ∀ m, ¬ (m ∈ L kind ∧ m.concerns fid ∧ m.ty = ty) := by
      obtain ⟨l, _, l2, l3⟩ := n1
      rw [List.length_eq_zero_iff] at l3
      subst l3
      intro m hm; exact absurd ((l2 m).2 hm) (by simp)
    have none0 : ∀ m, ¬ (m ∈ L0 kind ∧ m.concerns fid ∧ m.ty = ty) := by
      rcases hne with ⟨m, h1, h2⟩ | hne
      · exact absurd ⟨(hhas m).1 h1, h2⟩ (none1 m)
      · intro m hm; exact hne m ((hhas0 m).2 hm.1) hm.2
    have z : s.trie.getCount (trieKeyType sha256 fid (UInt8.ofNat ty.num)) = 0 := by
      rcases c2 hno with e | e
      · exact e
      · rw [e]; exact n0.unique (NumberOf.zero none0)
    rw [z]
    exact NumberOf.zero (fun m hm => none1 m ⟨(hhas m).1 hm.1, hm.2⟩)

/-- No entry of a compact link state counts among the user's. -/
theorem compact_count (hE : EntriesFit sha256 E) (hmE : ∀ (kind : StoreKind) m, kind.Valid m → U m → ∀ x ∈ m.entries, E x)
    {L0 L : StoreKind → List Msg} {ks o : KeySets} {s : StoreTrie} (h : ShardMirror H sha256 channelOf ctx U E L0 L ks o s)
    {fid : Nat} (hf : fid < 2 ^ 32)
    (hno : ∀ hash, (TrieEntry.message fid MessageType.linkCompactState.num hash).key sha256 ∉ o.current ∧
      (TrieEntry.message fid MessageType.linkCompactState.num hash).key sha256 ∉ o.committed) :
    s.trie.getCount (trieKeyType sha256 fid (UInt8.ofNat MessageType.linkCompactState.num)) = 0 := by
  have hlen : (trieKeyType sha256 fid (UInt8.ofNat MessageType.linkCompactState.num)).length ≤ 6 := by simp [trieKeyType, trieKeyFid, makeFidKey]
  have none : ∀ {keys : List Bytes} {L : StoreKind → List Msg} {others : List Bytes}, ShardKeysAre sha256 keys L others →
      (∀ j, ∀ m ∈ L j, okIn j U m) → (∀ k ∈ others, ForeignAll sha256 E k) →
      (∀ hash, (TrieEntry.message fid MessageType.linkCompactState.num hash).key sha256 ∉ others) →
      ∀ k ∈ keys, ¬ trieKeyType sha256 fid (UInt8.ofNat MessageType.linkCompactState.num) <+: k := by
    intro keys L others hk hL ho hno k hkk hp
    rcases (hk k).1 hkk with ⟨j, m, hm, hx⟩ | hx
    · rw [keys_entries, List.mem_map] at hx
      obtain ⟨x, hx, rfl⟩ := hx
      obtain ⟨va, ua⟩ := hL _ m hm
      obtain ⟨h, rfl⟩ := (type_prefix hf (by decide) (by decide) (hE.valid _ (hmE j m va ua _ hx))).1 hp
      obtain ⟨f, e⟩ := entries_num hx
      rw [TrieEntry.message.injEq] at e
      have := valid_type va
      rw [← type_num_inj e.2.1] at this
      revert this; cases j <;> decide
    · obtain ⟨x, hxE, rfl, _⟩ := ho k hx
      obtain ⟨h, rfl⟩ := (type_prefix hf (by decide) (by decide) (hE.valid _ hxE)).1 hp
      exact hno h hx
  obtain ⟨_, c2⟩ := count_pending h.trie _ hlen
  rcases c2 (none h.current (fun j => (h.store j).holds.valid) h.foreign (fun x => (hno x).1)) with e | e
  · exact e
  · rw [e, List.length_eq_zero_iff, List.filter_eq_nil_iff]
    intro k hk
    have := none h.committed (fun j => (h.store j).committed.valid) h.foreign0 (fun x => (hno x).2) k hk
    simpa [List.isPrefixOf_iff_prefix] using this

/-- The usage of a store. -/
theorem usage_number (hch : ChannelNaming channelOf) (hU : HashesAlone U) (hE : EntriesFit sha256 E)
    (hmE : ∀ (kind : StoreKind) m, kind.Valid m → U m → ∀ x ∈ m.entries, E x)
    {L0 L : StoreKind → List Msg} {ks o : KeySets} {s : StoreTrie} (h : ShardMirror H sha256 channelOf ctx U E L0 L ks o s)
    {kind : StoreKind} {fid : Nat} (h0 : 0 < fid) (hf : fid < 2 ^ 32)
    (hne : ∀ ty ∈ kind.types, s.store.NotEmptied (kind.store channelOf) ctx fid ty)
    (hno : kind = .links → ∀ hash, (TrieEntry.message fid MessageType.linkCompactState.num hash).key sha256 ∉ o.current ∧
      (TrieEntry.message fid MessageType.linkCompactState.num hash).key sha256 ∉ o.committed) :
    ∃ n, NumberOf (fun m => s.store.Has (kind.store channelOf) m ∧ m.concerns fid) n ∧
      usageOf sha256 s.trie fid kind.limit = UInt32.ofNat n := by
  have hlaw := kind_lawful (channelOf := channelOf) kind hch hU.identify
  have hty : ∀ m, s.store.Has (kind.store channelOf) m → m.ty ∈ kind.types := fun m hm =>
    valid_type ((h.store kind).holds.valid m (((h.store kind).has_iff hlaw m).1 hm)).1
  have one : ∀ ty ∈ kind.types, _ := fun ty ht => type_count hch hU hE hmE h ht h0 hf (hne ty ht)
  have two : ∀ a b : MessageType, kind.types = [a, b] → a ≠ b →
      NumberOf (fun m => s.store.Has (kind.store channelOf) m ∧ m.concerns fid)
        (s.trie.getCount (trieKeyType sha256 fid (UInt8.ofNat a.num)) + s.trie.getCount (trieKeyType sha256 fid (UInt8.ofNat b.num))) := by
    intro a b e hab
    refine ((one a (by rw [e]; simp)).or (one b (by rw [e]; simp)) ?_).congr ?_
    · rintro m ⟨_, _, h1⟩ ⟨_, _, h2⟩; exact hab (h1.symm.trans h2)
    · intro m
      constructor
      · rintro (⟨h1, h2, _⟩ | ⟨h1, h2, _⟩) <;> exact ⟨h1, h2⟩
      · rintro ⟨h1, h2⟩
        have := hty m h1
        rw [e, List.mem_cons, List.mem_singleton] at this
        exact this.imp (fun h3 => ⟨h1, h2, h3⟩) (fun h3 => ⟨h1, h2, h3⟩)
  have only : ∀ a : MessageType, kind.types = [a] →
      NumberOf (fun m => s.store.Has (kind.store channelOf) m ∧ m.concerns fid) (s.trie.getCount (trieKeyType sha256 fid (UInt8.ofNat a.num))) := by
    intro a e
    refine (one a (by rw [e]; simp)).congr (fun m => ⟨fun ⟨h1, h2, _⟩ => ⟨h1, h2⟩, fun ⟨h1, h2⟩ => ⟨h1, h2, ?_⟩⟩)
    have := hty m h1
    rw [e, List.mem_singleton] at this
    exact this
  have z : ∀ x : UInt32, 0 + x = x := fun x => by simp
  cases kind with
  | casts => exact ⟨_, two _ _ rfl (by decide), by simp only [usageOf, StoreKind.limit, typesOf, List.foldl, z, UInt32.ofNat_add]⟩
  | reactions => exact ⟨_, two _ _ rfl (by decide), by simp only [usageOf, StoreKind.limit, typesOf, List.foldl, z, UInt32.ofNat_add]⟩
  | verifications => exact ⟨_, two _ _ rfl (by decide), by simp only [usageOf, StoreKind.limit, typesOf, List.foldl, z, UInt32.ofNat_add]⟩
  | links =>
    refine ⟨_, two _ _ rfl (by decide), ?_⟩
    simp only [usageOf, StoreKind.limit, typesOf, List.foldl, z, UInt32.ofNat_add, compact_count hE hmE h hf (hno rfl)]
    simp
  | userData => exact ⟨_, only _ rfl, by simp only [usageOf, StoreKind.limit, typesOf, List.foldl, z]⟩
  | lends => exact ⟨_, only _ rfl, by simp only [usageOf, StoreKind.limit, typesOf, List.foldl, z]⟩

theorem concerns_author {kind : StoreKind} (hk : kind ≠ .lends) {m : Msg} (hm : kind.Valid m) {fid : Nat} :
    m.concerns fid ↔ m.fid = fid := by
  constructor
  · rintro (h | ⟨u, t, h⟩)
    · exact h
    · exfalso
      obtain ⟨_, _, _, _, hb⟩ := hm
      cases kind
      · rcases hb with ⟨_, _, _, hb, _⟩ | ⟨_, _, hb, _⟩ <;> (rw [h] at hb; cases hb)
      · obtain ⟨_, _, _, hb, _⟩ := hb; rw [h] at hb; cases hb
      · obtain ⟨_, _, _, hb, _⟩ := hb; rw [h] at hb; cases hb
      · rcases hb with ⟨_, _, hb, _⟩ | ⟨_, _, hb, _⟩ <;> (rw [h] at hb; cases hb)
      · obtain ⟨_, _, _, hb, _⟩ := hb; rw [h] at hb; cases hb
      · exact hk rfl
  · exact .inl

end Verif
