import Verif.Lemmas.TrieCounts
import Verif.Props.C25
import Verif.Case.Trie
/-!
C63: the count and the hash that the trie reports for a prefix, as used for the metadata of a user and of a user's
messages of one type.  On committed state they are those of the set of stored keys with that prefix, for prefixes of up
to six bytes, when no key is another one shifted by the nibble 8 (see C24).  While changes are pending
the count is right as long as a key with the prefix is left.
-/
namespace Verif

/-- After a commit the count for a prefix is the number of keys with that prefix. -/
theorem C63_count (H : Bytes → Bytes) (hH : ∀ x, H x ≠ []) (ops : List TrieOp) (wf : WellFormedHistory ops)
    (noShift : NoShift ops) (hr : ReloadsNonEmpty {} ops) :
    ∃ s, TrieState.new.run H ops = .ok s ∧ ∀ p : Bytes, p.length ≤ 6 →
      s.commit.getCount p = ((keysAfter ops).filter (fun k => p.isPrefixOf k)).length := by
  obtain ⟨s, h1, h2, _⟩ := cache_run hH wf.fit (clear_of_noShift noShift) ops (ks := {}) (cacheInv_new (H := H)) (by simp) (by simp)
    (fun _ h => h) wf.order hr
  refine ⟨s, h1, ?_⟩
  intro p hp
  have hc := cache_commit h2
  obtain ⟨tc, _, hh, _⟩ := hc.disk
  rcases prefix_read hc rfl p hp with ⟨n, r, g, m, e1, e2⟩ | ⟨hno, e⟩
  · have hi : (ofRow r).items = n.items := by
      cases g <;> (simp only [rowOf, Option.some.injEq] at e1; subst e1; rfl)
    rw [TrieState.getCount, e2, Option.map_some, Option.getD_some, hi]
    exact count_under g hh.1 m
  · have h0 : ((keysAfter ops).filter (fun k => p.isPrefixOf k)) = [] := by
      rw [List.filter_eq_nil_iff]
      intro k hk
      have := hno k hk
      simpa [List.isPrefixOf_iff_prefix] using this
    rw [h0]
    rcases e with e | e <;> (rw [TrieState.getCount, e]; rfl)

/-- After commits, two histories that agree on the keys with a prefix report the same hash for it; the hash is empty
exactly when there is no such key. -/
theorem C63_hash (H : Bytes → Bytes) (hH : ∀ x, H x ≠ []) (ops ops' : List TrieOp) (wf : WellFormedHistory ops)
    (wf' : WellFormedHistory ops')
    (noShift : NoShift ops) (hr : ReloadsNonEmpty {} ops)
    (noShift' : NoShift ops') (hr' : ReloadsNonEmpty {} ops') :
    ∃ s s', TrieState.new.run H ops = .ok s ∧ TrieState.new.run H ops' = .ok s' ∧ ∀ p : Bytes, p.length ≤ 6 →
      ((∀ k, p <+: k → (k ∈ keysAfter ops ↔ k ∈ keysAfter ops')) → s.commit.getHash H p = s'.commit.getHash H p) ∧
      (s.commit.getHash H p = [] ↔ ∀ k ∈ keysAfter ops, ¬ p <+: k) := by
  obtain ⟨s, h1, h2, _⟩ := cache_run hH wf.fit (clear_of_noShift noShift) ops (ks := {}) (cacheInv_new (H := H)) (by simp) (by simp)
    (fun _ h => h) wf.order hr
  obtain ⟨s', h1', h2', _⟩ := cache_run hH wf'.fit (clear_of_noShift noShift') ops' (ks := {}) (cacheInv_new (H := H)) (by simp)
    (by simp) (fun _ h => h) wf'.order hr'
  have hsub : ∀ (ops : List TrieOp), (setsAfter ops).current = keysAfter ops := fun _ => rfl
  refine ⟨s, s', h1, h1', ?_⟩
  intro p hp
  have hl : (expandNibbles p).length ≤ uncompacted := by rw [expandNibbles_length]; unfold uncompacted; omega
  -- the hash that is read is the hash of the canonical subtree
  have key : ∀ (s : TrieState) (ops : List TrieOp), WellFormedHistory ops → CacheInv H s (ops.foldl KeySets.step {}) →
      (∀ k ∈ keysAfter ops, k ∈ historyKeys ops) →
      (∃ n, n.Good H (expandNibbles p) ∧ (∀ x, x ∈ n.toList ↔ ∃ k ∈ keysAfter ops, expandNibbles k = x ∧ p <+: k) ∧
        s.commit.getHash H p = nodeHash H n) ∨
      ((∀ k ∈ keysAfter ops, ¬ p <+: k) ∧ s.commit.getHash H p = []) := by
    intro s ops wf h2 hsub
    rcases prefix_read (cache_commit h2) rfl p hp with ⟨n, r, g, m, e1, e2⟩ | ⟨hno, e⟩
    · left
      refine ⟨n, g, m, ?_⟩
      obtain ⟨r', e1', _, e3⟩ := ofRow_rowOf hl g (by
        intro x hx
        obtain ⟨k, hk, rfl, _⟩ := (m x).1 hx
        have h6 := wf.long k (hsub k hk)
        intro e
        have := expandNibbles_length k
        rw [e] at this
        simp at this; omega)
      rw [e1] at e1'
      injection e1' with e1'
      rw [TrieState.getHash, e2, Option.map_some, Option.getD_some, e1', e3]
    · right
      refine ⟨hno, ?_⟩
      rcases e with e | e <;> (rw [TrieState.getHash, e]; rfl)
  have sub : ∀ (ops : List TrieOp), ∀ k ∈ keysAfter ops, k ∈ historyKeys ops := by
    intro ops
    have gen : ∀ (l : List TrieOp) (ks : KeySets) (U : Bytes → Prop), (∀ k ∈ ks.current, U k) → (∀ k ∈ ks.committed, U k) →
        (∀ k ∈ historyKeys l, U k) → ∀ k ∈ (l.foldl KeySets.step ks).current, U k := by
      intro l
      induction l with
      | nil => intro ks U h _ _; exact h
      | cons op l ih =>
        intro ks U hc hd ho
        rw [historyKeys_cons] at ho
        obtain ⟨a, b⟩ := KeySets.step_sub hc hd (fun k hk => ho k (List.mem_append_left _ hk))
        exact ih _ U a b (fun k hk => ho k (List.mem_append_right _ hk))
    exact gen ops {} (· ∈ historyKeys ops) (by simp) (by simp) (fun _ h => h)
  have r1 := key s ops wf h2 (sub ops)
  have r2 := key s' ops' wf' h2' (sub ops')
  constructor
  · intro same
    rcases r1 with ⟨n, g, m, e⟩ | ⟨hno, e⟩ <;> rcases r2 with ⟨n', g', m', e'⟩ | ⟨hno', e'⟩
    · rw [e, e']
      refine g.unique g' (fun x => ?_)
      rw [m, m']
      constructor
      · rintro ⟨k, h, e, hpk⟩; exact ⟨k, (same k hpk).1 h, e, hpk⟩
      · rintro ⟨k, h, e, hpk⟩; exact ⟨k, (same k hpk).2 h, e, hpk⟩
    · obtain ⟨x, hx⟩ := g.exists_mem
      obtain ⟨k, h, _, hpk⟩ := (m x).1 hx
      exact absurd hpk (hno' k ((same k hpk).1 h))
    · obtain ⟨x, hx⟩ := g'.exists_mem
      obtain ⟨k, h, _, hpk⟩ := (m' x).1 hx
      exact absurd hpk (hno k ((same k hpk).2 h))
    · rw [e, e']
  · rcases r1 with ⟨n, g, m, e⟩ | ⟨hno, e⟩
    · rw [e]
      refine ⟨fun h => absurd h (g.hash_ne hH), fun h => ?_⟩
      obtain ⟨x, hx⟩ := g.exists_mem
      obtain ⟨k, hk, _, hpk⟩ := (m x).1 hx
      exact absurd hpk (h k hk)
    · exact ⟨fun _ => hno, fun _ => e⟩

/-- With the empty prefix these are the root hash and the number of items. -/
theorem C63_whole (H : Bytes → Bytes) (hH : ∀ x, H x ≠ []) (ops : List TrieOp) (wf : WellFormedHistory ops)
    (noShift : NoShift ops) (hr : ReloadsNonEmpty {} ops) :
    ∃ s, TrieState.new.run H ops = .ok s ∧ s.items = .ok (s.commit.getCount []) ∧ s.rootHash H = .ok (s.commit.getHash H []) := by
  obtain ⟨s, h1, h2, hU⟩ := cache_run hH wf.fit (clear_of_noShift noShift) ops (ks := {}) (cacheInv_new (H := H)) (by simp) (by simp)
    (fun _ h => h) wf.order hr
  obtain ⟨s2, h1', hc⟩ := C63_count H hH ops wf noShift hr
  rw [h1] at h1'
  injection h1' with h1'
  subst h1'
  obtain ⟨t, hf, hh, e1, e2, _⟩ := cache_reads h2
  refine ⟨s, h1, ?_, ?_⟩
  · rw [e2, hc [] (by simp)]
    congr 1
    rw [show (keysAfter ops).filter (fun k => List.isPrefixOf [] k) = keysAfter ops from
      List.filter_eq_self.2 (fun _ _ => by simp [List.isPrefixOf])]
    rfl
  · rw [e1]
    congr 1
    rcases prefix_read (cache_commit h2) rfl [] (by simp) with ⟨n, r, g, m, e3, e4⟩ | ⟨hno, e⟩
    · have m' : ∀ x, x ∈ n.toList ↔ x ∈ t.toList := by
        intro x
        rw [m, hh.2]
        constructor
        · rintro ⟨k, h, e, _⟩; exact ⟨k, h, e⟩
        · rintro ⟨k, h, e⟩; exact ⟨k, h, e, List.nil_prefix⟩
      obtain ⟨r', e1', _, e5⟩ := ofRow_rowOf (by simp [expandNibbles]) g (by
        intro x hx
        obtain ⟨k, hk, rfl, _⟩ := (m x).1 hx
        have h6 := wf.long k (hU k hk)
        intro e
        have := expandNibbles_length k
        rw [e] at this
        simp at this; omega)
      rw [e3] at e1'
      injection e1' with e1'
      rw [TrieState.getHash, e4, Option.map_some, Option.getD_some, e1', e5]
      have gt : t.Good H [] := by
        rcases hf with rfl | h
        · obtain ⟨x, hx⟩ := g.exists_mem
          exact absurd ((m' x).1 hx) (by simp)
        · exact h
      exact gt.unique g (fun x => (m' x).symm)
    · have ht : t = .empty := by
        rcases hf with h | h
        · exact h
        · obtain ⟨x, hx⟩ := h.exists_mem
          obtain ⟨k, hk, _⟩ := (hh.2 x).1 hx
          exact absurd List.nil_prefix (hno k hk)
      rw [ht]
      rcases e with e | e <;> (rw [TrieState.getHash, e]; rfl)

/-- For the state trie: the count for a user is the number of the user's entries, and the count for a user and message
type is the number of the user's messages of that type. -/
theorem C63_user_counts (H sha256 : Bytes → Bytes) (hH : ∀ x, H x ≠ []) (ops : List TrieOp)
    (order : ∀ op ∈ ops, op.FairOrder) (entries : ∀ k ∈ historyKeys ops, ∃ e : TrieEntry, e.Valid ∧ k = e.key sha256)
    (noShift : NoShift ops) (hr : ReloadsNonEmpty {} ops)
    (es : List TrieEntry) (valid : ∀ e ∈ es, e.Valid) (nodup : es.Nodup)
    (present : ∀ k, k ∈ keysAfter ops ↔ ∃ e ∈ es, e.key sha256 = k) :
    ∃ s, TrieState.new.run H ops = .ok s ∧ ∀ fid, fid < 2 ^ 32 →
      s.commit.getCount (trieKeyFid sha256 fid) = (es.filter (fun e => e.fid = fid)).length ∧
      ∀ ty, 1 ≤ ty → ty < 32 → s.commit.getCount (trieKeyType sha256 fid (UInt8.ofNat ty)) =
        (es.filter (fun e => match e with | .message f t _ => f = fid ∧ t = ty | _ => false)).length := by
  obtain ⟨wf, _, _⟩ := C25_keys_fit_trie sha256 ops order entries
  obtain ⟨s, h1, hc⟩ := C63_count H hH ops wf noShift hr
  obtain ⟨s', h1', h2', _⟩ := cache_run hH wf.fit (clear_of_noShift noShift) ops (ks := {}) (cacheInv_new (H := H)) (by simp) (by simp)
    (fun _ h => h) wf.order hr
  have hnd : (keysAfter ops).Nodup := by
    obtain ⟨t, _, hh, _⟩ := cache_reads h2'
    exact hh.1
  -- counting keys is counting entries
  have count : ∀ (p : Bytes) (q : TrieEntry → Bool), (∀ e ∈ es, (p <+: e.key sha256 ↔ q e = true)) →
      ((keysAfter ops).filter (fun k => p.isPrefixOf k)).length = (es.filter q).length := by
    intro p q hq
    have hn : ((es.filter q).map (TrieEntry.key sha256)).Nodup := by
      rw [List.nodup_iff_pairwise_ne, List.pairwise_map]
      refine (List.nodup_iff_pairwise_ne.1 (nodup.filter q)).imp_of_mem ?_
      intro a b ha hb hne e
      exact hne (C25_distinct sha256 a b (valid a (List.mem_filter.1 ha).1) (valid b (List.mem_filter.1 hb).1) e)
    have e : ∀ k, k ∈ (keysAfter ops).filter (fun k => p.isPrefixOf k) ↔ k ∈ (es.filter q).map (TrieEntry.key sha256) := by
      intro k
      simp only [List.mem_filter, List.mem_map, List.isPrefixOf_iff_prefix, present]
      constructor
      · rintro ⟨⟨e, he, rfl⟩, hp⟩; exact ⟨e, ⟨he, (hq e he).1 hp⟩, rfl⟩
      · rintro ⟨e, ⟨he, hqe⟩, rfl⟩; exact ⟨⟨e, he, rfl⟩, (hq e he).2 hqe⟩
    have a := Tree.Good.length_le_of_subset (hnd.filter (fun k => p.isPrefixOf k)) (fun k hk => (e k).1 hk)
    have b := Tree.Good.length_le_of_subset hn (fun k hk => (e k).2 hk)
    simp only [List.length_map] at a b
    omega
  refine ⟨s, h1, ?_⟩
  intro fid hf
  have hlen : (trieKeyFid sha256 fid).length = 5 := by simp [trieKeyFid, makeFidKey]
  refine ⟨?_, ?_⟩
  · rw [hc _ (by omega)]
    apply count
    intro e he
    rw [C25_fid_prefix sha256 e (valid e he) fid hf]; simp
  · intro ty h1 h2
    rw [hc _ (by simp [trieKeyType, hlen])]
    apply count
    intro e he
    have hv := valid e he
    -- a prefix with a further byte
    have snoc : ∀ (f : Nat) (b c : UInt8) (tail : Bytes), f < 2 ^ 32 →
        (trieKeyFid sha256 fid ++ [c] <+: trieKeyFid sha256 f ++ b :: tail ↔ f = fid ∧ c = b) := by
      intro f b c tail hlt
      constructor
      · rintro ⟨t, ht⟩
        rw [List.append_assoc] at ht
        obtain ⟨a1, a2⟩ := List.append_inj ht (by simp [trieKeyFid, makeFidKey])
        simp only [trieKeyFid, makeFidKey, List.cons.injEq] at a1
        simp only [List.cons_append, List.cons.injEq] at a2
        exact ⟨(be_inj hf hlt a1.2).symm, a2.1⟩
      · rintro ⟨rfl, rfl⟩; exact ⟨tail, by simp⟩
    have hsh : ∀ n : Nat, n < 32 → ∀ m : Nat, m < 32 → UInt8.ofNat n <<< (3 : UInt8) = UInt8.ofNat m <<< (3 : UInt8) → n = m := by
      decide +kernel
    have hsm : ∀ n : Nat, n < 32 → 1 ≤ n → ∀ m : Nat, m < 8 → UInt8.ofNat n <<< (3 : UInt8) ≠ UInt8.ofNat m := by
      decide +kernel
    cases e with
    | message f t hash =>
      have := snoc f (UInt8.ofNat t <<< (3 : UInt8)) (UInt8.ofNat ty <<< (3 : UInt8)) hash hv.1
      simp only [TrieEntry.key, trieKeyMessage, trieKeyType, List.append_assoc, List.cons_append, List.nil_append]
      rw [this]
      simp only [decide_eq_true_eq, Bool.decide_and, Bool.and_eq_true]
      constructor
      · rintro ⟨a, b⟩; exact ⟨a, (hsh ty h2 t hv.2.2.1 b).symm⟩
      · rintro ⟨a, b⟩; exact ⟨a, by rw [b]⟩
    | onchain f t tx log =>
      have := snoc f (UInt8.ofNat t) (UInt8.ofNat ty <<< (3 : UInt8)) (tx ++ be 4 log) hv.1
      simp only [TrieEntry.key, trieKeyOnchain, trieKeyType, List.append_assoc, List.cons_append, List.nil_append]
      rw [this]
      simp only [Bool.false_eq_true, iff_false, not_and]
      intro _
      exact hsm ty h2 h1 t (by have := hv.2.2.1; omega)
    | fname f name =>
      have := snoc f fnameMessageType (UInt8.ofNat ty <<< (3 : UInt8)) (name ++ List.replicate (usernameMaxLength - name.length) 0) hv.1
      simp only [TrieEntry.key, trieKeyFname, trieKeyType, List.append_assoc, List.cons_append, List.nil_append]
      rw [this]
      simp only [Bool.false_eq_true, iff_false, not_and]
      intro _
      exact hsm ty h2 h1 7 (by omega)

/-- While changes are pending: the count is the number of keys with the prefix if there is one; otherwise it is zero or
the number of keys that were committed. -/
theorem C63_pending_count (H : Bytes → Bytes) (hH : ∀ x, H x ≠ []) (ops : List TrieOp) (wf : WellFormedHistory ops)
    (noShift : NoShift ops) (hr : ReloadsNonEmpty {} ops) :
    ∃ s, TrieState.new.run H ops = .ok s ∧ ∀ p : Bytes, p.length ≤ 6 →
      ((∃ k ∈ keysAfter ops, p <+: k) → s.getCount p = ((keysAfter ops).filter (fun k => p.isPrefixOf k)).length) ∧
      ((∀ k ∈ keysAfter ops, ¬ p <+: k) →
        s.getCount p = 0 ∨ s.getCount p = ((setsAfter ops).committed.filter (fun k => p.isPrefixOf k)).length) := by
  obtain ⟨s, h1, h2, _⟩ := cache_run hH wf.fit (clear_of_noShift noShift) ops (ks := {}) (cacheInv_new (H := H)) (by simp) (by simp)
    (fun _ h => h) wf.order hr
  exact ⟨s, h1, fun p hp => count_pending h2 p hp⟩

/-- Before the commit the deletion of the last key does not count: a prefix whose only key has been deleted still reports it. -/
theorem C63_pending_delete :
    ∃ s, TrieState.new.run toyHash [.insert id [caseKey1, caseKey3], .commit, .delete id [caseKey1]] = .ok s ∧
      s.contains caseKey1 = .ok false ∧ s.items = .ok 1 ∧ s.getCount (caseKey1.take 5) = 1 ∧
      s.getHash toyHash (caseKey1.take 5) ≠ [] := by
  have h : (match TrieState.new.run toyHash [.insert id [caseKey1, caseKey3], .commit, .delete id [caseKey1]] with
      | .ok s => (match s.contains caseKey1 with | .ok b => !b | _ => false) &&
          ((match s.items with | .ok n => n == 1 | _ => false) && (s.getCount (caseKey1.take 5) == 1 &&
            s.getHash toyHash (caseKey1.take 5) != []))
      | .error _ => false) = true := by decide +kernel
  cases hs : TrieState.new.run toyHash [.insert id [caseKey1, caseKey3], .commit, .delete id [caseKey1]] with
  | error e => rw [hs] at h; cases h
  | ok s =>
    rw [hs] at h
    simp only [Bool.and_eq_true, beq_iff_eq, bne_iff_ne, ne_eq] at h
    refine ⟨s, rfl, ?_, ?_, h.2.2.1, h.2.2.2⟩
    · cases hc : s.contains caseKey1 with
      | error e => rw [hc] at h; simp at h
      | ok b => rw [hc] at h; simp at h; rw [h.1]
    · cases hc : s.items with
      | error e => rw [hc] at h; simp at h
      | ok b => rw [hc] at h; simp at h; rw [h.2.1]

-- two of the three keys of a history with reloads are left, one of them under the prefix
example : ∃ s, TrieState.new.run toyHash caseReloads = .ok s ∧ s.commit.getCount [0, 0, 0, 0, 0] = 1 ∧
    s.commit.getCount [] = 2 ∧ s.commit.getCount [5] = 0 := by
  obtain ⟨s, h1, h2⟩ := C63_count toyHash toyHash_ne caseReloads caseReloads_wf (by decide) caseReloads_nonEmpty
  exact ⟨s, h1, by rw [h2 _ (by decide)]; decide, by rw [h2 _ (by decide)]; decide, by rw [h2 _ (by decide)]; decide⟩

-- the two histories differ in the keys elsewhere and agree on the hash of the common part
example : ∃ s s', TrieState.new.run toyHash caseReloads = .ok s ∧ TrieState.new.run toyHash [.insert id [caseKey1]] = .ok s' ∧
    s.commit.getHash toyHash [0] = s'.commit.getHash toyHash [0] ∧ s.commit.getHash toyHash [0] ≠ [] ∧
    s.commit.getHash toyHash [5] = [] := by
  obtain ⟨s, s', h1, h2, h3⟩ := C63_hash toyHash toyHash_ne caseReloads [.insert id [caseKey1]] caseReloads_wf
    ⟨by decide, by decide, by intro op h; simp at h; subst h; exact fair_id⟩ (by decide) caseReloads_nonEmpty (by decide)
    (by simp only [ReloadsNonEmpty, TrieOp.IsReload]; decide)
  refine ⟨s, s', h1, h2, (h3 [0] (by decide)).1 ?_, ?_, (h3 [5] (by decide)).2.2 (by decide)⟩
  · have e : keysAfter caseReloads = [caseKey1, caseKey3] := by decide
    have e' : keysAfter [.insert id [caseKey1]] = [caseKey1] := by decide
    intro k hk
    rw [e, e']
    simp only [List.mem_cons, List.not_mem_nil, or_false]
    constructor
    · rintro (h | h)
      · exact h
      · subst h; exact absurd hk (by decide)
    · exact .inl
  · intro h
    exact absurd ((h3 [0] (by decide)).2.1 h caseKey1 (by decide)) (by decide)

/-- Entries of two users: a message, an on-chain event and a name of the first, a message of the second. -/
def caseEntries : List TrieEntry :=
  [.message 3 1 (List.replicate 20 5), .onchain 3 3 (List.replicate 32 6) 2, .fname 3 [97, 98], .message 4 1 (List.replicate 20 9)]

-- three entries of user 3, one of them a message of type 1
example : ∃ s, TrieState.new.run toyHash [.insert id (caseEntries.map (TrieEntry.key (fun b => b)))] = .ok s ∧
    s.commit.getCount (trieKeyFid (fun b => b) 3) = 3 ∧ s.commit.getCount (trieKeyType (fun b => b) 3 1) = 1 ∧
    s.commit.getCount (trieKeyFid (fun b => b) 5) = 0 := by
  have valid : ∀ e ∈ caseEntries, e.Valid := by
    intro e he
    simp only [caseEntries, List.mem_cons, List.not_mem_nil, or_false] at he
    rcases he with rfl | rfl | rfl | rfl <;> (simp only [TrieEntry.Valid]; decide)
  have hist : historyKeys [.insert id (caseEntries.map (TrieEntry.key (fun b => b)))] = caseEntries.map (TrieEntry.key (fun b => b)) := by
    decide
  obtain ⟨s, h1, h2⟩ := C63_user_counts toyHash (fun b => b) toyHash_ne [.insert id (caseEntries.map (TrieEntry.key (fun b => b)))]
    (by intro op h; simp only [List.mem_cons, List.not_mem_nil, or_false] at h; subst h; exact fair_id)
    (by
      intro k hk
      rw [hist] at hk
      obtain ⟨e, he, rfl⟩ := List.mem_map.1 hk
      exact ⟨e, valid e he, rfl⟩)
    (by decide +kernel) (by simp only [ReloadsNonEmpty, TrieOp.IsReload]; decide) caseEntries valid (by decide)
    (by
      intro k
      rw [show keysAfter [.insert id (caseEntries.map (TrieEntry.key (fun b => b)))] = caseEntries.map (TrieEntry.key (fun b => b)) by
        decide]
      exact List.mem_map)
  refine ⟨s, h1, ?_, ?_, ?_⟩
  · rw [(h2 3 (by decide)).1]; decide
  · exact ((h2 3 (by decide)).2 1 (by decide) (by decide)).trans (by decide)
  · rw [(h2 5 (by decide)).1]; decide

end Verif
