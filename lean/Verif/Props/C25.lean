import Verif.Spec.TrieKey
import Verif.Spec.Trie
import Verif.Lemmas.Bytes
/-!
C25: trie keys identify entries.  Keys of different entries differ, and no key starts with another; decoding a key
returns the virtual shard, fid, kind, type and remaining bytes it was made from; and the keys are of the shape that
the trie theorems (C20 to C24) ask for: 26 or 42 bytes.
-/
namespace Verif

theorem C25_decode_message (sha256 : Bytes → Bytes) (fid ty : Nat) (hash : Bytes) (h : (TrieEntry.message fid ty hash).Valid) :
    decodeTrieKey (trieKeyMessage sha256 fid (UInt8.ofNat ty) hash) =
      .ok { virtualShard := fidShard sha256 fid, fid := fid, onchainType := none, messageType := some (UInt8.ofNat ty), rest := hash } := by
  obtain ⟨h1, h2, h3, h4⟩ := h
  have hb : ∀ n : Nat, n < 32 → 1 ≤ n → ¬ (UInt8.ofNat n <<< (3 : UInt8) < 8) ∧
      (UInt8.ofNat n <<< (3 : UInt8)) >>> (3 : UInt8) = UInt8.ofNat n := by decide +kernel
  obtain ⟨b1, b2⟩ := hb ty h3 h2
  have hf : fromBe (be 4 fid) = fid := fromBe_be_of_lt h1
  have ht : ∀ l : Bytes, (be 4 fid ++ l).take 4 = be 4 fid := fun l => by
    rw [List.take_append_of_le_length (by simp), List.take_of_length_le (by simp)]
  have hd : ∀ l : Bytes, (be 4 fid ++ l).drop 4 = l := fun l => by
    rw [List.drop_append_of_le_length (by simp), List.drop_of_length_le (by simp)]; rfl
  unfold decodeTrieKey
  rw [if_neg (by simp [trieKeyMessage, trieKeyType, trieKeyFid, makeFidKey, h4, uncompacted])]
  simp only [trieKeyMessage, trieKeyType, trieKeyFid, makeFidKey, List.cons_append, List.append_assoc, List.nil_append, hd, ht, hf,
    if_neg b1, b2]

theorem C25_decode_onchain (sha256 : Bytes → Bytes) (fid ty : Nat) (tx : Bytes) (log : Nat) (h : (TrieEntry.onchain fid ty tx log).Valid) :
    decodeTrieKey (trieKeyOnchain sha256 fid ty tx log) =
      .ok { virtualShard := fidShard sha256 fid, fid := fid, onchainType := some (UInt8.ofNat ty), messageType := none,
            rest := tx ++ be 4 log } := by
  obtain ⟨h1, h2, h3, h4, h5⟩ := h
  have hb : ∀ n : Nat, n < 7 → UInt8.ofNat n < 8 := by decide
  have b1 := hb ty (by omega)
  have hf : fromBe (be 4 fid) = fid := fromBe_be_of_lt h1
  have ht : ∀ l : Bytes, (be 4 fid ++ l).take 4 = be 4 fid := fun l => by
    rw [List.take_append_of_le_length (by simp), List.take_of_length_le (by simp)]
  have hd : ∀ l : Bytes, (be 4 fid ++ l).drop 4 = l := fun l => by
    rw [List.drop_append_of_le_length (by simp), List.drop_of_length_le (by simp)]; rfl
  unfold decodeTrieKey
  rw [if_neg (by simp [trieKeyOnchain, trieKeyFid, makeFidKey, h4, uncompacted])]
  simp only [trieKeyOnchain, trieKeyFid, makeFidKey, List.cons_append, List.append_assoc, List.nil_append, hd, ht, hf, if_pos b1]

theorem C25_decode_fname (sha256 : Bytes → Bytes) (fid : Nat) (name : Bytes) (h : (TrieEntry.fname fid name).Valid) :
    decodeTrieKey (trieKeyFname sha256 fid name) =
      .ok { virtualShard := fidShard sha256 fid, fid := fid, onchainType := some 7, messageType := none,
            rest := name ++ List.replicate (20 - name.length) 0 } := by
  obtain ⟨h1, h2, h3⟩ := h
  have hf : fromBe (be 4 fid) = fid := fromBe_be_of_lt h1
  have ht : ∀ l : Bytes, (be 4 fid ++ l).take 4 = be 4 fid := fun l => by
    rw [List.take_append_of_le_length (by simp), List.take_of_length_le (by simp)]
  have hd : ∀ l : Bytes, (be 4 fid ++ l).drop 4 = l := fun l => by
    rw [List.drop_append_of_le_length (by simp), List.drop_of_length_le (by simp)]; rfl
  unfold decodeTrieKey
  rw [if_neg (by simp [trieKeyFname, trieKeyFid, makeFidKey, uncompacted, usernameMaxLength]; omega)]
  simp only [trieKeyFname, trieKeyFid, makeFidKey, List.cons_append, List.append_assoc, List.nil_append, hd, ht, hf, fnameMessageType]
  rfl

/-- Padding keeps names apart. -/
theorem padded_inj {a b : Bytes} (ha : a.length ≤ 20) (hb : b.length ≤ 20) (h0 : 0 ∉ a) (h0' : 0 ∉ b)
    (h : a ++ List.replicate (20 - a.length) 0 = b ++ List.replicate (20 - b.length) 0) : a = b := by
  have key : ∀ (n m : Nat) (a b : Bytes), 0 ∉ a → 0 ∉ b → a ++ List.replicate n 0 = b ++ List.replicate m 0 → a = b := by
    intro n m a
    induction a with
    | nil =>
      intro b _ h0' h
      cases b with
      | nil => rfl
      | cons c b =>
        exfalso
        have : c ∈ List.replicate n (0 : UInt8) := by
          have : c ∈ ([] ++ List.replicate n 0 : Bytes) := by rw [h]; simp
          simpa using this
        rw [(List.mem_replicate.1 this).2] at h0'
        simp at h0'
    | cons c a ih =>
      intro b h0 h0' h
      cases b with
      | nil =>
        exfalso
        have : c ∈ List.replicate m (0 : UInt8) := by
          have : c ∈ ([] ++ List.replicate m 0 : Bytes) := by rw [← h]; simp
          simpa using this
        rw [(List.mem_replicate.1 this).2] at h0
        simp at h0
      | cons d b =>
        simp only [List.cons_append, List.cons.injEq] at h
        rw [h.1, ih b (by simp at h0; exact h0.2) (by simp at h0'; exact h0'.2) h.2]
  exact key _ _ a b h0 h0' h

/-- Lengths of keys. -/
theorem C25_key_length (sha256 : Bytes → Bytes) (e : TrieEntry) (h : e.Valid) :
    (e.key sha256).length = 26 ∨ (e.key sha256).length = 42 := by
  cases e with
  | message fid ty hash => left; simp [TrieEntry.key, trieKeyMessage, trieKeyType, trieKeyFid, makeFidKey, h.2.2.2]
  | onchain fid ty tx log => right; simp [TrieEntry.key, trieKeyOnchain, trieKeyFid, makeFidKey, h.2.2.2.1]
  | fname fid name =>
    left
    have := h.2.1
    simp [TrieEntry.key, trieKeyFname, trieKeyFid, makeFidKey, usernameMaxLength]; omega

/-- Different entries have different keys. -/
theorem C25_distinct (sha256 : Bytes → Bytes) (e e' : TrieEntry) (h : e.Valid) (h' : e'.Valid)
    (heq : e.key sha256 = e'.key sha256) : e = e' := by
  have hb : ∀ n m : Nat, n < 32 → m < 32 → UInt8.ofNat n = UInt8.ofNat m → n = m := by
    intro n m hn hm e
    have := congrArg UInt8.toNat e
    simp at this; omega
  cases e with
  | message fid ty hash =>
    have d := C25_decode_message sha256 fid ty hash h
    have d0 : decodeTrieKey ((TrieEntry.message fid ty hash).key sha256) = _ := d
    rw [heq] at d0
    cases e' with
    | message fid' ty' hash' =>
      have d' := C25_decode_message sha256 fid' ty' hash' h'
      rw [show (TrieEntry.message fid' ty' hash').key sha256 = trieKeyMessage sha256 fid' (UInt8.ofNat ty') hash' from rfl, d'] at d0
      simp only [Except.ok.injEq, DecodedTrieKey.mk.injEq, Option.some.injEq] at d0
      rw [d0.2.1, hb _ _ h'.2.2.1 h.2.2.1 d0.2.2.2.1, d0.2.2.2.2]
    | onchain fid' ty' tx log =>
      rw [show (TrieEntry.onchain fid' ty' tx log).key sha256 = trieKeyOnchain sha256 fid' ty' tx log from rfl,
        C25_decode_onchain sha256 fid' ty' tx log h'] at d0
      simp at d0
    | fname fid' name =>
      rw [show (TrieEntry.fname fid' name).key sha256 = trieKeyFname sha256 fid' name from rfl,
        C25_decode_fname sha256 fid' name h'] at d0
      simp at d0
  | onchain fid ty tx log =>
    have d0 : decodeTrieKey ((TrieEntry.onchain fid ty tx log).key sha256) = _ := C25_decode_onchain sha256 fid ty tx log h
    rw [heq] at d0
    cases e' with
    | message fid' ty' hash' =>
      rw [show (TrieEntry.message fid' ty' hash').key sha256 = trieKeyMessage sha256 fid' (UInt8.ofNat ty') hash' from rfl,
        C25_decode_message sha256 fid' ty' hash' h'] at d0
      simp at d0
    | onchain fid' ty' tx' log' =>
      rw [show (TrieEntry.onchain fid' ty' tx' log').key sha256 = trieKeyOnchain sha256 fid' ty' tx' log' from rfl,
        C25_decode_onchain sha256 fid' ty' tx' log' h'] at d0
      simp only [Except.ok.injEq, DecodedTrieKey.mk.injEq, Option.some.injEq] at d0
      obtain ⟨_, e1, e2, _, e3⟩ := d0
      obtain ⟨e4, e5⟩ := List.append_inj e3 (by rw [h'.2.2.2.1, h.2.2.2.1])
      rw [e1, e4, hb _ _ (by have := h'.2.2.1; omega) (by have := h.2.2.1; omega) e2, be_inj h'.2.2.2.2 h.2.2.2.2 e5]
    | fname fid' name =>
      rw [show (TrieEntry.fname fid' name).key sha256 = trieKeyFname sha256 fid' name from rfl,
        C25_decode_fname sha256 fid' name h'] at d0
      simp only [Except.ok.injEq, DecodedTrieKey.mk.injEq, Option.some.injEq] at d0
      have := hb 7 ty (by decide) (by have := h.2.2.1; omega) d0.2.2.1
      have := h.2.2.1; omega
  | fname fid name =>
    have d0 : decodeTrieKey ((TrieEntry.fname fid name).key sha256) = _ := C25_decode_fname sha256 fid name h
    rw [heq] at d0
    cases e' with
    | message fid' ty' hash' =>
      rw [show (TrieEntry.message fid' ty' hash').key sha256 = trieKeyMessage sha256 fid' (UInt8.ofNat ty') hash' from rfl,
        C25_decode_message sha256 fid' ty' hash' h'] at d0
      simp at d0
    | onchain fid' ty' tx' log' =>
      rw [show (TrieEntry.onchain fid' ty' tx' log').key sha256 = trieKeyOnchain sha256 fid' ty' tx' log' from rfl,
        C25_decode_onchain sha256 fid' ty' tx' log' h'] at d0
      simp only [Except.ok.injEq, DecodedTrieKey.mk.injEq, Option.some.injEq] at d0
      have := hb ty' 7 (by have := h'.2.2.1; omega) (by decide) d0.2.2.1
      have := h'.2.2.1; omega
    | fname fid' name' =>
      rw [show (TrieEntry.fname fid' name').key sha256 = trieKeyFname sha256 fid' name' from rfl,
        C25_decode_fname sha256 fid' name' h'] at d0
      simp only [Except.ok.injEq, DecodedTrieKey.mk.injEq, Option.some.injEq] at d0
      rw [d0.2.1, padded_inj h'.2.1 h.2.1 h'.2.2 h.2.2 d0.2.2.2.2]

/-- No key starts with the key of another entry. -/
theorem C25_prefix_free (sha256 : Bytes → Bytes) (e e' : TrieEntry) (h : e.Valid) (h' : e'.Valid)
    (hp : e.key sha256 <+: e'.key sha256) : e = e' := by
  have kind : ∀ e : TrieEntry, e.Valid → ((e.key sha256).length = 26 ↔ ∀ f t x l, e ≠ .onchain f t x l) := by
    intro e h
    cases e with
    | message fid ty hash => simp [TrieEntry.key, trieKeyMessage, trieKeyType, trieKeyFid, makeFidKey, h.2.2.2]
    | onchain fid ty tx log => simp [TrieEntry.key, trieKeyOnchain, trieKeyFid, makeFidKey, h.2.2.2.1]
    | fname fid name =>
      have := h.2.1
      simp [TrieEntry.key, trieKeyFname, trieKeyFid, makeFidKey, usernameMaxLength]; omega
  by_cases hl : (e.key sha256).length = (e'.key sha256).length
  · exact C25_distinct sha256 e e' h h' (hp.eq_of_length hl)
  · exfalso
    -- a shorter key has another type byte
    have hlt := hp.length_le
    have l1 : (e.key sha256).length = 26 := by
      rcases C25_key_length sha256 e h with h1 | h1 <;> rcases C25_key_length sha256 e' h' with h2 | h2 <;> omega
    have l2 : (e'.key sha256).length ≠ 26 := by omega
    have h5 : (e.key sha256)[5]? = (e'.key sha256)[5]? := by
      obtain ⟨t, ht⟩ := hp
      rw [← ht, List.getElem?_append_left (by omega)]
    have oc : ∃ f t x l, e' = .onchain f t x l := by
      refine Classical.byContradiction fun hne => l2 ((kind e' h').2 ?_)
      intro f t x l he
      exact hne ⟨f, t, x, l, he⟩
    obtain ⟨f, t, x, l, rfl⟩ := oc
    have e5 : ((TrieEntry.onchain f t x l).key sha256)[5]? = some (UInt8.ofNat t) := by
      simp [TrieEntry.key, trieKeyOnchain, trieKeyFid, makeFidKey, List.getElem?_append]
    rw [e5] at h5
    have ht : 1 ≤ t ∧ t ≤ 6 := ⟨h'.2.1, h'.2.2.1⟩
    cases e with
    | message fid ty hash =>
      have m5 : ((TrieEntry.message fid ty hash).key sha256)[5]? = some (UInt8.ofNat ty <<< (3 : UInt8)) := by
        simp [TrieEntry.key, trieKeyMessage, trieKeyType, trieKeyFid, makeFidKey, List.getElem?_append]
      rw [m5] at h5
      have : ∀ n : Nat, n < 32 → ∀ m : Nat, m < 7 → 1 ≤ n → UInt8.ofNat n <<< (3 : UInt8) ≠ UInt8.ofNat m := by decide +kernel
      injection h5 with h5
      exact this ty h.2.2.1 t (by omega) h.2.1 h5
    | onchain f' t' x' l' => exact absurd rfl ((kind _ h).1 l1 f' t' x' l')
    | fname fid name =>
      have m5 : ((TrieEntry.fname fid name).key sha256)[5]? = some 7 := by
        simp [TrieEntry.key, trieKeyFname, trieKeyFid, makeFidKey, fnameMessageType, List.getElem?_append]
      rw [m5] at h5
      have : ∀ m : Nat, m < 7 → (7 : UInt8) ≠ UInt8.ofNat m := by decide
      injection h5 with h5
      exact this t (by omega) h5

/-- Histories over keys of valid entries are the histories the trie theorems are about. -/
theorem C25_keys_fit_trie (sha256 : Bytes → Bytes) (ops : List TrieOp) (order : ∀ op ∈ ops, op.FairOrder)
    (h : ∀ k ∈ historyKeys ops, ∃ e : TrieEntry, e.Valid ∧ k = e.key sha256) :
    WellFormedHistory ops ∧ (∀ k ∈ historyKeys ops, k.length % 10 ≠ 0) ∧ ∀ k ∈ historyKeys ops, k.length < 2 ^ 30 := by
  refine ⟨⟨?_, ?_, order⟩, ?_, ?_⟩
  · intro k hk
    obtain ⟨e, hv, rfl⟩ := h k hk
    rcases C25_key_length sha256 e hv with h1 | h1 <;> omega
  · intro k hk k' hk' hp
    obtain ⟨e, hv, rfl⟩ := h k hk
    obtain ⟨e', hv', rfl⟩ := h k' hk'
    rw [C25_prefix_free sha256 e e' hv hv' hp]
  · intro k hk
    obtain ⟨e, hv, rfl⟩ := h k hk
    rcases C25_key_length sha256 e hv with h1 | h1 <;> omega
  · intro k hk
    obtain ⟨e, hv, rfl⟩ := h k hk
    rcases C25_key_length sha256 e hv with h1 | h1 <;> omega

/-- A user's entries are the keys under the user's prefix. -/
theorem C25_fid_prefix (sha256 : Bytes → Bytes) (e : TrieEntry) (h : e.Valid) (fid : Nat) (hf : fid < 2 ^ 32) :
    trieKeyFid sha256 fid <+: e.key sha256 ↔ e.fid = fid := by
  have key : ∀ (f : Nat) (tail : Bytes), f < 2 ^ 32 → (trieKeyFid sha256 fid <+: trieKeyFid sha256 f ++ tail ↔ f = fid) := by
    intro f tail hlt
    constructor
    · rintro ⟨t, ht⟩
      have := (List.append_inj ht (by simp [trieKeyFid, makeFidKey])).1
      simp only [trieKeyFid, makeFidKey, List.cons.injEq] at this
      exact (be_inj hf hlt this.2).symm
    · rintro rfl; exact ⟨tail, rfl⟩
  cases e with
  | message f ty hash => simpa [TrieEntry.key, trieKeyMessage, trieKeyType, TrieEntry.fid] using key f _ h.1
  | onchain f ty tx log => simpa [TrieEntry.key, trieKeyOnchain, TrieEntry.fid] using key f _ h.1
  | fname f name => simpa [TrieEntry.key, trieKeyFname, TrieEntry.fid] using key f _ h.1

/-- A storage loan has one key under each of its two users, other messages one. -/
theorem C25_message_entries (sha256 : Bytes → Bytes) (m : Msg) :
    trieKeysForMessage sha256 m = ((m.fid :: match m.body with | .lend toFid _ _ => [toFid] | _ => []).map
      (fun f => (TrieEntry.message f m.ty.num m.hash).key sha256)) := by
  unfold trieKeysForMessage
  cases m.body <;> rfl

/-- Which entries can be shifted copies of one another in the sense of C24: the virtual shard of the one starts with the
nibble 8, and its fid is the other's shifted by four bits.  Fids below 2^28 so need a shard that ends in the nibble 0, and
the shifted fid divided by sixteen. -/
theorem C25_shifted (sha256 : Bytes → Bytes) (e e' : TrieEntry) (h : e.Valid) (h' : e'.Valid)
    (hs : Shifted (e.key sha256) (e'.key sha256)) :
    (fidShard sha256 e.fid).toNat / 16 = 8 ∧ (fidShard sha256 e.fid).toNat % 16 = (fidShard sha256 e'.fid).toNat / 16 ∧
      e.fid = (fidShard sha256 e'.fid).toNat % 16 * 2 ^ 28 + e'.fid / 16 := by
  have shape : ∀ e : TrieEntry, e.Valid → ∃ a b c d f tail, e.key sha256 = fidShard sha256 e.fid :: a :: b :: c :: d :: f :: tail ∧
      1 ≤ tail.length ∧ e.fid = a.toNat * 256 ^ 3 + b.toNat * 256 ^ 2 + c.toNat * 256 + d.toNat := by
    intro e h
    have four : ∀ n, n < 2 ^ 32 → ∃ a b c d : UInt8, be 4 n = [a, b, c, d] ∧
        n = a.toNat * 256 ^ 3 + b.toNat * 256 ^ 2 + c.toNat * 256 + d.toNat := by
      intro n hn
      refine ⟨_, _, _, _, rfl, ?_⟩
      simp
      omega
    have hl := C25_key_length sha256 e h
    cases e with
    | message f ty hash =>
      obtain ⟨a, b, c, d, e1, e2⟩ := four f h.1
      refine ⟨a, b, c, d, UInt8.ofNat ty <<< (3 : UInt8), hash, ?_, by have := h.2.2.2; omega, e2⟩
      simp [TrieEntry.key, trieKeyMessage, trieKeyType, trieKeyFid, makeFidKey, e1, TrieEntry.fid]
    | onchain f ty tx log =>
      obtain ⟨a, b, c, d, e1, e2⟩ := four f h.1
      refine ⟨a, b, c, d, UInt8.ofNat ty, tx ++ be 4 log, ?_, by simp, e2⟩
      simp [TrieEntry.key, trieKeyOnchain, trieKeyFid, makeFidKey, e1, TrieEntry.fid]
    | fname f name =>
      obtain ⟨a, b, c, d, e1, e2⟩ := four f h.1
      refine ⟨a, b, c, d, fnameMessageType, name ++ List.replicate (usernameMaxLength - name.length) 0, ?_,
        by simp [usernameMaxLength]; omega, e2⟩
      simp [TrieEntry.key, trieKeyFname, trieKeyFid, makeFidKey, e1, TrieEntry.fid]
  obtain ⟨a, b, c, d, f, tail, k1, l1, n1⟩ := shape e h
  obtain ⟨a', b', c', d', f', tail', k2, l2, n2⟩ := shape e' h'
  obtain ⟨g, tail', rfl⟩ : ∃ g t, tail' = g :: t := by
    cases tail' with
    | nil => simp at l2
    | cons g t => exact ⟨g, t, rfl⟩
  rw [Shifted, k1, k2] at hs
  simp only [expandNibbles, List.flatMap_cons, List.cons_append, List.nil_append, List.take_succ_cons,
    List.cons_prefix_cons] at hs
  have hi : ∀ x : UInt8, (x >>> (4 : UInt8)).toNat = x.toNat / 16 := by
    intro x; simp [UInt8.toNat_shiftRight, Nat.shiftRight_eq_div_pow]
  have lo : ∀ x : UInt8, (x &&& (15 : UInt8)).toNat = x.toNat % 16 := by
    intro x
    simp only [UInt8.toNat_and]
    exact Nat.and_two_pow_sub_one_eq_mod x.toNat 4
  obtain ⟨q1, q2, q3, q4, q5, q6, q7, q8, q9, q10, _⟩ := hs
  have t1 := congrArg UInt8.toNat q1
  have t2 := congrArg UInt8.toNat q2
  have t3 := congrArg UInt8.toNat q3
  have t4 := congrArg UInt8.toNat q4
  have t5 := congrArg UInt8.toNat q5
  have t6 := congrArg UInt8.toNat q6
  have t7 := congrArg UInt8.toNat q7
  have t8 := congrArg UInt8.toNat q8
  have t9 := congrArg UInt8.toNat q9
  have t10 := congrArg UInt8.toNat q10
  simp only [hi, lo] at t1 t2 t3 t4 t5 t6 t7 t8 t9 t10
  have := UInt8.toNat_lt d'
  refine ⟨t1.symm, t2.symm, ?_⟩
  have arith : ∀ s a b c d a' b' c' d' : Nat, s % 16 = a / 16 → a' / 16 = a % 16 → a' % 16 = b / 16 → b' / 16 = b % 16 →
      b' % 16 = c / 16 → c' / 16 = c % 16 → c' % 16 = d / 16 → d' / 16 = d % 16 →
      a * 16777216 + b * 65536 + c * 256 + d = s % 16 * 268435456 + (a' * 16777216 + b' * 65536 + c' * 256 + d') / 16 := by
    intros; omega
  have n3 : e'.fid / 16 = (a'.toNat * 16777216 + b'.toNat * 65536 + c'.toNat * 256 + d'.toNat) / 16 := by rw [n2]
  rw [n3, n1]
  exact arith _ _ _ _ _ _ _ _ _ t3 t4 t5 t6 t7 t8 t9 t10

-- entries of every kind
example : (TrieEntry.message 5 1 (List.replicate 20 9)).Valid := ⟨by decide, by decide, by decide, rfl⟩
example : (TrieEntry.onchain 5 3 (List.replicate 32 9) 7).Valid := ⟨by decide, by decide, by decide, rfl, by decide⟩
example : (TrieEntry.fname 5 [97, 98]).Valid := ⟨by decide, by decide, by decide⟩
example : WellFormedHistory [.insert id [(TrieEntry.fname 5 [97, 98]).key id, (TrieEntry.fname 5 [97]).key id]] :=
  (C25_keys_fit_trie id _ (by intro op h; simp at h; subst h; exact fun l => List.Perm.refl l) (by
    intro k hk
    simp [historyKeys, TrieOp.keys] at hk
    rcases hk with rfl | rfl
    · exact ⟨.fname 5 [97, 98], ⟨by decide, by decide, by decide⟩, rfl⟩
    · exact ⟨.fname 5 [97], ⟨by decide, by decide, by decide⟩, rfl⟩)).1

-- with this toy routing an on-chain event of user 2 is a message of user 32 shifted
example : Shifted ((TrieEntry.onchain 2 1 (5 :: List.replicate 31 0) 0).key (fun b => [0, 0, 0, if b = be 4 2 then 0x80 else 0]))
    ((TrieEntry.message 32 2 (0x50 :: List.replicate 19 0)).key (fun b => [0, 0, 0, if b = be 4 2 then 0x80 else 0])) := by decide +kernel

end Verif
