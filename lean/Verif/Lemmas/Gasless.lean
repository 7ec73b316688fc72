import Verif.Model.Gasless
import Verif.Lemmas.MapCount
import Verif.Lemmas.Keys
/-! Invariants of the gasless key tables, stated about the view `db.commit txn`. -/
namespace Verif

/-- What reads see: the database with the pending batch applied. -/
def KeyState.view (s : KeyState) : Db GVal := s.db.commit s.txn

/-- Number of record rows of a user (the fid as its 4 key bytes). -/
def recCount (W : Db GVal) (f : Bytes) : Nat := W.countKeys (fun k => (23 :: 105 :: f).isPrefixOf k)

/-- The invariant of the gasless tables. -/
structure KeyInv (W : Db GVal) : Prop where
  recs : ∀ f pk v, f.length = 4 → pk.length = 32 → W.get (23 :: 105 :: (f ++ pk)) = some v →
    ∃ r, v = .record r ∧ validateKeyAddBody r.message = true ∧ r.message.key = pk ∧
      makeFidKey r.message.fid = f
  owner : ∀ pk f, pk.length = 32 → f.length = 4 →
    (W.get (23 :: 106 :: pk) = some (.raw f) ↔ (W.get (23 :: 105 :: (f ++ pk))).isSome = true)
  ownerRaw : ∀ pk v, W.get (23 :: 106 :: pk) = some v → ∃ f, f.length = 4 ∧ v = .raw f
  count : ∀ f, f.length = 4 → W.get (23 :: 107 :: f) =
    if recCount W f = 0 then none else some (.raw (be 4 (recCount W f)))
  cap : ∀ f, f.length = 4 → recCount W f ≤ 1000
  last : ∀ f pk, f.length = 4 → pk.length = 32 →
    ((W.get (23 :: 104 :: (f ++ pk))).isSome = (W.get (23 :: 105 :: (f ++ pk))).isSome)
  lastRaw : ∀ f v, W.get (23 :: 104 :: f) = some v → ∃ b, b.length = 4 ∧ v = .raw b
  nonceRaw : ∀ p f v, (p = 102 ∨ p = 103) → W.get (23 :: p :: f) = some v → ∃ b, b.length = 4 ∧ v = .raw b
  layout : ∀ p x, (W.get (23 :: p :: x)).isSome = true → p ≤ 107 ∧ 102 ≤ p ∧
    (p = 105 → x.length = 36) ∧ (p = 106 → x.length = 32)
  noShort : W.get [23] = none

theorem getKeyRecord_view (db : Db GVal) (t : Txn GVal) (fid : Nat) (pk : Bytes) :
    getKeyRecord db t fid pk =
      if pk.length ≠ 32 then .error .validation else
      match (db.commit t).get (23 :: 105 :: (makeFidKey fid ++ pk)) with
      | none => .ok none
      | some (.record r) => .ok (some r)
      | some (.raw _) => .error .internal := by
  unfold getKeyRecord keyByFidKey
  by_cases hp : pk.length = 32
  · simp only [hp, ne_eq, not_true_eq_false, if_false, Db.get_commit, RowKey.bytes]
    generalize getFromDbOrTxn db t _ = x
    rcases x with _ | (_ | _) <;> rfl
  · simp [hp]

theorem getKeyOwner_view (db : Db GVal) (t : Txn GVal) (pk : Bytes) :
    getKeyOwner db t pk =
      if pk.length ≠ 32 then .error .validation else
      match (db.commit t).get (23 :: 106 :: pk) with
      | none => .ok none
      | some (.raw b) => if b.length ≠ 4 then .error .internal else .ok (some (fromBe b))
      | some (.record _) => .error .internal := by
  unfold getKeyOwner keyByPublicKeyKey
  by_cases hp : pk.length = 32
  · simp only [hp, ne_eq, not_true_eq_false, if_false, Db.get_commit, RowKey.bytes]
    generalize getFromDbOrTxn db t _ = x
    rcases x with _ | (_ | _) <;> rfl
  · simp [hp]

theorem getKeyCount_view (db : Db GVal) (t : Txn GVal) (fid : Nat) :
    getKeyCount db t fid =
      match (db.commit t).get (23 :: 107 :: makeFidKey fid) with
      | none => .ok 0
      | some (.raw b) => if b.length ≠ 4 then .error .internal else .ok (fromBe b)
      | some (.record _) => .error .internal := by
  unfold getKeyCount keyCountKey
  rw [Db.get_commit]; rfl

theorem getLastUsed_view (db : Db GVal) (t : Txn GVal) (fid : Nat) (pk : Bytes) :
    getLastUsed db t fid pk =
      if pk.length ≠ 32 then .error .validation else
      match (db.commit t).get (23 :: 104 :: (makeFidKey fid ++ pk)) with
      | none => .ok none
      | some (.raw b) => if b.length ≠ 4 then .error .internal else .ok (some (fromBe b))
      | some (.record _) => .error .internal := by
  unfold getLastUsed lastUsedKey
  by_cases hp : pk.length = 32
  · simp only [hp, ne_eq, not_true_eq_false, if_false, Db.get_commit, RowKey.bytes]
    generalize getFromDbOrTxn db t _ = x
    rcases x with _ | (_ | _) <;> rfl
  · simp [hp]

theorem getNonce_view (db : Db GVal) (t : Txn GVal) (k : Bytes) :
    getNonce db t k =
      match (db.commit t).get k with
      | none => .ok none
      | some (.raw b) => if b.length ≠ 4 then .error .internal else .ok (some (fromBe b))
      | some (.record _) => .error .internal := by
  unfold getNonce
  rw [Db.get_commit]; rfl

/-- The stored nonce, 0 if absent or unreadable. -/
def nonceVal (W : Db GVal) (k : Bytes) : Nat :=
  match W.get k with
  | some (.raw b) => fromBe b
  | _ => 0

theorem checkAndSetNonce_ok {db : Db GVal} {t t' : Txn GVal} {k : Bytes} {n : UInt32}
    (h : checkAndSetNonce db t k n = .ok t') :
    nonceVal (db.commit t) k < n.toNat ∧ db.commit t' = (db.commit t).put k (.raw (be 4 n.toNat)) := by
  unfold checkAndSetNonce at h
  rw [getNonce_view] at h
  unfold nonceVal
  revert h
  cases hg : (db.commit t).get k with
  | none =>
    simp only
    intro h
    split at h
    · simp at h
    · rename_i hn
      simp only [Except.ok.injEq] at h
      subst h
      exact ⟨by simp at hn; omega, Db.commit_stagePut _ _ _ _⟩
  | some v =>
    cases v with
    | record r => intro h; simp at h
    | raw b =>
      simp only
      intro h
      split at h
      · simp at h
      · rename_i e
        split at e
        · simp at e
        · simp only [Except.ok.injEq] at e
          subst e
          split at h
          · simp at h
          · rename_i hn
            simp only [Except.ok.injEq] at h
            subst h
            exact ⟨by simpa using hn, Db.commit_stagePut _ _ _ _⟩

theorem u32_be (n : UInt32) : fromBe (be 4 n.toNat) = n.toNat :=
  fromBe_be_of_lt (by have := n.toNat_lt; simpa using this)

/-! ### Effects on the view -/

/-- The database after an accepted addition. -/
def addView (W : Db GVal) (m : KeyAddMsg) (rf : Nat) (first : Bool) : Db GVal :=
  let f := makeFidKey m.fid
  let W1 := W.put (23 :: 102 :: f) (.raw (be 4 m.nonce.toNat))
  let W2 := W1.put (23 :: 105 :: (f ++ m.key)) (.record { message := m, requestFid := rf })
  let W3 := W2.put (23 :: 106 :: m.key) (.raw f)
  let W4 := W3.put (23 :: 104 :: (f ++ m.key)) (.raw (be 4 m.timestamp.toNat))
  if first then W4.put (23 :: 107 :: f) (.raw (be 4 (recCount W f + 1))) else W4

/-- The database after an accepted removal whose nonce went to row `nk`. -/
def removeView (W : Db GVal) (m : KeyRemoveMsg) (nk : Bytes) : Db GVal :=
  let f := makeFidKey m.fid
  let W1 := W.put nk (.raw (be 4 m.nonce.toNat))
  let W2 := W1.del (23 :: 105 :: (f ++ m.key))
  let W3 := W2.del (23 :: 106 :: m.key)
  let W4 := W3.del (23 :: 104 :: (f ++ m.key))
  if recCount W f - 1 = 0 then W4.del (23 :: 107 :: f)
  else W4.put (23 :: 107 :: f) (.raw (be 4 (recCount W f - 1)))

theorem makeFidKey_length (fid : Nat) : (makeFidKey fid).length = 4 := by simp [makeFidKey]

theorem validateKeyAddBody_key {m : KeyAddMsg} (h : validateKeyAddBody m = true) : m.key.length = 32 := by
  simp [validateKeyAddBody] at h; omega

theorem validateKeyRemoveBody_key {m : KeyRemoveMsg} (h : validateKeyRemoveBody m = true) :
    m.key.length = 32 := by
  simp [validateKeyRemoveBody] at h; omega

theorem KeyInv.getCount {db : Db GVal} {t : Txn GVal} (h : KeyInv (db.commit t)) (fid : Nat) :
    getKeyCount db t fid = .ok (recCount (db.commit t) (makeFidKey fid)) := by
  rw [getKeyCount_view, h.count _ (makeFidKey_length fid)]
  have := h.cap _ (makeFidKey_length fid)
  by_cases h0 : recCount (db.commit t) (makeFidKey fid) = 0
  · simp [h0]
  · rw [if_neg h0]
    simp only [be_length, ne_eq, not_true_eq_false, if_false]
    rw [fromBe_be_of_lt (by omega)]

/-- Everything an accepted key addition establishes about the state it was accepted in. -/
structure AddAccepted (env : KeyEnv) (W : Db GVal) (m : KeyAddMsg) (rf : Nat) (first : Bool) : Prop where
  nonce : nonceVal W (23 :: 102 :: makeFidKey m.fid) < m.nonce.toNat
  custody : ∃ a, env.recoverAdd m = some a ∧ env.custody m.fid = some a
  offchain : env.onchainSigner m.fid m.key = false
  request : ∃ sg, env.metadata m.metadataType m.metadata m.key m.timestamp = some ⟨rf, sg⟩
  cases : (first = true ∧ W.get (23 :: 106 :: m.key) = none ∧ recCount W (makeFidKey m.fid) < 1000) ∨
    (first = false ∧ W.get (23 :: 106 :: m.key) = some (.raw (makeFidKey m.fid)) ∧
      ∃ r, W.get (23 :: 105 :: (makeFidKey m.fid ++ m.key)) = some (.record r) ∧ r.requestFid = rf)

theorem keyAddChecks_ok {env : KeyEnv} {db : Db GVal} {t : Txn GVal} {m : KeyAddMsg} {rep : Bool}
    {rf : Nat} {prior : Option KeyRecord} (hI : KeyInv (db.commit t)) (hk : m.key.length = 32)
    (h : keyAddChecks env db t m rep = .ok (rf, prior)) :
    (∃ a, env.recoverAdd m = some a ∧ env.custody m.fid = some a) ∧
    env.onchainSigner m.fid m.key = false ∧
    (∃ sg, env.metadata m.metadataType m.metadata m.key m.timestamp = some ⟨rf, sg⟩) ∧
    ((prior = none ∧ (db.commit t).get (23 :: 106 :: m.key) = none ∧
        recCount (db.commit t) (makeFidKey m.fid) < 1000) ∨
     (∃ r, prior = some r ∧ (db.commit t).get (23 :: 106 :: m.key) = some (.raw (makeFidKey m.fid)) ∧
        (db.commit t).get (23 :: 105 :: (makeFidKey m.fid ++ m.key)) = some (.record r) ∧
        r.requestFid = rf)) := by
  unfold keyAddChecks at h
  rw [hI.getCount, getKeyOwner_view, getKeyRecord_view] at h
  simp only [hk, ne_eq, not_true_eq_false, if_false] at h
  split at h
  · simp at h
  · rename_i v hv
    split at h
    · simp at h
    · split at h
      · simp at h
      · rename_i a ha
        split at h
        · simp at h
        · rename_i hc
          split at h
          · simp at h
          · rename_i hoc
            have hb : (∃ a, env.recoverAdd m = some a ∧ env.custody m.fid = some a) :=
              ⟨a, ha, by simpa using hc⟩
            refine ⟨hb, by simpa using hoc, ?_⟩
            split at h
            · simp at h
            · rename_i e
              split at h
              · simp at h
              · rename_i hlt
                · 
                  simp only [Except.ok.injEq, Prod.mk.injEq] at h
                  obtain ⟨h1, h2⟩ := h
                  subst h1
                  refine ⟨⟨v.requestSigner, hv⟩, .inl ⟨h2.symm, ?_, ?_⟩⟩
                  · cases hg : (db.commit t).get (23 :: 106 :: m.key) with
                    | none => rfl
                    | some w =>
                      rw [hg] at e
                      cases w with
                      | record r => simp at e
                      | raw b => simp only at e; split at e <;> simp at e
                  · simp only [maxGaslessKeys] at hlt
                    omega
            · rename_i o e
              split at h
              · simp at h
              · rename_i ho
                split at h
                · simp at h
                · simp at h
                · rename_i r er
                  split at h
                  · simp at h
                  · rename_i hr
                    simp only [Except.ok.injEq, Prod.mk.injEq] at h
                    obtain ⟨h1, h2⟩ := h
                    subst h1
                    refine ⟨⟨v.requestSigner, hv⟩, .inr ⟨r, h2.symm, ?_, ?_, by simpa using hr⟩⟩
                    · cases hg : (db.commit t).get (23 :: 106 :: m.key) with
                      | none => rw [hg] at e; simp at e
                      | some w =>
                        obtain ⟨f, hf, hw⟩ := hI.ownerRaw _ _ hg
                        subst hw
                        rw [hg] at e
                        simp only [hf, ne_eq, not_true_eq_false, if_false, Except.ok.injEq, Option.some.injEq] at e
                        have : f = makeFidKey m.fid := by
                          have h1 := be_fromBe f
                          rw [hf, e] at h1
                          rw [← h1]
                          simp only [makeFidKey]
                          have ho' : o = m.fid := by simpa using ho
                          rw [ho']
                        rw [this]
                    · cases hg : (db.commit t).get (23 :: 105 :: (makeFidKey m.fid ++ m.key)) with
                      | none => rw [hg] at er; simp at er
                      | some w =>
                        rw [hg] at er
                        cases w with
                        | raw b => simp at er
                        | record r' => simp at er; rw [er]

theorem recCount_put_other {W : Db GVal} {f k : Bytes} {v : GVal} (h : ¬ (23 :: 105 :: f) <+: k) :
    recCount (W.put k v) f = recCount W f := by
  unfold recCount
  rw [OMap.countKeys_put]
  have : (23 :: 105 :: f).isPrefixOf k = false := by
    rw [← Bool.not_eq_true, List.isPrefixOf_iff_prefix]; exact h
  simp [this]

theorem recCount_del_other {W : Db GVal} {f k : Bytes} (h : ¬ (23 :: 105 :: f) <+: k) :
    recCount (W.del k) f = recCount W f := by
  have hh := OMap.countKeys_del W (fun k => (23 :: 105 :: f).isPrefixOf k) k
  have : (23 :: 105 :: f).isPrefixOf k = false := by
    rw [← Bool.not_eq_true, List.isPrefixOf_iff_prefix]; exact h
  simp only [this, Bool.false_and, Bool.false_eq_true, if_false] at hh
  unfold recCount
  omega

theorem not_prefix_tag {f x : Bytes} {p : UInt8} (h : p ≠ 105) : ¬ (23 :: 105 :: f) <+: (23 :: p :: x) := by
  intro hh
  have := (List.cons_prefix_cons.1 hh).2
  exact h (List.cons_prefix_cons.1 this).1.symm

theorem prefix_rec {f g pk : Bytes} (hf : f.length = 4) (hg : g.length = 4) :
    (23 :: 105 :: f) <+: (23 :: 105 :: (g ++ pk)) ↔ f = g := by
  rw [List.cons_prefix_cons, List.cons_prefix_cons]
  constructor
  · rintro ⟨_, _, h⟩
    obtain ⟨s, hs⟩ := h
    exact (List.append_inj hs (by omega)).1
  · rintro rfl
    exact ⟨rfl, rfl, List.prefix_append _ _⟩

end Verif
