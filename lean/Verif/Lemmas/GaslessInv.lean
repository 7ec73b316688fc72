import Verif.Lemmas.Gasless
/-! Outcomes of the gasless key operations and preservation of the invariant. -/
namespace Verif

theorem recCount_nonce {W : Db GVal} {f x : Bytes} {p : UInt8} {v : GVal} (h : p ≠ 105) :
    recCount (W.put (23 :: p :: x) v) f = recCount W f := recCount_put_other (not_prefix_tag h)

theorem rec_append_inj {f g a b : Bytes} (hf : f.length = 4) (hg : g.length = 4) :
    f ++ a = g ++ b ↔ f = g ∧ a = b := by
  constructor
  · intro h; exact List.append_inj h (by omega)
  · rintro ⟨rfl, rfl⟩; rfl

/-- Outcome of `mergeKeyAdd`: nothing changed, or accepted with the expected writes. -/
theorem mergeKeyAdd_outcome (env : KeyEnv) (db : Db GVal) (t : Txn GVal) (m : KeyAddMsg) (rep : Bool)
    (hI : KeyInv (db.commit t)) (hv : validateKeyAddBody m = true) :
    (∃ e, mergeKeyAdd env db t m rep = (.error e, t)) ∨
    (∃ rf first old t', mergeKeyAdd env db t m rep = (.ok old, t') ∧
      AddAccepted env (db.commit t) m rf first ∧ db.commit t' = addView (db.commit t) m rf first) := by
  have hk := validateKeyAddBody_key hv
  unfold mergeKeyAdd
  cases hc : keyAddChecks env db t m rep with
  | error e => exact .inl ⟨e, rfl⟩
  | ok p =>
    obtain ⟨rf, prior⟩ := p
    obtain ⟨h1, h2, h3, h4⟩ := keyAddChecks_ok hI hk hc
    simp only
    cases hn : checkAndSetNonce db t (userNonceKey m.fid) m.nonce with
    | error e => exact .inl ⟨e, rfl⟩
    | ok t1 =>
      obtain ⟨hlt, hv1⟩ := checkAndSetNonce_ok hn
      right
      have hacc : AddAccepted env (db.commit t) m rf prior.isNone := by
        refine ⟨hlt, h1, h2, h3, ?_⟩
        rcases h4 with ⟨e, ho, hcap⟩ | ⟨r, e, ho, hr, hrf⟩
        · subst e; exact .inl ⟨rfl, ho, hcap⟩
        · subst e; exact .inr ⟨rfl, ho, r, hr, hrf⟩
      have hw : ∃ t', keyAddWrites db t1 m rf prior.isNone = (.ok (), t') ∧
          db.commit t' = addView (db.commit t) m rf prior.isNone := by
        unfold keyAddWrites putKeyRecord putKeyOwner initLastUsed keyByFidKey keyByPublicKeyKey lastUsedKey
        simp only [hk, ne_eq, not_true_eq_false, if_false]
        cases hp : prior.isNone with
        | false =>
          simp only [Bool.false_eq_true, if_false]
          refine ⟨_, rfl, ?_⟩
          simp only [Db.commit_stagePut, hv1, addView, RowKey.bytes, userNonceKey, Bool.false_eq_true, if_false]
        | true =>
          simp only [if_true, incrementKeyCount]
          rw [getKeyCount_view]
          simp only [Db.commit_stagePut, hv1, RowKey.bytes, userNonceKey, OMap.get_put]
          simp only [List.cons.injEq, true_and, show (107 : UInt8) ≠ 104 by decide,
            show (107 : UInt8) ≠ 106 by decide, show (107 : UInt8) ≠ 105 by decide,
            show (107 : UInt8) ≠ 102 by decide, false_and, if_false]
          rw [hI.count _ (makeFidKey_length _)]
          have hcap := hI.cap _ (makeFidKey_length m.fid)
          generalize hn : recCount (db.commit t) (makeFidKey m.fid) = n at *
          by_cases h0 : n = 0
          · subst h0
            simp only [if_true]
            refine ⟨_, rfl, ?_⟩
            simp only [Db.commit_stagePut, hv1, addView, userNonceKey, keyCountKey, RowKey.bytes, if_true, hn]
            rfl
          · rw [if_neg h0]
            simp only [be_length, ne_eq, not_true_eq_false, if_false]
            refine ⟨_, rfl, ?_⟩
            simp only [Db.commit_stagePut, hv1, addView, userNonceKey, keyCountKey, RowKey.bytes, if_true, hn]
            rw [fromBe_be_of_lt (by omega), Nat.min_eq_left (by omega)]
      obtain ⟨t', e1, e2⟩ := hw
      simp only [e1]
      exact ⟨rf, prior.isNone, _, t', rfl, hacc, e2⟩

/-- What an accepted removal establishes. -/
structure RemoveAccepted (env : KeyEnv) (W : Db GVal) (m : KeyRemoveMsg) (r : KeyRecord) (nk : Bytes) :
    Prop where
  record : W.get (23 :: 105 :: (makeFidKey m.fid ++ m.key)) = some (.record r)
  nonce : nonceVal W nk < m.nonce.toNat
  auth : (m.signatureType = 1 ∧ nk = 23 :: 102 :: makeFidKey m.fid ∧
      ∃ a, env.recoverRemove m = some a ∧ env.custody m.fid = some a) ∨
    (m.signatureType = 2 ∧ nk = 23 :: 103 :: makeFidKey r.requestFid ∧ m.signer = m.key)

theorem mergeKeyRemove_outcome (env : KeyEnv) (db : Db GVal) (t : Txn GVal) (m : KeyRemoveMsg)
    (hI : KeyInv (db.commit t)) (hv : validateKeyRemoveBody m = true) :
    (∃ e, mergeKeyRemove env db t m = (.error e, t)) ∨
    (∃ r nk t', mergeKeyRemove env db t m = (.ok r.message, t') ∧
      RemoveAccepted env (db.commit t) m r nk ∧ db.commit t' = removeView (db.commit t) m nk) := by
  have hk := validateKeyRemoveBody_key hv
  unfold mergeKeyRemove
  rw [getKeyRecord_view]
  simp only [hk, ne_eq, not_true_eq_false, if_false]
  cases hg : (db.commit t).get (23 :: 105 :: (makeFidKey m.fid ++ m.key)) with
  | none => exact .inl ⟨_, rfl⟩
  | some v =>
    obtain ⟨r, hr, -⟩ := hI.recs _ _ _ (makeFidKey_length _) hk hg
    subst hr
    simp only
    cases ha : keyRemoveAuth env db t m r with
    | error e => exact .inl ⟨e, rfl⟩
    | ok t1 =>
      right
      have : ∃ nk, RemoveAccepted env (db.commit t) m r nk ∧
          db.commit t1 = (db.commit t).put nk (.raw (be 4 m.nonce.toNat)) := by
        unfold keyRemoveAuth at ha
        split at ha
        · rename_i h1
          split at ha
          · simp at ha
          · rename_i a hrec
            split at ha
            · simp at ha
            · rename_i hc
              obtain ⟨hlt, hv1⟩ := checkAndSetNonce_ok ha
              exact ⟨_, ⟨hg, hlt, .inl ⟨h1, rfl, a, hrec, by simpa using hc⟩⟩, hv1⟩
        · split at ha
          · rename_i h2
            split at ha
            · simp at ha
            · rename_i hs
              obtain ⟨hlt, hv1⟩ := checkAndSetNonce_ok ha
              exact ⟨_, ⟨hg, hlt, .inr ⟨h2, rfl, by simpa using hs⟩⟩, hv1⟩
          · simp at ha
      obtain ⟨nk, hacc, hv1⟩ := this
      have hnk : ∀ x, nk ≠ 23 :: 107 :: x := by
        intro x e
        rcases hacc.auth with ⟨_, h, _⟩ | ⟨_, h, _⟩ <;> rw [h] at e <;> simp at e
      have hnk' : ∀ x, ¬ (23 :: 107 :: x = nk) := fun x e => hnk x e.symm
      have hw : ∃ t', keyRemoveWrites db t1 m.fid m.key = (.ok (), t') ∧
          db.commit t' = removeView (db.commit t) m nk := by
        unfold keyRemoveWrites deleteKeyRecord deleteKeyOwner deleteLastUsed keyByFidKey keyByPublicKeyKey
          lastUsedKey decrementKeyCount
        simp only [hk, ne_eq, not_true_eq_false, if_false]
        rw [getKeyCount_view]
        simp only [Db.commit_stageDel, hv1, RowKey.bytes, OMap.get_put, OMap.get_del]
        simp only [hnk', if_false]
        simp only [List.cons.injEq, true_and, show (107 : UInt8) ≠ 104 by decide,
          show (107 : UInt8) ≠ 106 by decide, show (107 : UInt8) ≠ 105 by decide, false_and, if_false]
        rw [hI.count _ (makeFidKey_length _)]
        have hcap := hI.cap _ (makeFidKey_length m.fid)
        generalize hn : recCount (db.commit t) (makeFidKey m.fid) = n at *
        by_cases h0 : n = 0
        · subst h0
          simp only [if_true]
          refine ⟨_, rfl, ?_⟩
          simp only [Db.commit_stageDel, hv1, removeView, keyCountKey, RowKey.bytes, hn, if_true]
        · rw [if_neg h0]
          simp only [be_length, ne_eq, not_true_eq_false, if_false]
          rw [fromBe_be_of_lt (by omega)]
          by_cases h1 : n - 1 = 0
          · simp only [h1, if_true]
            refine ⟨_, rfl, ?_⟩
            simp only [Db.commit_stageDel, hv1, removeView, keyCountKey, RowKey.bytes, hn, h1, if_true]
          · simp only [h1, if_false]
            refine ⟨_, rfl, ?_⟩
            simp only [Db.commit_stageDel, Db.commit_stagePut, hv1, removeView, keyCountKey, RowKey.bytes, hn, h1, if_false]
      obtain ⟨t', e1, e2⟩ := hw
      simp only [e1]
      exact ⟨r, nk, t', rfl, hacc, e2⟩

/-- Outcome of an accepted use of a key. -/
theorem useKey_ok {env : KeyEnv} {db : Db GVal} {t t' : Txn GVal} {fid : Nat} {pk : Bytes}
    {ty : MessageType} {ts : UInt32} {bt : Nat} (hI : KeyInv (db.commit t))
    (h : useKey env db t fid pk ty ts bt = .ok t') :
    (env.onchainSigner fid pk = true ∧ t' = t) ∨
    (env.onchainSigner fid pk = false ∧ pk.length = 32 ∧ ∃ r L,
      (db.commit t).get (23 :: 105 :: (makeFidKey fid ++ pk)) = some (.record r) ∧
      validateKeyAddBody r.message = true ∧
      L.length = 4 ∧ (db.commit t).get (23 :: 104 :: (makeFidKey fid ++ pk)) = some (.raw L) ∧
      (ActiveKey.gasless (computeScopesMask r.message.scopes) r.message.ttl).admits ty = true ∧
      bt ≤ fromBe L + r.message.ttl.toNat ∧
      db.commit t' = if ts.toNat > fromBe L + 300
        then (db.commit t).put (23 :: 104 :: (makeFidKey fid ++ pk)) (.raw (be 4 ts.toNat))
        else db.commit t) := by
  unfold useKey getActiveKey at h
  by_cases ho : env.onchainSigner fid pk = true
  · left
    simp only [ho, if_true] at h
    simp only [ActiveKey.admits, if_true] at h
    injection h with h
    exact ⟨ho, h.symm⟩
  · right
    have ho' : env.onchainSigner fid pk = false := by simpa using ho
    rw [ho'] at h
    simp only [Bool.false_eq_true, if_false] at h
    rw [getKeyRecord_view] at h
    by_cases hk : pk.length = 32
    · simp only [hk, ne_eq, not_true_eq_false, if_false] at h
      cases hg : (db.commit t).get (23 :: 105 :: (makeFidKey fid ++ pk)) with
      | none => rw [hg] at h; simp at h
      | some v =>
        obtain ⟨r, hr, hval, -⟩ := hI.recs _ _ _ (makeFidKey_length _) hk hg
        subst hr
        rw [hg] at h
        simp only at h
        split at h
        · rename_i hadm
          have hl := hI.last _ _ (makeFidKey_length fid) hk
          rw [hg] at hl
          obtain ⟨w, hw⟩ := Option.isSome_iff_exists.1 hl
          obtain ⟨L, hL, hLw⟩ := hI.lastRaw _ _ hw
          subst hLw
          have httl : r.message.ttl.toNat > 0 := by
            simp [validateKeyAddBody] at hval
            omega
          rw [if_pos httl] at h
          unfold checkAndBump lastUsedKey at h
          simp only [hk, ne_eq, not_true_eq_false, if_false] at h
          rw [← Db.get_commit] at h
          simp only [RowKey.bytes] at h
          rw [hw] at h
          simp only [hL, not_true_eq_false, if_false] at h
          split at h
          · simp at h
          · rename_i hexp
            refine ⟨ho', hk, r, L, rfl, hval, hL, hw, hadm, by omega, ?_⟩
            simp only [ttlThrottle] at h
            by_cases hb : ts.toNat > fromBe L + 300
            · simp only [hb, if_true] at h
              injection h with h
              rw [if_pos hb, ← h, Db.commit_stagePut]
            · simp only [hb, if_false] at h
              injection h with h
              rw [if_neg hb, h]
        · simp at h
    · simp only [ne_eq, hk, not_false_eq_true, if_true] at h
      simp at h


/-! ### Reads after the writes -/

section reads
variable {W : Db GVal} {m : KeyAddMsg} {rf : Nat} {first : Bool}

theorem addView_get (k : Bytes) : (addView W m rf first).get k =
    if k = 23 :: 107 :: makeFidKey m.fid ∧ first = true then
      some (.raw (be 4 (recCount W (makeFidKey m.fid) + 1)))
    else if k = 23 :: 104 :: (makeFidKey m.fid ++ m.key) then some (.raw (be 4 m.timestamp.toNat))
    else if k = 23 :: 106 :: m.key then some (.raw (makeFidKey m.fid))
    else if k = 23 :: 105 :: (makeFidKey m.fid ++ m.key) then some (.record { message := m, requestFid := rf })
    else if k = 23 :: 102 :: makeFidKey m.fid then some (.raw (be 4 m.nonce.toNat))
    else W.get k := by
  unfold addView
  cases first <;> simp [OMap.get_put]

theorem addView_count (hk : m.key.length = 32) (f : Bytes) (hf : f.length = 4) :
    recCount (addView W m rf first) f = recCount W f +
      (if f = makeFidKey m.fid ∧ W.get (23 :: 105 :: (makeFidKey m.fid ++ m.key)) = none then 1 else 0) := by
  have hc : recCount (addView W m rf first) f = recCount
      ((W.put (23 :: 102 :: makeFidKey m.fid) (.raw (be 4 m.nonce.toNat))).put
        (23 :: 105 :: (makeFidKey m.fid ++ m.key)) (.record { message := m, requestFid := rf })) f := by
    unfold addView
    cases first <;> simp [recCount_nonce]
  rw [hc]
  unfold recCount
  rw [OMap.countKeys_put, show (W.put (23 :: 102 :: makeFidKey m.fid) (.raw (be 4 m.nonce.toNat))).get
    (23 :: 105 :: (makeFidKey m.fid ++ m.key)) = W.get (23 :: 105 :: (makeFidKey m.fid ++ m.key)) by
      rw [OMap.get_put]; simp]
  have h1 := recCount_nonce (W := W) (f := f) (x := makeFidKey m.fid) (p := 102) (v := .raw (be 4 m.nonce.toNat)) (by decide)
  unfold recCount at h1
  rw [h1]
  congr 1
  have h2 := prefix_rec (pk := m.key) hf (makeFidKey_length m.fid)
  by_cases hff : f = makeFidKey m.fid
  · have : (23 :: 105 :: f).isPrefixOf (23 :: 105 :: (makeFidKey m.fid ++ m.key)) = true := by
      rw [List.isPrefixOf_iff_prefix]; exact h2.2 hff
    rw [this]
    cases W.get (23 :: 105 :: (makeFidKey m.fid ++ m.key)) <;> simp [hff]
  · have : (23 :: 105 :: f).isPrefixOf (23 :: 105 :: (makeFidKey m.fid ++ m.key)) = false := by
      rw [← Bool.not_eq_true, List.isPrefixOf_iff_prefix]; exact fun h => hff (h2.1 h)
    rw [this]
    simp [hff]
end reads

section removes
variable {W : Db GVal} {m : KeyRemoveMsg} {nk : Bytes}

theorem removeView_get (k : Bytes) : (removeView W m nk).get k =
    if k = 23 :: 107 :: makeFidKey m.fid then
      (if recCount W (makeFidKey m.fid) - 1 = 0 then none
       else some (.raw (be 4 (recCount W (makeFidKey m.fid) - 1))))
    else if k = 23 :: 104 :: (makeFidKey m.fid ++ m.key) then none
    else if k = 23 :: 106 :: m.key then none
    else if k = 23 :: 105 :: (makeFidKey m.fid ++ m.key) then none
    else if k = nk then some (.raw (be 4 m.nonce.toNat))
    else W.get k := by
  unfold removeView
  by_cases h : recCount W (makeFidKey m.fid) - 1 = 0 <;> simp [OMap.get_put, OMap.get_del, h]

theorem removeView_count {p : UInt8} {x : Bytes} (hnk : nk = 23 :: p :: x) (hp : p ≠ 105) (f : Bytes) (hf : f.length = 4) :
    recCount (removeView W m nk) f +
      (if f = makeFidKey m.fid ∧ (W.get (23 :: 105 :: (makeFidKey m.fid ++ m.key))).isSome then 1 else 0)
      = recCount W f := by
  have hc : recCount (removeView W m nk) f = recCount
      ((W.put nk (.raw (be 4 m.nonce.toNat))).del (23 :: 105 :: (makeFidKey m.fid ++ m.key))) f := by
    by_cases h : recCount W (makeFidKey m.fid) - 1 = 0 <;> simp [removeView, h, recCount_nonce, recCount_del_other (not_prefix_tag (f := f) (p := 104) (by decide)),
      recCount_del_other (not_prefix_tag (f := f) (p := 106) (by decide)),
      recCount_del_other (not_prefix_tag (f := f) (p := 107) (by decide))]
  rw [hc]
  have h1 := recCount_nonce (W := W) (f := f) (x := x) (p := p) (v := .raw (be 4 m.nonce.toNat)) hp
  have h3 := OMap.countKeys_del (W.put nk (.raw (be 4 m.nonce.toNat)))
    (fun k => (23 :: 105 :: f).isPrefixOf k) (23 :: 105 :: (makeFidKey m.fid ++ m.key))
  rw [show (W.put nk (.raw (be 4 m.nonce.toNat))).get
    (23 :: 105 :: (makeFidKey m.fid ++ m.key)) = W.get (23 :: 105 :: (makeFidKey m.fid ++ m.key)) by
      rw [OMap.get_put, hnk]; simp [Ne.symm hp]] at h3
  subst hnk
  unfold recCount at *
  rw [h1] at h3
  rw [← h3]
  congr 1
  have h2 := prefix_rec (pk := m.key) hf (makeFidKey_length m.fid)
  by_cases hff : f = makeFidKey m.fid
  · have : (23 :: 105 :: f).isPrefixOf (23 :: 105 :: (makeFidKey m.fid ++ m.key)) = true := by
      rw [List.isPrefixOf_iff_prefix]; exact h2.2 hff
    rw [hff] at this
    simp only [this, Bool.true_and, hff, true_and]
  · have : (23 :: 105 :: f).isPrefixOf (23 :: 105 :: (makeFidKey m.fid ++ m.key)) = false := by
      rw [← Bool.not_eq_true, List.isPrefixOf_iff_prefix]; exact fun h => hff (h2.1 h)
    simp [this, hff]
end removes

/-! ### Preservation -/

theorem KeyInv.addView {env : KeyEnv} {W : Db GVal} {m : KeyAddMsg} {rf : Nat} {first : Bool}
    (hI : KeyInv W) (hv : validateKeyAddBody m = true) (ha : AddAccepted env W m rf first) :
    KeyInv (addView W m rf first) := by
  have hk := validateKeyAddBody_key hv
  have hfl := makeFidKey_length m.fid
  -- the record row exists exactly on resubmission
  have hrec : first = true ↔ W.get (23 :: 105 :: (makeFidKey m.fid ++ m.key)) = none := by
    rcases ha.cases with ⟨h1, h2, _⟩ | ⟨h1, _, r, h3, _⟩
    · simp only [h1, true_iff]
      cases hg : W.get (23 :: 105 :: (makeFidKey m.fid ++ m.key)) with
      | none => rfl
      | some v =>
        have := (hI.owner m.key _ hk hfl).2 (by rw [hg]; rfl)
        rw [h2] at this; simp at this
    · simp [h1, h3]
  have hcapf : first = true → recCount W (makeFidKey m.fid) < 1000 := by
    intro hf
    rcases ha.cases with ⟨_, _, h⟩ | ⟨h, _⟩
    · exact h
    · rw [hf] at h; simp at h
  have hcnt := fun f hf => addView_count (W := W) (m := m) (rf := rf) (first := first) hk f hf
  have hown : ∀ g, g.length = 4 → (W.get (23 :: 105 :: (g ++ m.key))).isSome = true → g = makeFidKey m.fid := by
    intro g hg hs
    have h1 := (hI.owner m.key g hk hg).2 hs
    rcases ha.cases with ⟨_, h2, _⟩ | ⟨_, h2, _⟩
    · rw [h2] at h1; simp at h1
    · rw [h2] at h1; simpa using h1.symm
  constructor
  · intro f pk v hf hpk hg
    rw [addView_get] at hg
    simp only [List.cons.injEq, true_and, show (105 : UInt8) ≠ 107 by decide, show (105 : UInt8) ≠ 104 by decide,
      show (105 : UInt8) ≠ 106 by decide, show (105 : UInt8) ≠ 102 by decide, false_and, if_false,
      rec_append_inj hf hfl] at hg
    split at hg
    · rename_i he
      simp only [Option.some.injEq] at hg
      exact ⟨_, hg.symm, hv, he.2.symm, he.1.symm⟩
    · exact hI.recs f pk v hf hpk hg
  · intro pk f hpk hf
    rw [addView_get, addView_get]
    simp only [List.cons.injEq, true_and, show (106 : UInt8) ≠ 107 by decide, show (106 : UInt8) ≠ 104 by decide,
      show (106 : UInt8) ≠ 105 by decide, show (106 : UInt8) ≠ 102 by decide, false_and, if_false,
      show (105 : UInt8) ≠ 107 by decide, show (105 : UInt8) ≠ 104 by decide,
      show (105 : UInt8) ≠ 106 by decide, show (105 : UInt8) ≠ 102 by decide, rec_append_inj hf hfl]
    by_cases hpe : pk = m.key
    · subst hpe
      simp only [if_true, and_true, Option.some.injEq, GVal.raw.injEq]
      constructor
      · intro e; simp [e]
      · intro h
        split at h
        · rename_i e; exact e.symm
        · exact (hown f hf h).symm
    · simp only [hpe, if_false, and_false]
      exact hI.owner pk f hpk hf
  · intro pk v hg
    rw [addView_get] at hg
    simp only [List.cons.injEq, true_and, show (106 : UInt8) ≠ 107 by decide, show (106 : UInt8) ≠ 104 by decide,
      show (106 : UInt8) ≠ 105 by decide, show (106 : UInt8) ≠ 102 by decide, false_and, if_false] at hg
    split at hg
    · exact ⟨_, hfl, by simpa using hg.symm⟩
    · exact hI.ownerRaw pk v hg
  · intro f hf
    rw [hcnt f hf, addView_get]
    simp only [List.cons.injEq, true_and, show (107 : UInt8) ≠ 104 by decide, show (107 : UInt8) ≠ 106 by decide,
      show (107 : UInt8) ≠ 105 by decide, show (107 : UInt8) ≠ 102 by decide, false_and, if_false]
    by_cases hc : f = makeFidKey m.fid ∧ first = true
    · have := hrec.1 hc.2
      simp only [hc.1, hc.2, this, and_self, if_true]
      simp
    · have hc' : ¬ (f = makeFidKey m.fid ∧ W.get (23 :: 105 :: (makeFidKey m.fid ++ m.key)) = none) :=
        fun h => hc ⟨h.1, hrec.2 h.2⟩
      simp only [hc, hc', if_false, Nat.add_zero]
      exact hI.count f hf
  · intro f hf
    rw [hcnt f hf]
    split
    · rename_i h
      have := hcapf (hrec.2 h.2)
      rw [h.1]; omega
    · exact hI.cap f hf
  · intro f pk hf hpk
    rw [addView_get, addView_get]
    simp only [List.cons.injEq, true_and, show (104 : UInt8) ≠ 107 by decide, show (104 : UInt8) ≠ 105 by decide,
      show (104 : UInt8) ≠ 106 by decide, show (104 : UInt8) ≠ 102 by decide, false_and, if_false,
      show (105 : UInt8) ≠ 107 by decide, show (105 : UInt8) ≠ 104 by decide,
      show (105 : UInt8) ≠ 106 by decide, show (105 : UInt8) ≠ 102 by decide, rec_append_inj hf hfl]
    split
    · rfl
    · exact hI.last f pk hf hpk
  · intro f v hg
    rw [addView_get] at hg
    simp only [List.cons.injEq, true_and, show (104 : UInt8) ≠ 107 by decide, show (104 : UInt8) ≠ 105 by decide,
      show (104 : UInt8) ≠ 106 by decide, show (104 : UInt8) ≠ 102 by decide, false_and, if_false] at hg
    split at hg
    · exact ⟨be 4 _, by simp, by simpa using hg.symm⟩
    · exact hI.lastRaw f v hg
  · intro p f v hp hg
    rw [addView_get] at hg
    have h7 : p ≠ 107 ∧ p ≠ 104 ∧ p ≠ 106 ∧ p ≠ 105 := by rcases hp with rfl | rfl <;> decide
    simp only [List.cons.injEq, true_and, h7.1, h7.2.1, h7.2.2.1, h7.2.2.2, false_and, if_false] at hg
    split at hg
    · exact ⟨be 4 _, by simp, by simpa using hg.symm⟩
    · exact hI.nonceRaw p f v hp hg
  · intro p x hs
    rw [addView_get] at hs
    simp only [List.cons.injEq, true_and] at hs
    split at hs
    · rename_i h; rw [h.1.1]; exact ⟨by decide, by decide, fun h => absurd h (by decide), fun h => absurd h (by decide)⟩
    · split at hs
      · rename_i h; rw [h.1]; exact ⟨by decide, by decide, fun h => absurd h (by decide), fun h => absurd h (by decide)⟩
      · split at hs
        · rename_i h; rw [h.1]; exact ⟨by decide, by decide, fun h => absurd h (by decide), fun _ => by rw [h.2]; exact hk⟩
        · split at hs
          · rename_i h; rw [h.1]; refine ⟨by decide, by decide, fun _ => ?_, fun h => absurd h (by decide)⟩; rw [h.2]; simp [hk, makeFidKey]
          · split at hs
            · rename_i h; rw [h.1]; exact ⟨by decide, by decide, fun h => absurd h (by decide), fun h => absurd h (by decide)⟩
            · exact hI.layout p x hs
  · rw [addView_get]; simp [hI.noShort]

theorem KeyInv.removeView {env : KeyEnv} {W : Db GVal} {m : KeyRemoveMsg} {r : KeyRecord} {nk : Bytes}
    (hI : KeyInv W) (hv : validateKeyRemoveBody m = true) (ha : RemoveAccepted env W m r nk) :
    KeyInv (removeView W m nk) := by
  have hk := validateKeyRemoveBody_key hv
  have hfl := makeFidKey_length m.fid
  obtain ⟨q, x, hnk, hq⟩ : ∃ q x, nk = 23 :: q :: x ∧ (q = 102 ∨ q = 103) := by
    rcases ha.auth with ⟨_, h, _⟩ | ⟨_, h, _⟩
    · exact ⟨_, _, h, .inl rfl⟩
    · exact ⟨_, _, h, .inr rfl⟩
  have hq' : q ≠ 107 ∧ q ≠ 106 ∧ q ≠ 105 ∧ q ≠ 104 := by rcases hq with rfl | rfl <;> decide
  have hcnt := fun f hf => removeView_count (W := W) (m := m) hnk hq'.2.2.1 f hf
  have hpos : recCount W (makeFidKey m.fid) > 0 := by
    have := hcnt _ hfl
    rw [if_pos ⟨rfl, by rw [ha.record]; rfl⟩] at this
    omega
  have howner := (hI.owner m.key _ hk hfl).2 (by rw [ha.record]; rfl)
  constructor
  · intro f pk v hf hpk hg
    rw [removeView_get, hnk] at hg
    simp only [List.cons.injEq, true_and, show (105 : UInt8) ≠ 107 by decide, show (105 : UInt8) ≠ 104 by decide,
      show (105 : UInt8) ≠ 106 by decide, Ne.symm hq'.2.2.1, false_and, if_false] at hg
    split at hg
    · simp at hg
    · exact hI.recs f pk v hf hpk hg
  · intro pk f hpk hf
    rw [removeView_get, removeView_get, hnk]
    simp only [List.cons.injEq, true_and, show (106 : UInt8) ≠ 107 by decide, show (106 : UInt8) ≠ 104 by decide,
      show (106 : UInt8) ≠ 105 by decide, Ne.symm hq'.2.1, false_and, if_false,
      show (105 : UInt8) ≠ 107 by decide, show (105 : UInt8) ≠ 104 by decide,
      show (105 : UInt8) ≠ 106 by decide, Ne.symm hq'.2.2.1, rec_append_inj hf hfl]
    by_cases hpe : pk = m.key
    · subst hpe
      simp only [if_true, and_true]
      constructor
      · intro e; simp at e
      · intro h
        split at h
        · simp at h
        · rename_i hne
          have := (hI.owner m.key f hk hf).2 h
          rw [howner] at this
          simp at this
          exact absurd this.symm hne
    · simp only [hpe, if_false, and_false]
      exact hI.owner pk f hpk hf
  · intro pk v hg
    rw [removeView_get, hnk] at hg
    simp only [List.cons.injEq, true_and, show (106 : UInt8) ≠ 107 by decide, show (106 : UInt8) ≠ 104 by decide,
      show (106 : UInt8) ≠ 105 by decide, Ne.symm hq'.2.1, false_and, if_false] at hg
    split at hg
    · simp at hg
    · exact hI.ownerRaw pk v hg
  · intro f hf
    have hc := hcnt f hf
    rw [removeView_get, hnk] 
    simp only [List.cons.injEq, true_and, show (107 : UInt8) ≠ 104 by decide, show (107 : UInt8) ≠ 106 by decide,
      show (107 : UInt8) ≠ 105 by decide, Ne.symm hq'.1, false_and, if_false]
    rw [hnk] at hc
    by_cases hfe : f = makeFidKey m.fid
    · subst hfe
      rw [if_pos ⟨rfl, by rw [ha.record]; rfl⟩] at hc
      rw [if_pos rfl]
      have : recCount W (makeFidKey m.fid) - 1 = recCount (Verif.removeView W m (23 :: q :: x)) (makeFidKey m.fid) := by omega
      rw [this]
    · rw [if_neg (fun h => hfe h.1)] at hc
      rw [if_neg hfe, hI.count f hf, ← hc]
      rfl
  · intro f hf
    have hc := hcnt f hf
    have := hI.cap f hf
    omega
  · intro f pk hf hpk
    rw [removeView_get, removeView_get, hnk]
    simp only [List.cons.injEq, true_and, show (104 : UInt8) ≠ 107 by decide, show (104 : UInt8) ≠ 105 by decide,
      show (104 : UInt8) ≠ 106 by decide, Ne.symm hq'.2.2.2, false_and, if_false,
      show (105 : UInt8) ≠ 107 by decide, show (105 : UInt8) ≠ 104 by decide,
      show (105 : UInt8) ≠ 106 by decide, Ne.symm hq'.2.2.1]
    split
    · rfl
    · exact hI.last f pk hf hpk
  · intro f v hg
    rw [removeView_get, hnk] at hg
    simp only [List.cons.injEq, true_and, show (104 : UInt8) ≠ 107 by decide, show (104 : UInt8) ≠ 105 by decide,
      show (104 : UInt8) ≠ 106 by decide, Ne.symm hq'.2.2.2, false_and, if_false] at hg
    split at hg
    · simp at hg
    · exact hI.lastRaw f v hg
  · intro p f v hp hg
    rw [removeView_get, hnk] at hg
    have h7 : p ≠ 107 ∧ p ≠ 104 ∧ p ≠ 106 ∧ p ≠ 105 := by rcases hp with rfl | rfl <;> decide
    simp only [List.cons.injEq, true_and, h7.1, h7.2.1, h7.2.2.1, h7.2.2.2, false_and, if_false] at hg
    split at hg
    · exact ⟨be 4 _, by simp, by simpa using hg.symm⟩
    · exact hI.nonceRaw p f v hp hg
  · intro p y hs
    rw [removeView_get, hnk] at hs
    simp only [List.cons.injEq, true_and] at hs
    split at hs
    · rename_i h; rw [h.1]; exact ⟨by decide, by decide, fun h => absurd h (by decide), fun h => absurd h (by decide)⟩
    · split at hs
      · simp at hs
      · split at hs
        · simp at hs
        · split at hs
          · simp at hs
          · split at hs
            · rename_i h; rw [h.1]; rcases hq with rfl | rfl <;> exact ⟨by decide, by decide, fun h => absurd h (by decide), fun h => absurd h (by decide)⟩
            · exact hI.layout p y hs
  · rw [removeView_get, hnk]; simp [hI.noShort]

theorem KeyInv.bump {W : Db GVal} {f pk b L : Bytes} (hI : KeyInv W) (hb : b.length = 4)
    (hL : W.get (23 :: 104 :: (f ++ pk)) = some (.raw L)) :
    KeyInv (W.put (23 :: 104 :: (f ++ pk)) (.raw b)) := by
  have hc : ∀ g, recCount (W.put (23 :: 104 :: (f ++ pk)) (.raw b)) g = recCount W g :=
    fun g => recCount_nonce (by decide)
  have hne : ∀ p x, p ≠ 104 → (W.put (23 :: 104 :: (f ++ pk)) (.raw b)).get (23 :: p :: x) = W.get (23 :: p :: x) := by
    intro p x hp
    rw [OMap.get_put, if_neg (by simp [hp])]
  constructor
  · intro g q v hg hq; rw [hne _ _ (by decide)]; exact hI.recs g q v hg hq
  · intro q g hq hg; rw [hne _ _ (by decide), hne _ _ (by decide)]; exact hI.owner q g hq hg
  · intro q v; rw [hne _ _ (by decide)]; exact hI.ownerRaw q v
  · intro g hg; rw [hne _ _ (by decide), hc]; exact hI.count g hg
  · intro g hg; rw [hc]; exact hI.cap g hg
  · intro g q hg hq
    rw [hne 105 _ (by decide), OMap.get_put]
    split
    · rename_i h
      simp only [List.cons.injEq, true_and] at h
      rw [h]
      by_cases hff : f.length = 4
      · have := List.append_inj h (by omega)
        have hl := hI.last f pk hff (by rw [← this.2]; exact hq)
        rw [hL] at hl
        rw [← hl]; rfl
      · have hl := hI.last g q hg hq
        rw [h, hL] at hl
        rw [← hl]; rfl
    · exact hI.last g q hg hq
  · intro g v hg
    rw [OMap.get_put] at hg
    split at hg
    · exact ⟨b, hb, by simpa using hg.symm⟩
    · exact hI.lastRaw g v hg
  · intro p g v hp
    rw [hne p g (by rcases hp with rfl | rfl <;> decide)]
    exact hI.nonceRaw p g v hp
  · intro p x hs
    rw [OMap.get_put] at hs
    split at hs
    · rename_i h; injection h with _ h; injection h with h _; rw [h]; exact ⟨by decide, by decide, fun h => absurd h (by decide), fun h => absurd h (by decide)⟩
    · exact hI.layout p x hs
  · rw [OMap.get_put, if_neg (by simp)]; exact hI.noShort

/-! ### Histories -/

/-- One step seen from the view: nothing, an accepted addition, an accepted removal, an accepted use,
or an abort. -/
theorem exec_view (s : KeyState) (o : KeyOp) (hI : KeyInv s.view) :
    (o = .abort ∧ (o.exec s).2.view = s.db ∧ (o.exec s).2.db = s.db) ∨
    (o = .commit ∧ (o.exec s).2.view = s.view ∧ (o.exec s).2.db = s.view) ∨
    ((o.exec s).2.db = s.db ∧
      (((∃ env m rep rf first, o = .add env m rep ∧ validateKeyAddBody m = true ∧ (o.exec s).1 = true ∧
          AddAccepted env s.view m rf first ∧ (o.exec s).2.view = addView s.view m rf first) ∨
       (∃ env m r nk, o = .remove env m ∧ validateKeyRemoveBody m = true ∧ (o.exec s).1 = true ∧
          RemoveAccepted env s.view m r nk ∧ (o.exec s).2.view = removeView s.view m nk) ∨
       (∃ env fid pk ty ts bt, o = .use env fid pk ty ts bt ∧ (o.exec s).1 = true ∧
          ((env.onchainSigner fid pk = true ∧ (o.exec s).2.view = s.view) ∨
           (env.onchainSigner fid pk = false ∧ pk.length = 32 ∧ ∃ r L,
              s.view.get (23 :: 105 :: (makeFidKey fid ++ pk)) = some (.record r) ∧
              validateKeyAddBody r.message = true ∧
              L.length = 4 ∧ s.view.get (23 :: 104 :: (makeFidKey fid ++ pk)) = some (.raw L) ∧
              (ActiveKey.gasless (computeScopesMask r.message.scopes) r.message.ttl).admits ty = true ∧
              bt ≤ fromBe L + r.message.ttl.toNat ∧
              (o.exec s).2.view = if ts.toNat > fromBe L + 300
                then s.view.put (23 :: 104 :: (makeFidKey fid ++ pk)) (.raw (be 4 ts.toNat))
                else s.view)))) ∨
       ((o.exec s).1 = false ∧ (o.exec s).2 = s))) := by
  cases o with
  | abort => left; exact ⟨rfl, rfl, rfl⟩
  | commit => right; left; exact ⟨rfl, rfl, rfl⟩
  | add env m rep =>
    right; right
    by_cases hv : validateKeyAddBody m = true
    · rcases mergeKeyAdd_outcome env s.db s.txn m rep hI hv with ⟨e, h⟩ | ⟨rf, first, old, t', h, ha, hw⟩
      · have hx : KeyOp.exec s (.add env m rep) = (false, s) := by simp [KeyOp.exec, hv, h]
        rw [hx]
        exact ⟨rfl, .inr ⟨rfl, rfl⟩⟩
      · have hx : KeyOp.exec s (.add env m rep) = (true, { s with txn := t' }) := by
          simp [KeyOp.exec, hv, h]
        rw [hx]
        exact ⟨rfl, .inl (.inl ⟨env, m, rep, rf, first, rfl, hv, rfl, ha, hw⟩)⟩
    · have hx : KeyOp.exec s (.add env m rep) = (false, s) := by simp [KeyOp.exec, hv]
      rw [hx]
      exact ⟨rfl, .inr ⟨rfl, rfl⟩⟩
  | remove env m =>
    right; right
    by_cases hv : validateKeyRemoveBody m = true
    · rcases mergeKeyRemove_outcome env s.db s.txn m hI hv with ⟨e, h⟩ | ⟨r, nk, t', h, ha, hw⟩
      · have hx : KeyOp.exec s (.remove env m) = (false, s) := by simp [KeyOp.exec, hv, h]
        rw [hx]
        exact ⟨rfl, .inr ⟨rfl, rfl⟩⟩
      · have hx : KeyOp.exec s (.remove env m) = (true, { s with txn := t' }) := by
          simp [KeyOp.exec, hv, h]
        rw [hx]
        exact ⟨rfl, .inl (.inr (.inl ⟨env, m, r, nk, rfl, hv, rfl, ha, hw⟩))⟩
    · have hx : KeyOp.exec s (.remove env m) = (false, s) := by simp [KeyOp.exec, hv]
      rw [hx]
      exact ⟨rfl, .inr ⟨rfl, rfl⟩⟩
  | use env fid pk ty ts bt =>
    right; right
    cases hu : useKey env s.db s.txn fid pk ty ts bt with
    | error e =>
      have hx : KeyOp.exec s (.use env fid pk ty ts bt) = (false, s) := by simp [KeyOp.exec, hu]
      rw [hx]
      exact ⟨rfl, .inr ⟨rfl, rfl⟩⟩
    | ok t' =>
      have hx : KeyOp.exec s (.use env fid pk ty ts bt) = (true, { s with txn := t' }) := by
        simp [KeyOp.exec, hu]
      rw [hx]
      refine ⟨rfl, .inl (.inr (.inr ⟨env, fid, pk, ty, ts, bt, rfl, rfl, ?_⟩))⟩
      rcases useKey_ok hI hu with ⟨h1, h2⟩ | h
      · left; subst h2; exact ⟨h1, rfl⟩
      · right; exact h

/-- Both the committed database and the view satisfy the invariant. -/
def KeyState.Good (s : KeyState) : Prop := KeyInv s.db ∧ KeyInv s.view

theorem exec_good (s : KeyState) (o : KeyOp) (h : s.Good) : (o.exec s).2.Good := by
  obtain ⟨hd, hv⟩ := h
  rcases exec_view s o hv with ⟨_, h1, h2⟩ | ⟨_, h1, h2⟩ | ⟨h2, h⟩
  · exact ⟨by rw [h2]; exact hd, by rw [h1]; exact hd⟩
  · exact ⟨by rw [h2]; exact hv, by rw [h1]; exact hv⟩
  · refine ⟨by rw [h2]; exact hd, ?_⟩
    rcases h with (⟨env, m, rep, rf, first, _, hb, _, ha, hw⟩ | ⟨env, m, r, nk, _, hb, _, ha, hw⟩ |
      ⟨env, fid, pk, ty, ts, bt, _, _, (⟨_, hw⟩ | ⟨_, hl, r, L, hr, _, hL, hg, _, _, hw⟩)⟩) | ⟨_, hs⟩
    · rw [hw]; exact hv.addView hb ha
    · rw [hw]; exact hv.removeView hb ha
    · rw [hw]; exact hv
    · rw [hw]
      split
      · exact hv.bump (by simp) hg
      · exact hv
    · rw [hs]; exact hv

theorem run_good (s : KeyState) (ops : List KeyOp) (h : s.Good) : (runKeyOps s ops).Good := by
  induction ops generalizing s with
  | nil => exact h
  | cons o ops ih => exact ih _ (exec_good s o h)

theorem inv_of_noRows (W : Db GVal) (h : ∀ r ∈ W.rows, r.1.head? ≠ some 23) : KeyInv W := by
  have hn : ∀ x, W.get (23 :: x) = none := by
    intro x
    cases hg : W.get (23 :: x) with
    | none => rfl
    | some v => exact absurd rfl (h _ ((OMap.get_eq_some_iff W).1 hg))
  have hc : ∀ f, recCount W f = 0 := by
    intro f
    unfold recCount OMap.countKeys
    rw [List.length_eq_zero_iff, List.filter_eq_nil_iff]
    intro r hr hp
    rw [List.isPrefixOf_iff_prefix] at hp
    obtain ⟨s, hs⟩ := hp
    exact h r hr (by rw [← hs]; rfl)
  constructor <;> intros <;> simp_all

end Verif
