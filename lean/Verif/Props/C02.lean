import Verif.Lemmas.Keys
/-!
# C02: rows of different users, sets and indexes never collide
-/
namespace Verif

/-- **C02.** Two well-formed rows with the same database key are the same row: same kind, same user,
same logical coordinates.  `RowKey.WF` lists the widths the code guarantees, in particular that fids
fit in 32 bits. -/
theorem C02_keys_injective (r s : RowKey) (hr : r.WF) (hs : s.WF) (h : r.bytes = s.bytes) : r = s := by
  have h1 := RowKey.parse_bytes r hr
  have h2 := RowKey.parse_bytes s hs
  rw [h, h2] at h1
  injection h1 with h1
  exact h1.symm

/-- Consequence: writing a row never changes what is stored under any other row. -/
theorem C02_write_isolated {V : Type} (db : Db V) (r s : RowKey) (v : V) (hr : r.WF) (hs : s.WF)
    (hne : r ≠ s) : (db.put r.bytes v).get s.bytes = db.get s.bytes ∧
      (db.del r.bytes).get s.bytes = db.get s.bytes := by
  have : s.bytes ≠ r.bytes := fun e => hne (C02_keys_injective r s hr hs e.symm)
  exact ⟨OMap.get_put_ne db v this, OMap.get_del_ne db this⟩

/-- Consequence for users: rows of different users have different keys. -/
theorem C02_users_isolated (f g : Nat) (hf : f < 2 ^ 32) (hg : g < 2 ^ 32) (hne : f ≠ g)
    (setF setG : UInt8) (restF restG : Bytes) :
    makeUserKey f ++ setF :: restF ≠ makeUserKey g ++ setG :: restG := by
  intro e
  have := List.append_inj_left e (by simp [makeUserKey, makeFidKey])
  simp only [makeUserKey, makeFidKey, List.cons.injEq, true_and] at this
  exact hne (be_inj (by simpa using hf) (by simpa using hg) this)

/-- **The boundary.** Fids are cut to 32 bits, so from 2^32 on different users share every key. -/
theorem C02_truncation_collision (f : Nat) : makeUserKey (f + 2 ^ 32) = makeUserKey f := by
  simp only [makeUserKey, makeFidKey, List.cons.injEq, true_and]
  rw [be_eq_iff]
  omega

/-- Exactly which fids share keys. -/
theorem C02_user_key_eq_iff (f g : Nat) : makeUserKey f = makeUserKey g ↔ f % 2 ^ 32 = g % 2 ^ 32 := by
  simp only [makeUserKey, makeFidKey, List.cons.injEq, true_and]
  rw [be_eq_iff]

/-- **Finding.** A URL and a cast id can have the same target key: the 24-byte URL below and the cast
id whose fid spells its first four bytes.  So the reaction index rows of the two targets coincide. -/
theorem C02_url_castid_collision :
    -- "https://snapchain.dev/ab"
    let url : Bytes := [104, 116, 116, 112, 115, 58, 47, 47, 115, 110, 97, 112, 99, 104, 97, 105, 110, 46, 100, 101, 118, 47, 97, 98]
    -- "s://snapchain.dev/ab", 20 bytes
    let hash : Bytes := [115, 58, 47, 47, 115, 110, 97, 112, 99, 104, 97, 105, 110, 46, 100, 101, 118, 47, 97, 98]
    (Target.url url).key = (Target.castId 0x68747470 hash).key ∧ hash.length = 20 := by
  constructor <;> decide

/-- **Finding.** Link types are zero padded, so "follow" and "follow\0" name the same link row. -/
theorem C02_link_type_padding_collision :
    -- "follow"
    let a : Bytes := [102, 111, 108, 108, 111, 119]
    padLinkType a = padLinkType (a ++ [0]) ∧ a ≠ a ++ [0] := by
  constructor <;> decide

theorem padLinkType_inj (a b : Bytes) (ha : a.length ≤ 8) (hb : b.length ≤ 8)
    (hza : a.getLast? ≠ some 0) (hzb : b.getLast? ≠ some 0)
    (h : padLinkType a = padLinkType b) : a = b := by
  unfold padLinkType at h
  rw [List.take_of_length_le ha, List.take_of_length_le hb] at h
  clear ha hb
  generalize 8 - a.length = n at h
  generalize 8 - b.length = m at h
  induction n generalizing m with
  | zero =>
    cases m with
    | zero => simpa using h
    | succ m =>
      exfalso
      rw [List.replicate_succ', ← List.append_assoc] at h
      simp at h
      rw [h] at hza
      simp at hza
  | succ n ih =>
    cases m with
    | zero =>
      exfalso
      rw [List.replicate_succ', ← List.append_assoc] at h
      simp at h
      rw [← h] at hzb
      simp at hzb
    | succ m =>
      rw [List.replicate_succ', List.replicate_succ', ← List.append_assoc, ← List.append_assoc] at h
      exact ih m (List.append_cancel_right h)

/-- Link types of at most 8 bytes that do not end in a zero byte are kept apart by the padding. -/
theorem C02_link_type_injective (a b : Bytes) (ha : a.length ≤ 8) (hb : b.length ≤ 8)
    (hza : a.getLast? ≠ some 0) (hzb : b.getLast? ≠ some 0) :
    padLinkType a = padLinkType b ↔ a = b :=
  ⟨padLinkType_inj a b ha hb hza hzb, fun e => by rw [e]⟩

/-- Two cast-id targets with the same key are the same target. -/
theorem C02_castid_target_injective (f g : Nat) (h k : Bytes) (hf : f < 2 ^ 32) (hg : g < 2 ^ 32)
    (e : (Target.castId f h).key = (Target.castId g k).key) : f = g ∧ h = k := by
  simp only [Target.key, makeCastIdKey, makeFidKey] at e
  have h1 := List.append_inj_left e (by simp)
  have h2 := List.append_inj_right e (by simp)
  exact ⟨be_inj (by simpa using hf) (by simpa using hg) h1, h2⟩

/-- Non-vacuity: an adversarially chosen reaction target that spells another row's bytes. -/
example : (RowKey.reactionAdd 7 1 [0, 0, 0, 9, 87]).WF ∧ (RowKey.castAdd 7 (List.replicate 20 1)).WF := by
  constructor <;> simp [RowKey.WF, RowKey.fids]

end Verif
