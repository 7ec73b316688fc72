import Verif.Model.Keys
/-! A parser for database keys: a left inverse of `RowKey.bytes`, used to prove injectivity. -/
namespace Verif
namespace RowKey

/-- Split the last `n` bytes off. -/
def splitEnd (n : Nat) (b : Bytes) : Bytes × Bytes := (b.take (b.length - n), b.drop (b.length - n))

def parseUser (fid : Nat) (p : UInt8) (r : Bytes) : Option RowKey :=
  if p.toNat ≤ 85 then some (message fid p r)
  else if p = 87 then some (castAdd fid r)
  else if p = 88 then some (castRemove fid r)
  else if p = 89 then some (linkAdd fid (r.take 8) (fromBe (r.drop 8)))
  else if p = 90 then some (linkRemove fid (r.take 8) (fromBe (r.drop 8)))
  else if p = 91 then match r with | ty :: tk => some (reactionAdd fid ty tk) | [] => none
  else if p = 92 then match r with | ty :: tk => some (reactionRemove fid ty tk) | [] => none
  else if p = 93 then some (verificationAdd fid r)
  else if p = 94 then some (verificationRemove fid r)
  else if p = 97 then match r with | ty :: _ => some (userData fid ty) | [] => none
  else if p = 99 then some (usernameProof fid r)
  else if p = 100 then some (linkCompact fid r)
  else if p = 101 then some (lend fid (fromBe r))
  else some (channelAuthor fid p r)

def parseOnchain (p : UInt8) (r : Bytes) : Option RowKey :=
  if p = 1 then match r with
    | ty :: r => some (onchain ty (fromBe (r.take 4)) (fromBe ((r.drop 4).take 4)) (fromBe ((r.drop 4).drop 4)))
    | [] => none
  else if p = 51 then some (signerByFid (fromBe (r.take 4)) (r.drop 4))
  else if p = 52 then some (idRegisterByFid (fromBe r))
  else if p = 55 then some (channelByKey r)
  else if p = 56 then some (channelByLabel r)
  else if p = 57 then some (channelByOwner (r.take 20) (r.drop 20))
  else none

def parseGasless (p : UInt8) (r : Bytes) : Option RowKey :=
  if p = 102 then some (keyUserNonce (fromBe r))
  else if p = 103 then some (keyAppNonce (fromBe r))
  else if p = 104 then some (keyLastUsedAt (fromBe (r.take 4)) (r.drop 4))
  else if p = 105 then some (keyByFid (fromBe (r.take 4)) (r.drop 4))
  else if p = 106 then some (keyByPublicKey r)
  else if p = 107 then some (keyCount (fromBe r))
  else none

def parse : Bytes → Option RowKey
  | [] => none
  | b :: r =>
    if b = 1 then some (block (fromBe r))
    else if b = 2 then some (shardChunk (fromBe r))
    else if b = 3 then match r.drop 4 with
      | p :: q => parseUser (fromBe (r.take 4)) p q
      | [] => none
    else if b = 4 then
      let s := splitEnd 28 r
      some (castByParent s.1 (s.2.take 24) (fromBe (s.2.drop 24)))
    else if b = 5 then
      let q := r.drop 4
      some (castByMention (fromBe (r.take 4)) (q.take 24) (fromBe (q.drop 24)))
    else if b = 6 then
      let q := r.drop 4
      some (linkByTarget (fromBe (r.take 4)) (q.take 24) (fromBe (q.drop 24)))
    else if b = 7 then
      let s := splitEnd 28 r
      some (reactionByTarget s.1 (s.2.take 24) (fromBe (s.2.drop 24)))
    else if b = 8 then some (trieNode r)
    else if b = 9 then some (hubEvent (fromBe r))
    else if b = 11 then some (fname r)
    else if b = 12 then match r with | p :: q => parseOnchain p q | [] => none
    else if b = 13 then some schemaVersion
    else if b = 14 then
      let s := splitEnd 4 r
      some (verificationByAddress s.1 (fromBe s.2))
    else if b = 15 then some (fnameByFid (fromBe r))
    else if b = 16 then some (usernameByName r)
    else if b = 18 then some (blockIndex (fromBe (r.take 4)) (fromBe (r.drop 4)))
    else if b = 19 then some (blockEvent (fromBe r))
    else if b = 22 then some (lendByRecipient (fromBe (r.take 4)) (fromBe (r.drop 4)))
    else if b = 23 then match r with | p :: q => parseGasless p q | [] => none
    else if b = 24 then match r with | p :: q => some (channelIndex p q) | [] => none
    else if b = 25 then match r with
      | p :: q => if p = 1 then some (followByFid (fromBe (q.take 4)) (q.drop 4))
        else some (followByChannel (q.take 32) (fromBe (q.drop 32)))
      | [] => none
    else none

theorem take_be (w n : Nat) (r : Bytes) : (be w n ++ r).take w = be w n := by
  rw [List.take_append_of_le_length (by simp), List.take_of_length_le (by simp)]

theorem drop_be (w n : Nat) (r : Bytes) : (be w n ++ r).drop w = r := by
  rw [List.drop_append_of_le_length (by simp), List.drop_of_length_le (by simp)]; rfl

theorem take_len (w : Nat) (a r : Bytes) (h : a.length = w) : (a ++ r).take w = a := by
  subst h; simp

theorem drop_len (w : Nat) (a r : Bytes) (h : a.length = w) : (a ++ r).drop w = r := by
  subst h; simp

theorem splitEnd_append (n : Nat) (a r : Bytes) (h : r.length = n) : splitEnd n (a ++ r) = (a, r) := by
  subst h; simp [splitEnd]

theorem fid_rt {n : Nat} (h : n < 2 ^ 32) : fromBe (be 4 n) = n :=
  fromBe_be_of_lt (by simpa using h)
theorem u64_rt {n : Nat} (h : n < 2 ^ 64) : fromBe (be 8 n) = n :=
  fromBe_be_of_lt (by simpa using h)

theorem u8_ne {p q : UInt8} (h : p.toNat ≠ q.toNat) : p ≠ q := fun e => h (by rw [e])

theorem parse_bytes (r : RowKey) (h : r.WF) : parse r.bytes = some r := by
  obtain ⟨hf, hw⟩ := h
  cases r <;> simp only [fids, List.mem_singleton, List.mem_cons, List.not_mem_nil, or_false,
      forall_eq, forall_eq_or_imp] at hf <;> simp only at hw
  case block n => simp [bytes, parse, u64_rt hw]
  case shardChunk n => simp [bytes, parse, u64_rt hw]
  case blockIndex s t => simp [bytes, parse, take_be, drop_be, fid_rt hw.1, u64_rt hw.2]
  case message fid set th =>
    simp [bytes, parse, makeMessagePrimaryKey, makeUserKey, makeFidKey, take_be, drop_be, fid_rt hf, parseUser, hw.1]
  case castAdd fid h =>
    simp [bytes, parse, makeUserKey, makeFidKey, take_be, drop_be, fid_rt hf, parseUser]
  case castRemove fid h =>
    simp [bytes, parse, makeUserKey, makeFidKey, take_be, drop_be, fid_rt hf, parseUser]
  case linkAdd fid t tgt =>
    simp [bytes, parse, makeUserKey, makeFidKey, take_be, drop_be, fid_rt hf.1, fid_rt hf.2, parseUser,
      take_len 8 t _ hw, drop_len 8 t _ hw]
  case linkRemove fid t tgt =>
    simp [bytes, parse, makeUserKey, makeFidKey, take_be, drop_be, fid_rt hf.1, fid_rt hf.2, parseUser,
      take_len 8 t _ hw, drop_len 8 t _ hw]
  case linkCompact fid t =>
    simp [bytes, parse, makeUserKey, makeFidKey, take_be, drop_be, fid_rt hf, parseUser]
  case reactionAdd fid ty tk =>
    simp [bytes, parse, makeUserKey, makeFidKey, take_be, drop_be, fid_rt hf, parseUser]
  case reactionRemove fid ty tk =>
    simp [bytes, parse, makeUserKey, makeFidKey, take_be, drop_be, fid_rt hf, parseUser]
  case verificationAdd fid a =>
    simp [bytes, parse, makeUserKey, makeFidKey, take_be, drop_be, fid_rt hf, parseUser]
  case verificationRemove fid a =>
    simp [bytes, parse, makeUserKey, makeFidKey, take_be, drop_be, fid_rt hf, parseUser]
  case userData fid ty =>
    simp [bytes, parse, makeUserKey, makeFidKey, take_be, drop_be, fid_rt hf, parseUser]
  case usernameProof fid n =>
    simp [bytes, parse, makeUserKey, makeFidKey, take_be, drop_be, fid_rt hf, parseUser]
  case lend f t =>
    simp [bytes, parse, makeUserKey, makeFidKey, take_be, drop_be, fid_rt hf.1, fid_rt hf.2, parseUser]
  case channelAuthor fid p s =>
    have hn : ¬ p.toNat ≤ 85 := by omega
    have hne : ∀ q : UInt8, q.toNat < 108 → p ≠ q := fun q hq => u8_ne (by omega)
    simp [bytes, parse, makeUserKey, makeFidKey, take_be, drop_be, fid_rt hf, parseUser, hn,
      hne 87 (by decide), hne 88 (by decide), hne 89 (by decide), hne 90 (by decide), hne 91 (by decide),
      hne 92 (by decide), hne 93 (by decide), hne 94 (by decide), hne 97 (by decide), hne 99 (by decide),
      hne 100 (by decide), hne 101 (by decide)]
  case castByParent pk th fid =>
    have : (th ++ makeFidKey fid).length = 28 := by simp [hw, makeFidKey]
    simp [bytes, parse, splitEnd_append 28 pk _ this, take_len 24 th _ hw, drop_len 24 th _ hw]
    simp [makeFidKey, fid_rt hf]
  case castByMention m th fid =>
    simp [bytes, parse, makeFidKey, take_be, drop_be, take_len 24 th _ hw, drop_len 24 th _ hw,
      fid_rt hf.1, fid_rt hf.2]
  case linkByTarget m th fid =>
    simp [bytes, parse, makeFidKey, take_be, drop_be, take_len 24 th _ hw, drop_len 24 th _ hw,
      fid_rt hf.1, fid_rt hf.2]
  case reactionByTarget pk th fid =>
    have : (th ++ makeFidKey fid).length = 28 := by simp [hw, makeFidKey]
    simp [bytes, parse, splitEnd_append 28 pk _ this, take_len 24 th _ hw, drop_len 24 th _ hw]
    simp [makeFidKey, fid_rt hf]
  case trieNode p => simp [bytes, parse]
  case hubEvent id => simp [bytes, parse, u64_rt hw]
  case fname n => simp [bytes, parse]
  case fnameByFid fid => simp [bytes, parse, makeFidKey, fid_rt hf]
  case onchain ty fid b l =>
    have h1 := take_be 4 b (be 4 l)
    have h2 := drop_be 4 b (be 4 l)
    simp [bytes, parse, parseOnchain, makeFidKey, take_be, drop_be, -List.drop_drop, fid_rt hf, fid_rt hw.1, fid_rt hw.2]
  case signerByFid fid k => simp [bytes, parse, parseOnchain, makeFidKey, take_be, drop_be, fid_rt hf]
  case idRegisterByFid fid => simp [bytes, parse, parseOnchain, makeFidKey, fid_rt hf]
  case channelByKey k => simp [bytes, parse, parseOnchain]
  case channelByLabel l => simp [bytes, parse, parseOnchain]
  case channelByOwner o k =>
    simp [bytes, parse, parseOnchain, take_len 20 o _ hw, drop_len 20 o _ hw]
  case schemaVersion => simp [bytes, parse]
  case verificationByAddress a fid =>
    simp [bytes, parse, makeFidKey, splitEnd_append 4 a (be 4 fid) (by simp), fid_rt hf]
  case usernameByName n => simp [bytes, parse]
  case blockEvent s => simp [bytes, parse, u64_rt hw]
  case lendByRecipient t f =>
    simp [bytes, parse, makeFidKey, take_be, drop_be, fid_rt hf.1, fid_rt hf.2]
  case keyUserNonce fid => simp [bytes, parse, parseGasless, makeFidKey, fid_rt hf]
  case keyAppNonce fid => simp [bytes, parse, parseGasless, makeFidKey, fid_rt hf]
  case keyLastUsedAt fid pk => simp [bytes, parse, parseGasless, makeFidKey, take_be, drop_be, fid_rt hf]
  case keyByFid fid pk => simp [bytes, parse, parseGasless, makeFidKey, take_be, drop_be, fid_rt hf]
  case keyByPublicKey pk => simp [bytes, parse, parseGasless]
  case keyCount fid => simp [bytes, parse, parseGasless, makeFidKey, fid_rt hf]
  case channelIndex i r => simp [bytes, parse]
  case followByFid fid id => simp [bytes, parse, makeFidKey, take_be, drop_be, fid_rt hf]
  case followByChannel id fid =>
    simp [bytes, parse, makeFidKey, take_len 32 id _ hw, drop_len 32 id _ hw, fid_rt hf]

end RowKey
end Verif
