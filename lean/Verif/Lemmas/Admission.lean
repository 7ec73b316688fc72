import Verif.Spec.Admission
import Verif.Lemmas.GaslessRun
import Verif.Props.C44
import Verif.Props.C45
/-! The notes tell what the key tables hold. -/
namespace Verif
open Spec

/-! ### Grants -/

theorem split_last {α : Type} {l : List α} {x : α} {pre : List α} {a : α} {post : List α}
    (h : l ++ [x] = pre ++ a :: post) : (post = [] ∧ x = a ∧ l = pre) ∨ ∃ q, post = q ++ [x] ∧ l = pre ++ a :: q := by
  rcases List.eq_nil_or_concat post with rfl | ⟨q, y, rfl⟩
  · have := List.append_inj' h (by simp)
    simp only [List.cons.injEq, and_true] at this
    exact .inl ⟨rfl, this.2, this.1⟩
  · rw [List.concat_eq_append] at h ⊢
    have h' : l ++ [x] = (pre ++ a :: q) ++ [y] := by simp [h]
    have := List.append_inj' h' (by simp)
    simp only [List.cons.injEq, and_true] at this
    rw [this.2]
    exact .inr ⟨q, rfl, this.1⟩

theorem Granted.keep {notes fid key g events since x} (h : Granted notes fid key g events since)
    (hx : ¬ KeyNote.Settles fid key x) : Granted (notes ++ [x]) fid key g events (since ++ [x]) := by
  obtain ⟨before, hb⟩ := h.place
  refine ⟨⟨before, by simp [hb]⟩, h.isFid, h.isKey, ?_⟩
  intro y hy
  rcases List.mem_append.1 hy with hy | hy
  · exact h.stands y hy
  · simp only [List.mem_singleton] at hy; rw [hy]; exact hx

theorem Granted.back {notes fid key g events since x} (h : Granted (notes ++ [x]) fid key g events since)
    (hx : ¬ KeyNote.Settles fid key x) : ∃ q, since = q ++ [x] ∧ Granted notes fid key g events q := by
  obtain ⟨before, hb⟩ := h.place
  rcases split_last hb with ⟨h1, h2, _⟩ | ⟨q, h1, h2⟩
  · exact absurd (show KeyNote.Settles fid key x by rw [h2]; exact ⟨h.isFid, h.isKey⟩) hx
  · exact ⟨q, h1, ⟨before, h2⟩, h.isFid, h.isKey, fun y hy => h.stands y (by rw [h1]; simp [hy])⟩

theorem Granted.last {notes fid key g events since x} (h : Granted (notes ++ [x]) fid key g events since)
    (hx : KeyNote.Settles fid key x) : x = .added g events ∧ since = [] := by
  obtain ⟨before, hb⟩ := h.place
  rcases split_last hb with ⟨h1, h2, _⟩ | ⟨q, h1, h2⟩
  · exact ⟨h2, h1⟩
  · exact absurd hx (h.stands x (by rw [h1]; simp))

theorem granted_new (notes : List KeyNote) (g : KeyAddMsg) (events : List OEvent) :
    Granted (notes ++ [.added g events]) g.fid g.key g events [] :=
  ⟨⟨notes, rfl⟩, rfl, rfl, by simp⟩

/-- The grant is unique. -/
theorem Granted.unique {notes fid key g events since g' events' since'} (h : Granted notes fid key g events since)
    (h' : Granted notes fid key g' events' since') : g = g' ∧ events = events' ∧ since = since' := by
  obtain ⟨b, hb⟩ := h.place
  obtain ⟨b', hb'⟩ := h'.place
  rw [hb] at hb'
  rcases List.append_eq_append_iff.1 hb' with ⟨as, h1, h2⟩ | ⟨as, h1, h2⟩
  · cases as with
    | nil => simp only [List.nil_append, List.cons.injEq, KeyNote.added.injEq] at h2; exact ⟨h2.1.1, h2.1.2, h2.2⟩
    | cons a as =>
      simp only [List.cons_append, List.cons.injEq] at h2
      exact absurd ⟨h'.isFid, h'.isKey⟩ (h.stands (.added g' events') (by rw [h2.2]; simp))
  · cases as with
    | nil => simp only [List.nil_append, List.cons.injEq, KeyNote.added.injEq] at h2; exact ⟨h2.1.1.symm, h2.1.2.symm, h2.2.symm⟩
    | cons a as =>
      simp only [List.cons_append, List.cons.injEq] at h2
      exact absurd ⟨h.isFid, h.isKey⟩ (h'.stands (.added g events) (by rw [h2.2]; simp))

theorem lastActive_snoc (fid : Nat) (key : Bytes) (g : KeyAddMsg) (since : List KeyNote) (x : KeyNote) :
    lastActive fid key g (since ++ [x]) = (usesOf fid key [x]).foldl slide (lastActive fid key g since) := by
  simp [lastActive, usesOf, List.filterMap_append, List.foldl_append]

theorem lastActive_other {fid key g since x} (hx : usesOf fid key [x] = []) :
    lastActive fid key g (since ++ [x]) = lastActive fid key g since := by
  rw [lastActive_snoc, hx]; rfl

/-! ### Rows -/

/-- The rows of a key and the notes agree. -/
def RowsFor (W : Db GVal) (notes : List KeyNote) (fid : Nat) (key : Bytes) : Prop :=
  (W.get (23 :: 105 :: (makeFidKey fid ++ key)) = none ∧ ∀ g events since, ¬ Granted notes fid key g events since) ∨
  ∃ g events since rf, Granted notes fid key g events since ∧
    W.get (23 :: 105 :: (makeFidKey fid ++ key)) = some (.record ⟨g, rf⟩) ∧
    W.get (23 :: 104 :: (makeFidKey fid ++ key)) = some (.raw (be 4 (lastActive fid key g since))) ∧
    lastActive fid key g since < 2 ^ 32

def KeyRows (W : Db GVal) (notes : List KeyNote) : Prop :=
  ∀ fid key, fid < 2 ^ 32 → key.length = 32 → RowsFor W notes fid key

theorem fidKey_cancel {a b : Nat} (ha : a < 2 ^ 32) (hb : b < 2 ^ 32) (h : makeFidKey a = makeFidKey b) : a = b := by
  have := makeFidKey_eq.1 h
  rwa [Nat.mod_eq_of_lt ha, Nat.mod_eq_of_lt hb] at this

theorem rowKey_inj {a b : Nat} {x y : Bytes} (ha : a < 2 ^ 32) (hb : b < 2 ^ 32)
    (h : makeFidKey a ++ x = makeFidKey b ++ y) : a = b ∧ x = y := by
  have := List.append_inj h (by simp [makeFidKey_length])
  exact ⟨fidKey_cancel ha hb this.1, this.2⟩

/-- A note that is not about the key, with rows untouched. -/
theorem RowsFor.keep {W W' notes fid key x} (h : RowsFor W notes fid key) (hx : ¬ KeyNote.Settles fid key x)
    (hu : usesOf fid key [x] = [])
    (h5 : W'.get (23 :: 105 :: (makeFidKey fid ++ key)) = W.get (23 :: 105 :: (makeFidKey fid ++ key)))
    (h4 : W'.get (23 :: 104 :: (makeFidKey fid ++ key)) = W.get (23 :: 104 :: (makeFidKey fid ++ key))) :
    RowsFor W' (notes ++ [x]) fid key := by
  rcases h with ⟨h1, h2⟩ | ⟨g, events, since, rf, h1, h2, h3, hb⟩
  · refine .inl ⟨by rw [h5]; exact h1, ?_⟩
    intro g e s hg
    obtain ⟨q, _, hq⟩ := hg.back hx
    exact h2 _ _ _ hq
  · refine .inr ⟨g, events, since ++ [x], rf, h1.keep hx, by rw [h5]; exact h2, ?_, ?_⟩
    · rw [h4, lastActive_other hu]; exact h3
    · rw [lastActive_other hu]; exact hb

theorem rows_add {W : Db GVal} {notes : List KeyNote} (h : KeyRows W notes) {m : KeyAddMsg} (hm : m.fid < 2 ^ 32)
    (rf : Nat) (first : Bool) (events : List OEvent) : KeyRows (addView W m rf first) (notes ++ [.added m events]) := by
  intro fid key hf hk
  by_cases hs : m.fid = fid ∧ m.key = key
  · obtain ⟨rfl, rfl⟩ := hs
    refine .inr ⟨m, events, [], rf, granted_new notes m events, ?_, ?_, ?_⟩
    · rw [addView_get]; simp
    · rw [addView_get]; simp [lastActive, usesOf]
    · exact m.timestamp.toNat_lt
  · have hne : makeFidKey fid ++ key ≠ makeFidKey m.fid ++ m.key := fun he => by
      obtain ⟨a, b⟩ := rowKey_inj hf hm he
      exact hs ⟨a.symm, b.symm⟩
    refine (h fid key hf hk).keep (x := .added m events) hs rfl ?_ ?_
    · rw [addView_get]; simp [hne]
    · rw [addView_get]; simp [hne]

theorem rows_remove {W : Db GVal} {notes : List KeyNote} (h : KeyRows W notes) {m : KeyRemoveMsg} (hm : m.fid < 2 ^ 32)
    {nk : Bytes} (hnk : ∃ q x, nk = 23 :: q :: x ∧ (q = 102 ∨ q = 103)) (events : List OEvent) :
    KeyRows (removeView W m nk) (notes ++ [.removed m events]) := by
  obtain ⟨q, x, rfl, hq⟩ := hnk
  have h5 : q ≠ 105 ∧ q ≠ 104 := by rcases hq with rfl | rfl <;> decide
  intro fid key hf hk
  by_cases hs : m.fid = fid ∧ m.key = key
  · obtain ⟨rfl, rfl⟩ := hs
    refine .inl ⟨by rw [removeView_get]; simp, ?_⟩
    intro g e s hg
    exact absurd (hg.last (x := .removed m events) ⟨rfl, rfl⟩).1 (by simp)
  · have hne : makeFidKey fid ++ key ≠ makeFidKey m.fid ++ m.key := fun he => by
      obtain ⟨a, b⟩ := rowKey_inj hf hm he
      exact hs ⟨a.symm, b.symm⟩
    refine (h fid key hf hk).keep (x := .removed m events) hs rfl ?_ ?_
    · rw [removeView_get]; simp [hne, Ne.symm h5.1]
    · rw [removeView_get]; simp [hne, Ne.symm h5.2]

/-- The view after an accepted bump. -/
def bumpView (W : Db GVal) (fid : Nat) (key : Bytes) (last ts : Nat) : Db GVal :=
  if ts > last + 300 then W.put (23 :: 104 :: (makeFidKey fid ++ key)) (.raw (be 4 ts)) else W

theorem rows_use {W : Db GVal} {notes : List KeyNote} (h : KeyRows W notes) {fid : Nat} {key L : Bytes}
    (hf : fid < 2 ^ 32) {ts : Nat} (ht : ts < 2 ^ 32)
    (hL : W.get (23 :: 104 :: (makeFidKey fid ++ key)) = some (.raw L))
    (hR : (W.get (23 :: 105 :: (makeFidKey fid ++ key))).isSome) :
    KeyRows (bumpView W fid key (fromBe L) ts) (notes ++ [.used fid key ts]) := by
  intro fid' key' hf' hk'
  have h5 : (bumpView W fid key (fromBe L) ts).get (23 :: 105 :: (makeFidKey fid' ++ key')) =
      W.get (23 :: 105 :: (makeFidKey fid' ++ key')) := by
    unfold bumpView
    split
    · rw [OMap.get_put, if_neg (by simp)]
    · rfl
  by_cases hs : fid = fid' ∧ key = key'
  · obtain ⟨rfl, rfl⟩ := hs
    rcases h fid key hf hk' with ⟨h1, _⟩ | ⟨g, events, since, rf, h1, h2, h3, hb⟩
    · rw [h1] at hR; simp at hR
    · rw [h3] at hL
      simp only [Option.some.injEq, GVal.raw.injEq] at hL
      have hfb : fromBe L = lastActive fid key g since := by
        rw [← hL, fromBe_be_of_lt (by simpa using hb)]
      have hla : lastActive fid key g (since ++ [.used fid key ts]) = slide (lastActive fid key g since) ts := by
        rw [lastActive_snoc]; simp [usesOf]
      refine .inr ⟨g, events, since ++ [.used fid key ts], rf, h1.keep (by simp [KeyNote.Settles]), by rw [h5]; exact h2, ?_, ?_⟩
      · rw [hla]
        unfold bumpView slide
        rw [hfb]
        by_cases hc : ts > lastActive fid key g since + 300
        · rw [if_pos hc, if_pos (by omega), OMap.get_put, if_pos rfl]
        · rw [if_neg hc, if_neg (by omega)]; exact h3
      · rw [hla]; unfold slide; split <;> assumption
  · refine (h fid' key' hf' hk').keep (x := .used fid key ts) (by simp [KeyNote.Settles]) (by simp [usesOf, hs]) h5 ?_
    unfold bumpView
    split
    · rw [OMap.get_put, if_neg]
      intro he
      simp only [List.cons.injEq, true_and] at he
      obtain ⟨a, b⟩ := rowKey_inj hf' hf he
      exact hs ⟨a.symm, b.symm⟩
    · rfl

/-! ### The invariant -/

/-- The notes were made with consent. -/
def NotesOk (c : KeyCrypto) (notes : List KeyNote) : Prop :=
  ∀ g events, KeyNote.added g events ∈ notes → Consented c g events

structure AdmitInv (env : VEnv) (c : KeyCrypto) (n : AdmitNode) : Prop where
  chain : ChainInv env.keccak n.chain
  good : n.keys.Good
  view : KeyRows n.keys.view n.keyLog
  disk : KeyRows n.keys.db n.keySaved
  notes : NotesOk c n.keyLog
  saved : NotesOk c n.keySaved

theorem admitInv_init (env : VEnv) (c : KeyCrypto) : AdmitInv env c {} := by
  have hg : KeyState.Good ⟨OMap.empty, OMap.empty⟩ := fresh_good ⟨by simp [OMap.empty], rfl⟩
  have hr : KeyRows (OMap.empty : Db GVal) [] := by
    intro fid key _ _
    refine .inl ⟨rfl, ?_⟩
    intro g e s h
    obtain ⟨b, hb⟩ := h.place
    simp at hb
  exact ⟨chainInv_init _, hg, hr, hr, by simp [NotesOk], by simp [NotesOk]⟩

/-- The custody address read is the one of the latest registration. -/
theorem custodyOf_is {keccak : Bytes → Bytes} {n : ChainNode} (hi : ChainInv keccak n) {fid : Nat} (hf : fid < 2 ^ 32)
    {a : Bytes} (h : custodyOf n.db n.pend fid = some a) : CustodyIs n.log fid a := by
  unfold custodyOf at h
  have hid : idRegisterEvent n.db n.pend fid = .ok (latest (selId fid) n.log) := by
    unfold idRegisterEvent
    have hg := hi.view.id fid hf
    cases hlat : latest (selId fid) n.log with
    | none => rw [hlat] at hg; exact eventBySecondaryKey_none hg
    | some o => rw [hlat] at hg; exact eventBySecondaryKey_some hg (hi.view.event hi.log (latest_mem hlat).1)
  rw [hid] at h
  cases hlat : latest (selId fid) n.log with
  | none => rw [hlat] at h; simp at h
  | some e =>
    rw [hlat] at h
    have hl := (LatestOf.congr (fun e => selId_iff)).mp (latest_some hlat)
    simp only at h
    split at h
    · rename_i to ty hb
      simp only [Option.some.injEq] at h
      exact ⟨e, ty, hl, by rw [hb, h]⟩
    · simp at h

theorem keyOpOf_cases {c : KeyCrypto} {net : Network} {n : AdmitNode} {m : WMsg} {o : KeyOp}
    (h : keyOpOf c net n m = some o) :
    ∃ d, m.data = some d ∧
      ((∃ k, o = .add (chainEnv c n.chain.db n.chain.pend) k true ∧ k.fid = d.fid) ∨
       (∃ k, o = .remove (chainEnv c n.chain.db n.chain.pend) k ∧ k.fid = d.fid)) := by
  unfold keyOpOf at h
  split at h
  · simp at h
  · rename_i d hd
    refine ⟨d, hd, ?_⟩
    split at h
    · simp at h
    · split at h
      · split at h
        · simp only [Option.some.injEq] at h
          exact .inl ⟨_, h.symm, rfl⟩
        · simp only [Option.some.injEq] at h
          exact .inr ⟨_, h.symm, rfl⟩
        · simp at h
      · simp at h

theorem NotesOk.snoc {c notes x} (h : NotesOk c notes) (hx : ∀ g e, x = KeyNote.added g e → Consented c g e) :
    NotesOk c (notes ++ [x]) := by
  intro g e hm
  rcases List.mem_append.1 hm with hm | hm
  · exact h g e hm
  · simp only [List.mem_singleton] at hm; exact hx g e hm.symm

/-- Key messages keep the invariant, whether checked in full or replayed. -/
theorem admitInv_keyOp {env : VEnv} {c : KeyCrypto} {n : AdmitNode} (h : AdmitInv env c n) {o : KeyOp}
    (ho : (∃ k rep, o = .add (chainEnv c n.chain.db n.chain.pend) k rep ∧ k.fid < 2 ^ 32) ∨
      (∃ k, o = .remove (chainEnv c n.chain.db n.chain.pend) k ∧ k.fid < 2 ^ 32)) :
    AdmitInv env c (if (o.exec n.keys).1 then
        (true, { n with keys := (o.exec n.keys).2, keyLog := n.keyLog ++ noteOf n.chain.log o })
      else (false, { n with keys := (o.exec n.keys).2 })).2 := by
  have hg := exec_good n.keys o h.good
  rcases exec_view n.keys o h.good.2 with ⟨e, _⟩ | ⟨e, _⟩ | ⟨hdb, hh⟩
  · rcases ho with ⟨k, _, rfl, _⟩ | ⟨k, rfl, _⟩ <;> cases e
  · rcases ho with ⟨k, _, rfl, _⟩ | ⟨k, rfl, _⟩ <;> cases e
  · rcases hh with (⟨env', k, rep, rf, first, e, hb, hacc, ha, hw⟩ | ⟨env', k, r, nk, e, hb, hacc, ha, hw⟩ |
      ⟨_, _, _, _, _, _, e, _⟩) | ⟨hacc, hs⟩
    · have hkf : k.fid < 2 ^ 32 ∧ env' = chainEnv c n.chain.db n.chain.pend := by
        rcases ho with ⟨k', _, e', hk'⟩ | ⟨k', e', hk'⟩ <;> rw [e] at e' <;> cases e'
        exact ⟨hk', rfl⟩
      rw [if_pos hacc]
      obtain ⟨a, hr, hcu⟩ := ha.custody
      rw [hkf.2] at hr hcu
      refine ⟨h.chain, hg, ?_, by simp only [hdb]; exact h.disk, ?_, h.saved⟩
      · show KeyRows _ _
        simp only
        rw [hw, e]
        exact rows_add h.view hkf.1 rf first _
      · simp only [e, noteOf]
        refine h.notes.snoc ?_
        intro g ev hx
        cases hx
        exact ⟨a, hr, custodyOf_is h.chain hkf.1 hcu⟩
    · have hkf : k.fid < 2 ^ 32 := by
        rcases ho with ⟨k', _, e', hk'⟩ | ⟨k', e', hk'⟩ <;> rw [e] at e' <;> cases e'
        exact hk'
      rw [if_pos hacc]
      refine ⟨h.chain, hg, ?_, by simp only [hdb]; exact h.disk, ?_, h.saved⟩
      · simp only
        rw [hw, e]
        refine rows_remove h.view hkf ?_ _
        rcases ha.auth with ⟨_, hn, _⟩ | ⟨_, hn, _⟩
        · exact ⟨_, _, hn, .inl rfl⟩
        · exact ⟨_, _, hn, .inr rfl⟩
      · simp only [e, noteOf]
        exact h.notes.snoc (by intro g ev hx; cases hx)
    · rcases ho with ⟨k, _, rfl, _⟩ | ⟨k, rfl, _⟩ <;> cases e
    · rw [hacc, hs]
      simp only [Bool.false_eq_true, if_false]
      exact h

theorem admitInv_mergeKey {env : VEnv} {c : KeyCrypto} {n : AdmitNode} (h : AdmitInv env c n) (net : Network) {m : WMsg}
    (hf : ∀ d, m.data = some d → d.fid < 2 ^ 32) : AdmitInv env c (n.mergeKey c net m).2 := by
  unfold AdmitNode.mergeKey
  cases hk : keyOpOf c net n m with
  | none => exact h
  | some o =>
    obtain ⟨d, hd, ho⟩ := keyOpOf_cases hk
    have hdf := hf d hd
    refine admitInv_keyOp h ?_
    rcases ho with ⟨k, e, hk⟩ | ⟨k, e, hk⟩
    · exact .inl ⟨k, true, e, hk ▸ hdf⟩
    · exact .inr ⟨k, e, hk ▸ hdf⟩

/-- What an accepted bump does. -/
theorem checkAndBump_ok {db : Db GVal} {t t' : Txn GVal} {fid : Nat} {key : Bytes} {ttl ts : UInt32} {now : Nat}
    (h : checkAndBump db t fid key ttl ts now = .ok t') :
    key.length = 32 ∧ ∃ L, L.length = 4 ∧ (db.commit t).get (23 :: 104 :: (makeFidKey fid ++ key)) = some (.raw L) ∧
      now ≤ fromBe L + ttl.toNat ∧ db.commit t' = bumpView (db.commit t) fid key (fromBe L) ts.toNat := by
  unfold checkAndBump lastUsedKey at h
  by_cases hk : key.length = 32
  · refine ⟨hk, ?_⟩
    simp only [hk, ne_eq, not_true_eq_false, if_false, RowKey.bytes] at h
    rw [← Db.get_commit] at h
    cases hg : (db.commit t).get (23 :: 104 :: (makeFidKey fid ++ key)) with
    | none => rw [hg] at h; simp at h
    | some v =>
      rw [hg] at h
      cases v with
      | record r => simp at h
      | raw L =>
        simp only at h
        split at h
        · simp at h
        · rename_i hl
          split at h
          · simp at h
          · rename_i hexp
            refine ⟨L, by simpa using hl, rfl, by omega, ?_⟩
            simp only [ttlThrottle] at h
            unfold bumpView
            by_cases hb : ts.toNat > fromBe L + 300
            · simp only [hb, if_true, Except.ok.injEq] at h
              rw [if_pos hb, ← h, Db.commit_stagePut]
            · simp only [hb, if_false, Except.ok.injEq] at h
              rw [if_neg hb, h]
  · simp [hk] at h

theorem KeyInv.bumpView {W : Db GVal} {fid : Nat} {key L : Bytes} (hI : KeyInv W) (last ts : Nat)
    (hL : W.get (23 :: 104 :: (makeFidKey fid ++ key)) = some (.raw L)) : KeyInv (Verif.bumpView W fid key last ts) := by
  unfold Verif.bumpView
  split
  · exact hI.bump (by simp) hL
  · exact hI

/-- What an admitted message went through. -/
theorem admitted_cases {env : VEnv} {net : Network} {p : ProfileView} {n : AdmitNode} {v : EngineVersion} {now : Nat}
    {m : WMsg} {d : WData} (hd : m.data = some d) {t : Txn GVal}
    (h : validateUserMessage env net p n v now m = .ok t) :
    ∃ pro e ttl, tierActiveAt n.chain.db 1 d.fid now = .ok pro ∧ validateMessage env net pro now v m = .ok () ∧
      idRegisterEvent n.chain.db (readTxn v n.chain.pend) d.fid = .ok (some e) ∧
      checkSigner n v d m.signer = .ok ttl ∧ refusedType v d.type = false ∧
      validateProfile env p v d.fid d.body = .ok () ∧ bumpKey n now d m.signer ttl = .ok t := by
  unfold validateUserMessage at h
  rw [hd] at h
  simp only at h
  split at h
  · simp at h
  · rename_i pro hp
    split at h
    · simp at h
    · rename_i hv
      unfold admitChecks at h
      split at h
      · simp at h
      · simp at h
      · rename_i e he
        split at h
        · simp at h
        · rename_i ttl hs
          split at h
          · simp at h
          · rename_i hr
            split at h
            · simp at h
            · rename_i hpr
              exact ⟨pro, e, ttl, hp, hv, he, hs, by simpa using hr, hpr, h⟩

theorem admitInv_step {env : VEnv} {c : KeyCrypto} {n : AdmitNode} (h : AdmitInv env c n) (net : Network) (o : AdmitOp)
    (hf : AdmitFits [o]) : AdmitInv env c (n.exec env c net o).2 := by
  cases o with
  | chain e =>
    exact { h with chain := chainInv_step h.chain (.merge e) (fun x hx => by
      simp only [ChainOp.merge.injEq] at hx; exact hx ▸ hf.chain e (by simp)) }
  | replay m => exact admitInv_mergeKey h net (fun d hd => hf.replay m d (by simp) hd)
  | commit =>
    have hg := exec_good n.keys .commit h.good
    refine ⟨chainInv_step h.chain .commit (by simp), hg, ?_, h.view, h.notes, h.notes⟩
    rcases exec_view n.keys .commit h.good.2 with ⟨e, _⟩ | ⟨_, hv, _⟩ | ⟨_, hh⟩
    · cases e
    · show KeyRows (KeyOp.exec n.keys .commit).2.view n.keyLog
      rw [hv]; exact h.view
    · rcases hh with (⟨_, _, _, _, _, e, _⟩ | ⟨_, _, _, _, e, _⟩ | ⟨_, _, _, _, _, _, e, _⟩) | ⟨e, _⟩
      · cases e
      · cases e
      · cases e
      · simp [KeyOp.exec] at e
  | drop =>
    have hg := exec_good n.keys .abort h.good
    exact ⟨chainInv_step h.chain .drop (by simp), hg, h.disk, h.disk, h.saved, h.saved⟩
  | user p v now m =>
    unfold AdmitNode.exec
    simp only
    cases hv : validateUserMessage env net p n v now m with
    | error e => exact h
    | ok t =>
      simp only
      cases hd : m.data with
      | none => unfold validateUserMessage at hv; rw [hd] at hv; simp at hv
      | some d =>
        simp only
        have hdf := hf.user p v now m d (by simp) hd
        obtain ⟨pro, e, ttl, _, _, _, hs, _, _, hb⟩ := admitted_cases hd hv
        cases ttl with
        | none =>
          simp only [bumpKey, Except.ok.injEq] at hb
          subst hb
          split
          · exact admitInv_mergeKey h net (fun d hd' => by rw [hd] at hd'; cases hd'; exact hdf)
          · unfold useNote
            rw [hs]
            simp only [List.append_nil]
            exact h
        | some ttl =>
          simp only [bumpKey] at hb
          split at hb
          · simp at hb
          · rename_i t' hcb
            simp only [Except.ok.injEq] at hb
            subst hb
            obtain ⟨hk, L, hl, hL, _, hw⟩ := checkAndBump_ok hcb
            have hkey : d.type.isKey = false := by
              unfold checkSigner at hs
              by_cases hc : d.type.isKey = true
              · rw [hc] at hs
                simp only [if_true] at hs
                split at hs <;> simp at hs
              · simpa using hc
            rw [hkey]
            simp only [Bool.false_eq_true, if_false]
            have hrec : (n.keys.view.get (23 :: 105 :: (makeFidKey d.fid ++ m.signer))).isSome := by
              rw [← h.good.2.last _ _ (makeFidKey_length _) hk]
              show ((n.keys.db.commit n.keys.txn).get _).isSome
              rw [hL]; rfl
            have hview : KeyState.view { n.keys with txn := t' } =
                bumpView n.keys.view d.fid m.signer (fromBe L) (UInt32.ofNat d.ts).toNat := hw
            refine ⟨h.chain, ⟨h.good.1, ?_⟩, ?_, h.disk, ?_, h.saved⟩
            · rw [hview]; exact h.good.2.bumpView _ _ hL
            · show KeyRows (KeyState.view { n.keys with txn := t' }) _
              rw [hview]
              unfold useNote
              rw [hs]
              exact rows_use h.view hdf (UInt32.toNat_lt _) hL hrec
            · unfold useNote
              rw [hs]
              exact h.notes.snoc (by intro g ev hx; cases hx)

theorem admitInv_run (env : VEnv) (c : KeyCrypto) (net : Network) {ops : List AdmitOp} (hf : AdmitFits ops) :
    AdmitInv env c (AdmitNode.run env c net ops) := by
  unfold AdmitNode.run
  have main : ∀ (ops : List AdmitOp) n, AdmitFits ops → AdmitInv env c n →
      AdmitInv env c (ops.foldl (fun n o => (n.exec env c net o).2) n) := by
    intro ops
    induction ops with
    | nil => intro n _ h; exact h
    | cons o ops ih =>
      intro n hf h
      refine ih _ ⟨fun e he => hf.chain e (by simp [he]), fun m d hm => hf.replay m d (by simp [hm]),
        fun p v now m d hm => hf.user p v now m d (by simp [hm])⟩ (admitInv_step h net o ?_)
      refine ⟨fun e he => hf.chain e ?_, fun m d hm => hf.replay m d ?_, fun p v now m d hm => hf.user p v now m d ?_⟩
      · simp only [List.mem_singleton] at he; simp [he]
      · simp only [List.mem_singleton] at hm; simp [hm]
      · simp only [List.mem_singleton] at hm; simp [hm]
  exact main ops {} hf (admitInv_init env c)

end Verif
