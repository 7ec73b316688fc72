import Verif.Lemmas.FidIter
import Verif.Lemmas.StoreAgree
import Verif.Lemmas.VerificationCap
import Verif.Lemmas.StoreRowsOf
/-! The migration of the index of verifications by address, against the database it converges to. -/
namespace Verif
open StoreDef

variable {U : Msg → Prop} {ctx : Nat → MergeCtx}

/-! ### What the store keeps -/

/-- The committed rows of the verification store. -/
theorem v_committed (hU : HashesIdentify U) {L0 L : List Msg} {st : StoreState} (h : VInv ctx U L0 L st) (k : Bytes)
    (hk : ∀ id, k ≠ eventKey id) (v : SVal) :
    st.db.get k = some v ↔ ∃ m, StoreKind.verifications.Valid m ∧ U m ∧
      st.db.get (makeMessagePrimaryKey m.fid 4 (some m.tsHash)) = some (.msg m) ∧
      ∃ r, (r, v) ∈ StoreKind.verifications.rows (fun _ => none) (ctx m.ts).follows m ∧ k = r.bytes := by
  have h' : VInv ctx U L0 L0 ⟨st.db, ⟨OMap.empty, {}⟩⟩ := ⟨⟨h.committed, h.committed⟩, h.blank0, h.blank0⟩
  have := kind_view .verifications noNaming hU h' k hk v
  simp only [StoreState.Has, StoreState.view, getFromDbOrTxn, OMap.get_empty] at this
  exact this

theorem v_rows {m : Msg} {f : Bool} {r : RowKey} {v : SVal} (hv : StoreKind.verifications.Valid m)
    (h : (r, v) ∈ StoreKind.verifications.rows (fun _ => none) f m) :
    (r = .message m.fid 4 m.tsHash) ∨
    (∃ a, a ≠ [] ∧ m.body = .verificationAdd a ∧ v = .raw m.tsHash ∧
      (r = .verificationAdd m.fid a ∨ r = .verificationByAddress a m.fid)) ∨
    (∃ a, r = .verificationRemove m.fid a) := by
  rcases hv.2.2.2.2 with ⟨ht, a, hb, ha⟩ | ⟨ht, a, hb, ha⟩ <;>
    simp only [StoreKind.rows, ht, hb, List.mem_cons, Prod.mk.injEq, List.not_mem_nil, or_false] at h
  · rcases h with ⟨rfl, _⟩ | ⟨rfl, rfl⟩ | ⟨rfl, rfl⟩
    · exact .inl rfl
    · exact .inr (.inl ⟨a, ha, hb, rfl, .inl rfl⟩)
    · exact .inr (.inl ⟨a, ha, hb, rfl, .inr rfl⟩)
  · rcases h with ⟨rfl, _⟩ | ⟨rfl, _⟩
    · exact .inl rfl
    · exact .inr (.inr ⟨a, rfl⟩)

theorem v_mem_rows {m : Msg} {f : Bool} {a : Bytes} (hv : StoreKind.verifications.Valid m)
    (hb : m.body = .verificationAdd a) :
    (RowKey.verificationAdd m.fid a, SVal.raw m.tsHash) ∈ StoreKind.verifications.rows (fun _ => none) f m ∧
    (RowKey.verificationByAddress a m.fid, SVal.raw m.tsHash) ∈ StoreKind.verifications.rows (fun _ => none) f m := by
  rcases hv.2.2.2.2 with ⟨ht, a', hb', _⟩ | ⟨ht, a', hb', _⟩
  · simp [StoreKind.rows, ht, hb]
  · rw [hb] at hb'; cases hb'

theorem addsKey_off (f : Nat) (a : Bytes) : OffIndex (verificationAddsKey f a) := by
  simp [OffIndex, verificationAddsKey, makeUserKey]

theorem adds_not_event (f : Nat) (a : Bytes) (id : Nat) : verificationAddsKey f a ≠ eventKey id :=
  RowKey.ne_event (r := .verificationAdd f a) rfl id

theorem byAddress_not_event (f : Nat) (a : Bytes) (id : Nat) : byAddressKey a f ≠ eventKey id :=
  RowKey.ne_event (r := .verificationByAddress a f) rfl id

/-- Index rows of the store point at selector rows. -/
theorem v_index (hU : HashesIdentify U) (hA : AddressLengths U) {L0 L : List Msg} {st : StoreState}
    (h : VInv ctx U L0 L st) {k : Bytes} (hk : k.head? = some 14) {v : SVal} (hg : st.db.get k = some v) :
    ∃ m a, StoreKind.verifications.Valid m ∧ a ≠ [] ∧ (a.length = 20 ∨ a.length = 32) ∧ k = byAddressKey a m.fid ∧
      v = .raw m.tsHash ∧ st.db.get (makeMessagePrimaryKey m.fid 4 (some m.tsHash)) = some (.msg m) ∧
      st.db.get (verificationAddsKey m.fid a) = some (.raw m.tsHash) ∧ m.tsHash.length = 24 := by
  have hke : ∀ id, k ≠ eventKey id := by
    rintro id rfl; simp [eventKey] at hk
  obtain ⟨m, hv, hu, hp, r, hr, rfl⟩ := (v_committed hU h k hke v).1 hg
  rcases v_rows hv hr with rfl | ⟨a, ha, hb, rfl, rfl | rfl⟩ | ⟨a, rfl⟩
  · simp [RowKey.bytes, makeMessagePrimaryKey, makeUserKey] at hk
  · simp [RowKey.bytes, makeUserKey] at hk
  · refine ⟨m, a, hv, ha, hA m a hu hb, rfl, rfl, hp, ?_, by simp [Msg.tsHash, hv.2.2.2.1]⟩
    exact (v_committed hU h _ (adds_not_event _ _) _).2 ⟨m, hv, hu, hp, _, (v_mem_rows hv hb).1, rfl⟩
  · simp [RowKey.bytes, makeUserKey] at hk

/-- Selector rows of the store have index rows. -/
theorem v_selector (hU : HashesIdentify U) {L0 L : List Msg} {st : StoreState} (h : VInv ctx U L0 L st) {f : Nat}
    (hf : f < 2 ^ 32) {a : Bytes} {v : SVal} (hg : st.db.get (verificationAddsKey f a) = some v) :
    st.db.get (byAddressKey a f) = some v := by
  obtain ⟨m, hv, hu, hp, r, hr, e⟩ := (v_committed hU h _ (adds_not_event _ _) v).1 hg
  have hwf : (RowKey.verificationAdd f a).WF := ⟨by intro x hx; simp [RowKey.fids] at hx; omega, trivial⟩
  have hmf := hv.2.1
  have e' : (RowKey.verificationAdd f a).bytes = r.bytes := e
  have hm : ∀ a', (RowKey.verificationAdd m.fid a').WF := fun a' => ⟨by intro x hx; simp [RowKey.fids] at hx; omega, trivial⟩
  rcases v_rows hv hr with rfl | ⟨a', ha, hb, rfl, rfl | rfl⟩ | ⟨a', rfl⟩
  · exfalso
    have := RowKey.bytes_inj hwf (r' := .message m.fid 4 m.tsHash)
      ⟨by intro x hx; simp [RowKey.fids] at hx; omega, by simp [Msg.tsHash, hv.2.2.2.1]⟩ e'
    cases this
  · have := RowKey.bytes_inj hwf (hm a') e'
    simp only [RowKey.verificationAdd.injEq] at this
    obtain ⟨rfl, rfl⟩ := this
    exact (v_committed hU h _ (byAddress_not_event _ _) _).2 ⟨m, hv, hu, hp, _, (v_mem_rows hv hb).2, rfl⟩
  · simp [RowKey.bytes, makeUserKey] at e'
  · exfalso
    have := RowKey.bytes_inj hwf (r' := .verificationRemove m.fid a')
      ⟨by intro x hx; simp [RowKey.fids] at hx; omega, trivial⟩ e'
    cases this

/-! ### The pieces of the migration -/

theorem byAddressKey_inj {a a' : Bytes} {f f' : Nat} (hf : f < 2 ^ 32) (hf' : f' < 2 ^ 32)
    (h : byAddressKey a f = byAddressKey a' f') : a = a' ∧ f = f' := by
  unfold byAddressKey at h
  injection h with _ h
  have := List.append_inj' h (by simp [makeFidKey])
  exact ⟨this.1, be_inj (w := 4) (by omega) (by omega) this.2⟩

theorem mem_addressesOf {db : Db SVal} {f : Nat} {a : Bytes} {v : SVal}
    (hg : db.get (verificationAddsKey f a) = some v) (ha : a ≠ []) : a ∈ addressesOf db f := by
  unfold addressesOf
  simp only [iterBounds, Bool.false_eq_true, if_false]
  rw [List.mem_filter, List.mem_map]
  refine ⟨⟨(verificationAddsKey f a, v), ?_, ?_⟩, by simpa using ha⟩
  · rw [mem_scanRows]
    refine ⟨(OMap.get_eq_some_iff db).1 hg, ?_⟩
    exact (mem_range_iff_prefix_of_last (q := makeUserKey f) (b := 93) (by decide)).2 ⟨a, by simp [verificationAddsKey]⟩
  · have e : verificationAddsKey f a = (makeUserKey f ++ [93]) ++ a := by simp [verificationAddsKey]
    show List.drop (makeUserKey f ++ [93]).length (verificationAddsKey f a) = a
    rw [e, List.drop_left]

theorem get_backfill {db : Db SVal} {f : Nat} {a th : Bytes} (hg : db.get (verificationAddsKey f a) = some (.raw th))
    (ht : th.length = 24) (k : Bytes) :
    (backfill db f a).get k = if k = byAddressKey a f then some (.raw th) else db.get k := by
  unfold backfill
  rw [hg]
  simp only [ht, if_true]
  rw [OMap.get_put]

theorem backfill_cases (db : Db SVal) (f : Nat) (a : Bytes) :
    backfill db f a = db ∨ ∃ th, db.get (verificationAddsKey f a) = some (.raw th) ∧ th.length = 24 := by
  unfold backfill
  split
  · rename_i th hg
    by_cases ht : th.length = 24
    · exact .inr ⟨th, hg, ht⟩
    · left; rw [if_neg ht]
  · exact .inl rfl

theorem sweep_iterate : ∀ (rows : List (Bytes × SVal)) (c : Nat) (acc : List Bytes), acc.length < sweepChunk →
    ∃ b, iterate none sweepStep rows c acc =
      .ok (acc ++ ((rows.filter (fun r => isLegacyValue r.2)).map (·.1)).take (sweepChunk - acc.length), b)
  | [], c, acc, _ => ⟨true, by simp [iterate]⟩
  | (k, v) :: rest, c, acc, h => by
    by_cases hv : isLegacyValue v = true
    · have hcut : sweepChunk - acc.length = (sweepChunk - (acc.length + 1)) + 1 := by omega
      by_cases hl : (acc ++ [k]).length ≥ sweepChunk
      · have h0 : sweepChunk - (acc.length + 1) = 0 := by simp at hl; omega
        refine ⟨false, ?_⟩
        simp only [iterate, sweepStep, hv, if_true, hl, decide_true]
        rw [List.filter_cons_of_pos (by simpa using hv), hcut, h0]; simp
      · obtain ⟨b, hb⟩ := sweep_iterate rest c (acc ++ [k]) (by omega)
        refine ⟨b, ?_⟩
        simp only [iterate, sweepStep, hv, if_true, hl, decide_false]
        rw [hb, List.filter_cons_of_pos (by simpa using hv), hcut]; simp
    · obtain ⟨b, hb⟩ := sweep_iterate rest c acc h
      refine ⟨b, ?_⟩
      simp only [iterate, sweepStep, hv, Bool.false_eq_true, if_false]
      rw [hb, List.filter_cons_of_neg (by simpa using hv)]

/-- The legacy rows from a key on. -/
def legacyKeys (db : Db SVal) (resume : Bytes) : List Bytes :=
  ((scanRows db resume (incrementVec [14]) false).filter (fun r => isLegacyValue r.2)).map (·.1)

theorem sweepScan_eq (db : Db SVal) (resume : Bytes) : sweepScan db resume = .ok ((legacyKeys db resume).take sweepChunk) := by
  unfold sweepScan forEachByPrefix forEachPaged
  obtain ⟨b, hb⟩ := sweep_iterate (scanRows db resume (incrementVec [14]) false) 0 [] (by decide)
  simp only [iterBounds, Bool.false_eq_true, if_false]
  simp only [List.nil_append, List.length_nil, Nat.sub_zero] at hb
  rw [hb]; rfl

theorem legacyKeys_sorted (db : Db SVal) (resume : Bytes) : (legacyKeys db resume).Pairwise (fun a b => Bytes.blt a b = true) := by
  unfold legacyKeys
  rw [List.pairwise_map]
  have := scanRows_dirSorted db resume (incrementVec [14]) false
  have h2 : (scanRows db resume (incrementVec [14]) false).Pairwise (fun a b => a.1 ≺ b.1) := by simpa [DirSorted] using this
  exact h2.filter _

theorem head_of_range {resume k : Bytes} (hr : resume.head? = some 14) (h1 : Bytes.blt k resume = false)
    (h2 : Bytes.blt k (incrementVec [14]) = true) : k.head? = some 14 := by
  have h3 : Bytes.blt k [14] = false := by
    rw [Bool.eq_false_iff]
    intro hc
    have : Bytes.blt k resume = true := by
      have hp : [14] <+: resume := by
        cases resume with
        | nil => cases hr
        | cons x xs => simp at hr; subst hr; exact ⟨xs, rfl⟩
      rcases Bytes.blt_tri [14] resume with h | h | h
      · exact Bytes.blt_trans hc h
      · rw [← h]; exact hc
      · rw [Bytes.not_blt_of_prefix hp] at h; cases h
    rw [this] at h1; cases h1
  obtain ⟨t, rfl⟩ := (mem_range_iff_prefix_of_last (q := []) (b := 14) (by decide) (k := k)).1 ⟨h3, h2⟩
  rfl

theorem mem_legacyKeys {db : Db SVal} {resume k : Bytes} : k ∈ legacyKeys db resume ↔
    ∃ v, db.get k = some v ∧ isLegacyValue v = true ∧ Bytes.blt k resume = false ∧ Bytes.blt k (incrementVec [14]) = true := by
  unfold legacyKeys
  rw [List.mem_map]
  constructor
  · rintro ⟨⟨k', v⟩, h, rfl⟩
    rw [List.mem_filter, mem_scanRows] at h
    exact ⟨v, (OMap.get_eq_some_iff db).2 h.1.1, h.2, h.1.2.1, h.1.2.2⟩
  · rintro ⟨v, h1, h2, h3, h4⟩
    exact ⟨(k, v), by rw [List.mem_filter, mem_scanRows]; exact ⟨⟨(OMap.get_eq_some_iff db).1 h1, h3, h4⟩, h2⟩, rfl⟩

theorem get_dels (chunk : List Bytes) (t : Txn SVal) (k : Bytes) :
    (chunk.foldl Txn.stageDel t).get k = if k ∈ chunk then some none else t.get k := by
  induction chunk generalizing t with
  | nil => simp
  | cons c cs ih =>
    rw [List.foldl_cons, ih, Txn.get_stageDel]
    by_cases h1 : k ∈ cs <;> by_cases h2 : k = c <;> simp [h1, h2]

theorem get_sweep (db : Db SVal) (chunk : List Bytes) (k : Bytes) :
    (Db.commit db (chunk.foldl Txn.stageDel OMap.empty)).get k = if k ∈ chunk then none else db.get k := by
  rw [Db.get_commit, getFromDbOrTxn, get_dels]
  by_cases h : k ∈ chunk <;> simp [h]

/-! ### The invariant -/

/-- Index rows that are still to be written, by place of the task. -/
def Mig.Todo (s : Mig) (a : Bytes) (f : Nat) : Prop :=
  match s.pc with
  | .off => s.version ≠ 2 ∧ Registered s.reg f
  | .first => Registered s.reg f
  | .users it => Registered s.reg f ∧ it.Ahead f
  | .user g it => Registered s.reg f ∧ (f = g ∨ it.Ahead f)
  | .entries g as it => Registered s.reg f ∧ ((f = g ∧ a ∈ as) ∨ it.Ahead f)
  | .sweep _ | .delete _ | .returned => False

/-- Legacy slots that are still to be deleted. -/
def Mig.Left (s : Mig) (k : Bytes) : Prop :=
  match s.pc with
  | .off => s.version ≠ 2
  | .sweep resume => Bytes.blt k resume = false
  | .delete chunk => k ∈ chunk ∨ (sweepChunk ≤ chunk.length ∧ Bytes.blt k (chunk.getLast?.getD [] ++ [0]) = false)
  | .returned => False
  | _ => True

/-- Well-formed places. -/
def Mig.PcOK (s : Mig) : Prop :=
  s.version ≤ 2 ∧ (s.version = 2 → s.pc = .off) ∧
  match s.pc with
  | .users it => it.OK
  | .user g it => g < 2 ^ 32 ∧ it.OK
  | .entries g _ it => g < 2 ^ 32 ∧ it.OK
  | .sweep resume => resume.head? = some 14
  | .delete chunk => ∀ k ∈ chunk, k.head? = some 14 ∧ (k.length = 21 ∨ k.length = 33)
  | _ => True

structure MigInv (ctx : Nat → MergeCtx) (U : Msg → Prop) (s : Mig) (ideal : StoreState) : Prop where
  inv : ∃ L0 L, VInv ctx U L0 L ideal
  pend : s.live.pend = ideal.pend
  off : AgreeOn OffIndex s.live.db ideal.db
  idx : ∀ k v, k.head? = some 14 → s.live.db.get k = some v → LegacySlot k v ∨ ideal.db.get k = some v
  reg : RegistryOK s.reg
  missing : ∀ a f, f < 2 ^ 32 → ideal.db.get (byAddressKey a f) ≠ none →
    ideal.db.get (byAddressKey a f) ≠ s.live.db.get (byAddressKey a f) → s.Todo a f
  left : ∀ k v, s.live.db.get k = some v → LegacySlot k v → s.Left k
  pcOK : s.PcOK

theorem legacy_value {k : Bytes} {v : SVal} (h : LegacySlot k v) :
    isLegacyValue v = true ∧ k.head? = some 14 ∧ (k.length = 21 ∨ k.length = 33) := by
  obtain ⟨a, f, ha, rfl, rfl⟩ := h
  refine ⟨by simp [isLegacyValue, makeFidKey], rfl, ?_⟩
  rcases ha with h | h <;> simp [h]

theorem registered_pos {reg : Db OVal} (hr : RegistryOK reg) {f : Nat} (h : Registered reg f) : 0 < f := by
  obtain ⟨e, to, hg, ht, rfl, hb⟩ := h
  obtain ⟨e', h1, h2, h3⟩ := hr.rows (oPrimaryKey e) _
    (by unfold oPrimaryKey; rw [ht]; exact ⟨makeFidKey e.fid ++ (be 4 e.block ++ be 4 e.log), by simp⟩) hg
  cases h1; exact h3.2.1

theorem Mig.Todo.registered {s : Mig} {a : Bytes} {f : Nat} (h : s.Todo a f) : Registered s.reg f := by
  unfold Mig.Todo at h
  split at h
  · exact h.2
  · exact h
  · exact h.1
  · exact h.1
  · exact h.1
  · exact h.elim
  · exact h.elim
  · exact h.elim

/-- When the version row says so, the database is the one the new code would have written. -/
theorem MigInv.done (hU : HashesIdentify U) (hA : AddressLengths U) {s : Mig} {ideal : StoreState}
    (h : MigInv ctx U s ideal) (hv : s.version = 2) : s.live = ideal := by
  have hpc := h.pcOK.2.1 hv
  have hdb : s.live.db = ideal.db := by
    apply OMap.ext
    intro k
    by_cases hk : k.head? = some 14
    · cases hl : s.live.db.get k with
      | some v =>
        rcases h.idx k v hk hl with hs | hi
        · have := h.left k v hl hs
          simp only [Mig.Left, hpc] at this
          exact absurd hv this
        · exact hi.symm
      | none =>
        cases hi : ideal.db.get k with
        | none => rfl
        | some v =>
          obtain ⟨L0, L, hinv⟩ := h.inv
          obtain ⟨m, a, hm, _, _, rfl, _⟩ := v_index hU hA hinv hk hi
          have := h.missing a m.fid hm.2.1 (by rw [hi]; simp) (by rw [hi, hl]; simp)
          simp only [Mig.Todo, hpc] at this
          exact absurd hv this.1
    · exact h.off k hk
  have hp := h.pend
  cases hs : s.live; cases ideal
  rw [hs] at hdb hp
  simp only at hdb hp
  rw [hdb, hp]

/-! ### Steps -/

theorem live_inv (hU : HashesIdentify U) (hA : AddressLengths U) {s : Mig} {ideal : StoreState}
    (h : MigInv ctx U s ideal) {o : StoreOp} (ho : StoreKind.verifications.Proper (fun _ => none) U ideal o) :
    MigInv ctx U { s with live := s.live.exec verificationStore ctx o } (ideal.exec verificationStore ctx o) := by
  obtain ⟨L0, L, hinv⟩ := h.inv
  obtain ⟨L0', L', hinv'⟩ := kind_step .verifications noNaming hU hinv ho
  have hinv' : VInv ctx U L0' L' (ideal.exec verificationStore ctx o) := hinv'
  have hpend : (s.live.exec verificationStore ctx o).pend = (ideal.exec verificationStore ctx o).pend := by
    have e := h.off.exec v_reads ctx s.live.pend o
    rw [show (⟨s.live.db, s.live.pend⟩ : StoreState) = s.live from rfl, h.pend] at e
    exact e
  have hd1 := exec_db verificationStore ctx s.live o
  have hd2 := exec_db verificationStore ctx ideal o
  by_cases hc : o = .commit
  · rw [if_pos hc] at hd1 hd2
    have g1 : ∀ k, (s.live.exec verificationStore ctx o).db.get k = getFromDbOrTxn s.live.db ideal.pend.txn k := by
      intro k; rw [hd1, Db.get_commit, h.pend]
    have g2 : ∀ k, (ideal.exec verificationStore ctx o).db.get k = getFromDbOrTxn ideal.db ideal.pend.txn k := by
      intro k; rw [hd2, Db.get_commit]
    have g : ∀ k, ((s.live.exec verificationStore ctx o).db.get k = (ideal.exec verificationStore ctx o).db.get k) ∨
        ((s.live.exec verificationStore ctx o).db.get k = s.live.db.get k ∧
          (ideal.exec verificationStore ctx o).db.get k = ideal.db.get k) := by
      intro k
      rw [g1, g2]
      unfold getFromDbOrTxn
      cases ideal.pend.txn.get k with
      | some v => exact .inl rfl
      | none => exact .inr ⟨rfl, rfl⟩
    refine ⟨⟨L0', L', hinv'⟩, hpend, ?_, ?_, h.reg, ?_, ?_, h.pcOK⟩
    · intro k hk
      show (s.live.exec verificationStore ctx o).db.get k = _
      rcases g k with e | ⟨e1, e2⟩
      · exact e
      · rw [e1, e2]; exact h.off k hk
    · intro k v hk hg
      simp only at hg ⊢
      rcases g k with e | ⟨e1, e2⟩
      · rw [e] at hg; exact .inr hg
      · rw [e1] at hg; rw [e2]; exact h.idx k v hk hg
    · intro a f hf hn hne
      simp only at hne
      rcases g (byAddressKey a f) with e | ⟨e1, e2⟩
      · exact absurd e.symm hne
      · rw [e1, e2] at hne
        rw [e2] at hn
        exact h.missing a f hf hn hne
    · intro k v hg hl
      simp only at hg
      have hh := (legacy_value hl).2.1
      rcases g k with e | ⟨e1, e2⟩
      · exfalso
        rw [e] at hg
        obtain ⟨m, a, _, _, _, _, rfl, _, _, hlen⟩ := v_index hU hA hinv' hh hg
        have := (legacy_value hl).1
        simp [isLegacyValue] at this
        omega
      · rw [e1] at hg; exact h.left k v hg hl
  · rw [if_neg hc] at hd1 hd2
    refine ⟨⟨L0', L', hinv'⟩, hpend, ?_, ?_, h.reg, ?_, ?_, h.pcOK⟩
    · simp only [hd1, hd2]; exact h.off
    · simp only [hd1, hd2]; exact h.idx
    · simp only [hd1, hd2]; exact h.missing
    · simp only [hd1]; exact h.left

theorem chain_inv {s : Mig} {ideal : StoreState} (h : MigInv ctx U s ideal) {e : OEvent} (he : ChainOK s (.chain e)) :
    MigInv ctx U { s with reg := s.reg.put (oPrimaryKey e) (.event e) } ideal := by
  obtain ⟨hid, hnew, hfirst⟩ := he
  have keep : ∀ x, s.reg.get (oPrimaryKey x) = some (.event x) →
      (s.reg.put (oPrimaryKey e) (.event e)).get (oPrimaryKey x) = some (.event x) := by
    intro x hx
    rw [OMap.get_put]
    by_cases hk : oPrimaryKey x = oPrimaryKey e
    · rw [hk, hnew] at hx; cases hx
    · rw [if_neg hk]; exact hx
  have hself : (s.reg.put (oPrimaryKey e) (.event e)).get (oPrimaryKey e) = some (.event e) := by simp
  have hreg : ∀ f, Registered s.reg f → Registered (s.reg.put (oPrimaryKey e) (.event e)) f := by
    rintro f ⟨x, to, hx, h1, h2, h3⟩
    exact ⟨x, to, keep x hx, h1, h2, h3⟩
  refine ⟨h.inv, h.pend, h.off, h.idx, ⟨?_, ?_⟩, ?_, ?_, ?_⟩
  · intro k v hk hg
    simp only at hg
    rw [OMap.get_put] at hg
    by_cases hke : k = oPrimaryKey e
    · rw [if_pos hke] at hg; cases hg; exact ⟨e, rfl, hke, hid⟩
    · rw [if_neg hke] at hg; exact h.reg.rows k v hk hg
  · intro x hx hg
    simp only at hg
    by_cases hke : oPrimaryKey x = oPrimaryKey e
    · rw [hke, hself] at hg; cases hg
      rcases hfirst with ⟨to, hb⟩ | ⟨r, to, hr, hrg, hrf, hrb, hrl⟩
      · exact ⟨e, to, hid, hself, rfl, hb, .inr ⟨rfl, Nat.le_refl _⟩⟩
      · exact ⟨r, to, hr, keep r hrg, hrf, hrb, hrl⟩
    · rw [OMap.get_put, if_neg hke] at hg
      obtain ⟨r, to, hr, hrg, hrf, hrb, hrl⟩ := h.reg.first x hx hg
      exact ⟨r, to, hr, keep r hrg, hrf, hrb, hrl⟩
  · intro a f hf hn hne
    have ht := h.missing a f hf hn hne
    unfold Mig.Todo at ht ⊢
    cases hpc : s.pc with
    | off => simp only [hpc] at ht ⊢; exact ⟨ht.1, hreg f ht.2⟩
    | first => simp only [hpc] at ht ⊢; exact hreg f ht
    | users it => simp only [hpc] at ht ⊢; exact ⟨hreg f ht.1, ht.2⟩
    | user g it => simp only [hpc] at ht ⊢; exact ⟨hreg f ht.1, ht.2⟩
    | entries g as it => simp only [hpc] at ht ⊢; exact ⟨hreg f ht.1, ht.2⟩
    | sweep _ => simp only [hpc] at ht
    | delete _ => simp only [hpc] at ht
    | returned => simp only [hpc] at ht
  · exact h.left
  · exact h.pcOK

/-- Stopping the task. -/
theorem stop_inv {s : Mig} {ideal : StoreState} (h : MigInv ctx U s ideal) : MigInv ctx U { s with pc := .off } ideal := by
  refine ⟨h.inv, h.pend, h.off, h.idx, h.reg, ?_, ?_, ⟨h.pcOK.1, fun _ => rfl, trivial⟩⟩
  · intro a f hf hn hne
    have ht := h.missing a f hf hn hne
    refine ⟨?_, ht.registered⟩
    intro hv
    have hpc := h.pcOK.2.1 hv
    simp only [Mig.Todo, hpc] at ht
    exact ht.1 hv
  · intro k v hg hl
    have ht := h.left k v hg hl
    show s.version ≠ 2
    intro hv
    have hpc := h.pcOK.2.1 hv
    simp only [Mig.Left, hpc] at ht
    exact ht hv

theorem iter_init_ok : ({} : FidIter).OK := ⟨by decide, by simp, by simp⟩

theorem restart_inv {s : Mig} {ideal : StoreState} (h : MigInv ctx U s ideal) (w : Nat) (hw : w < 2) :
    MigInv ctx U { s with version := w, pc := .users {} } ideal := by
  refine ⟨h.inv, h.pend, h.off, h.idx, h.reg, ?_, fun _ _ _ _ => trivial, ⟨by show w ≤ 2; omega, ?_, iter_init_ok⟩⟩
  · intro a f hf hn hne
    have ht := h.missing a f hf hn hne
    exact ⟨ht.registered, .inr (by simpa using registered_pos h.reg ht.registered)⟩
  · intro hw2; have : w = 2 := hw2; omega

theorem boot_inv {s : Mig} {ideal : StoreState} (h : MigInv ctx U s ideal) : MigInv ctx U s.boot ideal := by
  unfold Mig.boot
  split
  · exact stop_inv h
  · split
    · rename_i h1 h2
      have := restart_inv h s.version (by omega)
      exact this
    · rename_i h1 h2
      refine ⟨h.inv, h.pend, h.off, h.idx, h.reg, ?_, fun _ _ _ _ => trivial, ⟨h.pcOK.1, ?_, trivial⟩⟩
      · intro a f hf hn hne; exact (h.missing a f hf hn hne).registered
      · intro hv; have : s.version = 2 := hv; omega

theorem step_inv (hU : HashesIdentify U) (hA : AddressLengths U) {s : Mig} {ideal : StoreState}
    (h : MigInv ctx U s ideal) : MigInv ctx U s.step ideal := by
  obtain ⟨L0, L, hinv⟩ := h.inv
  have hver : s.pc ≠ .off → s.version < 2 := by
    intro hne
    have h1 := h.pcOK.1
    have h2 := h.pcOK.2.1
    rcases Nat.lt_or_ge s.version 2 with h | h
    · exact h
    · exact absurd (h2 (by omega)) hne
  have hpk := h.pcOK.2.2
  unfold Mig.step
  split
  · exact h
  · rename_i hpc
    exact restart_inv h 1 (by omega)
  · -- users
    rename_i it hpc
    have hv := hver (by rw [hpc]; simp)
    have hmiss := h.missing
    simp only [hpc, Mig.Todo] at hpk hmiss
    rcases FidIter.next_spec h.reg hpk with ⟨it', e, hno⟩ | ⟨g, it', e, hok, hlt, hg, hnext⟩
    · rw [e]
      refine ⟨h.inv, h.pend, h.off, h.idx, h.reg, ?_, ?_, ⟨h.pcOK.1, ?_, rfl⟩⟩
      · intro a f hf hn hne
        obtain ⟨h1, h2⟩ := hmiss a f hf hn hne
        exact absurd h2 (hno f h1)
      · intro k v hk hl
        have := (legacy_value hl).2.1
        show Bytes.blt k [14] = false
        refine Bytes.not_blt_of_prefix ?_
        cases k with
        | nil => cases this
        | cons x xs => simp at this; subst this; exact ⟨xs, rfl⟩
      · intro hv2; have : s.version = 2 := hv2; omega
    · rw [e]
      refine ⟨h.inv, h.pend, h.off, h.idx, h.reg, ?_, fun _ _ _ _ => trivial, ⟨h.pcOK.1, ?_, ?_⟩⟩
      · intro a f hf hn hne
        obtain ⟨h1, h2⟩ := hmiss a f hf hn hne
        exact ⟨h1, hnext f h1 h2⟩
      · intro hv2; have : s.version = 2 := hv2; omega
      · have := hok.last
        exact ⟨by omega, hok⟩
  · -- user
    rename_i g it hpc
    have hv := hver (by rw [hpc]; simp)
    have hmiss := h.missing
    simp only [hpc, Mig.Todo] at hpk hmiss
    refine ⟨h.inv, h.pend, h.off, h.idx, h.reg, ?_, fun _ _ _ _ => trivial, ⟨h.pcOK.1, ?_, hpk⟩⟩
    · intro a f hf hn hne
      obtain ⟨h1, h2⟩ := hmiss a f hf hn hne
      refine ⟨h1, ?_⟩
      rcases h2 with rfl | h2
      · left
        refine ⟨rfl, ?_⟩
        cases hi : ideal.db.get (byAddressKey a f) with
        | none => exact absurd hi hn
        | some v =>
          obtain ⟨m, a', hm, ha', _, ek, _, _, hsel, _⟩ := v_index hU hA hinv (k := byAddressKey a f) rfl hi
          obtain ⟨rfl, rfl⟩ := byAddressKey_inj hf hm.2.1 ek
          rw [← h.off _ (addsKey_off _ _)] at hsel
          exact mem_addressesOf hsel ha'
      · exact .inr h2
    · intro hv2; have : s.version = 2 := hv2; omega
  · -- entries []
    rename_i g it hpc
    have hv := hver (by rw [hpc]; simp)
    have hmiss := h.missing
    simp only [hpc, Mig.Todo] at hpk hmiss
    refine ⟨h.inv, h.pend, h.off, h.idx, h.reg, ?_, fun _ _ _ _ => trivial, ⟨h.pcOK.1, ?_, hpk.2⟩⟩
    · intro a f hf hn hne
      obtain ⟨h1, h2 | h2⟩ := hmiss a f hf hn hne
      · cases h2.2
      · exact ⟨h1, h2⟩
    · intro hv2; have : s.version = 2 := hv2; omega
  · -- entries
    rename_i g a0 as it hpc
    have hv := hver (by rw [hpc]; simp)
    have hmiss := h.missing
    simp only [hpc, Mig.Todo] at hpk hmiss
    have hsel : ∀ th, s.live.db.get (verificationAddsKey g a0) = some (.raw th) →
        ideal.db.get (byAddressKey a0 g) = some (.raw th) := by
      intro th hg
      rw [h.off _ (addsKey_off _ _)] at hg
      exact v_selector hU hinv hpk.1 hg
    have hcases : (∀ k, (backfill s.live.db g a0).get k = s.live.db.get k ∨
        ∃ th, k = byAddressKey a0 g ∧ th.length = 24 ∧ (backfill s.live.db g a0).get k = some (.raw th) ∧
          ideal.db.get k = some (.raw th)) := by
      intro k
      rcases backfill_cases s.live.db g a0 with e | ⟨th, hg, ht⟩
      · left; rw [e]
      · rw [get_backfill hg ht]
        by_cases hc : k = byAddressKey a0 g
        · right; refine ⟨th, hc, ht, by rw [if_pos hc], ?_⟩
          rw [hc]; exact hsel th hg
        · left; rw [if_neg hc]
    refine ⟨h.inv, h.pend, ?_, ?_, h.reg, ?_, fun _ _ _ _ => trivial, ⟨h.pcOK.1, ?_, hpk⟩⟩
    · intro k hk
      show (backfill s.live.db g a0).get k = _
      rcases hcases k with e | ⟨th, rfl, _⟩
      · rw [e]; exact h.off k hk
      · exact absurd rfl hk
    · intro k v hk hg
      have hg : (backfill s.live.db g a0).get k = some v := hg
      rcases hcases k with e | ⟨th, rfl, _, e, hi⟩
      · rw [e] at hg; exact h.idx k v hk hg
      · rw [e] at hg; rw [← hg]; exact .inr hi
    · intro a f hf hn hne
      have hne' : ideal.db.get (byAddressKey a f) ≠ (backfill s.live.db g a0).get (byAddressKey a f) := hne
      rcases hcases (byAddressKey a f) with e | ⟨th, _, _, e, hi⟩
      · rw [e] at hne'
        obtain ⟨h1, h2⟩ := hmiss a f hf hn hne'
        refine ⟨h1, ?_⟩
        rcases h2 with ⟨rfl, h2⟩ | h2
        · rcases List.mem_cons.1 h2 with rfl | h2
          · exfalso
            cases hi : ideal.db.get (byAddressKey a f) with
            | none => exact hn hi
            | some v =>
              obtain ⟨m, a', hm, ha', _, ek, rfl, _, hs, hl⟩ := v_index hU hA hinv (k := byAddressKey a f) rfl hi
              obtain ⟨rfl, rfl⟩ := byAddressKey_inj hf hm.2.1 ek
              rw [← h.off _ (addsKey_off _ _)] at hs
              have := get_backfill hs hl (byAddressKey a m.fid)
              rw [if_pos rfl, e] at this
              exact hne' (by rw [hi, this])
          · exact .inl ⟨rfl, h2⟩
        · exact .inr h2
      · rw [e, hi] at hne'; exact absurd rfl hne'
    · intro hv2; have : s.version = 2 := hv2; omega
  · -- sweep
    rename_i resume hpc
    have hv := hver (by rw [hpc]; simp)
    have hmiss := h.missing
    have hleft := h.left
    simp only [hpc, Mig.Todo, Mig.Left] at hpk hmiss hleft
    rw [sweepScan_eq]
    have hmem : ∀ k v, s.live.db.get k = some v → LegacySlot k v → k ∈ legacyKeys s.live.db resume := by
      intro k v hg hl
      obtain ⟨h1, h2, _⟩ := legacy_value hl
      refine mem_legacyKeys.2 ⟨v, hg, h1, hleft k v hg hl, ?_⟩
      have hp : ([] ++ [14] : Bytes) <+: k := by
        cases k with
        | nil => cases h2
        | cons x xs => simp at h2; subst h2; exact ⟨xs, rfl⟩
      exact ((mem_range_iff_prefix_of_last (q := []) (b := 14) (by decide) (k := k)).2 hp).2
    split
    · rename_i e; cases e
    · rename_i e
      injection e with e
      refine ⟨h.inv, h.pend, h.off, h.idx, h.reg, ?_, ?_, ⟨h.pcOK.1, ?_, trivial⟩⟩
      · intro a f hf hn hne; exact hmiss a f hf hn hne
      · intro k v hg hl
        have := hmem k v hg hl
        show False
        cases hL : legacyKeys s.live.db resume with
        | nil => rw [hL] at this; cases this
        | cons x xs =>
          rw [hL, show sweepChunk = 9999 + 1 from rfl, List.take_succ_cons] at e
          cases e
      · intro hv2; have : s.version = 2 := hv2; omega
    · rename_i chunk hne e
      injection e with e
      refine ⟨h.inv, h.pend, h.off, h.idx, h.reg, ?_, ?_, ⟨h.pcOK.1, ?_, ?_⟩⟩
      · intro a f hf hn hne; exact hmiss a f hf hn hne
      · intro k v hg hl
        have hk := hmem k v hg hl
        show k ∈ chunk ∨ (sweepChunk ≤ chunk.length ∧ Bytes.blt k (chunk.getLast?.getD [] ++ [0]) = false)
        have hsort := legacyKeys_sorted s.live.db resume
        rw [← List.take_append_drop sweepChunk (legacyKeys s.live.db resume)] at hk hsort
        rcases List.mem_append.1 hk with hk | hk
        · rw [e] at hk; exact .inl hk
        · right
          have hlen : sweepChunk ≤ chunk.length := by
            rw [← e, List.length_take]
            have : 0 < (List.drop sweepChunk (legacyKeys s.live.db resume)).length := List.length_pos_of_mem hk
            rw [List.length_drop] at this
            omega
          refine ⟨hlen, ?_⟩
          rw [e] at hsort
          have hlt := (List.pairwise_append.1 hsort).2.2
          cases hz : chunk.getLast? with
          | none =>
            have : chunk = [] := by simpa using hz
            rw [this] at hlen; simp [sweepChunk] at hlen
          | some z =>
            have hzk := hlt z (List.mem_of_getLast? hz) k hk
            rw [Option.getD_some, Bool.eq_false_iff]
            intro hc
            rcases (Bytes.blt_append_zero z k).1 hc with h1 | h1
            · have := Bytes.blt_trans h1 hzk
              rw [Bytes.blt_irrefl] at this; cases this
            · rw [h1, Bytes.blt_irrefl] at hzk; cases hzk
      · intro hv2; have : s.version = 2 := hv2; omega
      · intro k hk
        have hk' : k ∈ legacyKeys s.live.db resume := by rw [← e] at hk; exact List.mem_of_mem_take hk
        obtain ⟨v, hg, h1, h2, h3⟩ := mem_legacyKeys.1 hk'
        have hh := head_of_range hpk h2 h3
        rcases h.idx k v hh hg with hl | hi
        · exact ⟨hh, (legacy_value hl).2.2⟩
        · exfalso
          obtain ⟨m, a, _, _, _, _, rfl, _, _, hlen⟩ := v_index hU hA hinv hh hi
          simp [isLegacyValue] at h1; omega
  · -- delete
    rename_i chunk hpc
    have hv := hver (by rw [hpc]; simp)
    have hmiss := h.missing
    have hleft := h.left
    simp only [hpc, Mig.Todo, Mig.Left] at hpk hmiss hleft
    have hgs := get_sweep s.live.db chunk
    have hnot : ∀ k ∈ chunk, ideal.db.get k = none := by
      intro k hk
      obtain ⟨h1, h2⟩ := hpk k hk
      cases hi : ideal.db.get k with
      | none => rfl
      | some v =>
        exfalso
        obtain ⟨m, a, _, _, ha, rfl, _⟩ := v_index hU hA hinv h1 hi
        have : (byAddressKey a m.fid).length = a.length + 5 := by simp [byAddressKey, makeFidKey]
        omega
    refine ⟨h.inv, h.pend, ?_, ?_, h.reg, ?_, ?_, ⟨h.pcOK.1, ?_, ?_⟩⟩
    · intro k hk
      show (Db.commit s.live.db (chunk.foldl Txn.stageDel OMap.empty)).get k = _
      rw [hgs]
      by_cases hc : k ∈ chunk
      · exact absurd (hpk k hc).1 hk
      · rw [if_neg hc]; exact h.off k hk
    · intro k v hk hg
      have hg : (Db.commit s.live.db (chunk.foldl Txn.stageDel OMap.empty)).get k = some v := hg
      rw [hgs] at hg
      by_cases hc : k ∈ chunk
      · rw [if_pos hc] at hg; cases hg
      · rw [if_neg hc] at hg; exact h.idx k v hk hg
    · intro a f hf hn hne
      exfalso
      have hne : ideal.db.get (byAddressKey a f) ≠ (Db.commit s.live.db (chunk.foldl Txn.stageDel OMap.empty)).get (byAddressKey a f) := hne
      rw [hgs] at hne
      by_cases hc : byAddressKey a f ∈ chunk
      · exact hn (hnot _ hc)
      · rw [if_neg hc] at hne
        exact hmiss a f hf hn hne
    · intro k v hg hl
      have hg : (Db.commit s.live.db (chunk.foldl Txn.stageDel OMap.empty)).get k = some v := hg
      rw [hgs] at hg
      by_cases hc : k ∈ chunk
      · rw [if_pos hc] at hg; cases hg
      · rw [if_neg hc] at hg
        rcases hleft k v hg hl with h1 | ⟨h1, h2⟩
        · exact absurd h1 hc
        · unfold Mig.Left
          simp only
          rw [if_neg (by omega)]
          exact h2
    · intro hv2; have : s.version = 2 := hv2; omega
    · by_cases hc : chunk.length < sweepChunk
      · simp only [hc, if_true]
      · simp only [hc, if_false]
        cases hz : chunk.getLast? with
        | none =>
          have : chunk = [] := by simpa using hz
          rw [this] at hc; simp [sweepChunk] at hc
        | some z =>
          have := (hpk z (List.mem_of_getLast? hz)).1
          cases z with
          | nil => cases this
          | cons x xs => simpa using this
  · -- returned
    rename_i hpc
    have hmiss := h.missing
    have hleft := h.left
    simp only [hpc, Mig.Todo, Mig.Left] at hmiss hleft
    refine ⟨h.inv, h.pend, h.off, h.idx, h.reg, ?_, ?_, ⟨by show 2 ≤ 2; omega, fun _ => rfl, trivial⟩⟩
    · intro a f hf hn hne; exact (hmiss a f hf hn hne).elim
    · intro k v hg hl; exact (hleft k v hg hl).elim

theorem mig_run (hU : HashesIdentify U) (hA : AddressLengths U) : ∀ (ops : List MigOp) {s : Mig} {ideal : StoreState},
    MigInv ctx U s ideal → ChainRun ctx s ops →
    StoreKind.verifications.ProperRun (fun _ => none) ctx U ideal (MigOp.calls ops) →
    MigInv ctx U (s.run ctx ops) (ideal.run verificationStore ctx (MigOp.calls ops))
  | [], _, _, h, _, _ => h
  | o :: ops, s, ideal, h, hc, hp => by
    obtain ⟨hc1, hc2⟩ := hc
    cases o with
    | live o =>
      have hp' : StoreKind.verifications.Proper (fun _ => none) U ideal o ∧ _ := hp
      exact mig_run hU hA ops (live_inv hU hA h hp'.1) hc2 hp'.2
    | chain e => exact mig_run hU hA ops (chain_inv h hc1) hc2 hp
    | step => exact mig_run hU hA ops (step_inv hU hA h) hc2 hp
    | fail => exact mig_run hU hA ops (stop_inv h) hc2 hp
    | crash =>
      have hp' : StoreKind.verifications.Proper (fun _ => none) U ideal .drop ∧ _ := hp
      exact mig_run hU hA ops (boot_inv (live_inv hU hA h hp'.1)) hc2 hp'.2

theorem mig_init (hU : HashesIdentify U) (hA : AddressLengths U) {old : StoreState} {L0 L : List Msg}
    (hold : VInv ctx U L0 L old) {db : Db SVal} (hdb : OldIndex db old.db) {reg : Db OVal} (hreg : RegistryOK reg)
    (hall : ∀ m, old.db.get (makeMessagePrimaryKey m.fid 4 (some m.tsHash)) = some (.msg m) → Registered reg m.fid)
    {v : Nat} (hv : v < 2) : MigInv ctx U { live := ⟨db, old.pend⟩, reg := reg, version := v } old := by
  refine ⟨⟨L0, L, hold⟩, rfl, hdb.1, fun k v hk hg => .inl (hdb.2 k v hk hg), hreg, ?_, ?_, ⟨by show v ≤ 2; omega, fun _ => rfl, trivial⟩⟩
  · intro a f hf hn _
    refine ⟨by show v ≠ 2; omega, ?_⟩
    cases hi : old.db.get (byAddressKey a f) with
    | none => exact absurd hi hn
    | some w =>
      obtain ⟨m, a', hm, _, _, ek, _, hp, _⟩ := v_index hU hA hold (k := byAddressKey a f) rfl hi
      obtain ⟨rfl, rfl⟩ := byAddressKey_inj hf hm.2.1 ek
      exact hall m hp
  · intro k w _ _; show v ≠ 2; omega

end Verif

/-! ### The task finishes -/
namespace Verif
open StoreDef
variable {U : Msg → Prop} {ctx : Nat → MergeCtx}

/-- Left alone, the task writes the new version. -/
def Mig.Completes (ctx : Nat → MergeCtx) (s : Mig) : Prop := ∃ n, (s.run ctx (List.replicate n .step)).version = 2

theorem Mig.Completes.of_step {s : Mig} (h : s.step.Completes ctx) : s.Completes ctx := by
  obtain ⟨n, hn⟩ := h
  exact ⟨n + 1, hn⟩

theorem completes_returned {s : Mig} (h : s.pc = .returned) : s.Completes ctx := by
  refine ⟨1, ?_⟩
  show s.step.version = 2
  unfold Mig.step; rw [h]

theorem completes_sweep : ∀ (n : Nat) (s : Mig) (resume : Bytes), s.pc = .sweep resume →
    (legacyKeys s.live.db resume).length ≤ n → s.Completes ctx
  | n, s, resume, hpc, hn => by
    apply Mig.Completes.of_step
    cases hL : legacyKeys s.live.db resume with
    | nil =>
      have hs : s.step = { s with pc := .returned } := by
        unfold Mig.step; rw [hpc]; simp only [sweepScan_eq, hL, List.take_nil]
      rw [hs]; exact completes_returned rfl
    | cons x xs =>
      have hne : (legacyKeys s.live.db resume).take sweepChunk = x :: xs.take 9999 := by rw [hL]; rfl
      have hs : s.step = { s with pc := .delete (x :: xs.take 9999) } := by
        unfold Mig.step; rw [hpc]; simp only [sweepScan_eq, hne]
      rw [hs, ← hne]
      apply Mig.Completes.of_step
      unfold Mig.step
      simp only
      split
      · exact completes_returned rfl
      · rename_i hlen
        cases n with
        | zero => rw [hL] at hn; simp at hn
        | succ n =>
          refine completes_sweep n _ _ rfl ?_
          show (legacyKeys (Db.commit s.live.db (((legacyKeys s.live.db resume).take sweepChunk).foldl Txn.stageDel OMap.empty)) _).length ≤ n
          have hsub : ∀ k ∈ legacyKeys (Db.commit s.live.db (((legacyKeys s.live.db resume).take sweepChunk).foldl Txn.stageDel OMap.empty))
              (((legacyKeys s.live.db resume).take sweepChunk).getLast?.getD [] ++ [0]), k ∈ xs := by
            intro k hk
            obtain ⟨v, hg, h1, h2, h3⟩ := mem_legacyKeys.1 hk
            rw [get_sweep] at hg
            split at hg
            · cases hg
            · rename_i hno
              have hkL : k ∈ legacyKeys s.live.db resume := by
                refine mem_legacyKeys.2 ⟨v, hg, h1, ?_, h3⟩
                rw [Bool.eq_false_iff]
                intro hc
                have : Bytes.blt k (((legacyKeys s.live.db resume).take sweepChunk).getLast?.getD [] ++ [0]) = true := by
                  cases hz : ((legacyKeys s.live.db resume).take sweepChunk).getLast? with
                  | none => rw [hne] at hz; simp at hz
                  | some z =>
                    have hzm := List.mem_of_mem_take (List.mem_of_getLast? hz)
                    obtain ⟨_, _, _, hz2, _⟩ := mem_legacyKeys.1 hzm
                    rw [Option.getD_some, Bytes.blt_append_zero]
                    left
                    rcases Bytes.blt_tri resume z with h | h | h
                    · exact Bytes.blt_trans hc h
                    · rw [← h]; exact hc
                    · rw [h] at hz2; cases hz2
                rw [this] at h2; cases h2
              rw [hne] at hno
              rw [hL] at hkL
              rcases List.mem_cons.1 hkL with rfl | h
              · exact absurd (by simp) hno
              · exact h
          have hnd : (legacyKeys (Db.commit s.live.db (((legacyKeys s.live.db resume).take sweepChunk).foldl Txn.stageDel OMap.empty))
              (((legacyKeys s.live.db resume).take sweepChunk).getLast?.getD [] ++ [0])).Nodup :=
            (legacyKeys_sorted _ _).imp (fun h e => by rw [e, Bytes.blt_irrefl] at h; cases h)
          have := Tree.Good.length_le_of_subset hnd hsub
          rw [hL] at hn
          simp at hn
          omega

theorem entries_done (as : List Bytes) : ∀ (s : Mig) (g : Nat) (it : FidIter), s.pc = .entries g as it →
    (∀ s' : Mig, s'.reg = s.reg → s'.pc = .users it → s'.Completes ctx) → s.Completes ctx := by
  induction as with
  | nil =>
    intro s g it hpc hk
    apply Mig.Completes.of_step
    unfold Mig.step; rw [hpc]
    exact hk _ rfl rfl
  | cons a as ih =>
    intro s g it hpc hk
    apply Mig.Completes.of_step
    unfold Mig.step; rw [hpc]
    exact ih _ g it rfl (fun s' h1 h2 => hk s' h1 h2)

theorem completes_users {reg : Db OVal} (hr : RegistryOK reg) : ∀ (n : Nat) (s : Mig) (it : FidIter), s.reg = reg →
    s.pc = .users it → it.OK → 2 ^ 32 - it.last ≤ n → s.Completes ctx
  | n, s, it, hreg, hpc, hok, hn => by
    apply Mig.Completes.of_step
    unfold Mig.step; rw [hpc]
    simp only [hreg]
    rcases FidIter.next_spec hr hok with ⟨it', e, _⟩ | ⟨g, it', e, hok', hlt, hg, _⟩
    · rw [e]; exact completes_sweep _ _ _ rfl (Nat.le_refl _)
    · rw [e]
      apply Mig.Completes.of_step
      unfold Mig.step
      simp only
      refine entries_done _ _ g it' rfl ?_
      intro s' h1 h2
      have := hok'.last
      cases n with
      | zero => omega
      | succ n => exact completes_users hr n s' it' (by rw [h1]) h2 hok' (by omega)

theorem completes_of_inv {s : Mig} {ideal : StoreState} (h : MigInv ctx U s ideal) (hpc : s.pc ≠ .off) : s.Completes ctx := by
  have hp := h.pcOK.2.2
  have users : ∀ (s' : Mig) (it : FidIter), s'.reg = s.reg → s'.pc = .users it → it.OK → s'.Completes ctx :=
    fun s' it h1 h2 h3 => completes_users h.reg _ s' it h1 h2 h3 (Nat.le_refl _)
  cases hc : s.pc with
  | off => exact absurd hc hpc
  | first =>
    apply Mig.Completes.of_step
    unfold Mig.step; rw [hc]
    exact users _ {} rfl rfl iter_init_ok
  | users it => rw [hc] at hp; exact users s it rfl hc hp
  | user g it =>
    rw [hc] at hp
    apply Mig.Completes.of_step
    unfold Mig.step; rw [hc]
    exact entries_done _ _ g it rfl (fun s' h1 h2 => users s' it h1 h2 hp.2)
  | entries g as it =>
    rw [hc] at hp
    exact entries_done as s g it hc (fun s' h1 h2 => users s' it h1 h2 hp.2)
  | sweep resume => exact completes_sweep _ s resume hc (Nat.le_refl _)
  | delete chunk =>
    apply Mig.Completes.of_step
    unfold Mig.step; rw [hc]
    simp only
    split
    · exact completes_returned rfl
    · exact completes_sweep _ _ _ rfl (Nat.le_refl _)
  | returned => exact completes_returned hc

end Verif
