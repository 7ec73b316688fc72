import Verif.Spec.Names
import Verif.Lemmas.StoreLaws
/-! The username proof store holds one proof per name. -/
namespace Verif
namespace Names

def nm (m : Msg) : Bytes := match m.body with | .usernameProof n => n | _ => []

structure Ok (U : Msg → Prop) (m : Msg) : Prop where
  valid : NameValid m
  u : U m

def rows (m : Msg) : List (Bytes × SVal) :=
  [(nameStore.prim m, .msg m), (nameAddKey m.fid (nm m), .raw (tsh m)), (nameKey (nm m), .raw (makeFidKey m.fid))]

def keys (m : Msg) : List Bytes := [nameKey (nm m), nameAddKey m.fid (nm m), nameStore.prim m]

theorem keys_eq (m : Msg) (k : Bytes) : k ∈ keys m ↔ k ∈ (rows m).map (·.1) := by
  simp [keys, rows]; grind

structure Holds (U : Msg → Prop) (L : List Msg) (V : View) : Prop where
  valid : ∀ m ∈ L, Ok U m
  items : L.Pairwise (fun a b => nm a ≠ nm b)
  rows : ∀ k, (∀ id, k ≠ eventKey id) → ∀ v, V k = some v ↔ ∃ m ∈ L, (k, v) ∈ rows m

variable {U : Msg → Prop}

theorem body_eq {m : Msg} (h : NameValid m) : m.body = .usernameProof (nm m) ∧ nm m ≠ [] := by
  obtain ⟨_, _, _, _, _, n, hb, hn⟩ := h
  unfold nm; rw [hb]; exact ⟨rfl, hn⟩

theorem prim_eq (m : Msg) : nameStore.prim m = (RowKey.message m.fid 7 (tsh m)).bytes := rfl
theorem addKey_eq (f : Nat) (n : Bytes) : nameAddKey f n = (RowKey.usernameProof f n).bytes := rfl
theorem nameKey_eq (n : Bytes) : nameKey n = (RowKey.usernameByName n).bytes := rfl

theorem wf_prim {m : Msg} (h : NameValid m) : (RowKey.message m.fid 7 (tsh m)).WF := by
  refine ⟨?_, ?_, tsh_length h.2.2.2.1⟩
  · intro f hf; simp [RowKey.fids] at hf; rw [hf]; exact h.2.1
  · decide
theorem wf_add {f : Nat} {n : Bytes} (h : f < 2 ^ 32) : (RowKey.usernameProof f n).WF := by
  refine ⟨?_, trivial⟩
  intro f hf; simp [RowKey.fids] at hf; rw [hf]; exact h
theorem wf_name (n : Bytes) : (RowKey.usernameByName n).WF := by
  refine ⟨?_, trivial⟩
  intro f hf; simp [RowKey.fids] at hf

theorem tsh_inj {a b : Msg} (ha : NameValid a) (hb : NameValid b) (h : tsh a = tsh b) :
    a.ts = b.ts ∧ a.hash = b.hash := by
  unfold tsh at h
  obtain ⟨h1, h2⟩ := List.append_inj h (by simp)
  exact ⟨be_inj (by have := ha.2.2.1; omega) (by have := hb.2.2.1; omega) h1, h2⟩

/-- The logical key of each row. -/
inductive Row (m : Msg) : RowKey → SVal → Prop where
  | prim : Row m (.message m.fid 7 (tsh m)) (.msg m)
  | add : Row m (.usernameProof m.fid (nm m)) (.raw (tsh m))
  | name : Row m (.usernameByName (nm m)) (.raw (makeFidKey m.fid))

theorem mem_rows {m : Msg} (hm : NameValid m) {k : Bytes} {v : SVal} (h : (k, v) ∈ rows m) :
    ∃ r, Row m r v ∧ k = r.bytes ∧ r.WF := by
  simp only [rows, List.mem_cons, Prod.mk.injEq, List.not_mem_nil, or_false] at h
  rcases h with ⟨rfl, rfl⟩ | ⟨rfl, rfl⟩ | ⟨rfl, rfl⟩
  · exact ⟨_, .prim, rfl, wf_prim hm⟩
  · exact ⟨_, .add, rfl, wf_add hm.2.1⟩
  · exact ⟨_, .name, rfl, wf_name _⟩

theorem Row.mem {m : Msg} {r : RowKey} {v : SVal} (h : Row m r v) : (r.bytes, v) ∈ rows m := by
  cases h <;> simp [rows, prim_eq, addKey_eq, nameKey_eq]

theorem key_mem {m : Msg} {k : Bytes} {v : SVal} (h : (k, v) ∈ rows m) : k ∈ keys m := by
  rw [keys_eq]; exact List.mem_map.2 ⟨_, h, rfl⟩

theorem of_key {m : Msg} {k : Bytes} (h : k ∈ keys m) : ∃ v, (k, v) ∈ rows m := by
  rw [keys_eq] at h
  obtain ⟨⟨k', v⟩, h', rfl⟩ := List.mem_map.1 h
  exact ⟨v, h'⟩

theorem rows_share {a b : Msg} (hu : HashesUnique U) (ha : Ok U a) (hb : Ok U b) {k : Bytes} {v w : SVal}
    (h : (k, v) ∈ rows a) (h' : (k, w) ∈ rows b) : nm a = nm b := by
  obtain ⟨r, hr, e, wf⟩ := mem_rows ha.valid h
  obtain ⟨r', hr', e', wf'⟩ := mem_rows hb.valid h'
  have er := RowKey.bytes_inj wf wf' (e.symm.trans e')
  generalize hra : r = ra at hr er
  cases hr <;> cases hr' <;> simp at er
  · obtain ⟨h1, h2⟩ := tsh_inj ha.valid hb.valid er.2
    rw [hu a b ha.u hb.u h1 h2]
  · exact er.2
  · exact er

theorem rows_fun {a : Msg} (ha : NameValid a) {k : Bytes} {v w : SVal}
    (h : (k, v) ∈ rows a) (h' : (k, w) ∈ rows a) : w = v := by
  obtain ⟨r, hr, e, wf⟩ := mem_rows ha h
  obtain ⟨r', hr', e', wf'⟩ := mem_rows ha h'
  have := RowKey.bytes_inj wf wf' (e ▸ e')
  subst this
  cases hr <;> cases hr' <;> rfl

theorem key_not_event {m : Msg} {k : Bytes} (h : k ∈ keys m) (id : Nat) : k ≠ eventKey id := by
  simp only [keys, List.mem_cons, List.not_mem_nil, or_false] at h
  rcases h with rfl | rfl | rfl
  · exact RowKey.ne_event (r := .usernameByName _) rfl id
  · exact RowKey.ne_event (r := .usernameProof _ _) rfl id
  · exact StoreDef.prim_ne_event m id

theorem unique {L : List Msg} (hp : L.Pairwise (fun a b => nm a ≠ nm b)) {a b : Msg} (ha : a ∈ L) (hb : b ∈ L)
    (h : nm a = nm b) : a = b := by
  induction L with
  | nil => cases ha
  | cons x l ih =>
    obtain ⟨h1, h2⟩ := List.pairwise_cons.1 hp
    rcases List.mem_cons.1 ha with ea | ha' <;> rcases List.mem_cons.1 hb with eb | hb'
    · rw [ea, eb]
    · subst ea; exact absurd h (h1 b hb')
    · subst eb; exact absurd h.symm (h1 a ha')
    · exact ih h2 ha' hb'

theorem Holds.congr {L : List Msg} {V V' : View} (h : Holds U L V)
    (e : ∀ k, (∀ id, k ≠ eventKey id) → V' k = V k) : Holds U L V' :=
  ⟨h.valid, h.items, fun k hk v => by rw [e k hk]; exact h.rows k hk v⟩

theorem Holds.delete {L : List Msg} {V V' : View} (hu : HashesUnique U) (h : Holds U L V) {m : Msg} (hm : m ∈ L)
    (e : ∀ k, V' k = if k ∈ keys m then none else V k) : Holds U (L.filter (fun x => x ≠ m)) V' := by
  refine ⟨fun x hx => h.valid x (List.mem_filter.1 hx).1, h.items.filter _, ?_⟩
  intro k hk v
  rw [e]
  by_cases hkm : k ∈ keys m
  · rw [if_pos hkm]
    refine ⟨fun h => (by cases h), ?_⟩
    rintro ⟨x, hx, hr⟩
    obtain ⟨hxL, hne⟩ := List.mem_filter.1 hx
    obtain ⟨w, hw⟩ := of_key hkm
    have := unique h.items hxL hm (rows_share hu (h.valid x hxL) (h.valid m hm) hr hw)
    simp [this] at hne
  · rw [if_neg hkm, h.rows k hk]
    constructor
    · rintro ⟨x, hx, hr⟩
      refine ⟨x, List.mem_filter.2 ⟨hx, ?_⟩, hr⟩
      simp only [ne_eq, decide_not, Bool.not_eq_eq_eq_not, Bool.not_true, decide_eq_false_iff_not]
      intro e; subst e; exact hkm (key_mem hr)
    · rintro ⟨x, hx, hr⟩
      exact ⟨x, (List.mem_filter.1 hx).1, hr⟩

theorem Holds.insert {L : List Msg} {db : Db SVal} {t : Txn SVal} (hu : HashesUnique U)
    (h : Holds U L (viewOf db t)) {m : Msg}
    (hm : Ok U m) (hn : ∀ x ∈ L, nm x ≠ nm m) :
    Holds U (L ++ [m]) (viewOf db (stageAll t (puts (Names.rows m)))) := by
  refine ⟨?_, ?_, ?_⟩
  · intro x hx
    rcases List.mem_append.1 hx with hx | hx
    · exact h.valid x hx
    · rw [List.mem_singleton.1 hx]; exact hm
  · rw [List.pairwise_append]
    refine ⟨h.items, List.pairwise_singleton _ _, ?_⟩
    intro a ha b hb
    rw [List.mem_singleton.1 hb]; exact hn a ha
  · intro k hk v
    by_cases hkm : k ∈ keys m
    · obtain ⟨w, hw⟩ := of_key hkm
      rw [view_puts_in db t (Names.rows m) k w hw (fun v' hv => rows_fun hm.valid hw hv)]
      constructor
      · intro e
        cases e
        exact ⟨m, by simp, hw⟩
      · rintro ⟨x, hx, hr⟩
        rcases List.mem_append.1 hx with hx | hx
        · exact absurd (rows_share hu (h.valid x hx) hm hr hw) (hn x hx)
        · rw [List.mem_singleton.1 hx] at hr
          rw [rows_fun hm.valid hw hr]
    · rw [view_puts_notin db t (Names.rows m) k (fun hc => hkm ((keys_eq m k).2 hc)), h.rows k hk]
      constructor
      · rintro ⟨x, hx, hr⟩; exact ⟨x, List.mem_append_left _ hx, hr⟩
      · rintro ⟨x, hx, hr⟩
        rcases List.mem_append.1 hx with hx | hx
        · exact ⟨x, hx, hr⟩
        · rw [List.mem_singleton.1 hx] at hr
          exact absurd (key_mem hr) hkm

/-! ### The code -/

theorem isAdd {m : Msg} (h : NameValid m) : nameStore.isAdd m = true := by
  simp [StoreDef.isAdd, nameStore, h.2.2.2.2.1]

theorem deleteAdd_stages {m : Msg} (h : NameValid m) :
    Stages (nameStore.deleteAdd (tsh m) m) (dels (keys m)) () := by
  obtain ⟨hb, hn⟩ := body_eq h
  have h1 : nameStore.indexKeys (tsh m) m = .ok [nameKey (nm m)] := by simp [nameStore, hb, hn]
  have h2 : nameStore.addKey m = .ok (nameAddKey m.fid (nm m)) := by simp [nameStore, hb]
  unfold StoreDef.deleteAdd
  refine Stages.cast (Stages.bind (Stages.lift h1) (Stages.bind (Stages.forEach_del _)
    (Stages.bind (Stages.forEach_del _) (Stages.bind (Stages.lift h2) (Stages.bind (Stages.del _)
      (o₂ := [(nameStore.prim m, none)]) ?_))))) ?_
  · exact Stages.bind (Stages.lift (makeTsHash_ok h.2.2.2.1)) (Stages.del _)
  · rfl

theorem putAdd_stages {m : Msg} (ctx : MergeCtx) (h : NameValid m) :
    Stages (nameStore.putAdd ctx (tsh m) m) (puts (rows m)) () := by
  obtain ⟨hb, hn⟩ := body_eq h
  have h1 : nameStore.indexRows (tsh m) m = .ok [(nameKey (nm m), .raw (makeFidKey m.fid))] := by
    simp [nameStore, hb, hn]
  have h2 : nameStore.addKey m = .ok (nameAddKey m.fid (nm m)) := by simp [nameStore, hb]
  unfold StoreDef.putAdd
  refine Stages.cast (Stages.bind (o₁ := [(nameStore.prim m, some (.msg m))]) (a := ()) ?_
    (Stages.bind (Stages.lift h2) (Stages.bind (Stages.put _ _)
      (Stages.bind (Stages.lift h1) (Stages.bind (Stages.forEach_put _) (o₂ := []) ?_))))) ?_
  · exact Stages.bind (Stages.lift (makeTsHash_ok h.2.2.2.1)) (Stages.put _ _)
  · have : (if ctx.follows then nameStore.followRows m else []) = [] := by
      cases ctx.follows <;> rfl
    simp only [this]
    exact Stages.pure ()
  · rfl

theorem deleteMany_stages {ms : List Msg} (h : ∀ m ∈ ms, NameValid m) :
    Stages (nameStore.deleteMany ms) (dels (ms.flatMap keys)) () := by
  induction ms with
  | nil => exact Stages.pure ()
  | cons m ms ih =>
    have hm := h m List.mem_cons_self
    have h1 : Stages (nameStore.deleteOne m) (dels (keys m)) () := by
      unfold StoreDef.deleteOne
      refine Stages.cast (Stages.bind (o₁ := dels (keys m)) (o₂ := []) (a := ()) ?_ ?_) (by simp)
      · unfold StoreDef.deleteCompactOrAdd
        rw [if_neg (by simp [StoreDef.isCompact, StoreDef.compactSupported, nameStore]), if_pos (isAdd hm)]
        exact Stages.bind (Stages.lift (makeTsHash_ok hm.2.2.2.1)) (deleteAdd_stages hm)
      · unfold StoreDef.deleteIfRemove
        rw [if_neg (by simp [StoreDef.removeSupported, nameStore])]
        exact Stages.pure ()
    refine Stages.cast (Stages.bind h1 (ih (fun x hx => h x (List.mem_cons_of_mem _ hx)))) ?_
    simp [dels]

instance (a b : Msg) : Decidable (a.newer b) := by unfold Msg.newer; infer_instance

/-- The live proofs after a merge. -/
def live (L : List Msg) (m : Msg) : List Msg :=
  if ∃ x ∈ L, nm x = nm m ∧ (x = m ∨ x.newer m) then L else L.filter (fun x => nm x ≠ nm m) ++ [m]

theorem sized {m : Msg} (h : NameValid m) : m.Sized := ⟨h.2.2.1, h.2.2.2.1⟩

theorem wins_newer {a b : Msg} (ha : NameValid a) (hb : NameValid b) :
    wins .usernameProof .none a b ↔ a.newer b := by
  unfold wins Msg.newer
  rw [ha.2.2.2.2.1, hb.2.2.2.2.1]
  simp

theorem cmp_cases {a b : Msg} (ha : NameValid a) (hb : NameValid b) :
    (nameStore.compare .usernameProof (tsh a) .usernameProof (tsh b) < 0 ∧ b.newer a ∧ ¬ a.newer b) ∨
    (nameStore.compare .usernameProof (tsh a) .usernameProof (tsh b) = 0 ∧ a.ts = b.ts ∧ a.hash = b.hash) ∨
    (nameStore.compare .usernameProof (tsh a) .usernameProof (tsh b) > 0 ∧ a.newer b ∧ ¬ b.newer a) := by
  have := default_cases (addT := .usernameProof) (remT := .none) (by decide) (sized ha) (sized hb)
    (.inl ha.2.2.2.2.1) (.inl hb.2.2.2.2.1)
  rw [wins_newer ha hb, wins_newer hb ha, ha.2.2.2.2.1, hb.2.2.2.2.1] at this
  show (defaultCompare .usernameProof .none _ _ _ _ < 0 ∧ _) ∨ (defaultCompare .usernameProof .none _ _ _ _ = 0 ∧ _) ∨
    (defaultCompare .usernameProof .none _ _ _ _ > 0 ∧ _)
  rcases this with h | ⟨h, h1, h2, _⟩ | h
  · exact .inl h
  · exact .inr (.inl ⟨h, h1, h2⟩)
  · exact .inr (.inr h)

theorem Holds.get {L : List Msg} {V : View} (h : Holds U L V) {x : Msg} (hx : x ∈ L) {k : Bytes} {v : SVal}
    (hr : (k, v) ∈ Names.rows x) : V k = some v :=
  (h.rows k (key_not_event (key_mem hr)) v).2 ⟨x, hx, hr⟩

theorem row_prim (x : Msg) : (nameStore.prim x, SVal.msg x) ∈ rows x := by simp [rows]
theorem row_add (x : Msg) : (nameAddKey x.fid (nm x), SVal.raw (tsh x)) ∈ rows x := by simp [rows]
theorem row_name (x : Msg) : (nameKey (nm x), SVal.raw (makeFidKey x.fid)) ∈ rows x := by simp [rows]

theorem Holds.name_none {L : List Msg} {V : View} (h : Holds U L V) {n : Bytes} (hn : ∀ x ∈ L, nm x ≠ n) :
    V (nameKey n) = none := by
  cases hv : V (nameKey n) with
  | none => rfl
  | some v =>
    exfalso
    have hk : ∀ id, nameKey n ≠ eventKey id := fun id => RowKey.ne_event (r := .usernameByName n) rfl id
    obtain ⟨x, hx, hr⟩ := (h.rows _ hk v).1 hv
    obtain ⟨r, hr', e, wf⟩ := mem_rows (h.valid x hx).valid hr
    rw [nameKey_eq] at e
    have := RowKey.bytes_inj (wf_name n) wf e
    subst this
    cases hr'
    exact hn x hx rfl

theorem readFid_raw {f : Nat} (h : f < 2 ^ 32) : readFid (.raw (makeFidKey f)) = f := by
  unfold readFid StoreDef.rawOf makeFidKey
  rw [List.take_of_length_le (by simp)]
  exact fromBe_be_of_lt (by omega)

theorem readFid_raw' {f : Nat} (h : f < 2 ^ 32) {b : Bytes} (e : b = makeFidKey f) : readFid (.raw b) = f := by
  rw [e]; exact readFid_raw h

theorem getMessage_found {db : Db SVal} {s : SSt} {x : Msg}
    (hp : viewOf db s.txn (nameStore.prim x) = some (.msg x)) :
    nameStore.getMessage db x.fid (tsh x) s = (.ok (some x), s) := by
  unfold StoreDef.getMessage
  rw [SM.bind_ok (a := some (SVal.msg x)) (s' := s)]
  · rfl
  · show (Except.ok (viewOf db s.txn (nameStore.prim x)), s) = _
    rw [hp]

theorem conflicts_none {db : Db SVal} {L : List Msg} {s : SSt} (h : Holds U L (viewOf db s.txn)) {m : Msg}
    (hm : NameValid m) (hn : ∀ x ∈ L, nm x ≠ nm m) : nameConflicts db m (tsh m) s = (.ok [], s) := by
  unfold nameConflicts
  simp only [(body_eq hm).1]
  rw [SM.bind_ok (a := none) (s' := s)]
  · rfl
  · show (Except.ok (viewOf db s.txn (nameKey (nm m))), s) = _
    rw [h.name_none hn]

theorem conflicts_some {db : Db SVal} {L : List Msg} {s : SSt} (h : Holds U L (viewOf db s.txn)) {m x : Msg}
    (hm : NameValid m) (hx : x ∈ L) (hn : nm x = nm m) :
    nameConflicts db m (tsh m) s = nameCompare (tsh x) (tsh m) (some x) s := by
  have hv := (h.valid x hx).valid
  unfold nameConflicts
  simp only [(body_eq hm).1]
  rw [SM.bind_ok (a := some (SVal.raw (makeFidKey x.fid))) (s' := s)]
  · have hf := readFid_raw hv.2.1
    have h0 : ¬ x.fid = 0 := by have := hv.1; omega
    simp only [nameConflictsAt, hf, if_neg h0]
    rw [SM.bind_ok (a := some (SVal.raw (tsh x))) (s' := s)]
    · rw [SM.bind_ok (SM.lift_ok (a := tsh x) (by simp [nameStoredTsHash, StoreDef.asTsHash, tsh_length hv.2.2.2.1]) s)]
      rw [SM.bind_ok (a := some x) (s' := s)]
      unfold nameStoredMessage
      rw [getMessage_found (h.get hx (row_prim x))]
    · show (Except.ok (viewOf db s.txn (nameAddKey x.fid (nm m))), s) = _
      rw [← hn, h.get hx (row_add x)]
  · show (Except.ok (viewOf db s.txn (nameKey (nm m))), s) = _
    rw [← hn, h.get hx (row_name x)]

theorem Holds.event {L : List Msg} {db : Db SVal} {t : Txn SVal} (h : Holds U L (viewOf db t)) (e : StoreEvent)
    (g : IdGen) : ∃ r s', SM.event e ⟨t, g⟩ = (r, s') ∧ Holds U L (viewOf db s'.txn) ∧ (r = .ok e ∨ r = .error .invalidParameter) := by
  rcases event_cases e ⟨t, g⟩ with ⟨id, g', he⟩ | ⟨g', he⟩
  · exact ⟨_, _, he, h.congr (fun k hk => view_putEvent _ _ _ _ _ hk), .inl rfl⟩
  · exact ⟨_, _, he, h, .inr rfl⟩

theorem merge_spec {db : Db SVal} {L : List Msg} {s : SSt} (hu : HashesUnique U) (ctx : MergeCtx)
    (h : Holds U L (viewOf db s.txn)) {m : Msg} (hm : Ok U m) :
    ∃ r s', nameMerge db ctx m s = (r, s') ∧ Holds U (live L m) (viewOf db s'.txn) := by
  unfold nameMerge
  rw [if_neg (by simp [isAdd hm.valid]), SM.bind_ok (SM.lift_ok (makeTsHash_ok hm.valid.2.2.2.1) s)]
  by_cases hex : ∃ x ∈ L, nm x = nm m
  · obtain ⟨x, hx, hn⟩ := hex
    have hv := h.valid x hx
    have hc := conflicts_some h hm.valid hx hn
    rcases cmp_cases hv.valid hm.valid with ⟨c, hw, hw'⟩ | ⟨c, e1, e2⟩ | ⟨c, hw, hw'⟩
    · have hl : live L m = L.filter (fun x => nm x ≠ nm m) ++ [m] := by
        unfold live
        rw [if_neg]
        rintro ⟨y, hy, hny, hd⟩
        have := unique h.items hy hx (hny.trans hn.symm)
        subst this
        rcases hd with rfl | hd
        · exact hw' hw
        · exact hw' hd
      have hcm : nameCompare (tsh x) (tsh m) (some x) s = (.ok [x], s) := by
        simp only [nameCompare]
        rw [if_neg (by omega), if_neg (by omega)]; rfl
      rw [SM.bind_ok (hc.trans hcm), SM.bind_ok (deleteMany_stages (by simpa using hv.valid) s)]
      unfold StoreDef.mergeAddWithConflicts
      rw [SM.bind_ok (putAdd_stages ctx hm.valid _)]
      have hd : Holds U (L.filter (fun y => y ≠ x)) (viewOf db (stageAll s.txn (dels ([x].flatMap keys)))) :=
        h.delete hu hx (fun k => by rw [view_dels]; simp)
      have hf : L.filter (fun y => y ≠ x) = L.filter (fun x => nm x ≠ nm m) := by
        apply List.filter_congr
        intro y hy
        simp only [ne_eq, decide_not, Bool.not_eq_eq_eq_not, Bool.not_not, decide_eq_decide]
        exact ⟨fun e => by rw [e, hn], fun e => unique h.items hy hx (e.trans hn.symm)⟩
      rw [hf] at hd
      have hi := hd.insert hu hm (fun y hy => by simpa using (List.mem_filter.1 hy).2)
      rw [hl]
      obtain ⟨r, s', he, hh, _⟩ := hi.event (.merge m [x]) s.gen
      exact ⟨r, s', he, hh⟩
    · have hxm := hu x m hv.u hm.u e1 e2
      have hl : live L m = L := by
        unfold live; rw [if_pos ⟨x, hx, hn, .inl hxm⟩]
      have hcm : nameCompare (tsh x) (tsh m) (some x) s = (.error .duplicate, s) := by
        simp only [nameCompare]
        rw [if_neg (by omega), if_pos c]; rfl
      rw [SM.bind_error (hc.trans hcm), hl]
      exact ⟨_, _, rfl, h⟩
    · have hl : live L m = L := by
        unfold live; rw [if_pos ⟨x, hx, hn, .inr hw⟩]
      have hcm : nameCompare (tsh x) (tsh m) (some x) s = (.error .conflict, s) := by
        simp only [nameCompare]
        rw [if_pos (by omega)]; rfl
      rw [SM.bind_error (hc.trans hcm), hl]
      exact ⟨_, _, rfl, h⟩
  · have hn : ∀ x ∈ L, nm x ≠ nm m := fun x hx e => hex ⟨x, hx, e⟩
    have hl : live L m = L ++ [m] := by
      unfold live
      rw [if_neg (by rintro ⟨x, hx, e, _⟩; exact hn x hx e), List.filter_eq_self.2]
      intro x hx; simpa using hn x hx
    rw [SM.bind_ok (conflicts_none h hm.valid hn), SM.bind_ok (deleteMany_stages (by simp) s)]
    unfold StoreDef.mergeAddWithConflicts
    rw [SM.bind_ok (putAdd_stages ctx hm.valid _)]
    have hi := h.insert hu hm hn
    rw [hl]
    obtain ⟨r, s', he, hh, _⟩ := hi.event (.merge m []) s.gen
    exact ⟨r, s', he, hh⟩

theorem delete_spec {db : Db SVal} {L : List Msg} {s : SSt} (hu : HashesUnique U)
    (h : Holds U L (viewOf db s.txn)) {m : Msg} (hm : m ∈ L) :
    (∃ r s', nameStore.revoke m s = (r, s') ∧ Holds U (L.filter (fun x => x ≠ m)) (viewOf db s'.txn)) ∧
    (∃ r s', nameStore.pruneMessage m s = (r, s') ∧ Holds U (L.filter (fun x => x ≠ m)) (viewOf db s'.txn)) := by
  have hv := (h.valid m hm).valid
  have hd : Holds U (L.filter (fun y => y ≠ m)) (viewOf db (stageAll s.txn (dels (keys m)))) :=
    h.delete hu hm (fun k => view_dels _ _ _ _)
  have hnc : ¬ nameStore.isCompact m = true := by simp [StoreDef.isCompact, StoreDef.compactSupported, nameStore]
  constructor
  · unfold StoreDef.revoke
    rw [SM.bind_ok (SM.lift_ok (makeTsHash_ok hv.2.2.2.1) s)]
    have hst : Stages (nameStore.revokeDelete (tsh m) m) (dels (keys m)) () := by
      unfold StoreDef.revokeDelete
      rw [if_neg hnc, if_pos (isAdd hv)]
      exact deleteAdd_stages hv
    rw [SM.bind_ok (hst s)]
    obtain ⟨r, s', he, hh, _⟩ := hd.event (.revoke m) s.gen
    exact ⟨r, s', he, hh⟩
  · unfold StoreDef.pruneMessage
    rw [if_neg hnc]
    have hst : Stages (nameStore.pruneDelete m) (dels (keys m)) () := by
      unfold StoreDef.pruneDelete
      rw [if_pos (isAdd hv)]
      exact Stages.bind (Stages.lift (makeTsHash_ok hv.2.2.2.1)) (deleteAdd_stages hv)
    rw [SM.bind_ok (hst s)]
    obtain ⟨r, s', he, hh, hr⟩ := hd.event (.prune m) s.gen
    rcases hr with rfl | rfl
    · rw [SM.bind_ok he]; exact ⟨_, _, rfl, hh⟩
    · rw [SM.bind_error he]; exact ⟨_, _, rfl, hh⟩

theorem Holds.has_iff {L : List Msg} {st : StoreState} (h : Holds U L st.view) (m : Msg) :
    st.Has nameStore m ↔ m ∈ L := by
  constructor
  · intro hh
    have hk : ∀ id, nameStore.prim m ≠ eventKey id := fun id => StoreDef.prim_ne_event m id
    have hh' : st.view (nameStore.prim m) = some (.msg m) := hh
    obtain ⟨x, hx, hr⟩ := (h.rows _ hk _).1 hh'
    obtain ⟨r, hr', e, wf⟩ := mem_rows (h.valid x hx).valid hr
    cases hr'
    exact hx
  · intro hm
    exact h.get hm (row_prim m)

end Names
end Verif

namespace Verif
namespace Names
variable {U : Msg → Prop}

/-- The committed database and what a reader sees both hold one proof per name. -/
structure Inv (U : Msg → Prop) (L0 L : List Msg) (st : StoreState) : Prop where
  committed : Holds U L0 (viewOf st.db OMap.empty)
  holds : Holds U L st.view

theorem Inv.init : Inv U [] [] {} := by
  have h : Holds U [] (viewOf OMap.empty OMap.empty) := by
    refine ⟨by simp, List.Pairwise.nil, ?_⟩
    intro k _ v
    simp [viewOf, getFromDbOrTxn, OMap.get_empty]
  exact ⟨h, h⟩

theorem view_commit (st : StoreState) (ctx : Nat → MergeCtx) (k : Bytes) :
    (st.nameExec ctx .commit).view k = st.view k := by
  simp only [StoreState.nameExec, StoreState.view, getFromDbOrTxn]
  rw [Db.get_commit]
  simp only [OMap.get_empty]
  rfl

theorem Inv.commit {L0 L : List Msg} {st : StoreState} (ctx : Nat → MergeCtx) (h : Inv U L0 L st) :
    Inv U L L (st.nameExec ctx .commit) := by
  have : Holds U L (st.nameExec ctx .commit).view := h.holds.congr (fun k _ => view_commit st ctx k)
  exact ⟨this, this⟩

theorem Inv.merge {L0 L : List Msg} {st : StoreState} (hu : HashesUnique U) (ctx : Nat → MergeCtx)
    (h : Inv U L0 L st) {m : Msg} (hm : Ok U m) : Inv U L0 (live L m) (st.nameExec ctx (.merge m)) := by
  obtain ⟨r, s', he, hh⟩ := merge_spec hu (ctx m.ts) (db := st.db) (s := st.pend) h.holds hm
  refine ⟨h.committed, ?_⟩
  simp only [StoreState.nameExec, StoreState.after, he]
  exact hh

theorem Inv.block {L0 L : List Msg} {st : StoreState} (ctx : Nat → MergeCtx) (h : Inv U L0 L st) (n : Nat) :
    Inv U L0 L (st.nameExec ctx (.block n)) := ⟨h.committed, h.holds⟩

theorem Inv.step {L0 L : List Msg} {st : StoreState} (hu : HashesUnique U) (ctx : Nat → MergeCtx)
    (h : Inv U L0 L st) (o : NameOp) (ho : NameProper U st o) : ∃ L0' L', Inv U L0' L' (st.nameExec ctx o) := by
  cases o with
  | merge m => exact ⟨_, _, h.merge hu ctx ⟨ho.1, ho.2⟩⟩
  | revoke m =>
    obtain ⟨⟨r, s', he, hh⟩, _⟩ := delete_spec hu (db := st.db) (s := st.pend) h.holds ((h.holds.has_iff m).1 ho)
    refine ⟨L0, L.filter (fun x => x ≠ m), h.committed, ?_⟩
    · simp only [StoreState.nameExec, StoreState.after, he]; exact hh
  | prune m =>
    obtain ⟨_, r, s', he, hh⟩ := delete_spec hu (db := st.db) (s := st.pend) h.holds ((h.holds.has_iff m).1 ho)
    refine ⟨L0, L.filter (fun x => x ≠ m), h.committed, ?_⟩
    · simp only [StoreState.nameExec, StoreState.after, he]; exact hh
  | commit => exact ⟨_, _, h.commit ctx⟩
  | drop => exact ⟨L0, L0, h.committed, h.committed⟩
  | block n => exact ⟨_, _, h.block ctx n⟩

theorem Inv.run {L0 L : List Msg} {st : StoreState} (hu : HashesUnique U) (ctx : Nat → MergeCtx)
    (h : Inv U L0 L st) (ops : List NameOp) (ho : NameProperRun ctx U st ops) :
    ∃ L0' L', Inv U L0' L' (st.nameRun ctx ops) := by
  induction ops generalizing st L0 L with
  | nil => exact ⟨_, _, h⟩
  | cons o ops ih =>
    obtain ⟨_, _, h'⟩ := h.step hu ctx o ho.1
    exact ih h' ho.2

/-! ### Lookups -/

def item (fid : Nat) (n : Bytes) : Msg := ⟨fid, .usernameProof, 0, [], [], .usernameProof n⟩

theorem getAdd_found {L : List Msg} {db : Db SVal} {t : Txn SVal} (h : Holds U L (viewOf db t)) {x : Msg}
    (hx : x ∈ L) : nameStore.getAdd db t (item x.fid (nm x)) = .ok (some x) := by
  have hv := (h.valid x hx).valid
  unfold StoreDef.getAdd
  have h0 : ¬ (item x.fid (nm x)).fid = 0 := by simp [item]; have := hv.1; omega
  simp only [if_neg h0]
  have hk : nameStore.addKey (item x.fid (nm x)) = .ok (nameAddKey x.fid (nm x)) := rfl
  rw [SM.bind_ok (SM.lift_ok hk _)]
  rw [SM.bind_ok (a := some (SVal.raw (tsh x))) (s' := ⟨t, {}⟩)]
  · simp only
    rw [SM.bind_ok (SM.lift_ok (a := tsh x) (r := StoreDef.asTsHash (.raw (tsh x)))
      (by simp [StoreDef.asTsHash, tsh_length hv.2.2.2.1]) _)]
    have := getMessage_found (db := db) (s := ⟨t, {}⟩) (h.get hx (row_prim x))
    show (nameStore.getMessage db x.fid (tsh x) ⟨t, {}⟩).1 = _
    rw [this]
  · show (Except.ok (viewOf db t (nameAddKey x.fid (nm x))), _) = _
    rw [h.get hx (row_add x)]

theorem getAdd_missing {L : List Msg} {db : Db SVal} {t : Txn SVal} (h : Holds U L (viewOf db t)) {f : Nat}
    {n : Bytes} (hf : f < 2 ^ 32) (hn : ∀ x ∈ L, ¬ (x.fid = f ∧ nm x = n)) (m : Msg) :
    nameStore.getAdd db t (item f n) ≠ .ok (some m) := by
  unfold StoreDef.getAdd
  by_cases h0 : (item f n).fid = 0
  · simp only [if_pos h0]
    intro h; cases h
  · simp only [if_neg h0]
    have hk : nameStore.addKey (item f n) = .ok (nameAddKey f n) := rfl
    rw [SM.bind_ok (SM.lift_ok hk _)]
    rw [SM.bind_ok (a := none) (s' := ⟨t, {}⟩)]
    · intro h; cases h
    · show (Except.ok (viewOf db t (nameAddKey f n)), _) = _
      cases hv : viewOf db t (nameAddKey f n) with
      | none => rfl
      | some v =>
        exfalso
        have hk : ∀ id, nameAddKey f n ≠ eventKey id := fun id => RowKey.ne_event (r := .usernameProof f n) rfl id
        obtain ⟨x, hx, hr⟩ := (h.rows _ hk v).1 hv
        obtain ⟨r, hr', e, wf⟩ := mem_rows (h.valid x hx).valid hr
        rw [addKey_eq] at e
        have er := RowKey.bytes_inj (wf_add hf) wf e
        generalize hra : r = ra at hr' er
        cases hr' <;> simp at er
        exact hn x hx ⟨er.1.symm, er.2.symm⟩

theorem lookup_found {L : List Msg} {db : Db SVal} {t : Txn SVal} (h : Holds U L (viewOf db t)) {x : Msg}
    (hx : x ∈ L) : getUsernameProof db t (nm x) = .ok (some x) := by
  have hn : getFromDbOrTxn db t (nameKey (nm x)) = some (.raw (makeFidKey x.fid)) := h.get hx (row_name x)
  simp only [getUsernameProof, hn, readFid_raw (h.valid x hx).valid.2.1]
  exact getAdd_found h hx

theorem lookup_missing {L : List Msg} {db : Db SVal} {t : Txn SVal} (h : Holds U L (viewOf db t)) {n : Bytes}
    (hn : ∀ x ∈ L, nm x ≠ n) : getUsernameProof db t n = .error .notFound := by
  have : getFromDbOrTxn db t (nameKey n) = none := h.name_none hn
  simp only [getUsernameProof, this]

theorem lookup_iff {L : List Msg} {db : Db SVal} {t : Txn SVal} (h : Holds U L (viewOf db t)) (n : Bytes) (m : Msg) :
    getUsernameProof db t n = .ok (some m) ↔ m ∈ L ∧ nm m = n := by
  constructor
  · intro hl
    by_cases hex : ∃ x ∈ L, nm x = n
    · obtain ⟨x, hx, hn⟩ := hex
      have := lookup_found h hx
      rw [hn, hl] at this
      cases this
      exact ⟨hx, hn⟩
    · rw [lookup_missing h (fun x hx e => hex ⟨x, hx, e⟩)] at hl
      cases hl
  · rintro ⟨hm, rfl⟩; exact lookup_found h hm

theorem byFid_iff {L : List Msg} {db : Db SVal} (h : Holds U L (viewOf db OMap.empty)) (n : Bytes) (m : Msg)
    {f : Nat} (hf : f < 2 ^ 32) : getUsernameProofByFid db f n = .ok (some m) ↔ m ∈ L ∧ nm m = n ∧ m.fid = f := by
  constructor
  · intro hl
    by_cases hex : ∃ x ∈ L, x.fid = f ∧ nm x = n
    · obtain ⟨x, hx, rfl, rfl⟩ := hex
      have := getAdd_found h hx
      rw [show nameStore.getAdd db OMap.empty (item x.fid (nm x)) = _ from hl] at this
      cases this
      exact ⟨hx, rfl, rfl⟩
    · exact absurd hl (getAdd_missing h hf (fun x hx e => hex ⟨x, hx, e⟩) m)
  · rintro ⟨hm, rfl, rfl⟩; exact getAdd_found h hm

theorem provenName_iff {m : Msg} (h : NameValid m) (n : Bytes) : m.provenName = some n ↔ nm m = n := by
  unfold Msg.provenName
  rw [(body_eq h).1]; simp

/-! ### Merges only -/

theorem newer_trans {a b c : Msg} (h : a.newer b) (h' : b.newer c) : a.newer c := by
  unfold Msg.newer at *
  have := @Bytes.blt_trans c.hash b.hash a.hash
  grind

theorem newer_total {a b : Msg} (h : ¬ (a.ts = b.ts ∧ a.hash = b.hash)) : a.newer b ∨ b.newer a := by
  unfold Msg.newer
  rcases Bytes.blt_tri a.hash b.hash with h1 | h1 | h1 <;> grind

theorem newer_irrefl (a : Msg) : ¬ a.newer a := by
  unfold Msg.newer
  simp [Bytes.blt_irrefl]

/-- `L` holds the greatest of the merged proofs of each name. -/
def Best (S : List Msg) (L : List Msg) : Prop :=
  ∀ m, m ∈ L ↔ m ∈ S ∧ ∀ x ∈ S, nm x = nm m → x = m ∨ m.newer x

theorem Best.step {S L : List Msg} (hu : HashesUnique U) (hS : ∀ x ∈ S, U x) {m : Msg} (hm : U m)
    (h : Best S L) (hb : ∀ x ∈ S, ∃ y ∈ L, nm y = nm x) :
    Best (S ++ [m]) (live L m) ∧ ∀ x ∈ S ++ [m], ∃ y ∈ live L m, nm y = nm x := by
  unfold live
  split
  · rename_i hc
    obtain ⟨y, hy, hyn, hyd⟩ := hc
    refine ⟨?_, ?_⟩
    · intro z
      rw [h z]
      constructor
      · rintro ⟨hz, hmax⟩
        refine ⟨by simp [hz], ?_⟩
        intro x hx hxn
        rcases List.mem_append.1 hx with hx | hx
        · exact hmax x hx hxn
        · rw [List.mem_singleton.1 hx] at hxn ⊢
          have hyS := ((h y).1 hy).1
          have := hmax y hyS (hyn.trans hxn)
          rcases hyd with rfl | hyd
          · exact this
          · rcases this with rfl | hn
            · exact .inr hyd
            · exact .inr (newer_trans hn hyd)
      · rintro ⟨hz, hmax⟩
        rcases List.mem_append.1 hz with hz | hz
        · exact ⟨hz, fun x hx => hmax x (by simp [hx])⟩
        · rw [List.mem_singleton.1 hz] at hmax ⊢
          have hyS := ((h y).1 hy).1
          rcases hyd with rfl | hyd
          · exact ⟨hyS, fun x hx => hmax x (by simp [hx])⟩
          · rcases hmax y (by simp [hyS]) hyn with rfl | hn
            · exact ⟨hyS, fun x hx => hmax x (by simp [hx])⟩
            · exact absurd (newer_trans hn hyd) (newer_irrefl m)
    · intro x hx
      rcases List.mem_append.1 hx with hx | hx
      · exact hb x hx
      · rw [List.mem_singleton.1 hx]; exact ⟨y, hy, hyn⟩
  · rename_i hc
    have hlt : ∀ x ∈ S, nm x = nm m → m.newer x := by
      intro x hx hxn
      obtain ⟨y, hy, hyn⟩ := hb x hx
      have hyS := (h y).1 hy
      have hym : ¬ (y = m ∨ y.newer m) := fun hd => hc ⟨y, hy, hyn.trans hxn, hd⟩
      have hmy : m.newer y := by
        rcases newer_total (a := y) (b := m) (fun e => hym (.inl (hu y m (hS y hyS.1) hm e.1 e.2))) with h1 | h1
        · exact absurd (.inr h1) hym
        · exact h1
      rcases hyS.2 x hx hyn.symm with rfl | hn
      · exact hmy
      · exact newer_trans hmy hn
    refine ⟨?_, ?_⟩
    · intro z
      simp only [List.mem_append, List.mem_filter, List.mem_singleton]
      constructor
      · rintro (⟨hz, hzn⟩ | rfl)
        · have hzn' : nm z ≠ nm m := by simpa using hzn
          obtain ⟨hzS, hmax⟩ := (h z).1 hz
          refine ⟨.inl hzS, ?_⟩
          rintro x (hx | rfl) hxn
          · exact hmax x hx hxn
          · exact absurd hxn.symm hzn'
        · refine ⟨.inr rfl, ?_⟩
          rintro x (hx | rfl) hxn
          · exact .inr (hlt x hx hxn)
          · exact .inl rfl
      · rintro ⟨hz | rfl, hmax⟩
        · by_cases hzn : nm z = nm m
          · rcases hmax m (.inr rfl) hzn.symm with rfl | hn
            · exact .inr rfl
            · exact absurd (newer_trans hn (hlt z hz hzn)) (newer_irrefl z)
          · left
            exact ⟨(h z).2 ⟨hz, fun x hx => hmax x (.inl hx)⟩, by simpa using hzn⟩
        · exact .inr rfl
    · intro x hx
      by_cases hxn : nm x = nm m
      · exact ⟨m, by simp, hxn.symm⟩
      · rcases List.mem_append.1 hx with hx | hx
        · obtain ⟨y, hy, hyn⟩ := hb x hx
          refine ⟨y, List.mem_append_left _ (List.mem_filter.2 ⟨hy, ?_⟩), hyn⟩
          simpa [hyn] using hxn
        · exact absurd (by rw [List.mem_singleton.1 hx]) hxn

theorem merges_run {S L0 L : List Msg} {st : StoreState} (hu : HashesUnique U) (ctx : Nat → MergeCtx)
    (h : Inv U L0 L st) (hS : ∀ x ∈ S, U x) (hb : Best S L) (hc : ∀ x ∈ S, ∃ y ∈ L, nm y = nm x)
    (ops : List NameOp) (ho : NameMergesOnly ops) (hv : ∀ m ∈ NameOp.merged ops, Ok U m) :
    ∃ L0' L', Inv U L0' L' (st.nameRun ctx ops) ∧ Best (S ++ NameOp.merged ops) L' := by
  induction ops generalizing st L0 L S with
  | nil => exact ⟨_, _, h, by simpa [NameOp.merged] using hb⟩
  | cons o ops ih =>
    have ho' : NameMergesOnly ops := fun o h => ho o (List.mem_cons_of_mem _ h)
    rcases ho o List.mem_cons_self with ⟨m, rfl⟩ | rfl | ⟨n, rfl⟩
    · have hm := hv m List.mem_cons_self
      obtain ⟨h1, h2⟩ := hb.step hu hS hm.u hc
      have := ih (h.merge hu ctx hm) (S := S ++ [m])
        (by intro x hx; rcases List.mem_append.1 hx with hx | hx
            · exact hS x hx
            · rw [List.mem_singleton.1 hx]; exact hm.u) h1 h2 ho'
        (fun x hx => hv x (List.mem_cons_of_mem _ hx))
      simpa [NameOp.merged, StoreState.nameRun] using this
    · exact ih (h.commit ctx) hS hb hc ho' hv
    · exact ih (h.block ctx n) hS hb hc ho' hv

end Names
end Verif
