import Verif.Lemmas.StoreExec
/-!
The invariant of a message store: its rows are exactly the rows of a set of live messages, one per item.
-/
namespace Verif
namespace StoreDef
variable (D : StoreDef)

/-- The prefix of a user's messages. -/
def prefixOf (fid : Nat) : Bytes := makeMessagePrimaryKey fid D.set none
/-- The primary key of a message. -/
def prim (m : Msg) : Bytes := makeMessagePrimaryKey m.fid D.set (some (tsh m))
/-- The add selector key; it identifies the item a message is about. -/
def ak (m : Msg) : Bytes := match D.addKey m with | .ok k => k | .error _ => []
/-- The remove selector key. -/
def rk (m : Msg) : Bytes := match D.removeKey m with | .ok k => k | .error _ => []
def idxRows (m : Msg) : List (Bytes × SVal) := match D.indexRows (tsh m) m with | .ok r => r | .error _ => []
/-- The keys of index and follow rows. -/
def auxKeys (m : Msg) : List Bytes := (D.idxRows m).map (·.1) ++ (D.followRows m).map (·.1)

/-- The rows of a stored message. -/
def rowsOf (ctx : Nat → MergeCtx) (m : Msg) : List (Bytes × SVal) :=
  if D.isAdd m then
    (D.prim m, .msg m) :: (D.ak m, .raw (tsh m)) ::
      (D.idxRows m ++ (if (ctx m.ts).follows then D.followRows m else []))
  else [(D.prim m, .msg m), (D.rk m, .raw (tsh m))]

/-- The keys deleting a message touches. -/
def delKeys (m : Msg) : List Bytes :=
  if D.isAdd m then (D.idxRows m).map (·.1) ++ (D.followRows m).map (·.1) ++ [D.ak m, D.prim m]
  else [D.rk m, D.prim m]

/-- Comparison of two messages about one item. -/
def cmp (a b : Msg) : Int := D.compare a.ty (tsh a) b.ty (tsh b)

/-- What makes a store definition work on the messages satisfying `ok`. -/
structure Lawful (ok : Msg → Prop) : Prop where
  hash : ∀ {m}, ok m → m.hash.length = 20
  fid : ∀ {m}, ok m → m.fid < 2 ^ 32
  ts : ∀ {m}, ok m → m.ts < 2 ^ 32
  kind : ∀ {m}, ok m → (D.isAdd m = true ∧ D.isRemove m = false) ∨ (D.isAdd m = false ∧ D.isRemove m = true)
  notCompact : ∀ {m}, ok m → D.isCompact m = false
  addKey : ∀ {m}, ok m → D.addKey m = .ok (D.ak m)
  removeKey : D.removeSupported = true → ∀ {m}, ok m → D.removeKey m = .ok (D.rk m)
  index : ∀ {m}, ok m → D.isAdd m = true → D.indexRows (tsh m) m = .ok (D.idxRows m) ∧
    D.indexKeys (tsh m) m = .ok ((D.idxRows m).map (·.1))
  follow : ∀ {m}, ok m → D.followKeys m = (D.followRows m).map (·.1)
  inj : ∀ {m m'}, ok m → ok m' → m.fid = m'.fid → m.ts = m'.ts → m.hash = m'.hash → m = m'
  itemFid : ∀ {m m'}, ok m → ok m' → D.ak m = D.ak m' → m.fid = m'.fid
  rkIff : D.removeSupported = true → ∀ {m m'}, ok m → ok m' → (D.ak m = D.ak m' ↔ D.rk m = D.rk m')
  akRegion : ∀ {m}, ok m → ∀ f, ¬ (D.prefixOf f <+: D.ak m)
  rkRegion : D.removeSupported = true → ∀ {m}, ok m → ∀ f, ¬ (D.prefixOf f <+: D.rk m)
  auxRegion : ∀ {m}, ok m → ∀ k ∈ D.auxKeys m, ∀ f, ¬ (D.prefixOf f <+: k)
  akRk : D.removeSupported = true → ∀ {m m'}, ok m → ok m' → D.ak m ≠ D.rk m'
  akAux : ∀ {m m'}, ok m → ok m' → D.ak m ∉ D.auxKeys m'
  rkAux : D.removeSupported = true → ∀ {m m'}, ok m → ok m' → D.rk m ∉ D.auxKeys m'
  auxDisj : ∀ {m m'}, ok m → ok m' → ∀ k, k ∈ D.auxKeys m → k ∈ D.auxKeys m' → D.ak m = D.ak m'
  auxFun : ∀ {m}, ok m → ∀ k v v', (k, v) ∈ D.idxRows m ++ D.followRows m →
    (k, v') ∈ D.idxRows m ++ D.followRows m → v = v'
  akEvent : ∀ {m}, ok m → ∀ id, D.ak m ≠ eventKey id
  rkEvent : D.removeSupported = true → ∀ {m}, ok m → ∀ id, D.rk m ≠ eventKey id
  auxEvent : ∀ {m}, ok m → ∀ k ∈ D.auxKeys m, ∀ id, k ≠ eventKey id
  cmpSelf : ∀ m, D.cmp m m = 0
  cmpAnti : ∀ {a b}, ok a → ok b → (D.cmp a b < 0 ↔ D.cmp b a > 0)
  cmpEq : ∀ {a b}, ok a → ok b → D.ak a = D.ak b → D.cmp a b = 0 → a = b
  cmpTrans : ∀ {a b c}, ok a → ok b → ok c → D.ak a = D.ak b → D.ak b = D.ak c →
    D.cmp a b > 0 → D.cmp b c > 0 → D.cmp a c > 0

/-- The part of the key space the store owns. -/
def Space (ok : Msg → Prop) (k : Bytes) : Prop :=
  (∃ f, D.prefixOf f <+: k) ∨
    ∃ m, ok m ∧ (k = D.ak m ∨ (D.removeSupported = true ∧ k = D.rk m) ∨ k ∈ D.auxKeys m)

/-- `L` are the live messages of a view. -/
structure Holds (ok : Msg → Prop) (ctx : Nat → MergeCtx) (L : List Msg) (V : View) : Prop where
  valid : ∀ m ∈ L, ok m
  items : L.Pairwise (fun a b => D.ak a ≠ D.ak b)
  rows : ∀ k, D.Space ok k → ∀ v, V k = some v ↔ ∃ m ∈ L, (k, v) ∈ D.rowsOf ctx m

variable {D}
variable {ok : Msg → Prop} {ctx : Nat → MergeCtx}

theorem removeSupported_of_isRemove {m : Msg} (h : D.isRemove m = true) : D.removeSupported = true := by
  simp only [isRemove, Bool.and_eq_true] at h
  exact h.1

theorem Lawful.remove_of_not_add (H : D.Lawful ok) {m : Msg} (hm : ok m) (h : D.isAdd m = false) :
    D.isRemove m = true ∧ D.removeSupported = true := by
  rcases H.kind hm with h' | h'
  · rw [h] at h'; simp at h'
  · exact ⟨h'.2, removeSupported_of_isRemove h'.2⟩

theorem prefixOf_prim (m : Msg) : D.prefixOf m.fid <+: D.prim m := by
  refine ⟨tsh m, ?_⟩
  simp [prefixOf, prim, makeMessagePrimaryKey]

theorem Lawful.prim_inj (H : D.Lawful ok) {m m' : Msg} (hm : ok m) (hm' : ok m')
    (h : D.prim m = D.prim m') : m = m' := by
  simp only [prim, makeMessagePrimaryKey, makeUserKey, makeFidKey, tsh] at h
  simp only [List.cons_append, List.cons.injEq, true_and] at h
  obtain ⟨h1, h2⟩ := List.append_inj h (by simp)
  simp only [List.cons.injEq, true_and] at h2
  obtain ⟨h3, h4⟩ := List.append_inj h2 (by simp)
  exact H.inj hm hm' (be_inj (by have := H.fid hm; omega) (by have := H.fid hm'; omega) h1)
    (be_inj (by have := H.ts hm; omega) (by have := H.ts hm'; omega) h3) h4

theorem prim_ne_event (m : Msg) (id : Nat) : D.prim m ≠ eventKey id := by
  simp [prim, makeMessagePrimaryKey, makeUserKey, eventKey]

theorem Space.prim (m : Msg) : D.Space ok (D.prim m) := .inl ⟨m.fid, prefixOf_prim m⟩
theorem Space.ak {m : Msg} (h : ok m) : D.Space ok (D.ak m) := .inr ⟨m, h, .inl rfl⟩
theorem Space.rk {m : Msg} (h : ok m) (hs : D.removeSupported = true) : D.Space ok (D.rk m) :=
  .inr ⟨m, h, .inr (.inl ⟨hs, rfl⟩)⟩
theorem Space.aux {m : Msg} {k : Bytes} (h : ok m) (hk : k ∈ D.auxKeys m) : D.Space ok k :=
  .inr ⟨m, h, .inr (.inr hk)⟩

/-- The rows of a message, classified. -/
theorem mem_rowsOf {m : Msg} {k : Bytes} {v : SVal} (h : (k, v) ∈ D.rowsOf ctx m) :
    (k = D.prim m ∧ v = .msg m) ∨ (D.isAdd m = true ∧ k = D.ak m ∧ v = .raw (tsh m)) ∨
      (D.isAdd m = false ∧ k = D.rk m ∧ v = .raw (tsh m)) ∨
      (D.isAdd m = true ∧ k ∈ D.auxKeys m ∧ (k, v) ∈ D.idxRows m ++ D.followRows m) := by
  unfold rowsOf at h
  split at h
  · rename_i ha
    simp only [List.mem_cons, Prod.mk.injEq] at h
    rcases h with h | h | h
    · exact .inl h
    · exact .inr (.inl ⟨ha, h⟩)
    · refine .inr (.inr (.inr ⟨ha, ?_⟩))
      have : (k, v) ∈ D.idxRows m ++ D.followRows m := by
        rcases List.mem_append.1 h with h | h
        · exact List.mem_append.2 (.inl h)
        · split at h
          · exact List.mem_append.2 (.inr h)
          · simp at h
      refine ⟨?_, this⟩
      simp only [auxKeys, ← List.map_append]
      exact List.mem_map.2 ⟨_, this, rfl⟩
  · rename_i ha
    simp only [List.mem_cons, Prod.mk.injEq, List.not_mem_nil, or_false] at h
    rcases h with h | h
    · exact .inl h
    · exact .inr (.inr (.inl ⟨by simpa using ha, h⟩))

theorem Lawful.space_rows (H : D.Lawful ok) {m : Msg} (hm : ok m) {k : Bytes} {v : SVal}
    (h : (k, v) ∈ D.rowsOf ctx m) : D.Space ok k := by
  rcases mem_rowsOf h with h | h | h | h
  · rw [h.1]; exact Space.prim m
  · rw [h.2.1]; exact Space.ak hm
  · rw [h.2.1]; exact Space.rk hm (H.remove_of_not_add hm h.1).2
  · exact Space.aux hm h.2.1

theorem Lawful.prim_ne_ak (H : D.Lawful ok) {m m' : Msg} (hm' : ok m') : D.prim m ≠ D.ak m' :=
  fun e => H.akRegion hm' m.fid (e ▸ prefixOf_prim m)
theorem Lawful.prim_ne_rk (H : D.Lawful ok) (hs : D.removeSupported = true) {m m' : Msg} (hm' : ok m') :
    D.prim m ≠ D.rk m' := fun e => H.rkRegion hs hm' m.fid (e ▸ prefixOf_prim m)
theorem Lawful.prim_notin_aux (H : D.Lawful ok) {m m' : Msg} (hm' : ok m') : D.prim m ∉ D.auxKeys m' :=
  fun e => H.auxRegion hm' _ e m.fid (prefixOf_prim m)

/-- Keys of delete footprints, classified. -/
theorem mem_delKeys {m : Msg} {k : Bytes} : k ∈ D.delKeys m ↔
    k = D.prim m ∨ (D.isAdd m = true ∧ (k = D.ak m ∨ k ∈ D.auxKeys m)) ∨
      (D.isAdd m = false ∧ k = D.rk m) := by
  unfold delKeys auxKeys
  by_cases h : D.isAdd m = true
  · simp only [h, if_true, List.mem_append, List.mem_cons, List.not_mem_nil, or_false]
    constructor
    · rintro ((h | h) | h | h) <;> simp [h]
    · rintro (h | ⟨-, h | h | h⟩ | ⟨h, -⟩) <;> simp_all
  · simp only [Bool.not_eq_true] at h
    simp only [h, Bool.false_eq_true, if_false, List.mem_cons, List.not_mem_nil, or_false]
    constructor
    · rintro (h | h) <;> simp [h]
    · rintro (h | ⟨h, -⟩ | ⟨-, h⟩) <;> simp_all

theorem rows_sub_delKeys {m : Msg} {k : Bytes} {v : SVal} (h : (k, v) ∈ D.rowsOf ctx m) : k ∈ D.delKeys m := by
  rw [mem_delKeys]
  rcases mem_rowsOf h with h | h | h | h
  · exact .inl h.1
  · exact .inr (.inl ⟨h.1, .inl h.2.1⟩)
  · exact .inr (.inr ⟨h.1, h.2.1⟩)
  · exact .inr (.inl ⟨h.1, .inr h.2.1⟩)

/-- Messages whose delete footprints meet are about the same item. -/
theorem Lawful.disj (H : D.Lawful ok) {m m' : Msg} (hm : ok m) (hm' : ok m') {k : Bytes}
    (h : k ∈ D.delKeys m) (h' : k ∈ D.delKeys m') : D.ak m = D.ak m' := by
  rw [mem_delKeys] at h h'
  rcases h with h | ⟨a, h | h⟩ | ⟨a, h⟩ <;> rcases h' with h' | ⟨a', h' | h'⟩ | ⟨a', h'⟩
  · rw [h] at h'; rw [H.prim_inj hm hm' h']
  · exact absurd (h ▸ h') (H.prim_ne_ak hm')
  · exact absurd (h ▸ h') (H.prim_notin_aux hm')
  · exact absurd (h ▸ h') (H.prim_ne_rk (H.remove_of_not_add hm' a').2 hm')
  · exact absurd (h' ▸ h) (H.prim_ne_ak hm)
  · exact h ▸ h'
  · exact absurd (h ▸ h') (H.akAux hm hm')
  · exact absurd (h ▸ h') (H.akRk (H.remove_of_not_add hm' a').2 hm hm')
  · exact absurd (h' ▸ h) (H.prim_notin_aux hm)
  · exact absurd (h' ▸ h) (H.akAux hm' hm)
  · exact H.auxDisj hm hm' k h h'
  · exact absurd (h' ▸ h) (H.rkAux (H.remove_of_not_add hm' a').2 hm' hm)
  · exact absurd (h' ▸ h) (H.prim_ne_rk (H.remove_of_not_add hm a).2 hm)
  · exact absurd (h' ▸ h) (H.akRk (H.remove_of_not_add hm a).2 hm' hm)
  · exact absurd (h ▸ h') (H.rkAux (H.remove_of_not_add hm a).2 hm hm')
  · exact (H.rkIff (H.remove_of_not_add hm a).2 hm hm').2 (h ▸ h')

/-- A message has one value per key. -/
theorem Lawful.rows_fun (H : D.Lawful ok) {m : Msg} (hm : ok m) {k : Bytes} {v v' : SVal}
    (h : (k, v) ∈ D.rowsOf ctx m) (h' : (k, v') ∈ D.rowsOf ctx m) : v = v' := by
  rcases mem_rowsOf h with h | h | h | h <;> rcases mem_rowsOf h' with h' | h' | h' | h'
  · rw [h.2, h'.2]
  · exact absurd (h.1 ▸ h'.2.1) (H.prim_ne_ak hm)
  · exact absurd (h.1 ▸ h'.2.1) (H.prim_ne_rk (H.remove_of_not_add hm h'.1).2 hm)
  · exact absurd (h.1 ▸ h'.2.1) (H.prim_notin_aux hm)
  · exact absurd (h'.1 ▸ h.2.1) (H.prim_ne_ak hm)
  · rw [h.2.2, h'.2.2]
  · rw [h.1] at h'; simp at h'
  · exact absurd (h.2.1 ▸ h'.2.1) (H.akAux hm hm)
  · exact absurd (h'.1 ▸ h.2.1) (H.prim_ne_rk (H.remove_of_not_add hm h.1).2 hm)
  · rw [h.1] at h'; simp at h'
  · rw [h.2.2, h'.2.2]
  · rw [h.1] at h'; simp at h'
  · exact absurd (h'.1 ▸ h.2.1) (H.prim_notin_aux hm)
  · exact absurd (h'.2.1 ▸ h.2.1) (H.akAux hm hm)
  · rw [h.1] at h'; simp at h'
  · exact H.auxFun hm k v v' h.2.2 h'.2.2

theorem Lawful.event_free (H : D.Lawful ok) {k : Bytes} (h : D.Space ok k) (id : Nat) : k ≠ eventKey id := by
  rcases h with ⟨f, t, rfl⟩ | ⟨m, hm, h | ⟨hs, h⟩ | h⟩
  · simp [prefixOf, makeMessagePrimaryKey, makeUserKey, eventKey]
  · rw [h]; exact H.akEvent hm id
  · rw [h]; exact H.rkEvent hs hm id
  · exact H.auxEvent hm k h id

/-! ### Reading the live set -/

theorem unique_of_pairwise {L : List Msg} (h : L.Pairwise (fun a b => D.ak a ≠ D.ak b)) {x y : Msg}
    (hx : x ∈ L) (hy : y ∈ L) (e : D.ak x = D.ak y) : x = y := by
  induction L with
  | nil => cases hx
  | cons a l ih =>
    obtain ⟨h1, h2⟩ := List.pairwise_cons.1 h
    rcases List.mem_cons.1 hx with hx' | hx' <;> rcases List.mem_cons.1 hy with hy' | hy'
    · rw [hx', hy']
    · exact absurd (hx' ▸ e) (h1 y hy')
    · exact absurd (hy' ▸ e.symm) (h1 x hx')
    · exact ih h2 hx' hy'

theorem Holds.unique {L : List Msg} {V : View} (h : D.Holds ok ctx L V) {x y : Msg} (hx : x ∈ L)
    (hy : y ∈ L) (e : D.ak x = D.ak y) : x = y := unique_of_pairwise h.items hx hy e

theorem Holds.get (H : D.Lawful ok) {L : List Msg} {V : View} (h : D.Holds ok ctx L V) {m : Msg}
    (hm : m ∈ L) {k : Bytes} {v : SVal} (hr : (k, v) ∈ D.rowsOf ctx m) : V k = some v :=
  (h.rows k (H.space_rows (h.valid m hm) hr) v).2 ⟨m, hm, hr⟩

theorem Holds.get_prim (H : D.Lawful ok) {L : List Msg} {V : View} (h : D.Holds ok ctx L V) {m : Msg}
    (hm : m ∈ L) : V (D.prim m) = some (.msg m) :=
  h.get H hm (by unfold rowsOf; split <;> simp)

/-- The add selector of an item. -/
theorem Holds.get_ak (H : D.Lawful ok) {L : List Msg} {V : View} (h : D.Holds ok ctx L V) {m : Msg}
    (hm : ok m) : (∃ x ∈ L, D.ak x = D.ak m ∧ D.isAdd x = true ∧ V (D.ak m) = some (.raw (tsh x))) ∨
      ((∀ x ∈ L, D.ak x = D.ak m → D.isAdd x = false) ∧ V (D.ak m) = none) := by
  cases hv : V (D.ak m) with
  | some v =>
    obtain ⟨x, hx, hr⟩ := (h.rows _ (Space.ak hm) v).1 hv
    rcases mem_rowsOf hr with h' | h' | h' | h'
    · exact absurd h'.1.symm (H.prim_ne_ak hm)
    · exact .inl ⟨x, hx, h'.2.1.symm, h'.1, by rw [h'.2.2]⟩
    · exact absurd h'.2.1 (H.akRk (H.remove_of_not_add (h.valid x hx) h'.1).2 hm (h.valid x hx))
    · exact absurd h'.2.1 (H.akAux hm (h.valid x hx))
  | none =>
    refine .inr ⟨?_, rfl⟩
    intro x hx e
    cases ha : D.isAdd x with
    | false => rfl
    | true =>
      have := h.get H hx (k := D.ak x) (v := .raw (tsh x)) (by unfold rowsOf; simp [ha])
      rw [e, hv] at this; cases this

/-- The remove selector of an item. -/
theorem Holds.get_rk (H : D.Lawful ok) {L : List Msg} {V : View} (h : D.Holds ok ctx L V) {m : Msg}
    (hm : ok m) (hs : D.removeSupported = true) :
    (∃ x ∈ L, D.ak x = D.ak m ∧ D.isAdd x = false ∧ V (D.rk m) = some (.raw (tsh x))) ∨
      ((∀ x ∈ L, D.ak x = D.ak m → D.isAdd x = true) ∧ V (D.rk m) = none) := by
  cases hv : V (D.rk m) with
  | some v =>
    obtain ⟨x, hx, hr⟩ := (h.rows _ (Space.rk hm hs) v).1 hv
    rcases mem_rowsOf hr with h' | h' | h' | h'
    · exact absurd h'.1.symm (H.prim_ne_rk hs hm)
    · exact absurd h'.2.1.symm (H.akRk hs (h.valid x hx) hm)
    · exact .inl ⟨x, hx, (H.rkIff hs (h.valid x hx) hm).2 h'.2.1.symm, h'.1, by rw [h'.2.2]⟩
    · exact absurd h'.2.1 (H.rkAux hs hm (h.valid x hx))
  | none =>
    refine .inr ⟨?_, rfl⟩
    intro x hx e
    cases ha : D.isAdd x with
    | true => rfl
    | false =>
      have := h.get H hx (k := D.rk x) (v := .raw (tsh x)) (by unfold rowsOf; simp [ha])
      rw [(H.rkIff hs (h.valid x hx) hm).1 e, hv] at this; cases this

/-! ### Changing the live set -/

/-- Deleting a live message. -/
theorem Holds.delete (H : D.Lawful ok) {L : List Msg} {V V' : View} (h : D.Holds ok ctx L V) {m : Msg}
    (hm : m ∈ L) (hV : ∀ k, D.Space ok k → V' k = if k ∈ D.delKeys m then none else V k) :
    D.Holds ok ctx (L.filter (fun x => D.ak x ≠ D.ak m)) V' where
  valid x hx := h.valid x (List.mem_filter.1 hx).1
  items := h.items.filter _
  rows k hk v := by
    rw [hV k hk]
    by_cases hd : k ∈ D.delKeys m
    · rw [if_pos hd]
      constructor
      · intro e; cases e
      · rintro ⟨x, hx, hr⟩
        have hx' := List.mem_filter.1 hx
        exact absurd (H.disj (h.valid x hx'.1) (h.valid m hm) (rows_sub_delKeys hr) hd) (by simpa using hx'.2)
    · rw [if_neg hd, h.rows k hk]
      constructor
      · rintro ⟨x, hx, hr⟩
        refine ⟨x, List.mem_filter.2 ⟨hx, ?_⟩, hr⟩
        simp only [ne_eq, decide_not, Bool.not_eq_eq_eq_not, Bool.not_true, decide_eq_false_iff_not]
        intro e
        have := h.unique hx hm e
        subst this
        exact hd (rows_sub_delKeys hr)
      · rintro ⟨x, hx, hr⟩
        exact ⟨x, (List.mem_filter.1 hx).1, hr⟩

/-- Writing a message about an item with no live message. -/
theorem Holds.insert (H : D.Lawful ok) {L : List Msg} {V V' : View} (h : D.Holds ok ctx L V) {m : Msg}
    (hm : ok m) (hn : ∀ x ∈ L, D.ak x ≠ D.ak m)
    (hin : ∀ k v, (k, v) ∈ D.rowsOf ctx m → V' k = some v)
    (hout : ∀ k, D.Space ok k → k ∉ (D.rowsOf ctx m).map (·.1) → V' k = V k) :
    D.Holds ok ctx (m :: L) V' where
  valid x hx := by
    rcases List.mem_cons.1 hx with e | hx
    · exact e ▸ hm
    · exact h.valid x hx
  items := List.pairwise_cons.2 ⟨fun x hx e => hn x hx e.symm, h.items⟩
  rows k hk v := by
    by_cases hr : k ∈ (D.rowsOf ctx m).map (·.1)
    · obtain ⟨⟨k', v'⟩, hr', rfl⟩ := List.mem_map.1 hr
      rw [hin k' v' hr']
      constructor
      · intro e; cases e; exact ⟨m, List.mem_cons_self, hr'⟩
      · rintro ⟨x, hx, hxr⟩
        rcases List.mem_cons.1 hx with e | hx
        · subst e; rw [H.rows_fun hm hr' hxr]
        · exact absurd (H.disj (h.valid x hx) hm (rows_sub_delKeys hxr) (rows_sub_delKeys hr')) (hn x hx)
    · rw [hout k hk hr, h.rows k hk]
      constructor
      · rintro ⟨x, hx, hxr⟩; exact ⟨x, List.mem_cons_of_mem _ hx, hxr⟩
      · rintro ⟨x, hx, hxr⟩
        rcases List.mem_cons.1 hx with e | hx
        · subst e; exact absurd (List.mem_map.2 ⟨_, hxr, rfl⟩) hr
        · exact ⟨x, hx, hxr⟩

/-- `Holds` depends only on the owned part of the view and on which messages are live. -/
theorem Holds.congr {L : List Msg} {V V' : View} (h : D.Holds ok ctx L V)
    (hV : ∀ k, D.Space ok k → V' k = V k) : D.Holds ok ctx L V' where
  valid := h.valid
  items := h.items
  rows k hk v := by rw [hV k hk]; exact h.rows k hk v

/-- Two views with the same live messages agree on the store's rows. -/
theorem Holds.agree {L L' : List Msg} {V V' : View} (h : D.Holds ok ctx L V) (h' : D.Holds ok ctx L' V')
    (e : ∀ m, m ∈ L ↔ m ∈ L') (k : Bytes) (hk : D.Space ok k) : V k = V' k := by
  apply Option.ext
  intro v
  rw [h.rows k hk, h'.rows k hk]
  constructor
  · rintro ⟨m, hm, hr⟩; exact ⟨m, (e m).1 hm, hr⟩
  · rintro ⟨m, hm, hr⟩; exact ⟨m, (e m).2 hm, hr⟩

end StoreDef
end Verif
