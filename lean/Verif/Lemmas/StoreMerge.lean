import Verif.Lemmas.StoreInv
/-! Merging, deleting and forcing messages, as operations on the set of live messages. -/
namespace Verif
namespace StoreDef
variable {D : StoreDef} {ok : Msg → Prop} {ctx : Nat → MergeCtx}

/-! ### Straight-line parts -/

theorem deleteMessage_stages {m : Msg} (h : m.hash.length = 20) :
    Stages (D.deleteMessage m) [(D.prim m, none)] () := by
  have := Stages.bind (Stages.lift (makeTsHash_ok h))
    (f := fun th => SM.del (makeMessagePrimaryKey m.fid D.set (some th))) (Stages.del (D.prim m))
  exact this

theorem putMessage_stages {m : Msg} (h : m.hash.length = 20) :
    Stages (D.putMessage m) [(D.prim m, some (.msg m))] () := by
  have := Stages.bind (Stages.lift (makeTsHash_ok h))
    (f := fun th => SM.put (makeMessagePrimaryKey m.fid D.set (some th)) (.msg m)) (Stages.put (D.prim m) _)
  exact this

theorem deleteAdd_stages (H : D.Lawful ok) {m : Msg} (hm : ok m) (ha : D.isAdd m = true) :
    Stages (D.deleteAdd (tsh m) m) (dels (D.delKeys m)) () := by
  have h := Stages.bind (Stages.lift (H.index hm ha).2) (f := fun keys => do
      SM.forEach SM.del keys
      SM.forEach SM.del (D.followKeys m)
      let ak ← SM.lift (D.addKey m)
      SM.del ak
      D.deleteMessage m)
    (Stages.bind (Stages.forEach_del _) (Stages.bind (Stages.forEach_del _)
      (Stages.bind (Stages.lift (H.addKey hm)) (Stages.bind (Stages.del _)
        (deleteMessage_stages (H.hash hm))))))
  refine Stages.cast h ?_
  simp [delKeys, ha, dels, H.follow hm]

theorem deleteRemove_stages (H : D.Lawful ok) {m : Msg} (hm : ok m) (ha : D.isAdd m = false) :
    Stages (D.deleteRemove m) (dels (D.delKeys m)) () := by
  have hs := (H.remove_of_not_add hm ha).2
  have h := Stages.bind (Stages.lift (H.removeKey hs hm)) (f := fun rk => do
      SM.del rk
      D.deleteMessage m)
    (Stages.bind (Stages.del _) (deleteMessage_stages (H.hash hm)))
  have e : D.deleteRemove m = (SM.lift (D.removeKey m) >>= fun rk => do
      SM.del rk
      D.deleteMessage m) := by simp [deleteRemove, hs]
  rw [e]
  refine Stages.cast h ?_
  simp [delKeys, ha, dels]

theorem deleteOne_stages (H : D.Lawful ok) {m : Msg} (hm : ok m) :
    Stages (D.deleteOne m) (dels (D.delKeys m)) () := by
  rcases H.kind hm with ⟨ha, hr⟩ | ⟨ha, hr⟩
  · have h1 : Stages (D.deleteCompactOrAdd m) (dels (D.delKeys m)) () := by
      have e : D.deleteCompactOrAdd m = (SM.lift (makeTsHash m.ts m.hash) >>= fun th => D.deleteAdd th m) := by
        simp [deleteCompactOrAdd, H.notCompact hm, ha]
      rw [e]
      exact Stages.bind (Stages.lift (makeTsHash_ok (H.hash hm))) (deleteAdd_stages H hm ha)
    have h2 : Stages (D.deleteIfRemove m) [] () := by
      have e : D.deleteIfRemove m = pure () := by simp [deleteIfRemove, hr]
      rw [e]; exact Stages.pure ()
    exact Stages.cast (Stages.bind h1 (f := fun _ => D.deleteIfRemove m) h2) (by simp)
  · have h1 : Stages (D.deleteCompactOrAdd m) [] () := by
      have e : D.deleteCompactOrAdd m = pure () := by simp [deleteCompactOrAdd, H.notCompact hm, ha]
      rw [e]; exact Stages.pure ()
    have h2 : Stages (D.deleteIfRemove m) (dels (D.delKeys m)) () := by
      have e : D.deleteIfRemove m = D.deleteRemove m := by
        simp [deleteIfRemove, hr, removeSupported_of_isRemove hr]
      rw [e]; exact deleteRemove_stages H hm ha
    exact Stages.cast (Stages.bind h1 (f := fun _ => D.deleteIfRemove m) h2) (by simp)

theorem putAdd_stages (H : D.Lawful ok) {m : Msg} (hm : ok m) (ha : D.isAdd m = true) :
    Stages (D.putAdd (ctx m.ts) (tsh m) m) (puts (D.rowsOf ctx m)) () := by
  have h := Stages.bind (putMessage_stages (D := D) (H.hash hm)) (f := fun _ => do
      let ak ← SM.lift (D.addKey m)
      SM.put ak (.raw (tsh m))
      let rows ← SM.lift (D.indexRows (tsh m) m)
      SM.forEach (fun r => SM.put r.1 r.2) rows
      SM.forEach (fun r => SM.put r.1 r.2) (if (ctx m.ts).follows then D.followRows m else []))
    (Stages.bind (Stages.lift (H.addKey hm)) (Stages.bind (Stages.put _ _)
      (Stages.bind (Stages.lift (H.index hm ha).1) (Stages.bind (Stages.forEach_put _) (Stages.forEach_put _)))))
  refine Stages.cast h ?_
  simp [rowsOf, ha, puts]

theorem putRemove_stages (H : D.Lawful ok) {m : Msg} (hm : ok m) (ha : D.isAdd m = false) :
    Stages (D.putRemove (tsh m) m) (puts (D.rowsOf ctx m)) () := by
  have hs := (H.remove_of_not_add hm ha).2
  have h := Stages.bind (putMessage_stages (D := D) (H.hash hm)) (f := fun _ => do
      let rk ← SM.lift (D.removeKey m)
      SM.put rk (.raw (tsh m)))
    (Stages.bind (Stages.lift (H.removeKey hs hm)) (Stages.put _ _))
  have e : D.putRemove (tsh m) m = (D.putMessage m >>= fun _ => do
      let rk ← SM.lift (D.removeKey m)
      SM.put rk (.raw (tsh m))) := by simp [putRemove, hs]
  rw [e]
  refine Stages.cast h ?_
  simp [rowsOf, ha, puts]

theorem deleteMany_stages (H : D.Lawful ok) {ms : List Msg} (h : ∀ m ∈ ms, ok m) :
    Stages (D.deleteMany ms) (dels (ms.flatMap D.delKeys)) () := by
  induction ms with
  | nil => intro s; rfl
  | cons a l ih =>
    have h' := Stages.bind (deleteOne_stages H (h a List.mem_cons_self)) (f := fun _ => D.deleteMany l)
      (ih (fun m hm => h m (List.mem_cons_of_mem _ hm)))
    exact Stages.cast h' (by simp [dels])

/-! ### Reads -/

theorem read_eq (db : Db SVal) (k : Bytes) (s : SSt) : SM.read db k s = (.ok (viewOf db s.txn k), s) := rfl

theorem getMessage_eq {db : Db SVal} {m : Msg} {s : SSt} (h : viewOf db s.txn (D.prim m) = some (.msg m)) :
    D.getMessage db m.fid (tsh m) s = (.ok (some m), s) := by
  have hr : SM.read db (makeMessagePrimaryKey m.fid D.set (some (tsh m))) s = (.ok (some (.msg m)), s) := by
    rw [read_eq]; exact congrArg (fun x => (Except.ok x, s)) h
  unfold getMessage
  rw [SM.bind_ok hr]
  rfl

theorem asTsHash_raw {m : Msg} (h : m.hash.length = 20) : asTsHash (.raw (tsh m)) = .ok (tsh m) := by
  simp [asTsHash, tsh_length h]

theorem conflictAt_none {db : Db SVal} {t : MessageType} {k : Bytes} {m : Msg} {th : Bytes} {s : SSt}
    (h : viewOf db s.txn k = none) : D.conflictAt db t k m th s = (.ok [], s) := by
  unfold conflictAt
  rw [SM.bind_ok (read_eq db k s), h]
  rfl

theorem conflictAt_some {db : Db SVal} {k : Bytes} {m x : Msg} {s : SSt}
    (h : viewOf db s.txn k = some (.raw (tsh x))) (hx : x.hash.length = 20) (hf : x.fid = m.fid)
    (hp : viewOf db s.txn (D.prim x) = some (.msg x)) :
    D.conflictAt db x.ty k m (tsh m) s =
      ((if D.cmp x m > 0 then .error .conflict else if D.cmp x m = 0 then .error .duplicate else .ok [x]), s) := by
  unfold conflictAt
  rw [SM.bind_ok (read_eq db k s), h]
  simp only [rawOf]
  change (if D.cmp x m > 0 then SM.fail .conflict else if D.cmp x m = 0 then SM.fail .duplicate else _ : SM (List Msg)) s = _
  by_cases h1 : D.cmp x m > 0
  · rw [if_pos h1, if_pos h1]; rfl
  · rw [if_neg h1, if_neg h1]
    by_cases h2 : D.cmp x m = 0
    · rw [if_pos h2, if_pos h2]; rfl
    · rw [if_neg h2, if_neg h2]
      rw [SM.bind_ok (SM.lift_ok (asTsHash_raw hx) s), ← hf, SM.bind_ok (getMessage_eq hp)]
      rfl

/-- What a merge does to the live messages: it returns the messages it replaces. -/
def liveMerge (D : StoreDef) (L : List Msg) (m : Msg) : Except HubErr (List Msg) × List Msg :=
  match L.find? (fun x => D.ak x = D.ak m) with
  | none => (.ok [], m :: L)
  | some x =>
    if D.cmp x m > 0 then (.error .conflict, L)
    else if D.cmp x m = 0 then (.error .duplicate, L)
    else (.ok [x], m :: L.filter (fun x => D.ak x ≠ D.ak m))

theorem getMergeConflicts_eq (H : D.Lawful ok) {db : Db SVal} {s : SSt} {L : List Msg}
    (h : D.Holds ok ctx L (viewOf db s.txn)) {m : Msg} (hm : ok m) :
    D.getMergeConflicts db m (tsh m) s = ((D.liveMerge L m).1, s) := by
  have hremN : (D.removeSupported = true → viewOf db s.txn (D.rk m) = none) →
      D.removeConflicts db m (tsh m) s = (.ok [], s) := by
    intro hrk
    unfold removeConflicts
    by_cases hs : D.removeSupported = true
    · rw [if_pos hs, SM.bind_ok (SM.lift_ok (H.removeKey hs hm) s)]
      exact conflictAt_none (hrk hs)
    · rw [if_neg hs]; rfl
  have hremS : ∀ r, D.removeSupported = true → D.conflictAt db D.removeType (D.rk m) m (tsh m) s = (r, s) →
      D.removeConflicts db m (tsh m) s = (r, s) := by
    intro r hs hr
    unfold removeConflicts
    rw [if_pos hs, SM.bind_ok (SM.lift_ok (H.removeKey hs hm) s)]
    exact hr
  unfold getMergeConflicts liveMerge
  cases hf : L.find? (fun x => D.ak x = D.ak m) with
  | none =>
    have hn : ∀ x ∈ L, D.ak x ≠ D.ak m := by simpa using List.find?_eq_none.1 hf
    have hak : viewOf db s.txn (D.ak m) = none := by
      rcases h.get_ak H hm with ⟨x, hx, e, _⟩ | ⟨_, e⟩
      · exact absurd e (hn x hx)
      · exact e
    have hrk : D.removeSupported = true → viewOf db s.txn (D.rk m) = none := by
      intro hs
      rcases h.get_rk H hm hs with ⟨x, hx, e, _⟩ | ⟨_, e⟩
      · exact absurd e (hn x hx)
      · exact e
    rw [SM.bind_ok (hremN hrk), SM.bind_ok (SM.lift_ok (H.addKey hm) s), SM.bind_ok (conflictAt_none hak)]
    rfl
  | some x =>
    have hx : x ∈ L := List.mem_of_find?_eq_some hf
    have hxe : D.ak x = D.ak m := by simpa using List.find?_some hf
    have hxo := h.valid x hx
    have hfid := H.itemFid hxo hm hxe
    have hp := h.get_prim H hx
    cases ha : D.isAdd x with
    | true =>
      have hty : x.ty = D.addType := by simpa [isAdd] using ha
      have hak : viewOf db s.txn (D.ak m) = some (.raw (tsh x)) := by
        rcases h.get_ak H hm with ⟨y, hy, e, _, e'⟩ | ⟨e, _⟩
        · rw [h.unique hx hy (hxe.trans e.symm)]; exact e'
        · exact absurd (e x hx hxe) (by simp [ha])
      have hadd := conflictAt_some (D := D) hak (H.hash hxo) hfid hp
      rw [hty] at hadd
      have hrk : D.removeSupported = true → viewOf db s.txn (D.rk m) = none := by
        intro hs
        rcases h.get_rk H hm hs with ⟨y, hy, e, e2, _⟩ | ⟨_, e⟩
        · rw [← h.unique hx hy (hxe.trans e.symm), ha] at e2; cases e2
        · exact e
      rw [SM.bind_ok (hremN hrk), SM.bind_ok (SM.lift_ok (H.addKey hm) s)]
      by_cases h1 : D.cmp x m > 0
      · rw [if_pos h1] at hadd; rw [SM.bind_error hadd]; simp [h1]
      · by_cases h2 : D.cmp x m = 0
        · rw [if_neg h1, if_pos h2] at hadd; rw [SM.bind_error hadd]; simp [h2]
        · rw [if_neg h1, if_neg h2] at hadd; rw [SM.bind_ok hadd]; simp only [h1, h2, if_false]; rfl
    | false =>
      obtain ⟨hr, hs⟩ := H.remove_of_not_add hxo ha
      have hty : x.ty = D.removeType := by simp [isRemove] at hr; exact hr.2
      have hrk : viewOf db s.txn (D.rk m) = some (.raw (tsh x)) := by
        rcases h.get_rk H hm hs with ⟨y, hy, e, _, e'⟩ | ⟨e, _⟩
        · rw [h.unique hx hy (hxe.trans e.symm)]; exact e'
        · exact absurd (e x hx hxe) (by simp [ha])
      have hrem := conflictAt_some (D := D) hrk (H.hash hxo) hfid hp
      rw [hty] at hrem
      have hak : viewOf db s.txn (D.ak m) = none := by
        rcases h.get_ak H hm with ⟨y, hy, e, e2, _⟩ | ⟨_, e⟩
        · rw [← h.unique hx hy (hxe.trans e.symm), ha] at e2; cases e2
        · exact e
      by_cases h1 : D.cmp x m > 0
      · rw [if_pos h1] at hrem; rw [SM.bind_error (hremS _ hs hrem)]; simp [h1]
      · by_cases h2 : D.cmp x m = 0
        · rw [if_neg h1, if_pos h2] at hrem; rw [SM.bind_error (hremS _ hs hrem)]; simp [h2]
        · rw [if_neg h1, if_neg h2] at hrem
          rw [SM.bind_ok (hremS _ hs hrem), SM.bind_ok (SM.lift_ok (H.addKey hm) s),
            SM.bind_ok (conflictAt_none hak)]
          simp only [h1, h2, if_false]; rfl

/-! ### Writing -/

/-- The part of the database outside the store and the event log is untouched. -/
def Frame (D : StoreDef) (ok : Msg → Prop) (V V' : View) : Prop :=
  ∀ k, ¬ D.Space ok k → (∀ id, k ≠ eventKey id) → V' k = V k

theorem Frame.refl (V : View) : Frame D ok V V := fun _ _ _ => rfl
theorem Frame.trans {V V' V'' : View} (h : Frame D ok V V') (h' : Frame D ok V' V'') : Frame D ok V V'' :=
  fun k hk he => (h' k hk he).trans (h k hk he)

/-- Store the rows of a message of either kind. -/
def writeRows (D : StoreDef) (ctx : Nat → MergeCtx) (m : Msg) : SM Unit :=
  if D.isAdd m then D.putAdd (ctx m.ts) (tsh m) m else D.putRemove (tsh m) m

/-- The common end of every merge. -/
def writeOne (D : StoreDef) (ctx : Nat → MergeCtx) (m : Msg) (old : List Msg) (e : StoreEvent) :
    SM StoreEvent := do
  D.deleteMany old
  D.writeRows ctx m
  SM.event e

/-- Putting the rows of a message after deleting the live message of its item, then the event. -/
theorem write_spec (H : D.Lawful ok) {db : Db SVal} {L : List Msg} {s : SSt}
    (h : D.Holds ok ctx L (viewOf db s.txn)) {m : Msg} (hm : ok m) {old : List Msg}
    (hold : ∀ x ∈ old, x ∈ L) (hcov : ∀ x ∈ L, D.ak x = D.ak m → x ∈ old ∨ x = m)
    (hitem : ∀ x ∈ old, D.ak x = D.ak m) (e : StoreEvent) :
    ∃ s', (D.writeOne ctx m old e s = (.ok e, s') ∨ D.writeOne ctx m old e s = (.error .invalidParameter, s')) ∧
      D.Holds ok ctx (m :: L.filter (fun x => D.ak x ≠ D.ak m)) (viewOf db s'.txn) ∧
      Frame D ok (viewOf db s.txn) (viewOf db s'.txn) := by
  have hput : Stages (D.writeRows ctx m) (puts (D.rowsOf ctx m)) () := by
    unfold writeRows
    cases ha : D.isAdd m
    · exact putRemove_stages H hm ha
    · exact putAdd_stages H hm ha
  have hdel := deleteMany_stages H (fun x hx => h.valid x (hold x hx))
  let t := stageAll s.txn (dels (old.flatMap D.delKeys) ++ puts (D.rowsOf ctx m))
  -- the view after the writes
  have hin : ∀ k v, (k, v) ∈ D.rowsOf ctx m → viewOf db t k = some v := by
    intro k v hr
    simp only [t, stageAll_append]
    exact view_puts_in _ _ _ _ _ hr (fun v' hv' => H.rows_fun hm hv' hr)
  have hout : ∀ k, k ∉ (D.rowsOf ctx m).map (·.1) →
      viewOf db t k = if k ∈ old.flatMap D.delKeys then none else viewOf db s.txn k := by
    intro k hk
    simp only [t, stageAll_append]
    rw [view_puts_notin _ _ _ _ hk, view_dels]
  -- first the deletes, then the puts
  have hmid : D.Holds ok ctx (L.filter (fun x => D.ak x ≠ D.ak m))
      (fun k => if k ∈ D.delKeys m ∨ k ∈ old.flatMap D.delKeys then none else viewOf db s.txn k) := by
    refine ⟨fun x hx => h.valid x (List.mem_filter.1 hx).1, h.items.filter _, ?_⟩
    intro k hk v
    have hne : ∀ x ∈ L.filter (fun x => D.ak x ≠ D.ak m), D.ak x ≠ D.ak m := by
      intro x hx; simpa using (List.mem_filter.1 hx).2
    by_cases hd : k ∈ D.delKeys m ∨ k ∈ old.flatMap D.delKeys
    · rw [if_pos hd]
      constructor
      · intro e; cases e
      · rintro ⟨x, hx, hr⟩
        have hx' := hne x hx
        have hxo := h.valid x (List.mem_filter.1 hx).1
        rcases hd with hd | hd
        · exact absurd (H.disj hxo hm (rows_sub_delKeys hr) hd) hx'
        · obtain ⟨y, hy, hyd⟩ := List.mem_flatMap.1 hd
          exact absurd ((H.disj hxo (h.valid y (hold y hy)) (rows_sub_delKeys hr) hyd).trans (hitem y hy)) hx'
    · rw [if_neg hd, h.rows k hk]
      constructor
      · rintro ⟨x, hx, hr⟩
        refine ⟨x, List.mem_filter.2 ⟨hx, ?_⟩, hr⟩
        simp only [ne_eq, decide_not, Bool.not_eq_eq_eq_not, Bool.not_true, decide_eq_false_iff_not]
        intro e
        rcases hcov x hx e with hxo | rfl
        · exact hd (.inr (List.mem_flatMap.2 ⟨x, hxo, rows_sub_delKeys hr⟩))
        · exact hd (.inl (rows_sub_delKeys hr))
      · rintro ⟨x, hx, hr⟩
        exact ⟨x, (List.mem_filter.1 hx).1, hr⟩
  have hfin : D.Holds ok ctx (m :: L.filter (fun x => D.ak x ≠ D.ak m)) (viewOf db t) := by
    refine hmid.insert H hm (fun x hx => by simpa using (List.mem_filter.1 hx).2) hin ?_
    intro k hk hr
    rw [hout k hr]
    by_cases hd : k ∈ old.flatMap D.delKeys
    · rw [if_pos hd, if_pos (.inr hd)]
    · rw [if_neg hd]
      by_cases hd' : k ∈ D.delKeys m
      · rw [if_pos (.inl hd')]
        cases hv : viewOf db s.txn k with
        | none => rfl
        | some v =>
          obtain ⟨x, hx, hxr⟩ := (h.rows k hk v).1 hv
          have e := H.disj (h.valid x hx) hm (rows_sub_delKeys hxr) hd'
          rcases hcov x hx e with hxo | rfl
          · exact absurd (List.mem_flatMap.2 ⟨x, hxo, rows_sub_delKeys hxr⟩) hd
          · exact absurd (List.mem_map.2 ⟨_, hxr, rfl⟩) hr
      · rw [if_neg (by simp [hd, hd'])]
  have hframe : Frame D ok (viewOf db s.txn) (viewOf db t) := by
    intro k hk _
    rw [hout k ?_, if_neg ?_]
    · intro hd
      obtain ⟨y, hy, hyd⟩ := List.mem_flatMap.1 hd
      refine hk ?_
      have hyo := h.valid y (hold y hy)
      rw [mem_delKeys] at hyd
      rcases hyd with e | ⟨_, e | e⟩ | ⟨a, e⟩
      · rw [e]; exact Space.prim y
      · rw [e]; exact Space.ak hyo
      · exact Space.aux hyo e
      · rw [e]; exact Space.rk hyo (H.remove_of_not_add hyo a).2
    · intro hr
      obtain ⟨⟨k', v'⟩, hr', rfl⟩ := List.mem_map.1 hr
      exact hk (H.space_rows hm hr')
  have hrun : D.writeOne ctx m old e s = SM.event e { s with txn := t } := by
    unfold writeOne
    rw [SM.bind_ok (hdel s), SM.bind_ok (hput _)]
    simp only [t, stageAll_append]
  rcases event_cases e { s with txn := t } with ⟨id, g, he⟩ | ⟨g, he⟩
  · refine ⟨_, .inl (hrun.trans he), ?_, ?_⟩
    · exact hfin.congr (fun k hk => view_putEvent _ _ _ _ _ (H.event_free hk))
    · exact hframe.trans (fun k _ he => view_putEvent _ _ _ _ _ he)
  · exact ⟨_, .inr (hrun.trans he), hfin, hframe⟩

/-- No stored compact state stands in the way of `m`. -/
def CompactFree (D : StoreDef) (m : Msg) (V : View) : Prop :=
  D.compactSupported = true → ∃ k, D.compactKey m = .ok k ∧
    (V k = none ∨ ∃ c, V k = some (.msg c) ∧
      (if D.isAdd m then D.compactAddConflict m c = false else ¬ m.ts < c.ts))

theorem storedCompact_free {db : Db SVal} {s : SSt} {m : Msg} (hc : CompactFree D m (viewOf db s.txn)) :
    ∃ c, D.storedCompact db m s = (.ok c, s) ∧
      (if D.isAdd m then D.checkCompactAdd m c = pure () else checkCompactRemove m c = pure ()) := by
  unfold storedCompact
  by_cases hs : D.compactSupported = true
  · rw [if_pos hs]
    obtain ⟨k, hk, h⟩ := hc hs
    rw [SM.bind_ok (SM.lift_ok hk s)]
    have hr : SM.read db k s = (.ok (viewOf db s.txn k), s) := rfl
    rw [SM.bind_ok hr]
    rcases h with h | ⟨c, h, h'⟩
    · rw [h]
      refine ⟨none, rfl, ?_⟩
      split <;> rfl
    · rw [h]
      refine ⟨some c, rfl, ?_⟩
      split
      · rename_i ha
        rw [if_pos ha] at h'
        simp [checkCompactAdd, h']
      · rename_i ha
        rw [if_neg ha] at h'
        simp [checkCompactRemove, h']
  · rw [if_neg hs]
    refine ⟨none, rfl, ?_⟩
    split <;> rfl

/-- A merge past the compact-state check is the conflict check followed by the writes. -/
theorem merge_unfold (H : D.Lawful ok) {db : Db SVal} {s : SSt} {m : Msg} (hm : ok m)
    (hc : CompactFree D m (viewOf db s.txn)) :
    D.merge db (ctx m.ts) m s =
      (D.getMergeConflicts db m (tsh m) >>= fun old => D.writeOne ctx m old (.merge m old)) s := by
  obtain ⟨c, hc1, hc2⟩ := storedCompact_free hc
  unfold merge
  rcases H.kind hm with ⟨ha, hr⟩ | ⟨ha, hr⟩
  · rw [if_neg (by simp [ha])]
    rw [SM.bind_ok (SM.lift_ok (makeTsHash_ok (H.hash hm)) s)]
    rw [if_neg (by simp [H.notCompact hm]), if_pos ha]
    rw [if_pos ha] at hc2
    unfold mergeAdd
    rw [SM.bind_ok hc1, hc2]
    have hw : ∀ old, (D.deleteMany old >>= fun _ => D.mergeAddWithConflicts (ctx m.ts) (tsh m) m old)
        = D.writeOne ctx m old (.merge m old) := by
      intro old
      unfold writeOne mergeAddWithConflicts writeRows
      rw [if_pos ha]
    simp only [hw]
    exact SM.bind_ok rfl
  · rw [if_neg (by simp [hr])]
    rw [SM.bind_ok (SM.lift_ok (makeTsHash_ok (H.hash hm)) s)]
    rw [if_neg (by simp [H.notCompact hm]), if_neg (by simp [ha])]
    rw [if_neg (by simp [ha])] at hc2
    unfold mergeRemove
    rw [SM.bind_ok hc1, hc2]
    have hw : ∀ old, (D.deleteMany old >>= fun _ => D.mergeRemoveWithConflicts (tsh m) m old)
        = D.writeOne ctx m old (.merge m old) := by
      intro old
      unfold writeOne mergeRemoveWithConflicts writeRows
      rw [if_neg (by simp [ha])]
    simp only [hw]
    exact SM.bind_ok rfl

/-- A merge either rejects the message and changes nothing, or makes it the live message of its item. -/
theorem merge_spec (H : D.Lawful ok) {db : Db SVal} {L : List Msg} {s : SSt}
    (h : D.Holds ok ctx L (viewOf db s.txn)) {m : Msg} (hm : ok m)
    (hc : CompactFree D m (viewOf db s.txn)) :
    (∃ e, D.liveMerge L m = (.error e, L) ∧ (e = .conflict ∨ e = .duplicate) ∧
      D.merge db (ctx m.ts) m s = (.error e, s)) ∨
    (∃ old s', D.liveMerge L m = (.ok old, m :: L.filter (fun x => D.ak x ≠ D.ak m)) ∧
      (D.merge db (ctx m.ts) m s = (.ok (.merge m old), s') ∨
        D.merge db (ctx m.ts) m s = (.error .invalidParameter, s')) ∧
      D.Holds ok ctx (m :: L.filter (fun x => D.ak x ≠ D.ak m)) (viewOf db s'.txn) ∧
      Frame D ok (viewOf db s.txn) (viewOf db s'.txn)) := by
  rw [merge_unfold H hm hc]
  have hg := getMergeConflicts_eq H h hm
  cases hf : L.find? (fun x => D.ak x = D.ak m) with
  | none =>
    have hn : ∀ x ∈ L, D.ak x ≠ D.ak m := by simpa using List.find?_eq_none.1 hf
    have hL : L.filter (fun x => D.ak x ≠ D.ak m) = L := List.filter_eq_self.2 (by simpa using hn)
    have hl : D.liveMerge L m = (.ok [], m :: L) := by unfold liveMerge; rw [hf]
    rw [hl] at hg
    rw [SM.bind_ok hg]
    obtain ⟨s', h1, h2, h3⟩ := write_spec H h hm (old := []) (by simp)
      (fun x hx e => absurd e (hn x hx)) (by simp) (.merge m [])
    exact .inr ⟨[], s', by rw [hl, hL], h1, h2, h3⟩
  | some x =>
    have hx : x ∈ L := List.mem_of_find?_eq_some hf
    have hxe : D.ak x = D.ak m := by simpa using List.find?_some hf
    by_cases h1 : D.cmp x m > 0
    · have hl : D.liveMerge L m = (.error .conflict, L) := by unfold liveMerge; rw [hf]; simp [h1]
      rw [hl] at hg
      exact .inl ⟨.conflict, hl, .inl rfl, SM.bind_error hg⟩
    · by_cases h2 : D.cmp x m = 0
      · have hl : D.liveMerge L m = (.error .duplicate, L) := by unfold liveMerge; rw [hf]; simp [h2]
        rw [hl] at hg
        exact .inl ⟨.duplicate, hl, .inr rfl, SM.bind_error hg⟩
      · have hl : D.liveMerge L m = (.ok [x], m :: L.filter (fun x => D.ak x ≠ D.ak m)) := by
          unfold liveMerge; rw [hf]; simp [h1, h2]
        rw [hl] at hg
        rw [SM.bind_ok hg]
        obtain ⟨s', h1, h2, h3⟩ := write_spec H h hm (old := [x]) (by simpa using hx)
          (fun y hy e => .inl (by simp [h.unique hy hx (e.trans hxe.symm)])) (by simpa using hxe) (.merge m [x])
        exact .inr ⟨[x], s', hl, h1, h2, h3⟩

end StoreDef
end Verif
