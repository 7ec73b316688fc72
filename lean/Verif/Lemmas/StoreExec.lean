import Verif.Model.Stores
import Verif.Lemmas.KV
/-! Execution of store operations: what they stage. -/
namespace Verif

/-- The content a reader of database and batch sees. -/
abbrev View := Bytes → Option SVal

/-- The view of a database with a pending batch. -/
def viewOf (db : Db SVal) (t : Txn SVal) : View := getFromDbOrTxn db t

/-- Stage a list of puts (`some`) and deletes (`none`). -/
def stageAll (t : Txn SVal) (ops : List (Bytes × Option SVal)) : Txn SVal :=
  ops.foldl (fun t o => OMap.put t o.1 o.2) t

def dels (ks : List Bytes) : List (Bytes × Option SVal) := ks.map (fun k => (k, none))
def puts (rows : List (Bytes × SVal)) : List (Bytes × Option SVal) := rows.map (fun r => (r.1, some r.2))

theorem stageAll_append (t : Txn SVal) (a b : List (Bytes × Option SVal)) :
    stageAll t (a ++ b) = stageAll (stageAll t a) b := by simp [stageAll]

theorem view_stage_one (db : Db SVal) (t : Txn SVal) (k : Bytes) (o : Option SVal) (j : Bytes) :
    viewOf db (OMap.put t k o) j = if j = k then o else viewOf db t j := by
  unfold viewOf getFromDbOrTxn
  rw [OMap.get_put]
  by_cases h : j = k <;> simp [h]

theorem view_dels (db : Db SVal) (t : Txn SVal) (ks : List Bytes) (j : Bytes) :
    viewOf db (stageAll t (dels ks)) j = if j ∈ ks then none else viewOf db t j := by
  induction ks generalizing t with
  | nil => simp [dels, stageAll]
  | cons a l ih =>
    have := ih (OMap.put t a none)
    simp only [dels, stageAll, List.map_cons, List.foldl_cons] at this ⊢
    rw [this, view_stage_one]
    by_cases h : j = a <;> by_cases h' : j ∈ l <;> simp [h, h']

theorem view_puts_notin (db : Db SVal) (t : Txn SVal) (rows : List (Bytes × SVal)) (j : Bytes)
    (h : j ∉ rows.map (·.1)) : viewOf db (stageAll t (puts rows)) j = viewOf db t j := by
  induction rows generalizing t with
  | nil => simp [puts, stageAll]
  | cons a l ih =>
    simp only [List.map_cons, List.mem_cons, not_or] at h
    have := ih (OMap.put t a.1 (some a.2)) h.2
    simp only [puts, stageAll, List.map_cons, List.foldl_cons] at this ⊢
    rw [this, view_stage_one]
    simp [h.1]

theorem view_puts_in (db : Db SVal) (t : Txn SVal) (rows : List (Bytes × SVal)) (j : Bytes) (v : SVal)
    (h : (j, v) ∈ rows) (hf : ∀ v', (j, v') ∈ rows → v' = v) :
    viewOf db (stageAll t (puts rows)) j = some v := by
  induction rows generalizing t with
  | nil => simp at h
  | cons a l ih =>
    simp only [puts, stageAll, List.map_cons, List.foldl_cons]
    by_cases h' : j ∈ l.map (·.1)
    · obtain ⟨⟨j', v'⟩, hm, rfl⟩ := List.mem_map.1 h'
      have e := hf v' (List.mem_cons_of_mem _ hm)
      subst e
      exact ih (OMap.put t a.1 (some a.2)) hm (fun v'' hv => hf v'' (List.mem_cons_of_mem _ hv))
    · have := view_puts_notin db (OMap.put t a.1 (some a.2)) l j h'
      simp only [puts, stageAll] at this
      rw [this, view_stage_one]
      rcases List.mem_cons.1 h with e | e
      · subst e; simp
      · exact absurd (List.mem_map.2 ⟨(j, v), e, rfl⟩) h'

/-! ### Straight-line code -/

/-- `x` succeeds with `a` after staging `ops`, from any state. -/
def Stages {α : Type} (x : SM α) (ops : List (Bytes × Option SVal)) (a : α) : Prop :=
  ∀ s, x s = (.ok a, { s with txn := stageAll s.txn ops })

theorem SM.bind_def {α β : Type} (x : SM α) (f : α → SM β) : (x >>= f) = SM.bind x f := rfl
theorem SM.pure_def {α : Type} (a : α) : (Pure.pure a : SM α) = SM.pure a := rfl

theorem SM.bind_ok {α β : Type} {x : SM α} {f : α → SM β} {s s' : SSt} {a : α} (h : x s = (.ok a, s')) :
    (x >>= f) s = f a s' := by
  rw [SM.bind_def]; unfold SM.bind; rw [h]

theorem SM.bind_error {α β : Type} {x : SM α} {f : α → SM β} {s s' : SSt} {e : HubErr}
    (h : x s = (.error e, s')) : (x >>= f) s = (.error e, s') := by
  rw [SM.bind_def]; unfold SM.bind; rw [h]

theorem SM.lift_ok {α : Type} {r : Except HubErr α} {a : α} (h : r = .ok a) (s : SSt) :
    SM.lift r s = (.ok a, s) := by rw [h]; rfl

theorem Stages.pure {α : Type} (a : α) : Stages (Pure.pure a : SM α) [] a := fun _ => rfl

theorem Stages.bind {α β : Type} {x : SM α} {f : α → SM β} {o₁ o₂ : List (Bytes × Option SVal)} {a : α}
    {b : β} (h₁ : Stages x o₁ a) (h₂ : Stages (f a) o₂ b) : Stages (x >>= f) (o₁ ++ o₂) b := by
  intro s
  rw [SM.bind_ok (h₁ s), h₂, stageAll_append]

theorem Stages.lift {α : Type} {r : Except HubErr α} {a : α} (h : r = .ok a) : Stages (SM.lift r) [] a :=
  fun s => SM.lift_ok h s

theorem Stages.put (k : Bytes) (v : SVal) : Stages (SM.put k v) [(k, some v)] () := fun _ => rfl
theorem Stages.del (k : Bytes) : Stages (SM.del k) [(k, none)] () := fun _ => rfl

theorem Stages.forEach_del (ks : List Bytes) : Stages (SM.forEach SM.del ks) (dels ks) () := by
  induction ks with
  | nil => intro s; rfl
  | cons a l ih => exact Stages.bind (Stages.del a) ih

theorem Stages.forEach_put (rows : List (Bytes × SVal)) :
    Stages (SM.forEach (fun r => SM.put r.1 r.2) rows) (puts rows) () := by
  induction rows with
  | nil => intro s; rfl
  | cons a l ih => exact Stages.bind (Stages.put a.1 a.2) ih

theorem Stages.cast {α : Type} {x : SM α} {o₁ o₂ : List (Bytes × Option SVal)} {a : α}
    (h : Stages x o₁ a) (e : o₁ = o₂) : Stages x o₂ a := e ▸ h

/-- The ts_hash of a message. -/
def tsh (m : Msg) : Bytes := be 4 m.ts ++ m.hash

theorem makeTsHash_ok {m : Msg} (h : m.hash.length = 20) : makeTsHash m.ts m.hash = .ok (tsh m) := by
  simp [makeTsHash, h, tsh]

theorem tsh_length {m : Msg} (h : m.hash.length = 20) : (tsh m).length = 24 := by simp [tsh, h]

/-- Recording the event: either it gets an id, or the ids of the block are used up. -/
theorem event_cases (e : StoreEvent) (s : SSt) :
    (∃ id g, SM.event e s = (.ok e, ⟨putEvent s.txn id (.event id e), g⟩)) ∨
      (∃ g, SM.event e s = (.error .invalidParameter, ⟨s.txn, g⟩)) := by
  have hg : (∃ id g, s.gen.generateId false = (.ok id, g)) ∨
      (∃ g, s.gen.generateId false = (.error .invalidParameter, g)) := by
    unfold IdGen.generateId
    split
    · exact .inr ⟨_, rfl⟩
    · split
      · exact .inr ⟨_, rfl⟩
      · exact .inl ⟨_, _, rfl⟩
  rcases hg with ⟨id, g, h⟩ | ⟨g, h⟩
  · exact .inl ⟨id, g, by simp only [SM.event, commitEvent, h]⟩
  · exact .inr ⟨g, by simp only [SM.event, commitEvent, h]⟩

theorem view_putEvent (db : Db SVal) (t : Txn SVal) (id : Nat) (v : SVal) (j : Bytes)
    (h : ∀ id, j ≠ eventKey id) : viewOf db (putEvent t id v) j = viewOf db t j := by
  unfold putEvent Txn.stagePut
  rw [view_stage_one, if_neg (h id)]

end Verif
