import Verif.Lemmas.RowOrigin
/-! Which rows an operation of a message store writes. -/
namespace Verif

/-- Put (`some`) and delete (`none`) rows of a batch, one after another. -/
def writeRows (t : Txn SVal) (l : List (Bytes × Option SVal)) : Txn SVal := l.foldl (fun t r => OMap.put t r.1 r.2) t

theorem writeRows_append (t : Txn SVal) (a b : List (Bytes × Option SVal)) : writeRows t (a ++ b) = writeRows (writeRows t a) b :=
  List.foldl_append

/-- The operation writes rows under keys satisfying `P` only. -/
def SM.Writes {α : Type} (P : Bytes → Prop) (x : SM α) : Prop :=
  ∀ s, ∃ l, (∀ r ∈ l, P r.1) ∧ (x s).2.txn = writeRows s.txn l

namespace SM
variable {α β : Type} {P : Bytes → Prop}

theorem writes_nothing {x : SM α} (h : ∀ s, (x s).2.txn = s.txn) : x.Writes P := fun s => ⟨[], by simp, h s⟩
theorem writes_pure (a : α) : (pure a : SM α).Writes P := writes_nothing (fun _ => rfl)
theorem writes_pure' (a : α) : (Pure.pure a : SM α).Writes P := writes_nothing (fun _ => rfl)
theorem writes_fail (e : HubErr) : (fail e : SM α).Writes P := writes_nothing (fun _ => rfl)
theorem writes_lift (r : Except HubErr α) : (lift r).Writes P := writes_nothing (fun _ => rfl)
theorem writes_read (db : Db SVal) (k : Bytes) : (read db k).Writes P := writes_nothing (fun _ => rfl)

theorem writes_bind {x : SM α} {f : α → SM β} (hx : x.Writes P) (hf : ∀ a, (f a).Writes P) : (x >>= f).Writes P := by
  intro s
  obtain ⟨l, h1, h2⟩ := hx s
  show ∃ l, _ ∧ ((SM.bind x f) s).2.txn = _
  unfold SM.bind
  split <;> rename_i h <;> rw [h] at h2
  · rename_i a s'
    obtain ⟨l', h3, h4⟩ := hf a s'
    refine ⟨l ++ l', ?_, by rw [h4, writeRows_append, ← h2]⟩
    intro r hr
    rcases List.mem_append.1 hr with hr | hr
    · exact h1 r hr
    · exact h3 r hr
  · exact ⟨l, h1, h2⟩

/-- A value computed before. -/
theorem writes_lift_bind {r : Except HubErr α} {f : α → SM β} (hf : ∀ a, r = .ok a → (f a).Writes P) : (lift r >>= f).Writes P := by
  intro s
  show ∃ l, _ ∧ ((SM.bind (lift r) f) s).2.txn = _
  unfold SM.bind lift
  cases r with
  | error e => exact ⟨[], by simp, rfl⟩
  | ok a => exact hf a rfl s

theorem writes_put {k : Bytes} (v : SVal) (h : P k) : (put k v).Writes P :=
  fun s => ⟨[(k, some v)], by simpa using h, rfl⟩

theorem writes_del {k : Bytes} (h : P k) : (del k).Writes P := fun s => ⟨[(k, none)], by simpa using h, rfl⟩

theorem writes_event (h : ∀ id, P (eventKey id)) (e : StoreEvent) : (event e).Writes P := by
  intro s
  unfold event commitEvent
  rcases hg : s.gen.generateId false with ⟨r, g⟩
  cases r with
  | error _ => exact ⟨[], by simp, rfl⟩
  | ok id => exact ⟨[(eventKey id, some (.event id e))], by simpa using h id, rfl⟩

theorem writes_forEach_mem {f : α → SM Unit} : ∀ l, (∀ a ∈ l, (f a).Writes P) → (forEach f l).Writes P
  | [], _ => writes_pure ()
  | a :: l, h => writes_bind (h a (by simp)) (fun _ => writes_forEach_mem l (fun b hb => h b (by simp [hb])))

theorem writes_forEach {f : α → SM Unit} (hf : ∀ a, (f a).Writes P) (l : List α) : (forEach f l).Writes P :=
  writes_forEach_mem l (fun a _ => hf a)

end SM

/-- One step of an operation. -/
macro "writes_step" : tactic => `(tactic| first
  | with_reducible assumption
  | with_reducible exact SM.writes_pure _
  | with_reducible exact SM.writes_pure' _
  | with_reducible exact SM.writes_fail _
  | with_reducible exact SM.writes_lift _
  | with_reducible exact SM.writes_read _ _
  | refine SM.writes_bind ?_ (fun _ => ?_)
  | split
  | dsimp only)

namespace StoreDef
variable {P : Bytes → Prop} {D : StoreDef}

/-- The rows of a store are under keys satisfying `P`. -/
structure Within (D : StoreDef) (P : Bytes → Prop) : Prop where
  prim : ∀ fid th, P (makeMessagePrimaryKey fid D.set (some th))
  add : ∀ m k, D.addKey m = .ok k → P k
  remove : ∀ m k, D.removeKey m = .ok k → P k
  compact : ∀ m k, D.compactKey m = .ok k → P k
  index : ∀ th m rows, D.indexRows th m = .ok rows → ∀ r ∈ rows, P r.1
  indexed : ∀ th m ks, D.indexKeys th m = .ok ks → ∀ k ∈ ks, P k
  follow : ∀ m, ∀ r ∈ D.followRows m, P r.1
  followed : ∀ m, ∀ k ∈ D.followKeys m, P k
  events : ∀ id, P (eventKey id)

variable (h : D.Within P)
include h

theorem getMessage_writes (db : Db SVal) (f : Nat) (th : Bytes) : (D.getMessage db f th).Writes P := by
  unfold getMessage; repeat' writes_step

theorem conflictAt_writes (db : Db SVal) (t : MessageType) (k : Bytes) (m : Msg) (th : Bytes) : (D.conflictAt db t k m th).Writes P := by
  have h := fun f th => getMessage_writes h db f th
  unfold conflictAt
  repeat' first | with_reducible exact h _ _ | writes_step

theorem getMergeConflicts_writes (db : Db SVal) (m : Msg) (th : Bytes) : (D.getMergeConflicts db m th).Writes P := by
  have h := fun t k => conflictAt_writes h db t k m th
  unfold getMergeConflicts removeConflicts
  repeat' first | with_reducible exact h _ _ | writes_step

theorem putMessage_writes (m : Msg) : (D.putMessage m).Writes P := by
  unfold putMessage
  exact SM.writes_bind (SM.writes_lift _) (fun _ => SM.writes_put _ (h.prim _ _))

theorem deleteMessage_writes (m : Msg) : (D.deleteMessage m).Writes P := by
  unfold deleteMessage
  exact SM.writes_bind (SM.writes_lift _) (fun _ => SM.writes_del (h.prim _ _))

theorem putAdd_writes (ctx : MergeCtx) (th : Bytes) (m : Msg) : (D.putAdd ctx th m).Writes P := by
  unfold putAdd
  refine SM.writes_bind (putMessage_writes h m) (fun _ => SM.writes_lift_bind (fun ak hak =>
    SM.writes_bind (SM.writes_put _ (h.add m ak hak)) (fun _ => SM.writes_lift_bind (fun rows hr => ?_))))
  refine SM.writes_bind (SM.writes_forEach_mem _ (fun r hr' => SM.writes_put _ (h.index th m rows hr r hr'))) (fun _ => ?_)
  refine SM.writes_forEach_mem _ (fun r hr' => SM.writes_put _ ?_)
  split at hr'
  · exact h.follow m r hr'
  · cases hr'

theorem deleteAdd_writes (th : Bytes) (m : Msg) : (D.deleteAdd th m).Writes P := by
  unfold deleteAdd
  refine SM.writes_lift_bind (fun ks hk => ?_)
  refine SM.writes_bind (SM.writes_forEach_mem _ (fun k hk' => SM.writes_del (h.indexed th m ks hk k hk'))) (fun _ => ?_)
  refine SM.writes_bind (SM.writes_forEach_mem _ (fun k hk' => SM.writes_del (h.followed m k hk'))) (fun _ => ?_)
  exact SM.writes_lift_bind (fun ak hak => SM.writes_bind (SM.writes_del (h.add m ak hak)) (fun _ => deleteMessage_writes h m))

theorem putRemove_writes (th : Bytes) (m : Msg) : (D.putRemove th m).Writes P := by
  unfold putRemove
  split
  · exact SM.writes_fail _
  · exact SM.writes_bind (putMessage_writes h m) (fun _ => SM.writes_lift_bind (fun rk hrk => SM.writes_put _ (h.remove m rk hrk)))

theorem deleteRemove_writes (m : Msg) : (D.deleteRemove m).Writes P := by
  unfold deleteRemove
  split
  · exact SM.writes_fail _
  · exact SM.writes_lift_bind (fun rk hrk => SM.writes_bind (SM.writes_del (h.remove m rk hrk)) (fun _ => deleteMessage_writes h m))

theorem putCompact_writes (m : Msg) : (D.putCompact m).Writes P := by
  unfold putCompact
  split
  · exact SM.writes_fail _
  · exact SM.writes_lift_bind (fun k hk => SM.writes_put _ (h.compact m k hk))

theorem deleteCompact_writes (m : Msg) : (D.deleteCompact m).Writes P := by
  unfold deleteCompact
  split
  · exact SM.writes_fail _
  · exact SM.writes_lift_bind (fun k hk => SM.writes_del (h.compact m k hk))

theorem deleteMany_writes (ms : List Msg) : (D.deleteMany ms).Writes P := by
  have h1 := fun m => deleteCompact_writes h m
  have h2 := fun th m => deleteAdd_writes h th m
  have h3 := fun m => deleteRemove_writes h m
  unfold deleteMany
  refine SM.writes_forEach (fun m => ?_) _
  unfold deleteOne deleteCompactOrAdd deleteIfRemove
  repeat' first | with_reducible exact h1 _ | with_reducible exact h2 _ _ | with_reducible exact h3 _ | writes_step

theorem merge_writes (db : Db SVal) (ctx : MergeCtx) (m : Msg) : (D.merge db ctx m).Writes P := by
  have h0 := SM.writes_event h.events
  have h1 := fun th => getMergeConflicts_writes h db m th
  have h2 := fun l => deleteMany_writes h l
  have h3 := fun th => putAdd_writes h ctx th m
  have h4 := fun th => putRemove_writes h th m
  have h5 := putCompact_writes h m
  have h6 : (D.storedCompact db m).Writes P := by unfold storedCompact; repeat' writes_step
  have h7 : ∀ x, (D.checkCompactAdd m x).Writes P := fun x => by unfold checkCompactAdd; repeat' writes_step
  have h8 : ∀ x, (checkCompactRemove m x).Writes P := fun x => by unfold checkCompactRemove; repeat' writes_step
  have h9 : ∀ x, (olderCompact m x).Writes P := fun x => by unfold olderCompact; repeat' writes_step
  unfold merge mergeAdd mergeRemove mergeCompact mergeAddWithConflicts mergeRemoveWithConflicts
  repeat' first | with_reducible exact h0 _ | with_reducible exact h1 _ | with_reducible exact h2 _ | with_reducible exact h3 _ | with_reducible exact h4 _ | with_reducible exact h7 _ | with_reducible exact h8 _ | with_reducible exact h9 _ | writes_step

theorem pruneMessage_writes (m : Msg) : (D.pruneMessage m).Writes P := by
  have h0 := SM.writes_event h.events
  have h2 := fun th => deleteAdd_writes h th m
  have h3 := deleteRemove_writes h m
  unfold pruneMessage pruneDelete
  repeat' first | with_reducible exact h0 _ | with_reducible exact h2 _ | writes_step

end StoreDef
end Verif
