import Verif.Lemmas.StoreExec
import Verif.Spec.Store
/-! Rejections happen before anything is staged. -/
namespace Verif

/-- The two ways a message is rejected by what is already stored. -/
def HubErr.isRejection (e : HubErr) : Prop := e = .conflict ∨ e = .duplicate

/-- Leaves the batch alone. -/
def ReadOnly {α : Type} (x : SM α) : Prop := ∀ s, (x s).2 = s
/-- Never rejects. -/
def NeverRejects {α : Type} (x : SM α) : Prop := ∀ s e, (x s).1 = .error e → ¬ e.isRejection
/-- Leaves the batch alone when it rejects. -/
def RejectsClean {α : Type} (x : SM α) : Prop := ∀ s e, (x s).1 = .error e → e.isRejection → (x s).2 = s

/-- A pure result that is never a rejection. -/
def OkErr {α : Type} (r : Except HubErr α) : Prop := ∀ e, r = .error e → ¬ e.isRejection

theorem RejectsClean.of_never {α : Type} {x : SM α} (h : NeverRejects x) : RejectsClean x :=
  fun s e he hr => absurd hr (h s e he)
theorem RejectsClean.of_readOnly {α : Type} {x : SM α} (h : ReadOnly x) : RejectsClean x := fun s _ _ _ => h s

theorem ReadOnly.bind {α β : Type} {x : SM α} {f : α → SM β} (h : ReadOnly x) (hf : ∀ a, ReadOnly (f a)) :
    ReadOnly (x >>= f) := by
  intro s
  have := h s
  rcases hx : x s with ⟨r, s'⟩
  rw [hx] at this
  cases r with
  | ok a => rw [SM.bind_ok hx, hf a]; exact this
  | error e => rw [SM.bind_error hx]; exact this

theorem RejectsClean.bind {α β : Type} {x : SM α} {f : α → SM β} (h : ReadOnly x) (hf : ∀ a, RejectsClean (f a)) :
    RejectsClean (x >>= f) := by
  intro s e he hr
  have := h s
  rcases hx : x s with ⟨r, s'⟩
  rw [hx] at this
  simp only at this
  subst this
  cases r with
  | ok a => rw [SM.bind_ok hx] at he ⊢; exact hf a _ e he hr
  | error e => rw [SM.bind_error hx]

theorem NeverRejects.bind {α β : Type} {x : SM α} {f : α → SM β} (h : NeverRejects x) (hf : ∀ a, NeverRejects (f a)) :
    NeverRejects (x >>= f) := by
  intro s e he
  rcases hx : x s with ⟨r, s'⟩
  cases r with
  | ok a => rw [SM.bind_ok hx] at he; exact hf a _ e he
  | error e' =>
    rw [SM.bind_error hx] at he
    simp only [Except.error.injEq] at he
    subst he
    exact h s e' (by rw [hx])

theorem ReadOnly.read (db : Db SVal) (k : Bytes) : ReadOnly (SM.read db k) := fun _ => rfl
theorem ReadOnly.lift {α : Type} (r : Except HubErr α) : ReadOnly (SM.lift r) := fun _ => rfl
theorem ReadOnly.fail {α : Type} (e : HubErr) : ReadOnly (SM.fail e : SM α) := fun _ => rfl
theorem ReadOnly.pure {α : Type} (a : α) : ReadOnly (Pure.pure a : SM α) := fun _ => rfl
theorem NeverRejects.lift {α : Type} {r : Except HubErr α} (h : OkErr r) : NeverRejects (SM.lift r) := fun _ e he => h e he
theorem NeverRejects.pure {α : Type} (a : α) : NeverRejects (Pure.pure a : SM α) := by
  intro s e he; cases he
theorem NeverRejects.put (k : Bytes) (v : SVal) : NeverRejects (SM.put k v) := by intro s e he; cases he
theorem NeverRejects.del (k : Bytes) : NeverRejects (SM.del k) := by intro s e he; cases he
theorem NeverRejects.fail {α : Type} {e : HubErr} (h : ¬ e.isRejection) : NeverRejects (SM.fail e : SM α) := by
  intro s e' he
  simp only [SM.fail, Except.error.injEq] at he
  rw [← he]; exact h
theorem NeverRejects.event (e : StoreEvent) : NeverRejects (SM.event e) := by
  intro s e' he
  rcases event_cases e s with ⟨id, g, h⟩ | ⟨g, h⟩
  · rw [h] at he; cases he
  · rw [h] at he; cases he; simp [HubErr.isRejection]
theorem NeverRejects.forEach {α : Type} {f : α → SM Unit} (h : ∀ a, NeverRejects (f a)) :
    ∀ l, NeverRejects (SM.forEach f l)
  | [] => NeverRejects.pure ()
  | a :: l => NeverRejects.bind (h a) (fun _ => NeverRejects.forEach h l)

theorem OkErr.makeTsHash (ts : Nat) (h : Bytes) : OkErr (makeTsHash ts h) := by
  intro e he
  unfold Verif.makeTsHash at he
  split at he <;> cases he
  simp [HubErr.isRejection]

/-- The store's own key functions never report a rejection. -/
structure StoreDef.Quiet (D : StoreDef) : Prop where
  addKey : ∀ m, OkErr (D.addKey m)
  removeKey : ∀ m, OkErr (D.removeKey m)
  compactKey : ∀ m, OkErr (D.compactKey m)
  indexRows : ∀ th m, OkErr (D.indexRows th m)
  indexKeys : ∀ th m, OkErr (D.indexKeys th m)

namespace StoreDef
variable {D : StoreDef}

theorem deleteMessage_never (m : Msg) : NeverRejects (D.deleteMessage m) :=
  NeverRejects.bind (.lift (.makeTsHash _ _)) (fun _ => .del _)
theorem putMessage_never (m : Msg) : NeverRejects (D.putMessage m) :=
  NeverRejects.bind (.lift (.makeTsHash _ _)) (fun _ => .put _ _)

theorem deleteAdd_never (Q : D.Quiet) (th : Bytes) (m : Msg) : NeverRejects (D.deleteAdd th m) :=
  .bind (.lift (Q.indexKeys th m)) fun _ => .bind (.forEach .del _) fun _ => .bind (.forEach .del _) fun _ =>
    .bind (.lift (Q.addKey m)) fun _ => .bind (.del _) fun _ => deleteMessage_never m

theorem deleteRemove_never (Q : D.Quiet) (m : Msg) : NeverRejects (D.deleteRemove m) := by
  unfold deleteRemove
  split
  · exact .fail (by simp [HubErr.isRejection])
  · exact .bind (.lift (Q.removeKey m)) fun _ => .bind (.del _) fun _ => deleteMessage_never m

theorem deleteCompact_never (Q : D.Quiet) (m : Msg) : NeverRejects (D.deleteCompact m) := by
  unfold deleteCompact
  split
  · exact .fail (by simp [HubErr.isRejection])
  · exact .bind (.lift (Q.compactKey m)) fun _ => .del _

theorem deleteMany_never (Q : D.Quiet) (ms : List Msg) : NeverRejects (D.deleteMany ms) := by
  refine .forEach (fun m => .bind ?_ (fun _ => ?_)) ms
  · unfold deleteCompactOrAdd
    split
    · exact deleteCompact_never Q m
    · split
      · exact .bind (.lift (.makeTsHash _ _)) fun _ => deleteAdd_never Q _ m
      · exact .pure ()
  · unfold deleteIfRemove
    split
    · exact deleteRemove_never Q m
    · exact .pure ()

theorem putAdd_never (Q : D.Quiet) (ctx : MergeCtx) (th : Bytes) (m : Msg) : NeverRejects (D.putAdd ctx th m) :=
  .bind (putMessage_never m) fun _ => .bind (.lift (Q.addKey m)) fun _ => .bind (.put _ _) fun _ =>
    .bind (.lift (Q.indexRows th m)) fun _ => .bind (.forEach (fun _ => .put _ _) _) fun _ => .forEach (fun _ => .put _ _) _

theorem putRemove_never (Q : D.Quiet) (th : Bytes) (m : Msg) : NeverRejects (D.putRemove th m) := by
  unfold putRemove
  split
  · exact .fail (by simp [HubErr.isRejection])
  · exact .bind (putMessage_never m) fun _ => .bind (.lift (Q.removeKey m)) fun _ => .put _ _

theorem putCompact_never (Q : D.Quiet) (m : Msg) : NeverRejects (D.putCompact m) := by
  unfold putCompact
  split
  · exact .fail (by simp [HubErr.isRejection])
  · exact .bind (.lift (Q.compactKey m)) fun _ => .put _ _

theorem getMessage_readOnly (db : Db SVal) (fid : Nat) (th : Bytes) : ReadOnly (D.getMessage db fid th) := by
  refine .bind (.read _ _) fun a => ?_
  cases a with
  | none => exact .pure _
  | some v => cases v <;> first | exact .pure _ | exact .fail _

theorem conflictAt_readOnly (db : Db SVal) (t : MessageType) (k : Bytes) (m : Msg) (th : Bytes) :
    ReadOnly (D.conflictAt db t k m th) := by
  refine .bind (.read _ _) fun a => ?_
  cases a with
  | none => exact .pure _
  | some v =>
    simp only
    split
    · exact .fail _
    · split
      · exact .fail _
      · refine .bind (.lift _) fun a => .bind (getMessage_readOnly _ _ _) fun o => ?_
        cases o <;> exact .pure _

theorem getMergeConflicts_readOnly (db : Db SVal) (m : Msg) (th : Bytes) : ReadOnly (D.getMergeConflicts db m th) := by
  refine .bind ?_ fun _ => .bind (.lift _) fun _ => .bind (conflictAt_readOnly _ _ _ _ _) fun _ => .pure _
  unfold removeConflicts
  split
  · exact .bind (.lift _) fun _ => conflictAt_readOnly _ _ _ _ _
  · exact .pure _

theorem storedCompact_readOnly (db : Db SVal) (m : Msg) : ReadOnly (D.storedCompact db m) := by
  unfold storedCompact
  split
  · refine .bind (.lift _) fun _ => .bind (.read _ _) fun a => ?_
    cases a with
    | none => exact .pure _
    | some v => cases v <;> first | exact .pure _ | exact .fail _
  · exact .pure _

theorem checkCompactAdd_readOnly (m : Msg) (c : Option Msg) : ReadOnly (D.checkCompactAdd m c) := by
  unfold checkCompactAdd
  cases c with
  | none => exact .pure _
  | some c => simp only; split; exact .fail _; exact .pure _

theorem checkCompactRemove_readOnly (m : Msg) (c : Option Msg) : ReadOnly (checkCompactRemove m c) := by
  unfold checkCompactRemove
  cases c with
  | none => exact .pure _
  | some c => simp only; split; exact .fail _; exact .pure _

theorem olderCompact_readOnly (m : Msg) (o : Option SVal) : ReadOnly (olderCompact m o) := by
  unfold olderCompact
  cases o with
  | none => exact .pure _
  | some v =>
    cases v with
    | msg c => simp only [SVal.decodeMsg]; split; exact .pure _; exact .fail _
    | raw _ => exact .pure _
    | event _ _ => exact .pure _

theorem merge_rejectsClean (Q : D.Quiet) (db : Db SVal) (ctx : MergeCtx) (m : Msg) : RejectsClean (D.merge db ctx m) := by
  unfold merge
  split
  · exact .of_readOnly (.fail _)
  · refine .bind (.lift _) fun th => ?_
    split
    · unfold mergeCompact
      exact .bind (.lift _) fun _ => .bind (.read _ _) fun _ => .bind (olderCompact_readOnly _ _) fun _ =>
        .bind (.lift _) fun _ => .of_never (.bind (deleteMany_never Q _) fun _ => .bind (putCompact_never Q m) fun _ => .event _)
    · split
      · unfold mergeAdd mergeAddWithConflicts
        exact .bind (storedCompact_readOnly _ _) fun _ => .bind (checkCompactAdd_readOnly _ _) fun _ =>
          .bind (getMergeConflicts_readOnly _ _ _) fun _ =>
            .of_never (.bind (deleteMany_never Q _) fun _ => .bind (putAdd_never Q _ _ _) fun _ => .event _)
      · unfold mergeRemove mergeRemoveWithConflicts
        exact .bind (storedCompact_readOnly _ _) fun _ => .bind (checkCompactRemove_readOnly _ _) fun _ =>
          .bind (getMergeConflicts_readOnly _ _ _) fun _ =>
            .of_never (.bind (deleteMany_never Q _) fun _ => .bind (putRemove_never Q _ _) fun _ => .event _)

end StoreDef

theorem OkErr.ok {α : Type} (a : α) : OkErr (.ok a : Except HubErr α) := fun _ h => nomatch h
theorem OkErr.error {α : Type} {e : HubErr} (h : ¬ e.isRejection) : OkErr (.error e : Except HubErr α) :=
  fun e' he => by cases he; exact h
theorem OkErr.bind {α β : Type} {x : Except HubErr α} {f : α → Except HubErr β} (h : OkErr x) (hf : ∀ a, OkErr (f a)) :
    OkErr (x >>= f) := by
  cases x with
  | ok a => exact hf a
  | error e => intro e' he; cases he; exact h e rfl

theorem kind_quiet (kind : StoreKind) (channelOf : Bytes → Option Bytes) : (kind.store channelOf).Quiet := by
  have hv : ¬ HubErr.isRejection .validation := by simp [HubErr.isRejection]
  have hi : ¬ HubErr.isRejection .invalidParameter := by simp [HubErr.isRejection]
  have ci : ∀ m, OkErr (castItem m) := by
    intro m; unfold castItem; split <;> first | exact .ok _ | exact .error hv
  have rp : ∀ m, OkErr (reactionParts m) := by
    intro m; unfold reactionParts; split <;> first | exact .ok _ | exact .error hv
  have rk : ∀ p f t g, OkErr (reactionKey p f t g) := by
    intro p f t g; unfold reactionKey; split <;> first | exact .ok _ | exact .error hv
  have ri : ∀ th m, OkErr (reactionIndex th m) := by
    intro th m; unfold reactionIndex; split <;> first | exact .ok _ | exact .error hv
  have lk : ∀ p m, OkErr (linkKey p m) := by
    intro p m; unfold linkKey
    split
    · split
      · exact .error hv
      · split
        · exact .error hv
        · exact .ok _
    · exact .error hi
  have li : ∀ th m, OkErr (linkIndex th m) := by
    intro th m; unfold linkIndex
    split
    · split
      · exact .error hv
      · exact .ok _
    · exact .error hi
  have va : ∀ m, OkErr (verificationAddress m) := by
    intro m; unfold verificationAddress; split <;> first | exact .ok _ | exact .error hv
  have vi : ∀ m, OkErr (verificationIndexKey m) := by
    intro m; unfold verificationIndexKey
    split
    · split
      · exact .error hi
      · exact .ok _
    · exact .error hi
  cases kind
  · exact ⟨fun m => .bind (ci m) fun _ => .ok _, fun m => .bind (ci m) fun _ => .ok _, fun _ => .error hi,
      fun _ _ => .ok _, fun _ _ => .ok _⟩
  · exact ⟨fun m => .bind (rp m) fun _ => rk _ _ _ _, fun m => .bind (rp m) fun _ => rk _ _ _ _, fun _ => .error hi,
      fun th m => .bind (ri th m) fun _ => .ok _, fun th m => .bind (ri th m) fun _ => .ok _⟩
  · refine ⟨lk _, lk _, ?_, fun th m => .bind (li th m) fun _ => .ok _, fun th m => .bind (li th m) fun _ => .ok _⟩
    intro m
    simp only [StoreKind.store, linkStore]
    unfold linkCompactKey
    split <;> first | exact .ok _ | exact .error hi
  · exact ⟨fun m => .bind (va m) fun _ => .ok _, fun m => .bind (va m) fun _ => .ok _, fun _ => .error hi,
      fun _ m => .bind (vi m) fun _ => .ok _, fun _ m => .bind (vi m) fun _ => .ok _⟩
  · refine ⟨?_, fun _ => .error hi, fun _ => .error hi, fun _ _ => .ok _, fun _ _ => .ok _⟩
    intro m
    simp only [StoreKind.store, userDataStore]
    split <;> first | exact .ok _ | exact .error hi
  · refine ⟨?_, fun _ => .error hi, fun _ => .error hi, ?_, ?_⟩
    · intro m
      simp only [StoreKind.store, lendStore]
      split <;> first | exact .ok _ | exact .error hi
    · intro th m
      simp only [StoreKind.store, lendStore]
      split <;> exact .ok _
    · intro th m
      simp only [StoreKind.store, lendStore]
      split <;> exact .ok _

end Verif
