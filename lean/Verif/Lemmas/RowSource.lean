import Verif.Lemmas.ShardSource
import Verif.Lemmas.RowOrigin
/-! Every message in a row of a shard's database came from outside. -/
namespace Verif
open Spec StoreDef

namespace ShardCfg
variable {R F : Type} {c : ShardCfg R F}

theorem from_storeAct {G : Msg → Prop} {st : StoreState} {o : ShardTrieOp} (hs : st.From G) (ho : ∀ m ∈ o.given, G m) : (c.storeAct st o).2.From G := by
  unfold storeAct
  split
  · rename_i kind o
    refine hs.exec (kind_rawRows kind _) ?_
    rintro m (rfl | rfl)
    · exact ho m (by simp [ShardTrieOp.given])
    · exact ho m (by simp [ShardTrieOp.given])
  · exact hs.after (removeOne_puts _ _ _ _ hs.pend)
  · exact hs

/-- From the rows of `st`, and messages with `T`. -/
def Given (st st' : StoreState) (T : Msg → Prop) : Prop := ∀ G, (∀ m, T m → G m) → st.From G → st'.From G

theorem Given.act {st : StoreState} {T : Msg → Prop} {a : Acted} (h : Given st a.st T) {o : ShardTrieOp} (ho : ∀ m ∈ o.given, T m) :
    Given st (c.act a o).1.st T := by
  intro G hg hs
  have := from_storeAct (c := c) (h G hg hs) (fun m hm => hg m (ho m hm))
  unfold ShardCfg.act
  split <;> rename_i hr <;> rw [hr] at this <;> exact this

theorem from_act {st : StoreState} {T : Msg → Prop} {o : ShardTrieOp} (ho : ∀ m ∈ o.given, T m) :
    Given st (c.act ⟨st, [], []⟩ o).1.st T := Given.act (a := ⟨st, [], []⟩) (fun _ _ h => h) ho

theorem Given.acts {st : StoreState} {T : Msg → Prop} : ∀ (os : List ShardTrieOp) (a : Acted), Given st a.st T → (∀ o ∈ os, ∀ m ∈ o.given, T m) →
    Given st (c.acts os a).1.st T
  | [], a, h, _ => by simpa [ShardCfg.acts] using h
  | o :: os, a, h, ho => by
    have h1 := h.act (c := c) (ho o (by simp))
    simp only [ShardCfg.acts]
    split <;> rename_i hr <;> rw [hr] at h1
    · exact Given.acts os _ h1 (fun o' h' => ho o' (by simp [h']))
    · exact h1

theorem from_acts {st : StoreState} {T : Msg → Prop} {os : List ShardTrieOp} (ho : ∀ o ∈ os, ∀ m ∈ o.given, T m) :
    Given st (c.acts os ⟨st, [], []⟩).1.st T := Given.acts os ⟨st, [], []⟩ (fun _ _ h => h) ho

/-- The same for the states of the engine. -/
def Moves (w w' : ShardWork R) (T : Msg → Prop) : Prop := Given w.st.store w'.st.store T

theorem Moves.refl (w : ShardWork R) (T : Msg → Prop) (r : R) : Moves w { w with rest := r } T := fun _ _ h => h

theorem Moves.trans {w w' w'' : ShardWork R} {T : Msg → Prop} (h : Moves w w' T) (h' : Moves w' w'' T) : Moves w w'' T :=
  fun G hg hs => h' G hg (h G hg hs)

theorem moves_settle {w w' : ShardWork R} {a : Acted} {err : Option HubErr} {hs : List ShardHub} {T : Msg → Prop}
    (ha : Given w.st.store a.st T) (h : c.settle w a err = .ok (w', hs)) : Moves w w' T ∧ w'.rest = w.rest := by
  unfold settle at h
  split at h
  · simp only [Except.ok.injEq, Prod.mk.injEq] at h
    obtain ⟨h, _⟩ := h
    subst h
    exact ⟨ha, rfl⟩
  · split at h
    · exact absurd h (by simp)
    · simp only [Except.ok.injEq, Prod.mk.injEq] at h
      obtain ⟨h, _⟩ := h
      subst h
      exact ⟨ha, rfl⟩

theorem moves_other {w w' : ShardWork R} {e : TrieEvent} {hs : List ShardHub} (T : Msg → Prop) (h : c.other w e = .ok (w', hs)) :
    Moves w w' T ∧ w'.rest = w.rest := by
  unfold other at h
  split at h
  · exact absurd h (by simp)
  · simp only [Except.ok.injEq, Prod.mk.injEq] at h
    obtain ⟨h, _⟩ := h
    subst h
    exact ⟨fun _ _ h => h, rfl⟩

theorem moves_others (T : Msg → Prop) : ∀ (es : List TrieEvent) (w w' : ShardWork R) (hs hs' : List ShardHub),
    c.others es w hs = .ok (w', hs') → Moves w w' T ∧ w'.rest = w.rest
  | [], w, w', hs, hs', h => by
    simp only [others, Except.ok.injEq, Prod.mk.injEq] at h
    exact h.1 ▸ ⟨Moves.refl w T w.rest, rfl⟩
  | e :: es, w, w', hs, hs', h => by
    simp only [others] at h
    split at h
    · exact absurd h (by simp)
    · rename_i w1 hs1 h1
      obtain ⟨a, b⟩ := moves_other T h1
      obtain ⟨a', b'⟩ := moves_others T es _ _ _ _ h
      exact ⟨a.trans a', b'.trans b⟩

/-- Merging a message gives it, and nothing else, to a store. -/
theorem moves_merge {w w' : ShardWork R} {b : Bool} {m : Msg} {r : Except HubErr (List ShardHub)}
    (h : c.mergeMessage w b m = .ok (w', r)) :
    Moves w w' (fun x => x = m ∧ (mergeTarget m.ty).isSome) ∧ w'.rest = if (mergeTarget m.ty).isSome then w.rest else (c.rest.merge b w.rest m).1 := by
  unfold mergeMessage at h
  split at h
  · rename_i kind hk
    simp only [hk, Option.isSome_some, if_true]
    have f1 := from_act (c := c) (st := w.st.store) (T := fun x => x = m ∧ True) (o := .step (.call kind (.merge m))) (by simp [ShardTrieOp.given])
    split at h <;> rename_i hr
    · rw [hr] at f1
      split at h
      · exact absurd h (by simp)
      · rename_i h1
        simp only [Except.ok.injEq, Prod.mk.injEq] at h
        exact h.1 ▸ moves_settle f1 h1
    · rw [hr] at f1
      simp only at h
      split at h
      · exact absurd h (by simp)
      · rename_i h1
        simp only [Except.ok.injEq, Prod.mk.injEq] at h
        refine h.1 ▸ moves_settle ?_ h1
        split
        · exact f1.act (by simp [ShardTrieOp.given])
        · exact f1
  · rename_i hk
    simp only [hk, Option.isSome_none, Bool.false_eq_true, if_false]
    split at h
    · rename_i hr
      simp only [Except.ok.injEq, Prod.mk.injEq] at h
      rw [hr]
      exact h.1 ▸ ⟨Moves.refl w _ _, rfl⟩
    · rename_i hr
      split at h
      · exact absurd h (by simp)
      · rename_i h1
        simp only [Except.ok.injEq, Prod.mk.injEq] at h
        rw [hr]
        obtain ⟨a, b⟩ := moves_others _ _ _ _ _ _ h1
        exact h.1 ▸ ⟨(Moves.refl w _ _).trans a, b⟩

/-- The rows hold only such messages, and each is of a type that has a store. -/
def RowsOf (I : R → Prop) (G : Msg → Prop) (w : ShardWork R) : Prop := I w.rest ∧ w.st.store.From (fun m => G m ∧ (mergeTarget m.ty).isSome)

theorem RowsOf.grow {I : R → Prop} {G T : Msg → Prop} {w w' : ShardWork R} (h : RowsOf I G w) (hg : Moves w w' T)
    (ht : ∀ m, T m → G m ∧ (mergeTarget m.ty).isSome) (hi : I w'.rest) : RowsOf I G w' := ⟨hi, hg _ ht h.2⟩

variable {A : EngineVersion → Nat → Msg → Prop} {B : BEvent → Prop} {C : OEvent → Prop} {I : R → Prop}

theorem rows_keeps (K : RestKeeps c A B C I) : Keeps c.ops A B C (RowsOf I (Came c A B I)) (RowsOf I (Came c A B I)) where
  start := by
    intro d h hd
    exact ⟨K.fresh _ _ hd.1, hd.2.db, hd.2.pend⟩
  onchain := by
    intro v d w e w' r hc hw h
    have h : c.doOnchain w e = .ok (w', r) := h
    unfold doOnchain at h
    have hi := K.onchain w.rest e hc hw.1
    split at h <;> rename_i hr
    · simp only [Except.ok.injEq, Prod.mk.injEq] at h
      rw [hr] at hi
      exact h.1 ▸ hw.grow (Moves.refl w (fun _ => False) _) (fun _ h => h.elim) hi
    · rw [hr] at hi
      split at h
      · exact absurd h (by simp)
      · rename_i h1
        simp only [Except.ok.injEq, Prod.mk.injEq] at h
        obtain ⟨a, b⟩ := moves_other (fun _ => False) h1
        exact h.1 ▸ hw.grow ((Moves.refl w _ _).trans a) (fun _ h => h.elim) (by rw [b]; exact hi)
  fname := by
    intro d w f w' r hw h
    have h : c.doFname w f = .ok (w', r) := h
    unfold doFname at h
    have hi := K.fname w.rest f hw.1
    split at h <;> rename_i hr
    · simp only [Except.ok.injEq, Prod.mk.injEq] at h
      rw [hr] at hi
      exact h.1 ▸ hw.grow (Moves.refl w (fun _ => False) _) (fun _ h => h.elim) hi
    · rw [hr] at hi
      split at h
      · exact absurd h (by simp)
      · rename_i h1
        obtain ⟨a, b⟩ := moves_others (fun _ => False) _ _ _ _ _ h1
        split at h
        · exact absurd h (by simp)
        · rename_i h2
          simp only [Except.ok.injEq, Prod.mk.injEq] at h
          obtain ⟨h, _⟩ := h
          subst h
          unfold revokeName at h2
          split at h2
          · split at h2
            · obtain ⟨a', b'⟩ := moves_settle (T := fun _ => False) (from_act (by simp [ShardTrieOp.given])) h2
              exact hw.grow (((Moves.refl w _ _).trans a).trans a') (fun _ h => h.elim) (by rw [b', b]; exact hi)
            · simp only [Except.ok.injEq, Prod.mk.injEq] at h2
              exact h2.1 ▸ hw.grow ((Moves.refl w _ _).trans a) (fun _ h => h.elim) (by rw [b]; exact hi)
          · simp only [Except.ok.injEq, Prod.mk.injEq] at h2
            exact h2.1 ▸ hw.grow ((Moves.refl w _ _).trans a) (fun _ h => h.elim) (by rw [b]; exact hi)
  blockEvent := by
    intro v d w b w' r hb hw h
    have h : c.doBlockEvent w b = .ok (w', r) := h
    unfold doBlockEvent at h
    have same : RowsOf I (Came c A B I) w → w = w' → RowsOf I (Came c A B I) w' := fun hw e => e ▸ hw
    split at h
    · simp only [Except.ok.injEq, Prod.mk.injEq] at h
      exact h.1 ▸ hw
    · rename_i bd hbd
      split at h
      · rename_i m hm
        have hbr : b.Brings m := ⟨bd, hbd, hm⟩
        unfold replayMessage at h
        split at h
        · simp only [Except.ok.injEq, Prod.mk.injEq] at h
          exact h.1 ▸ hw
        · split at h
          · rename_i hfo
            have ht : (mergeTarget m.ty).isSome := by
              simp only [replaysForced, Bool.or_eq_true, beq_iff_eq] at hfo
              rcases hfo with hfo | hfo <;> simp [hfo, mergeTarget]
            simp only at h
            split at h
            · exact absurd h (by simp)
            · rename_i h1
              simp only [Except.ok.injEq, Prod.mk.injEq] at h
              obtain ⟨a', b'⟩ := moves_settle (T := (· = m)) (from_act (by simp [ShardTrieOp.given])) h1
              exact h.1 ▸ hw.grow a' (fun x hx => hx ▸ ⟨.inr ⟨b, hb, hbr⟩, ht⟩) (by rw [b']; exact hw.1)
          · split at h
            · exact absurd h (by simp)
            all_goals
              rename_i h1
              simp only [Except.ok.injEq, Prod.mk.injEq] at h
              obtain ⟨a', b'⟩ := moves_merge h1
              refine h.1 ▸ hw.grow a' (fun x hx => hx.1 ▸ ⟨.inr ⟨b, hb, hbr⟩, hx.2⟩) ?_
              rw [b']
              split
              · exact hw.1
              · rename_i hn
                exact K.merge _ _ _ (.inr ⟨b, hb, hbr⟩) (by simpa using hn) hw.1
      · split at h
        · simp only [Except.ok.injEq, Prod.mk.injEq] at h
          exact h.1 ▸ hw
        · split at h
          · simp only [Except.ok.injEq, Prod.mk.injEq] at h
            exact h.1 ▸ hw
          · rename_i e _ _ _
            have hi := K.replica w.rest e hw.1
            split at h <;> rename_i hr
            all_goals
              rw [hr] at hi
              simp only [Except.ok.injEq, Prod.mk.injEq] at h
              exact h.1 ▸ hw.grow (Moves.refl w (fun _ => False) _) (fun _ h => h.elim) hi
      all_goals
        simp only [Except.ok.injEq, Prod.mk.injEq] at h
        exact h.1 ▸ hw
  revoke := by
    intro d w n k w' r hw h
    have h : c.doRevoke w n k = .ok (w', r) := h
    unfold doRevoke at h
    obtain ⟨a, b⟩ := moves_settle (T := fun _ => False) (from_acts (by
      intro o ho
      obtain ⟨kind, _, rfl⟩ := List.mem_map.1 ho
      simp [ShardTrieOp.given])) h
    exact hw.grow a (fun _ h => h.elim) (by rw [b]; exact hw.1)
  user := by
    intro v ts d w m w' r ha hw h
    have h : c.doUser v ts w m = .ok (w', r) := h
    unfold doUser at h
    have hi := K.validate v ts w.st.store w.rest m ha hw.1
    split at h <;> rename_i hr
    · rw [hr] at hi
      simp only [Except.ok.injEq, Prod.mk.injEq] at h
      exact h.1 ▸ hw.grow (Moves.refl w (fun _ => False) _) (fun _ h => h.elim) hi
    · rw [hr] at hi
      split at h
      · exact absurd h (by simp)
      all_goals
        rename_i h1
        simp only [Except.ok.injEq, Prod.mk.injEq] at h
        obtain ⟨a', b'⟩ := moves_merge h1
        refine h.1 ▸ hw.grow ((Moves.refl w _ _).trans a') (fun x hx => hx.1 ▸ ⟨.inl ⟨v, ts, w.st.store, w.rest, _, ha, hw.1, hr⟩, hx.2⟩) ?_
        rw [b']
        split
        · exact hi
        · rename_i hn
          exact K.merge _ _ _ (.inl ⟨v, ts, ha⟩) (by simpa using hn) hi
  prune := by
    intro cl v d w n t w' r hw h
    have h : c.doPrune cl v w n t = .ok (w', r) := h
    unfold doPrune at h
    split at h
    · simp only [Except.ok.injEq, Prod.mk.injEq] at h
      exact h.1 ▸ hw
    · simp only at h
      split at h
      · obtain ⟨a', b'⟩ := moves_settle (T := fun _ => False) (from_act (by simp [ShardTrieOp.given])) h
        exact hw.grow a' (fun _ h => h.elim) (by rw [b']; exact hw.1)
      · split at h
        · obtain ⟨a', b'⟩ := moves_others (fun _ => False) _ _ _ _ _ h
          exact hw.grow ((Moves.refl w _ _).trans a') (fun _ h => h.elim) (by rw [b']; exact K.pruneNames _ _ _ _ hw.1)
        · simp only [Except.ok.injEq, Prod.mk.injEq] at h
          exact h.1 ▸ hw
  sideEffects := by
    intro v d w hs w' r hw h
    have h : c.doSideEffects v w hs = .ok (w', r) := h
    unfold doSideEffects at h
    split at h
    · obtain ⟨a, b⟩ := moves_settle (T := fun _ => False) (from_acts (by
        intro o ho
        obtain ⟨u, _, rfl⟩ := List.mem_map.1 ho
        simp [ShardTrieOp.given])) h
      exact hw.grow a (fun _ h => h.elim) (by rw [b]; exact hw.1)
    · simp only [Except.ok.injEq, Prod.mk.injEq] at h
      exact h.1 ▸ hw
  write := by
    intro d w ch es n w' hw h
    have h : c.finish w = some w' := h
    show RowsOf I (Came c A B I) w'
    unfold finish at h
    split at h
    · exact absurd h (by simp)
    · simp only [Option.some.injEq] at h
      subst h
      exact ⟨K.commit _ hw.1, hw.2.exec (kind_rawRows .casts c.env.channelOf) (ctx := c.env.ctx) (o := .commit) (fun m h => by simp at h)⟩

theorem rowsOf_fresh {r : R} (hr : I r) (G : Msg → Prop) : RowsOf I G (fresh r : EngineState (ShardWork R) (ShardWork R) ShardHub F).d :=
  ⟨hr, StoreState.From.empty⟩

end ShardCfg
end Verif
