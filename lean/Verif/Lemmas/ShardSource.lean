import Verif.Lemmas.ShardEngine
import Verif.Spec.Provenance
import Verif.Props.C84
/-! Where the messages that the engine merges come from. -/
namespace Verif
open Spec StoreDef

/-- The messages given to the stores. -/
def ShardTrieOp.given : ShardTrieOp → List Msg
  | .step (.call _ (.merge m)) | .step (.call _ (.force m)) | .step (.call _ (.revokeAdd m)) => [m]
  | _ => []

/-- A history whose messages satisfy `G`. -/
theorem shardStepsOK_and {channelOf : Bytes → Option Bytes} {ctx : Nat → MergeCtx} {U G : Msg → Prop} {sha256 : Bytes → Bytes}
    {E : TrieEntry → Prop} : ∀ (ops : List ShardTrieOp) (st : StoreState) (o : KeySets),
      st.ShardStepsOK channelOf ctx U sha256 E o ops → (∀ m ∈ ops.flatMap ShardTrieOp.given, G m) →
      st.ShardStepsOK channelOf ctx (fun m => U m ∧ G m) sha256 E o ops
  | [], _, _, _, _ => trivial
  | x :: xs, st, o, h, hg => by
    refine ⟨?_, shardStepsOK_and xs _ _ h.2 (fun m hm => hg m (by simp [List.flatMap_cons, hm]))⟩
    have hx : ∀ m ∈ x.given, G m := fun m hm => hg m (by simp [List.flatMap_cons, hm])
    have h1 := h.1
    cases x with
    | other e => exact h1
    | remove kind p m => exact h1
    | step y =>
      cases y with
      | put k v => exact h1
      | del k => exact h1
      | call kind z =>
        cases z with
        | merge m => exact ⟨⟨h1.1.1, h1.1.2, hx m (by simp [ShardTrieOp.given])⟩, h1.2⟩
        | force m => exact ⟨⟨h1.1.1, ⟨h1.1.2.1, hx m (by simp [ShardTrieOp.given])⟩, h1.1.2.2⟩, h1.2⟩
        | revokeAdd m => exact ⟨⟨h1.1.1, h1.1.2, hx m (by simp [ShardTrieOp.given])⟩, h1.2⟩
        | _ => exact h1

/-- What the stores hold was given to them. -/
theorem held_was_given {channelOf : Bytes → Option Bytes} {U G : Msg → Prop} {ord : List UInt8 → List UInt8} {sha256 : Bytes → Bytes}
    {E : TrieEntry → Prop} (S : ShardSetting channelOf U ord sha256 E) (ctx : Nat → MergeCtx) {H : Bytes → Bytes} (hH : ∀ x, H x ≠ [])
    {ops : List ShardTrieOp} (hok : ({} : StoreState).ShardStepsOK channelOf ctx U sha256 E {} ops)
    (hg : ∀ m ∈ ops.flatMap ShardTrieOp.given, G m) {s : StoreTrie} (hs : StoreTrie.shardRun H ord sha256 channelOf ctx ops {} = .ok s)
    {kind : StoreKind} {m : Msg} (hm : s.store.Has (kind.store channelOf) m) : kind.Valid m ∧ U m ∧ G m := by
  obtain ⟨hch, hU, hord, hE, hmE⟩ := S
  have hU' : HashesAlone (fun m => U m ∧ G m) := fun a b ha hb => hU a b ha.1 hb.1
  obtain ⟨L0, L, ks, t, h1, h2, _⟩ := shardMirror_run hH hord hch hU' hE (fun kind m hv hu => hmE kind m hv hu.1) ops
    (shardMirror_init (H := H) (channelOf := channelOf) (ctx := ctx) (U := fun m => U m ∧ G m) (sha256 := sha256) (E := E))
    (shardStepsOK_and ops _ _ hok hg)
  rw [h1] at hs; cases hs
  have := (h2.store kind).holds.valid m (((h2.store kind).has_iff (kind_lawful kind hch hU'.identify) m).1 hm)
  exact this

namespace ShardCfg
variable {R F : Type} {c : ShardCfg R F}

/-- The record grew by steps whose messages satisfy `T`. -/
def Grows (w w' : ShardWork R) (T : Msg → Prop) : Prop :=
  ∀ ops', w'.done = some ops' → ∃ ops add, w.done = some ops ∧ ops' = ops ++ add ∧ ∀ m ∈ add.flatMap ShardTrieOp.given, T m

theorem Grows.refl (w : ShardWork R) (T : Msg → Prop) (r : R) : Grows w { w with rest := r } T :=
  fun ops h => ⟨ops, [], h, by simp, by simp⟩

theorem Grows.trans {w w' w'' : ShardWork R} {T : Msg → Prop} (h : Grows w w' T) (h' : Grows w' w'' T) : Grows w w'' T := by
  intro ops'' hd
  obtain ⟨ops', add', h1, rfl, h2⟩ := h' ops'' hd
  obtain ⟨ops, add, h3, rfl, h4⟩ := h ops' h1
  refine ⟨ops, add ++ add', h3, by simp, ?_⟩
  intro m hm
  rw [List.flatMap_append, List.mem_append] at hm
  exact hm.elim (h4 m) (h2 m)

theorem act_ops (a : Acted) (o : ShardTrieOp) : (c.act a o).1.ops = a.ops ++ [o] := by
  unfold act; split <;> rfl

theorem acts_ops : ∀ (os : List ShardTrieOp) (a : Acted), ∃ done, (c.acts os a).1.ops = a.ops ++ done ∧ ∀ o ∈ done, o ∈ os
  | [], a => ⟨[], by simp [acts], by simp⟩
  | o :: os, a => by
    simp only [acts]
    have h0 := act_ops (c := c) a o
    split <;> rename_i hr
    · rw [hr] at h0
      obtain ⟨d, h1, h2⟩ := acts_ops os _
      refine ⟨o :: d, by rw [h1, h0]; simp, ?_⟩
      intro x hx
      rcases List.mem_cons.1 hx with rfl | hx
      · simp
      · simp [h2 x hx]
    · rw [hr] at h0
      exact ⟨[o], h0, by simp⟩

theorem grows_settle {w w' : ShardWork R} {a : Acted} {err : Option HubErr} {hs : List ShardHub} {T : Msg → Prop}
    (ha : ∀ m ∈ a.ops.flatMap ShardTrieOp.given, T m) (h : c.settle w a err = .ok (w', hs)) : Grows w w' T ∧ w'.rest = w.rest := by
  unfold settle at h
  split at h
  · simp only [Except.ok.injEq, Prod.mk.injEq] at h
    obtain ⟨h, _⟩ := h
    subst h
    refine ⟨?_, rfl⟩
    intro ops' hd
    simp only at hd
    split at hd
    · simp only [Option.map_eq_some_iff] at hd
      obtain ⟨ops, h1, rfl⟩ := hd
      exact ⟨ops, a.ops, h1, rfl, ha⟩
    · exact absurd hd (by simp)
  · split at h
    · exact absurd h (by simp)
    · simp only [Except.ok.injEq, Prod.mk.injEq] at h
      obtain ⟨h, _⟩ := h
      subst h
      refine ⟨?_, rfl⟩
      intro ops' hd
      simp only [Option.map_eq_some_iff] at hd
      obtain ⟨ops, h1, rfl⟩ := hd
      exact ⟨ops, a.ops, h1, rfl, ha⟩

theorem grows_other {w w' : ShardWork R} {e : TrieEvent} {hs : List ShardHub} (T : Msg → Prop) (h : c.other w e = .ok (w', hs)) :
    Grows w w' T ∧ w'.rest = w.rest := by
  unfold other at h
  split at h
  · exact absurd h (by simp)
  · simp only [Except.ok.injEq, Prod.mk.injEq] at h
    obtain ⟨h, _⟩ := h
    subst h
    refine ⟨?_, rfl⟩
    intro ops' hd
    simp only [Option.map_eq_some_iff] at hd
    obtain ⟨ops, h1, rfl⟩ := hd
    exact ⟨ops, _, h1, rfl, by simp [ShardTrieOp.given]⟩

theorem grows_others (T : Msg → Prop) : ∀ (es : List TrieEvent) (w w' : ShardWork R) (hs hs' : List ShardHub),
    c.others es w hs = .ok (w', hs') → Grows w w' T ∧ w'.rest = w.rest
  | [], w, w', hs, hs', h => by
    simp only [others, Except.ok.injEq, Prod.mk.injEq] at h
    exact h.1 ▸ ⟨Grows.refl w T w.rest, rfl⟩
  | e :: es, w, w', hs, hs', h => by
    simp only [others] at h
    split at h
    · exact absurd h (by simp)
    · rename_i w1 hs1 h1
      obtain ⟨a, b⟩ := grows_other T h1
      obtain ⟨a', b'⟩ := grows_others T es _ _ _ _ h
      exact ⟨a.trans a', b'.trans b⟩

theorem given_remove (k : StoreKind) (p : Bool) (l : List Msg) : (l.map (fun u => ShardTrieOp.remove k p u)).flatMap ShardTrieOp.given = [] := by
  induction l with
  | nil => rfl
  | cons a l ih => simp [ShardTrieOp.given]

/-- Merging a message gives it, and nothing else, to a store. -/
theorem grows_merge {w w' : ShardWork R} {b : Bool} {m : Msg} {r : Except HubErr (List ShardHub)}
    (h : c.mergeMessage w b m = .ok (w', r)) :
    Grows w w' (· = m) ∧ w'.rest = if (mergeTarget m.ty).isSome then w.rest else (c.rest.merge b w.rest m).1 := by
  unfold mergeMessage at h
  split at h
  · rename_i kind hk
    simp only [hk, Option.isSome_some, if_true]
    have f1 : (c.act ⟨w.st.store, [], []⟩ (.step (.call kind (.merge m)))).1.ops = [.step (.call kind (.merge m))] := act_ops _ _
    split at h <;> rename_i hr
    · rw [hr] at f1
      split at h
      · exact absurd h (by simp)
      · rename_i h1
        simp only [Except.ok.injEq, Prod.mk.injEq] at h
        exact h.1 ▸ grows_settle (by rw [f1]; simp [ShardTrieOp.given]) h1
    · rw [hr] at f1
      simp only at h
      split at h
      · exact absurd h (by simp)
      · rename_i h1
        simp only [Except.ok.injEq, Prod.mk.injEq] at h
        refine h.1 ▸ grows_settle ?_ h1
        split
        · rw [act_ops, f1]; simp [ShardTrieOp.given]
        · rw [f1]; simp [ShardTrieOp.given]
  · rename_i hk
    simp only [hk, Option.isSome_none, Bool.false_eq_true, if_false]
    split at h
    · rename_i hr
      simp only [Except.ok.injEq, Prod.mk.injEq] at h
      rw [hr]
      exact h.1 ▸ ⟨Grows.refl w _ _, rfl⟩
    · rename_i hr
      split at h
      · exact absurd h (by simp)
      · rename_i h1
        simp only [Except.ok.injEq, Prod.mk.injEq] at h
        rw [hr]
        obtain ⟨a, b⟩ := grows_others (· = m) _ _ _ _ _ h1
        exact h.1 ▸ ⟨(Grows.refl w _ _).trans a, b⟩

/-- How a message came to be merged: as a user message that passed validation, or with a block event. -/
def Came (c : ShardCfg R F) (A : EngineVersion → Nat → Msg → Prop) (B : BEvent → Prop) (I : R → Prop) (m : Msg) : Prop :=
  (∃ v ts st r r', A v ts m ∧ I r ∧ c.rest.validate v ts st r m = (r', none)) ∨ ∃ b, B b ∧ b.Brings m

/-- The record has only such messages. -/
def Sourced (I : R → Prop) (G : Msg → Prop) (w : ShardWork R) : Prop :=
  I w.rest ∧ ∀ ops, w.done = some ops → ∀ m ∈ ops.flatMap ShardTrieOp.given, G m

theorem Sourced.grow {I : R → Prop} {G T : Msg → Prop} {w w' : ShardWork R} (h : Sourced I G w) (hg : Grows w w' T) (ht : ∀ m, T m → G m)
    (hi : I w'.rest) : Sourced I G w' := by
  refine ⟨hi, ?_⟩
  intro ops' hd m hm
  obtain ⟨ops, add, h1, rfl, h2⟩ := hg ops' hd
  rw [List.flatMap_append, List.mem_append] at hm
  exact hm.elim (h.2 ops h1 m) (fun h => ht m (h2 m h))

variable {A : EngineVersion → Nat → Msg → Prop} {B : BEvent → Prop} {C : OEvent → Prop} {I : R → Prop}

theorem sourced_keeps (K : RestKeeps c A B C I) : Keeps c.ops A B C (Sourced I (Came c A B I)) (Sourced I (Came c A B I)) where
  start := by
    intro d h hd
    refine hd.grow (T := fun _ => False) ?_ (fun _ h => h.elim) (K.fresh _ _ hd.1)
    intro ops' hd
    simp only [ops, begin, Option.map_eq_some_iff] at hd
    obtain ⟨l, h1, rfl⟩ := hd
    exact ⟨l, _, h1, rfl, by simp [ShardTrieOp.given]⟩
  onchain := by
    intro v d w e w' r hc hw h
    have h : c.doOnchain w e = .ok (w', r) := h
    unfold doOnchain at h
    have hi := K.onchain w.rest e hc hw.1
    split at h <;> rename_i hr
    · simp only [Except.ok.injEq, Prod.mk.injEq] at h
      rw [hr] at hi
      exact h.1 ▸ hw.grow (Grows.refl w (fun _ => False) _) (fun _ h => h.elim) hi
    · rw [hr] at hi
      split at h
      · exact absurd h (by simp)
      · rename_i h1
        simp only [Except.ok.injEq, Prod.mk.injEq] at h
        obtain ⟨a, b⟩ := grows_other (fun _ => False) h1
        exact h.1 ▸ hw.grow ((Grows.refl w _ _).trans a) (fun _ h => h.elim) (by rw [b]; exact hi)
  fname := by
    intro d w f w' r hw h
    have h : c.doFname w f = .ok (w', r) := h
    unfold doFname at h
    have hi := K.fname w.rest f hw.1
    split at h <;> rename_i hr
    · simp only [Except.ok.injEq, Prod.mk.injEq] at h
      rw [hr] at hi
      exact h.1 ▸ hw.grow (Grows.refl w (fun _ => False) _) (fun _ h => h.elim) hi
    · rw [hr] at hi
      split at h
      · exact absurd h (by simp)
      · rename_i h1
        obtain ⟨a, b⟩ := grows_others (fun _ => False) _ _ _ _ _ h1
        split at h
        · exact absurd h (by simp)
        · rename_i h2
          simp only [Except.ok.injEq, Prod.mk.injEq] at h
          obtain ⟨h, _⟩ := h
          subst h
          unfold revokeName at h2
          split at h2
          · split at h2
            · obtain ⟨a', b'⟩ := grows_settle (T := fun _ => False) (by rw [act_ops]; simp [ShardTrieOp.given]) h2
              exact hw.grow (((Grows.refl w _ _).trans a).trans a') (fun _ h => h.elim) (by rw [b', b]; exact hi)
            · simp only [Except.ok.injEq, Prod.mk.injEq] at h2
              exact h2.1 ▸ hw.grow ((Grows.refl w _ _).trans a) (fun _ h => h.elim) (by rw [b]; exact hi)
          · simp only [Except.ok.injEq, Prod.mk.injEq] at h2
            exact h2.1 ▸ hw.grow ((Grows.refl w _ _).trans a) (fun _ h => h.elim) (by rw [b]; exact hi)
  blockEvent := by
    intro v d w b w' r hb hw h
    have h : c.doBlockEvent w b = .ok (w', r) := h
    unfold doBlockEvent at h
    have same : Sourced I (Came c A B I) w → w = w' → Sourced I (Came c A B I) w' := fun hw e => e ▸ hw
    split at h
    · simp only [Except.ok.injEq, Prod.mk.injEq] at h
      exact h.1 ▸ hw
    · rename_i bd hbd
      split at h
      · rename_i m hm
        have hbr : b.Brings m := ⟨bd, hbd, hm⟩
        unfold replayMessage at h
        split at h
        · simp only [Except.ok.injEq, Prod.mk.injEq] at h
          exact h.1 ▸ hw
        · split at h
          · simp only at h
            split at h
            · exact absurd h (by simp)
            · rename_i h1
              simp only [Except.ok.injEq, Prod.mk.injEq] at h
              obtain ⟨a', b'⟩ := grows_settle (T := (· = m)) (by rw [act_ops]; simp [ShardTrieOp.given]) h1
              exact h.1 ▸ hw.grow a' (fun x hx => hx ▸ .inr ⟨b, hb, hbr⟩) (by rw [b']; exact hw.1)
          · split at h
            · exact absurd h (by simp)
            all_goals
              rename_i h1
              simp only [Except.ok.injEq, Prod.mk.injEq] at h
              obtain ⟨a', b'⟩ := grows_merge h1
              refine h.1 ▸ hw.grow a' (fun x hx => hx ▸ .inr ⟨b, hb, hbr⟩) ?_
              rw [b']
              split
              · exact hw.1
              · rename_i hn
                exact K.merge _ _ _ (.inr ⟨b, hb, hbr⟩) (by simpa using hn) hw.1
      · split at h
        · simp only [Except.ok.injEq, Prod.mk.injEq] at h
          exact h.1 ▸ hw
        · split at h
          · simp only [Except.ok.injEq, Prod.mk.injEq] at h
            exact h.1 ▸ hw
          · rename_i e _ _ _
            have hi := K.replica w.rest e hw.1
            split at h <;> rename_i hr
            all_goals
              rw [hr] at hi
              simp only [Except.ok.injEq, Prod.mk.injEq] at h
              exact h.1 ▸ hw.grow (Grows.refl w (fun _ => False) _) (fun _ h => h.elim) hi
      all_goals
        simp only [Except.ok.injEq, Prod.mk.injEq] at h
        exact h.1 ▸ hw
  revoke := by
    intro d w n k w' r hw h
    have h : c.doRevoke w n k = .ok (w', r) := h
    unfold doRevoke at h
    obtain ⟨l, h1, h2⟩ := acts_ops (c := c) (sweptStores.map (fun kind => .step (.call kind (.revokeSigner n k)))) ⟨w.st.store, [], []⟩
    obtain ⟨a, b⟩ := grows_settle (T := fun _ => False) (by
      intro m hm
      rw [h1] at hm
      obtain ⟨o, ho, hm⟩ := List.mem_flatMap.1 hm
      obtain ⟨kind, _, rfl⟩ := List.mem_map.1 (h2 o (by simpa using ho))
      simp [ShardTrieOp.given] at hm) h
    exact hw.grow a (fun _ h => h.elim) (by rw [b]; exact hw.1)
  user := by
    intro v ts d w m w' r ha hw h
    have h : c.doUser v ts w m = .ok (w', r) := h
    unfold doUser at h
    have hi := K.validate v ts w.st.store w.rest m ha hw.1
    split at h <;> rename_i hr
    · rw [hr] at hi
      simp only [Except.ok.injEq, Prod.mk.injEq] at h
      exact h.1 ▸ hw.grow (Grows.refl w (fun _ => False) _) (fun _ h => h.elim) hi
    · rw [hr] at hi
      split at h
      · exact absurd h (by simp)
      all_goals
        rename_i h1
        simp only [Except.ok.injEq, Prod.mk.injEq] at h
        obtain ⟨a', b'⟩ := grows_merge h1
        refine h.1 ▸ hw.grow ((Grows.refl w _ _).trans a') (fun x hx => hx ▸ .inl ⟨v, ts, w.st.store, w.rest, _, ha, hw.1, hr⟩) ?_
        rw [b']
        split
        · exact hi
        · rename_i hn
          exact K.merge _ _ _ (.inl ⟨v, ts, ha⟩) (by simpa using hn) hi
  prune := by
    intro cl v d w n t w' r hw h
    have h : c.doPrune cl v w n t = .ok (w', r) := h
    unfold doPrune at h
    split at h
    · simp only [Except.ok.injEq, Prod.mk.injEq] at h
      exact h.1 ▸ hw
    · simp only at h
      split at h
      · obtain ⟨a', b'⟩ := grows_settle (T := fun _ => False) (by rw [act_ops]; simp [ShardTrieOp.given]) h
        exact hw.grow a' (fun _ h => h.elim) (by rw [b']; exact hw.1)
      · split at h
        · obtain ⟨a', b'⟩ := grows_others (fun _ => False) _ _ _ _ _ h
          exact hw.grow ((Grows.refl w _ _).trans a') (fun _ h => h.elim) (by rw [b']; exact K.pruneNames _ _ _ _ hw.1)
        · simp only [Except.ok.injEq, Prod.mk.injEq] at h
          exact h.1 ▸ hw
  sideEffects := by
    intro v d w hs w' r hw h
    have h : c.doSideEffects v w hs = .ok (w', r) := h
    unfold doSideEffects at h
    split at h
    · obtain ⟨l, h1, h2⟩ := acts_ops (c := c) ((c.primaries w.st.store (deletedIn hs)).1.map (fun u => .remove .userData false u)) ⟨w.st.store, [], []⟩
      obtain ⟨a, b⟩ := grows_settle (T := fun _ => False) (by
        intro m hm
        rw [h1] at hm
        obtain ⟨o, ho, hm⟩ := List.mem_flatMap.1 hm
        obtain ⟨kind, _, rfl⟩ := List.mem_map.1 (h2 o (by simpa using ho))
        simp [ShardTrieOp.given] at hm) h
      exact hw.grow a (fun _ h => h.elim) (by rw [b]; exact hw.1)
    · simp only [Except.ok.injEq, Prod.mk.injEq] at h
      exact h.1 ▸ hw
  write := by
    intro d w ch es n w' hw h
    have h : c.finish w = some w' := h
    show Sourced I (Came c A B I) w'
    unfold finish at h
    split at h
    · exact absurd h (by simp)
    · simp only [Option.some.injEq] at h
      subst h
      refine hw.grow (T := fun _ => False) ?_ (fun _ h => h.elim) (K.commit _ hw.1)
      intro ops' hd
      simp only [Option.map_eq_some_iff] at hd
      obtain ⟨l, h1, rfl⟩ := hd
      exact ⟨l, _, h1, rfl, by simp [ShardTrieOp.given]⟩

theorem sourced_fresh {r : R} (hr : I r) (G : Msg → Prop) : Sourced I G (fresh r : EngineState (ShardWork R) (ShardWork R) ShardHub F).d :=
  ⟨hr, by
    intro ops h m hm
    simp only [fresh, Option.some.injEq] at h
    subst h; simp at hm⟩

end ShardCfg
end Verif
