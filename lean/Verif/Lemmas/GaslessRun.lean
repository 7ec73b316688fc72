import Verif.Lemmas.GaslessInv
/-! Facts that survive along histories of gasless key operations. -/
namespace Verif

/-- A database without any gasless key row and no pending batch: where every history starts. -/
def KeyState.fresh (s : KeyState) : Prop :=
  (∀ r ∈ s.db.rows, r.1.head? ≠ some 23) ∧ s.txn = OMap.empty

/-- What a step did is not undone by the following steps: no abort comes before a commit. -/
def kept : List KeyOp → Bool
  | [] => true
  | .abort :: _ => false
  | .commit :: _ => true
  | _ :: ops => kept ops

theorem fresh_good {s : KeyState} (h : s.fresh) : s.Good := by
  have h1 := inv_of_noRows s.db h.1
  refine ⟨h1, ?_⟩
  unfold KeyState.view
  rw [h.2]
  exact h1

theorem run_cons (s : KeyState) (o : KeyOp) (ops : List KeyOp) :
    runKeyOps s (o :: ops) = runKeyOps (o.exec s).2 ops := rfl

theorem run_append (s : KeyState) (a b : List KeyOp) :
    runKeyOps s (a ++ b) = runKeyOps (runKeyOps s a) b := by
  simp [runKeyOps, List.foldl_append]

/-- A fact that every step allowed by `ok` other than an abort preserves, once it holds of database and
view. -/
theorem run_both (P : Db GVal → Prop) (ok : KeyOp → Prop)
    (hP : ∀ (s : KeyState) (o : KeyOp), s.Good → ok o → o ≠ .abort → P s.view → P (o.exec s).2.view)
    (s : KeyState) (ops : List KeyOp) (hok : ∀ o ∈ ops, ok o) (hg : s.Good) (hd : P s.db) (hv : P s.view) :
    P (runKeyOps s ops).view := by
  induction ops generalizing s with
  | nil => exact hv
  | cons o ops ih =>
    rw [run_cons]
    have hok' : ∀ o ∈ ops, ok o := fun q hq => hok q (by simp [hq])
    have hg' := exec_good s o hg
    by_cases ho : o = .abort
    · subst ho
      exact ih _ hok' hg' hd hd
    · have h1 := hP s o hg (hok o (by simp)) ho hv
      refine ih _ hok' hg' ?_ h1
      rcases exec_view s o hg.2 with ⟨e, _⟩ | ⟨_, _, h2⟩ | ⟨h2, _⟩
      · exact absurd e ho
      · rw [h2]; exact hv
      · rw [h2]; exact hd

theorem run_kept (P : Db GVal → Prop) (ok : KeyOp → Prop)
    (hP : ∀ (s : KeyState) (o : KeyOp), s.Good → ok o → o ≠ .abort → P s.view → P (o.exec s).2.view)
    (s : KeyState) (ops : List KeyOp) (hok : ∀ o ∈ ops, ok o) (hk : kept ops = true) (hg : s.Good)
    (hv : P s.view) : P (runKeyOps s ops).view := by
  induction ops generalizing s with
  | nil => exact hv
  | cons o ops ih =>
    rw [run_cons]
    have hok' : ∀ o ∈ ops, ok o := fun q hq => hok q (by simp [hq])
    have hg' := exec_good s o hg
    cases o with
    | abort => simp [kept] at hk
    | commit => exact run_both P ok hP _ ops hok' hg' hv hv
    | add env m rep => exact ih _ hok' hk hg' (hP s _ hg (hok _ (by simp)) (by simp) hv)
    | remove env m => exact ih _ hok' hk hg' (hP s _ hg (hok _ (by simp)) (by simp) hv)
    | use env fid pk ty ts bt => exact ih _ hok' hk hg' (hP s _ hg (hok _ (by simp)) (by simp) hv)

theorem makeFidKey_eq {a b : Nat} : makeFidKey a = makeFidKey b ↔ a % 2 ^ 32 = b % 2 ^ 32 := by
  unfold makeFidKey
  rw [be_eq_iff]

/-- Nonces never go down along a step that is not an abort. -/
theorem nonce_mono (s : KeyState) (o : KeyOp) (hg : s.Good) (ho : o ≠ .abort) (p : UInt8)
    (hp : p = 102 ∨ p = 103) (x : Bytes) (n : Nat) (h : n ≤ nonceVal s.view (23 :: p :: x)) :
    n ≤ nonceVal (o.exec s).2.view (23 :: p :: x) := by
  have h7 : p ≠ 107 ∧ p ≠ 104 ∧ p ≠ 106 ∧ p ≠ 105 := by rcases hp with rfl | rfl <;> decide
  rcases exec_view s o hg.2 with ⟨e, _⟩ | ⟨_, h1, _⟩ | ⟨_, hh⟩
  · exact absurd e ho
  · rw [h1]; exact h
  · rcases hh with (⟨env, m, rep, rf, first, _, hb, _, ha, hw⟩ | ⟨env, m, r, nk, _, hb, _, ha, hw⟩ |
      ⟨env, fid, pk, ty, ts, bt, _, _, (⟨_, hw⟩ | ⟨_, hl, r, L, hr, _, hL, hgt, _, _, hw⟩)⟩) | ⟨_, hs⟩
    · rw [hw]
      have hn := ha.nonce
      unfold nonceVal at h hn ⊢
      rw [addView_get]
      simp only [List.cons.injEq, true_and, h7.1, h7.2.1, h7.2.2.1, h7.2.2.2, false_and, if_false]
      by_cases he : p = 102 ∧ x = makeFidKey m.fid
      · rw [he.1, he.2] at h
        rw [if_pos he]
        simp only [u32_be]
        exact Nat.le_trans h (Nat.le_of_lt hn)
      · rw [if_neg he]
        exact h
    · rw [hw]
      have hn := ha.nonce
      unfold nonceVal at h hn ⊢
      rw [removeView_get]
      simp only [List.cons.injEq, true_and, h7.1, h7.2.1, h7.2.2.1, h7.2.2.2, false_and, if_false]
      by_cases he : 23 :: p :: x = nk
      · rw [he] at h
        rw [if_pos he]
        simp only [u32_be]
        exact Nat.le_trans h (Nat.le_of_lt hn)
      · rw [if_neg he]
        exact h
    · rw [hw]; exact h
    · rw [hw]
      split
      · unfold nonceVal at *
        rw [OMap.get_put, if_neg (by simp [h7.2.1])]
        exact h
      · exact h
    · rw [hs]; exact h

/-- An accepted step's key addition facts. -/
theorem add_accepted {s : KeyState} {env : KeyEnv} {m : KeyAddMsg} {rep : Bool} (hg : s.Good)
    (h : (KeyOp.exec s (.add env m rep)).1 = true) :
    validateKeyAddBody m = true ∧ ∃ rf first, AddAccepted env s.view m rf first ∧
      (KeyOp.exec s (.add env m rep)).2.view = addView s.view m rf first := by
  rcases exec_view s (.add env m rep) hg.2 with ⟨e, _⟩ | ⟨e, _⟩ | ⟨_, hh⟩
  · cases e
  · cases e
  · rcases hh with (⟨env', m', rep', rf, first, e, hb, _, ha, hw⟩ | ⟨_, _, _, _, e, _⟩ |
      ⟨_, _, _, _, _, _, e, _⟩) | ⟨e, _⟩
    · cases e; exact ⟨hb, rf, first, ha, hw⟩
    · cases e
    · cases e
    · rw [h] at e; simp at e

theorem remove_accepted {s : KeyState} {env : KeyEnv} {m : KeyRemoveMsg} (hg : s.Good)
    (h : (KeyOp.exec s (.remove env m)).1 = true) :
    validateKeyRemoveBody m = true ∧ ∃ r nk, RemoveAccepted env s.view m r nk ∧
      (KeyOp.exec s (.remove env m)).2.view = removeView s.view m nk := by
  rcases exec_view s (.remove env m) hg.2 with ⟨e, _⟩ | ⟨e, _⟩ | ⟨_, hh⟩
  · cases e
  · cases e
  · rcases hh with (⟨_, _, _, _, _, e, _⟩ | ⟨_, _, r, nk, e, hb, _, ha, hw⟩ |
      ⟨_, _, _, _, _, _, e, _⟩) | ⟨e, _⟩
    · cases e
    · cases e; exact ⟨hb, r, nk, ha, hw⟩
    · cases e
    · rw [h] at e; simp at e

theorem use_accepted {s : KeyState} {env : KeyEnv} {fid : Nat} {pk : Bytes} {ty : MessageType} {ts : UInt32}
    {bt : Nat} (hg : s.Good) (h : (KeyOp.exec s (.use env fid pk ty ts bt)).1 = true) :
    (env.onchainSigner fid pk = true ∧ (KeyOp.exec s (.use env fid pk ty ts bt)).2.view = s.view) ∨
    (env.onchainSigner fid pk = false ∧ pk.length = 32 ∧ ∃ r L,
      s.view.get (23 :: 105 :: (makeFidKey fid ++ pk)) = some (.record r) ∧
      validateKeyAddBody r.message = true ∧
      L.length = 4 ∧ s.view.get (23 :: 104 :: (makeFidKey fid ++ pk)) = some (.raw L) ∧
      (ActiveKey.gasless (computeScopesMask r.message.scopes) r.message.ttl).admits ty = true ∧
      bt ≤ fromBe L + r.message.ttl.toNat ∧
      (KeyOp.exec s (.use env fid pk ty ts bt)).2.view = if ts.toNat > fromBe L + 300
        then s.view.put (23 :: 104 :: (makeFidKey fid ++ pk)) (.raw (be 4 ts.toNat))
        else s.view) := by
  rcases exec_view s (.use env fid pk ty ts bt) hg.2 with ⟨e, _⟩ | ⟨e, _⟩ | ⟨_, hh⟩
  · cases e
  · cases e
  · rcases hh with (⟨_, _, _, _, _, e, _⟩ | ⟨_, _, _, _, e, _⟩ |
      ⟨_, _, _, _, _, _, e, _, hx⟩) | ⟨e, _⟩
    · cases e
    · cases e
    · cases e; exact hx
    · rw [h] at e; simp at e

/-- The step is a key addition or removal for public key `pk`. -/
def KeyOp.touches (pk : Bytes) : KeyOp → Prop
  | .add _ m _ => m.key = pk
  | .remove _ m => m.key = pk
  | _ => False

/-- Steps that do not touch a key leave its record alone. -/
theorem record_untouched (s : KeyState) (o : KeyOp) (hg : s.Good) (ho : o ≠ .abort) (f pk : Bytes)
    (hf : f.length = 4) (ht : ¬ o.touches pk) :
    (o.exec s).2.view.get (23 :: 105 :: (f ++ pk)) = s.view.get (23 :: 105 :: (f ++ pk)) := by
  rcases exec_view s o hg.2 with ⟨e, _⟩ | ⟨_, h1, _⟩ | ⟨_, hh⟩
  · exact absurd e ho
  · rw [h1]
  · rcases hh with (⟨env, m, rep, rf, first, e, hb, _, ha, hw⟩ | ⟨env, m, r, nk, e, hb, _, ha, hw⟩ |
      ⟨env, fid, q, ty, ts, bt, _, _, (⟨_, hw⟩ | ⟨_, hl, r, L, hr, _, hL, hgt, _, _, hw⟩)⟩) | ⟨_, hs⟩
    · rw [hw, addView_get]
      subst e
      have hne : ¬ pk = m.key := fun e => ht e.symm
      simp [rec_append_inj hf (makeFidKey_length m.fid), hne]
    · rw [hw, removeView_get]
      subst e
      have hne : ¬ pk = m.key := fun e => ht e.symm
      have hnk : ¬ 23 :: 105 :: (f ++ pk) = nk := by
        intro e
        rcases ha.auth with ⟨_, h, _⟩ | ⟨_, h, _⟩ <;> rw [h] at e <;> simp at e
      simp [rec_append_inj hf (makeFidKey_length m.fid), hne, hnk]
    · rw [hw]
    · rw [hw]
      split
      · rw [OMap.get_put, if_neg (by simp)]
      · rfl
    · rw [hs]

end Verif
