import Verif.Lemmas.ZeroAgree
import Verif.Lemmas.BlockEvents
/-!
The block events of shard 0 through its engine: they are appended block by block, with consecutive numbers.
-/
namespace Verif
namespace ZeroCfg
variable {F : Type} {c : ZeroCfg}

/-! ## Transactions do not touch block events -/

theorem doUser_bev {clock : Nat} {v : EngineVersion} {ts : Nat} {x x' : ZLoop} {m : Msg} (hx : c.doUser clock v ts x m = .ok x') :
    x'.w.bev = x.w.bev ∧ x'.w.bpend = x.w.bpend := by
  unfold doUser at hx
  split at hx
  · cases hx; exact ⟨rfl, rfl⟩
  · rename_i t k hv
    simp only at hx
    have hl : (c.mergeLend clock v x (c.posted x.w v ts t m) m).w.bev = x.w.bev ∧
        (c.mergeLend clock v x (c.posted x.w v ts t m) m).w.bpend = x.w.bpend := by
      unfold mergeLend
      split
      · split <;> exact ⟨rfl, rfl⟩
      · exact ⟨rfl, rfl⟩
    have hk : (c.mergeKeyArm v x (c.posted x.w v ts t m) m).w.bev = x.w.bev ∧
        (c.mergeKeyArm v x (c.posted x.w v ts t m) m).w.bpend = x.w.bpend := by
      unfold mergeKeyArm
      split
      · split <;> exact ⟨rfl, rfl⟩
      · exact ⟨rfl, rfl⟩
    have hver : c.mergeVerification v x (c.posted x.w v ts t m) m = .ok x' → x'.w.bev = x.w.bev ∧ x'.w.bpend = x.w.bpend := by
      intro e
      unfold mergeVerification at e
      split at e
      · split at e
        · cases e; exact ⟨rfl, rfl⟩
        · split at e
          · cases e
          · cases e; exact ⟨rfl, rfl⟩
      · cases e; exact ⟨rfl, rfl⟩
    have hch : c.mergeChannel v x (c.posted x.w v ts t m) k m = .ok x' → x'.w.bev = x.w.bev ∧ x'.w.bpend = x.w.bpend := by
      intro e
      unfold mergeChannel at e
      split at e
      · cases e
      · split at e <;> (cases e; exact ⟨rfl, rfl⟩)
    split at hx <;> first
      | exact hver hx
      | exact hch hx
      | (cases hx; first | exact hl | exact hk | exact ⟨rfl, rfl⟩)

theorem doUsers_bev {clock : Nat} {v : EngineVersion} {ts : Nat} : ∀ (l : List Msg) (x x' : ZLoop),
    c.doUsers clock v ts l x = .ok x' → x'.w.bev = x.w.bev ∧ x'.w.bpend = x.w.bpend
  | [], x, x', h => by cases h; exact ⟨rfl, rfl⟩
  | m :: l, x, x', h => by
    unfold doUsers at h
    split at h
    · cases h
    · rename_i y hy
      obtain ⟨a, b⟩ := doUsers_bev l y x' h
      obtain ⟨a', b'⟩ := doUser_bev hy
      exact ⟨a.trans a', b.trans b'⟩

theorem doSyss_bev (v : EngineVersion) : ∀ (l : List (SysMsg F)) (w : ZWork) (es : List ZEv),
    (c.doSyss v l w es).1.bev = w.bev ∧ (c.doSyss v l w es).1.bpend = w.bpend
  | [], _, _ => ⟨rfl, rfl⟩
  | m :: l, w, es => by
    unfold doSyss
    have h := doSyss_bev v l (c.doSys v w m).1 (es ++ (c.doSys v w m).2)
    have h1 : (c.doSys v w m).1.bev = w.bev ∧ (c.doSys v w m).1.bpend = w.bpend := by
      unfold doSys
      split
      · exact ⟨rfl, rfl⟩
      · split <;> exact ⟨rfl, rfl⟩
    exact ⟨h.1.trans h1.1, h.2.trans h1.2⟩

theorem replay_bev {clock : Nat} {v : EngineVersion} {ts : Nat} {w : ZWork} {t : ETxn F} {r : Bytes} {x : ZLoop}
    (hx : c.replay clock v ts w t = .ok (r, x)) : x.w.bev = w.bev ∧ x.w.bpend = w.bpend := by
  unfold replay at hx
  simp only at hx
  have h1 := doSyss_bev (c := c) v (sysOrder v t.sys) w []
  split at hx
  · cases hx
  · split at hx
    · cases hx
    · split at hx
      · cases hx
      · rename_i y hy
        have h2 := doUsers_bev _ _ _ hy
        unfold close at hx
        split at hx
        · cases hx
        · cases hx
          exact ⟨h2.1.trans h1.1, h2.2.trans h1.2⟩

theorem replays_bev {clock : Nat} {v : EngineVersion} {ts : Nat} {claimed : Bool} :
    ∀ (l : List (ETxn F)) (w w' : ZWork) (rs : List Bytes) (es : List ZEv), c.replays clock v ts claimed l w = .ok (rs, w', es) →
      w'.bev = w.bev ∧ w'.bpend = w.bpend
  | [], _, _, _, _, h => by cases h; exact ⟨rfl, rfl⟩
  | t :: l, w, w', rs, es, h => by
    unfold replays at h
    split at h
    · cases h
    · rename_i r x hx
      split at h
      · cases h
      · split at h
        · cases h
        · rename_i rs' w2 es' hl
          cases h
          have h1 := replays_bev l _ _ _ _ hl
          have h2 := replay_bev hx
          exact ⟨h1.1.trans h2.1, h1.2.trans h2.2⟩

end ZeroCfg
end Verif
