import Verif.Spec.Engine
/-! A small data shard for the examples of C39 and C47–C49: stores that keep messages once, a root made of the hashes
of what is stored, and one row of hub events per height. -/
namespace Verif.EngineCase
open Verif Spec

inductive Hub where
  | merged (m : Msg)
  | failed (m : Msg)
  | confirmed (n : Nat)
  | told (n : Nat)
  deriving DecidableEq, Repr

/-- Committed state: block events handled, messages stored, hub events by height. -/
structure Db0 where
  told : List BEvent
  msgs : List Msg
  hubs : List (Nat × List Hub)
  deriving DecidableEq, Repr

/-- Work in progress: the same, staged, on top of the messages already there. -/
structure Work where
  height : Nat
  base : List Msg
  told : List BEvent
  msgs : List Msg
  hubs : List Hub
  deriving DecidableEq, Repr

def rootOf (l : List Msg) : Bytes := l.flatMap (·.hash)

/-- A block event that brings a message stores it, unless it is already there (then handling it fails). -/
def handle (w : Work) (b : BEvent) : Work × Option (List Hub × Option MessageType) :=
  let w := { w with told := w.told ++ [b] }
  match b.data with
  | some ⟨n, _, _, _, _, some (.message (some m))⟩ =>
    if m ∈ w.base ++ w.msgs then (w, none)
    else ({ w with msgs := w.msgs ++ [m], hubs := w.hubs ++ [.told n] }, some ([.told n], none))
  | some d => ({ w with hubs := w.hubs ++ [.told d.seqnum] }, some ([.told d.seqnum], none))
  | none => (w, none)

def ops : EngineOps Db0 Work Hub Unit where
  start := fun d h => ⟨h, d.msgs, [], [], []⟩
  onchain := fun _ _ w _ => .ok (w, none)
  revokes := fun _ _ => none
  fname := fun _ w _ => .ok (w, [])
  blockEvent := fun _ _ w b => .ok (handle w b)
  revoke := fun _ w _ _ => .ok (w, [])
  priority := fun _ => 5
  user := fun _ _ _ w m =>
    if m ∈ w.base ++ w.msgs then
      .ok ({ w with hubs := w.hubs ++ [.failed m] }, [.failed m], some .duplicate)
    else .ok ({ w with msgs := w.msgs ++ [m], hubs := w.hubs ++ [.merged m] }, [.merged m], none)
  prune := fun _ _ _ w _ _ => .ok (w, [])
  sideEffects := fun _ _ w _ => .ok (w, [])
  accountRoot := fun _ w f => .ok (rootOf ((w.base ++ w.msgs).filter (fun m => m.fid == f)))
  root := fun w => .ok (rootOf (w.base ++ w.msgs))
  active := fun _ _ _ _ => some true
  confirm := fun _ w c _ _ => some { w with hubs := .confirmed c.height :: w.hubs }
  write := fun d w =>
    ⟨d.told ++ w.told, d.msgs ++ w.msgs, d.hubs.filter (fun r => r.1 != w.height) ++ [(w.height, w.hubs)]⟩

theorem handle_told (w : Work) (b : BEvent) : (handle w b).1.told = w.told ++ [b] := by
  unfold handle
  simp only
  split
  · split <;> rfl
  · rfl
  · rfl

def ledger : Ledger ops where
  log := Db0.told
  wlog := Work.told
  start := fun _ _ => rfl
  onchain := by intro v d w e w' r h; simp only [ops, Except.ok.injEq, Prod.mk.injEq] at h; rw [h.1]
  fname := by intro d w f w' r h; simp only [ops, Except.ok.injEq, Prod.mk.injEq] at h; rw [h.1]
  blockEvent := by
    intro v d w b w' r h
    simp only [ops, Except.ok.injEq] at h
    rw [← handle_told, h]
  revoke := by intro d w n k w' r h; simp only [ops, Except.ok.injEq, Prod.mk.injEq] at h; rw [h.1]
  user := by
    intro v ts d w m w' r h
    simp only [ops] at h
    split at h <;> (simp only [Except.ok.injEq, Prod.mk.injEq] at h; rw [← h.1])
  prune := by intro c v d w n t w' r h; simp only [ops, Except.ok.injEq, Prod.mk.injEq] at h; rw [h.1]
  sideEffects := by intro v d w es w' r h; simp only [ops, Except.ok.injEq, Prod.mk.injEq] at h; rw [h.1]
  confirm := by intro d w c es n w' h; simp only [ops, Option.some.injEq] at h; rw [← h]
  write := fun _ _ => rfl

def env : NodeEnv := ⟨0, id, id⟩
def ver (_ : Nat) : EngineVersion := .v21
def hash0 (b : Bytes) : Bytes := be 32 (fromBe b % 2 ^ 240 + b.length * 2 ^ 240)
def fresh : EngineState Db0 Work Hub Unit := ⟨⟨[], [], []⟩, OMap.empty, OMap.empty, none⟩

def msg (h : UInt8) : Msg := { fid := 7, ty := .castAdd, ts := 5, hash := [h], body := .castAdd none [] }
def key (h : UInt8) : Msg := { fid := 7, ty := .keyAdd, ts := 5, hash := [h], body := .other }
/-- The block event numbered `n`, bringing the message `key n`. -/
def event (n : Nat) : BEvent :=
  ⟨[UInt8.ofNat n], some ⟨n, 1, n, 0, 0, some (.message (some (key (UInt8.ofNat n))))⟩⟩
def told (e : BEvent) : SysMsg Unit := ⟨none, none, some e⟩
def txn (es : List BEvent) (ms : List Msg) (root : Bytes) : ETxn Unit := ⟨7, es.map told, ms, root⟩
def chunk (h : Nat) (es : List BEvent) (ms : List Msg) (root : Bytes) : EChunk Unit :=
  ⟨h, 100 + h, root, [txn es ms root], [UInt8.ofNat h]⟩

end Verif.EngineCase
