import Verif.Lemmas.ZeroEngine
import Verif.Case.Trie
/-!
C93: everything shard 0 holds, and everything it hands to the data shards, was posted by somebody who may post for the user.
-/
namespace Verif
open Spec ZeroCfg

section
variable {F : Type} {c : ZeroCfg}

/-- **C93**: after any calls, whatever the row, a message on shard 0 is a user message of a committed block and was
authorised when that block was taken: it is signed, its user was registered, and its key may sign for the user, by the
on-chain events and key messages of committed blocks that had been accepted until then.  The kind of message is one shard 0
kept at the time. -/
theorem C93_rows_were_posted (calls : List (ZCall F)) (s : c.Sound calls) (d : ZWork) (hrun : c.run calls {} = some d)
    (k : Bytes) (m : Msg) (held : d.st.store.view k = some (.msg m)) :
    ∃ p ∈ d.posts, p.msg = m ∧ PostedIn calls p.ts m ∧ c.Authorised p ∧ Kept (c.ver p.ts).num m.ty.num ∧
      (∀ e ∈ p.node.chain.log, OnChainIn calls e) ∧
      p.node.chain.log <+: d.admit.chain.log ∧ p.node.keyLog <+: d.admit.keyLog := by
  have h := settled_history s hrun
  obtain ⟨p, hp, rfl, hk⟩ := h.inv.rows.view held
  obtain ⟨h1, h2, h3, h4⟩ := h.inv.posts p hp
  exact ⟨p, hp, rfl, h1, h2, hk, fun e he => h.inv.log e (h3.subset he), h3, h4⟩

/-- The same for the block events it hands on: a message in one was authorised like this; an on-chain event in one is a
channel registration of a committed block. -/
theorem C93_block_events_were_posted (calls : List (ZCall F)) (s : c.Sound calls) (d : ZWork) (hrun : c.run calls {} = some d)
    (k : Bytes) (b : BEvent) (held : d.bev.get k = some b) :
    (∀ m, b.Brings m → ∃ p ∈ d.posts, p.msg = m ∧ PostedIn calls p.ts m ∧ c.Authorised p ∧
      HandedOn (c.ver p.ts).num m.ty.num ∧ (∀ e ∈ p.node.chain.log, OnChainIn calls e) ∧
      p.node.chain.log <+: d.admit.chain.log ∧ p.node.keyLog <+: d.admit.keyLog) ∧
    ∀ x o, b.data = some x → x.body = some (.onchain (some o)) → OnChainIn calls o ∧ o.ty = 6 := by
  have h := settled_history s hrun
  refine ⟨fun m hm => ?_, (h.inv.bev k b held).2⟩
  obtain ⟨p, hp, rfl, hk⟩ := (h.inv.bev k b held).1 m hm
  obtain ⟨h1, h2, h3, h4⟩ := h.inv.posts p hp
  exact ⟨p, hp, rfl, h1, h2, hk, fun e he => h.inv.log e (h3.subset he), h3, h4⟩

/-- Keys added without a transaction were added by the address that owned the user's id at that time. -/
theorem C93_keys_were_granted (calls : List (ZCall F)) (s : c.Sound calls) (d : ZWork) (hrun : c.run calls {} = some d)
    (g : KeyAddMsg) (events : List OEvent) (h : KeyNote.added g events ∈ d.admit.keyLog) : Consented c.crypto g events :=
  (settled_history s hrun).inv.admit.notes g events h

/-- Seen from the other side: shard 0 holds and hands on nothing of a user who is not registered by an on-chain event of a
committed block, whatever proposers put into the blocks. -/
theorem C93_strangers_hold_nothing (calls : List (ZCall F)) (s : c.Sound calls) (d : ZWork) (hrun : c.run calls {} = some d)
    (m : Msg) (hreg : ∀ e, OnChainIn calls e → ¬ Registers m.fid e) :
    (∀ k, d.st.store.view k ≠ some (.msg m)) ∧ ∀ k b, d.bev.get k = some b → ¬ b.Brings m := by
  refine ⟨fun k held => ?_, fun k b held hb => ?_⟩
  · obtain ⟨p, _, rfl, _, h, _, hl, _⟩ := C93_rows_were_posted calls s d hrun k m held
    obtain ⟨e, he, hr⟩ := h.registered
    exact hreg e (hl e he) hr
  · obtain ⟨p, _, rfl, _, h, _, hl, _⟩ := (C93_block_events_were_posted calls s d hrun k b held).1 m hb
    obtain ⟨e, he, hr⟩ := h.registered
    exact hreg e (hl e he) hr

/-- A message that passes simulation is authorised by what is committed, at the time of the node's clock. -/
theorem C93_simulation_checks_authority (calls : List (ZCall F)) (s : c.Sound calls) (d d' : ZWork)
    (hrun : c.run calls {} = some d) (m : Msg) (hm : c.Carries m) (hf : m.fid < 2 ^ 32) (clock : Nat)
    (ok : c.simulate clock d m = some (.ok (), d')) :
    ∃ p : ZPost, p.msg = m ∧ p.ts = clock - farcasterEpoch / 1000 ∧ c.Authorised p ∧
      p.node.chain.log = d.admit.chain.log ∧ p.node.keyLog = d.admit.keyLog :=
  simulated_authorised (settled_history s hrun) hm hf ok

end

namespace Case93
open AdmissionCase (idReg signerAdd crypto)

def chan : Bytes := List.replicate 32 5

/-- Key 8, for loans. -/
def grant : KeyAddMsg := { AdmissionCase.grant with scopes := [15] }
def keyData : WData := demoData 16 (.keyAdd grant)
def updateData : WData := demoData 18 (.channelUpdate chan (some 2) none)
def lendData : WData := demoData 15 (.lendStorage 40 1 2)

def env : VEnv where
  encode x := if x = updateData then [7] else if x = keyData then [8] else [6]
  decode b := if b = [7] then some updateData else if b = [8] then some keyData else if b = [6] then some lendData else none
  blake3 b := List.replicate 20 (b.headD 0)
  validKey k := k.length == 32
  verify _ _ s := s == List.replicate 64 5
  recoverClaim _ a _ _ _ := some a
  solClaim _ _ _ _ := []
  transferHashable _ _ _ := true
  recoverTransfer _ _ _ _ := none
  solAddress _ := none
  keccak _ := List.replicate 32 0
  otherDigit _ := false
  chars b := some (b.map (·.toNat))

def cfg : ZeroCfg where
  env := env
  crypto := crypto
  net := .devnet
  ver := fun _ => .v21
  wire := fun m =>
    if m.ty = .keyAdd then { demoMsg keyData with dataBytes := some [8], signer := m.signer, hash := m.hash }
    else if m.ty = .lendStorage then { demoMsg lendData with dataBytes := some [6], signer := m.signer, hash := m.hash }
    else { demoMsg updateData with signer := m.signer, hash := m.hash }
  txHash := fun e => List.replicate 32 (UInt8.ofNat e.ty)
  keyEvent := fun _ _ => .noTrie
  owner := fun _ _ _ => some (some 11)
  caps := {}
  ctx := fun _ => {}
  H := toyHash
  HB := toyHash
  ord := id
  sha256 := fun _ => List.replicate 32 0
  encB := fun d => be 8 d.seqnum

def appReg : OEvent := ⟨3, 40, 1, 0, 1, 5, .idRegister [40] .register⟩
def rent : OEvent := ⟨4, 11, 2, 0, 1, 1760000000, .storageRent 3⟩

/-- Key 8 for user 11, a loan signed with it, and an update of the user's channel, signed with the key on chain and with
key 8. -/
def keyAdd : Msg := ⟨11, .keyAdd, 1000, List.replicate 20 8, List.replicate 32 9, .other⟩
def lend : Msg := ⟨11, .lendStorage, 1000, List.replicate 20 6, List.replicate 32 8, .lend 40 1 .y2025⟩
def update : Msg := ⟨11, .channelUpdate, 1000, List.replicate 20 7, List.replicate 32 9, .channelUpdate chan (some 2) none⟩
def forged : Msg := { update with signer := List.replicate 32 8 }

def sys (e : OEvent) : SysMsg Unit := ⟨some e, none, none⟩
def txn1 : ETxn Unit := ⟨11, [sys idReg, sys signerAdd, sys rent], [], []⟩
def txn0 : ETxn Unit := ⟨40, [sys appReg], [], []⟩
def txn2 : ETxn Unit := ⟨11, [], [lend, keyAdd, forged, update, lend], []⟩

def clock : Nat := 1760000500

/-- Propose and commit. -/
def next (d : ZWork) (h : Nat) (ts : List (ETxn Unit)) : Option (List (ZCall Unit) × ZWork) := do
  let p ← cfg.propose clock h 1000 d ts
  let d ← cfg.commit clock p.2 p.1
  pure ([.propose clock h 1000 ts, .commit clock p.1], d)

def chain : Option (List (ZCall Unit) × ZWork) := do
  let a ← next {} 1 [txn1, txn0]
  let b ← next a.2 2 [txn2]
  pure (a.1 ++ b.1, b.2)

/-- What the blocks bring. -/
def plain : ZCall Unit → Bool
  | .commit _ b => b.txns.all fun t => t.user.all (fun m => m = keyAdd ∨ m = lend ∨ m = update ∨ m = forged) &&
      t.sys.all (fun s => s.onchain.all (fun e => e = idReg ∨ e = appReg ∨ e = signerAdd ∨ e = rent))
  | _ => true

def final : Option (List (ZCall Unit) × ZWork) := chain.bind fun x => (cfg.run x.1 {}).map fun d => (x.1, d)

def lendKey : Bytes := makeMessagePrimaryKey 11 lendStore.set (some (be 4 1000 ++ List.replicate 20 6))
def updateKey : Bytes := makeMessagePrimaryKey 11 (ChanKind.update.store).set (some (be 4 1000 ++ List.replicate 20 7))

/-- The first loan is refused, since its key is not there yet; the update with key 8 is refused for good. -/
theorem final_done : final.map (fun x => (x.1.all plain, x.2.posts.map (·.msg), x.2.st.store.view lendKey,
    x.2.st.store.view updateKey)) =
    some (true, [keyAdd, update, lend], some (.msg lend), some (.msg update)) := by decide +kernel

theorem final_events : final.map (fun x => x.2.bev.rows.map (fun r => r.2.data.bind (·.body))) =
    some [some (.message (some keyAdd)), some (.message (some update)), some (.message (some lend))] := by decide +kernel

theorem sound_of_plain {calls : List (ZCall Unit)} (h : calls.all plain = true) : cfg.Sound calls := by
  have hall : ∀ clock b, ZCall.commit clock b ∈ calls → ∀ t ∈ b.txns,
      (∀ m ∈ t.user, m = keyAdd ∨ m = lend ∨ m = update ∨ m = forged) ∧
      ∀ s ∈ t.sys, ∀ e, s.onchain = some e → e = idReg ∨ e = appReg ∨ e = signerAdd ∨ e = rent := by
    intro clock b hb t ht
    have := List.all_eq_true.1 (List.all_eq_true.1 h _ hb) t ht
    simp only [Bool.and_eq_true, List.all_eq_true, Option.all_eq_true, decide_eq_true_eq] at this
    exact ⟨this.1, fun s hs e he => this.2 s hs e he⟩
  refine ⟨?_, ?_⟩
  · rintro e ⟨clock, b, hb, t, ht, s, hs, he⟩
    rcases (hall clock b hb t ht).2 s hs e he with rfl | rfl | rfl | rfl <;> (unfold Spec.OEvent.Fits; decide)
  · rintro ts m ⟨clock, b, hb, _, t, ht, hm⟩
    rcases (hall clock b hb t ht).1 m hm with rfl | rfl | rfl | rfl
    · exact ⟨⟨keyData, rfl, by decide, by decide, by decide, rfl, rfl⟩, by decide⟩
    · exact ⟨⟨lendData, rfl, by decide, by decide, by decide, rfl, rfl⟩, by decide⟩
    · exact ⟨⟨updateData, rfl, by decide, by decide, by decide, rfl, rfl⟩, by decide⟩
    · exact ⟨⟨updateData, rfl, by decide, by decide, by decide, rfl, rfl⟩, by decide⟩

/-- The theorem applies to this history: the loan on shard 0 was authorised. -/
example : ∃ (calls : List (ZCall Unit)) (d : ZWork), cfg.run calls {} = some d ∧ cfg.Sound calls ∧
    d.st.store.view lendKey = some (.msg lend) ∧ ∃ p ∈ d.posts, p.msg = lend ∧ cfg.Authorised p := by
  have h := final_done
  simp only [Option.map_eq_some_iff, final, Option.bind_eq_some_iff, Prod.mk.injEq] at h
  obtain ⟨⟨calls, d⟩, ⟨x, hx, d', hr, e⟩, hp, _, hl, _⟩ := h
  cases e
  have s := sound_of_plain hp
  obtain ⟨p, h1, h2, _, h3, _⟩ := C93_rows_were_posted _ s d hr _ lend hl
  exact ⟨_, d, hr, s, hl, p, h1, h2, h3⟩

/-- Simulations after the first block: the update passes with the key on chain and not with key 8. -/
theorem first_simulated : (next {} 1 [txn1, txn0]).map (fun x => ((cfg.simulate clock x.2 update).map (fun r => r.1.toBool),
    (cfg.simulate clock x.2 forged).map (fun r => r.1.toBool))) = some (some true, some false) := by decide +kernel

end Case93
end Verif
