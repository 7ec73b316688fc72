import Verif.Lemmas.ProfileInv
import Verif.Case.Store
import Verif.Case.Validate
/-!
C87: a user's profile shows only a username the registry has down as theirs, and only primary addresses they have
verified.  A history starts empty and has profile messages, verifications, name transfers, ends of transactions, calls
of the other message stores, commits and dropped batches in any order.  `Orderly` (Spec/Profile.lean) says which
steps are covered; the theorems at the end show what goes wrong outside it.
-/
namespace Verif
open StoreDef

/-- A name shown as username (other than an ENS or base name) is the user's in the registry, in the pending state and in
the committed one. -/
theorem C87_username_owned (e : ProfileEnv) (hch : ChannelNaming e.channelOf) (U : Msg → Prop) (hU : HashesIdentify U)
    (ops : List ProfileOp) (ho : Along e (fun n o => n.Orderly e U o) {} ops)
    (hs : Along e (fun n o => n.NamesSource o) {} ops) (fid : Nat) (name : Bytes) (hne : name ≠ [])
    (heth : dotEth.isSuffixOf name = false) :
    let n := ({} : ProfileNode).run e ops
    (n.Shows fid 6 name → n.OwnsName fid name) ∧ (n.committed.Shows fid 6 name → n.committed.OwnsName fid name) := by
  intro n
  obtain ⟨L0, L, own0, own, idx0, idx, h, h1, _⟩ := prof_run hch hU ops (ProfInv.init (e := e) (U := U)) ho
  obtain ⟨g0, g⟩ := h1 hs (fun m hm => by cases hm) (fun m hm => by cases hm)
  have key : ∀ {L0 L own0 own idx0 idx} {n : ProfileNode}, ProfInv e U L0 L own0 own idx0 idx n → UsersOwn L own →
      n.Shows fid 6 name → n.OwnsName fid name := by
    intro L0 L own0 own idx0 idx n h g ⟨m, hm, hf, hb⟩
    obtain ⟨q, hq, hqf⟩ := g m ((h.has hch hU .userData m).1 hm) name hb hne heth
    exact ⟨q, by rw [Fnames.getFname_iff h.names.rep, hq], hqf.trans hf⟩
  exact ⟨key h g, key h.committed g0⟩

/-- Between transactions, and in the committed state always, a primary address shown is verified for the user: for
Ethereum (11) and for Solana (12).  `Reported`: verifications go only by merges, and the work at the end of transactions
is done. -/
theorem C87_primary_verified (e : ProfileEnv) (hch : ChannelNaming e.channelOf) (U : Msg → Prop) (hU : HashesIdentify U)
    (hsol : ∀ s a, e.lib.solAddress s = some a → e.solText a = s)
    (ops : List ProfileOp) (ho : Along e (fun n o => n.Orderly e U o) {} ops)
    (hr : Along e (fun n o => n.Reported e o) {} ops) (fid : Nat) (text : Bytes) (hne : text ≠ []) :
    let n := ({} : ProfileNode).run e ops
    (n.deleted = [] →
      (n.Shows fid 11 text → ∃ a, checksum e.lib.keccak a = text ∧ n.Verified e fid 0 a) ∧
      (n.Shows fid 12 text → ∃ a, e.solText a = text ∧ n.Verified e fid 1 a)) ∧
    (n.committed.Shows fid 11 text → ∃ a, checksum e.lib.keccak a = text ∧ n.committed.Verified e fid 0 a) ∧
    (n.committed.Shows fid 12 text → ∃ a, e.solText a = text ∧ n.committed.Verified e fid 1 a) := by
  intro n
  obtain ⟨L0, L, own0, own, idx0, idx, h, _, h2⟩ := prof_run hch hU ops (ProfInv.init (e := e) (U := U)) ho
  obtain ⟨g0, g⟩ := h2 hr hsol (fun m hm => by cases hm) (fun m hm => by cases hm)
  have key : ∀ {L0 L own0 own idx0 idx} {n : ProfileNode}, ProfInv e U L0 L own0 own idx0 idx n → Backed e L [] →
      (n.Shows fid 11 text → ∃ a, checksum e.lib.keccak a = text ∧ n.Verified e fid 0 a) ∧
      (n.Shows fid 12 text → ∃ a, e.solText a = text ∧ n.Verified e fid 1 a) := by
    intro L0 L own0 own idx0 idx n h g
    constructor
    · intro ⟨m, hm, hf, hb⟩
      obtain ⟨x, a, hx, hxf, hxb, hp⟩ := g m ((h.has hch hU .userData m).1 hm) 11 text hb (.inl rfl) hne
      have hx : x ∈ L .verifications := hx.resolve_right (by simp)
      unfold ProfileNode.primaryField at hp
      split at hp
      · next h0 =>
        simp only [Option.some.injEq, Prod.mk.injEq, true_and] at hp
        exact ⟨a, hp, x, (h.has hch hU .verifications x).2 hx, hxf.trans hf, hxb, h0⟩
      · split at hp <;> simp at hp
    · intro ⟨m, hm, hf, hb⟩
      obtain ⟨x, a, hx, hxf, hxb, hp⟩ := g m ((h.has hch hU .userData m).1 hm) 12 text hb (.inr rfl) hne
      have hx : x ∈ L .verifications := hx.resolve_right (by simp)
      unfold ProfileNode.primaryField at hp
      split at hp
      · simp at hp
      · split at hp
        · next h0 =>
          simp only [Option.some.injEq, Prod.mk.injEq, true_and] at hp
          exact ⟨a, hp, x, (h.has hch hU .verifications x).2 hx, hxf.trans hf, hxb, h0⟩
        · simp at hp
  exact ⟨fun hd => key h (hd ▸ g), key h.committed g0⟩

/-- An ENS or base name is taken as username only while the name's proof on record is for the user. -/
theorem C87_ens_checked (e : ProfileEnv) (n : ProfileNode) (pro : Bool) (v : EngineVersion) (hv : 7 ≤ v.num) (hw : 7 ≤ e.wall.num)
    (m : Msg) (name : Bytes) (hb : m.body = .userData 6 name) (ha : n.accepts e pro v m = true)
    (heth : dotEth.isSuffixOf name = true) :
    ∃ x, getUsernameProof n.store.db n.store.pend.txn name = .ok (some x) ∧ e.proofFid x = m.fid := by
  have h2 := (accepts_cases hb ha).2
  have hne : name ≠ [] := by rintro rfl; revert heth; decide
  simp only [validateProfile, checkUsername, hne, if_false, usernameProofFid, heth, if_true] at h2
  rw [readTxn_on hv, readTxn_on (v := (n.view e).wall) hw] at h2
  change (match (match getUsernameProof n.store.db n.store.pend.txn name with
    | .error err => .error err | .ok none => .ok none | .ok (some m) => .ok (some (e.proofFid m)) : Except HubErr (Option Nat)) with
    | .error err => .error (.store err) | .ok none => .error .missingFname
    | .ok (some f) => if f ≠ m.fid then .error .missingFname else .ok () : Except AErr Unit) = .ok () at h2
  split at h2
  · cases h2
  · cases h2
  · next f hf =>
    split at hf
    · cases hf
    · cases hf
    · next x hx =>
      cases hf
      refine ⟨x, hx, ?_⟩
      by_cases hc : e.proofFid x = m.fid
      · exact hc
      · simp [hc] at h2

/-! ### A history -/
namespace Case87

def base : VEnv := demoEnv (demoData 11 (.userData 6 []))

/-- A small world: one Solana address, with text `S`. -/
def e : ProfileEnv where
  lib := { base with solAddress := fun s => if s = [83] then some (List.replicate 32 3) else none }
  solText _ := [83]
  channelOf := Case.noChannels
  ctx := Case.allOn
  wall := .v21
  proofFid _ := 0
  protocol m := match m.body with
    | .verificationAdd a => if a.length = 32 then 1 else 0
    | _ => 0

def addr : Bytes := List.replicate 20 0xab
def sol : Bytes := List.replicate 32 3
def addrText : Bytes := checksum e.lib.keccak addr

def ab : Bytes := [97, 98]
def cd : Bytes := [99, 100]
def verify : Msg := ⟨7, .verificationAdd, 100, Case.h20 1, [1], .verificationAdd addr⟩
def verifyAgain : Msg := ⟨7, .verificationAdd, 130, Case.h20 2, [1], .verificationAdd addr⟩
def unverify : Msg := ⟨7, .verificationRemove, 140, Case.h20 3, [1], .verificationRemove addr⟩
def verifySol : Msg := ⟨7, .verificationAdd, 100, Case.h20 4, [2], .verificationAdd sol⟩
def setName : Msg := ⟨7, .userDataAdd, 100, Case.h20 5, [1], .userData 6 ab⟩
def setEth : Msg := ⟨7, .userDataAdd, 101, Case.h20 6, [1], .userData 11 addrText⟩
def setSol : Msg := ⟨7, .userDataAdd, 102, Case.h20 7, [1], .userData 12 [83]⟩
def msgs : List Msg := [verify, verifyAgain, unverify, verifySol, setName, setEth, setSol]

/-- The names `ab` and `cd` go to user 7; `ab` goes on to user 8. -/
def give : FProof := ⟨ab, 7, 10, [1]⟩
def give2 : FProof := ⟨cd, 7, 10, [2]⟩
def take : FProof := ⟨ab, 8, 20, [3]⟩
def take2 : FProof := ⟨cd, 8, 20, [4]⟩

/-- User 7 gets a name and two verifications, shows all three, and loses the name and one verification. -/
def setUp : List ProfileOp :=
  [.transfer give 0, .verification false verify, .verification true verifySol, .set false .v21 setName, .set false .v21 setEth,
    .set false .v21 setSol, .finish .v21, .commit]
def lose : List ProfileOp := [.block 1, .transfer take 7, .verification false unverify, .finish .v21, .commit]

def after (ops : List ProfileOp) : ProfileNode := ({} : ProfileNode).run e ops

/-- The messages a profile consists of. -/
def profile (n : ProfileNode) : List Msg := storedMessages userDataStore n.store.db 7

theorem hashes : HashesIdentify (· ∈ msgs) := by
  have h : ∀ a ∈ msgs, ∀ b ∈ msgs, a.fid = b.fid → a.ts = b.ts → a.hash = b.hash → a = b := by decide +kernel
  exact fun a b ha hb => h a ha b hb

/-- The messages in the database and the batch. -/
def present (n : ProfileNode) : List Msg :=
  n.store.pend.txn.rows.filterMap (fun r => match r.2 with | some (.msg m) => some m | _ => none) ++
    n.store.db.rows.filterMap (fun r => r.2.decodeMsg)

/-- The messages in the batch. -/
def fresh (n : ProfileNode) : List Msg :=
  n.store.pend.txn.rows.filterMap (fun r => match r.2 with | some (.msg m) => some m | _ => none)

theorem has_cases {n : ProfileNode} {D : StoreDef} {m : Msg} (h : n.store.Has D m) :
    m ∈ fresh n ∨ (n.committed.store.Has D m ∧ m ∈ n.store.db.rows.filterMap (fun r => r.2.decodeMsg)) := by
  unfold StoreState.Has StoreState.view getFromDbOrTxn at h
  split at h
  · next o ho =>
    left
    subst h
    exact List.mem_filterMap.2 ⟨_, (OMap.get_eq_some_iff _).1 ho, rfl⟩
  · refine .inr ⟨?_, List.mem_filterMap.2 ⟨_, (OMap.get_eq_some_iff _).1 h, rfl⟩⟩
    simp only [StoreState.Has, StoreState.view, getFromDbOrTxn, ProfileNode.committed, OMap.get_empty]
    exact h

theorem nothingNew {n : ProfileNode} {fid ty : Nat} (h : ∀ m ∈ fresh n, m.fid = fid → m.setsField ty = false) :
    n.NothingNew fid ty := by
  intro m value hm hf hb
  rcases has_cases hm with hx | hx
  · have := h m hx hf
    rw [(setsField_iff m ty).2 ⟨_, hb⟩] at this
    cases this
  · exact hx.1

/-- The conditions on a step, as a computation. -/
def fine (n : ProfileNode) : ProfileOp → Bool
  | .set _ v m => decide (m ∈ [setName, setEth, setSol]) && decide (7 ≤ v.num)
  | .verification f m => decide (m ∈ [verify, verifyAgain, unverify, verifySol]) &&
      decide (f = true → ∀ x ∈ present n, x.fid = m.fid → x.hash = m.hash → x = m) &&
      (match n.store.returned verificationStore e.ctx (ProfileNode.verificationOp f m) with | .ok _ => true | .error _ => false)
  | .transfer p s => decide (p.fid < 2 ^ 32) && decide (s < 2 ^ 32) &&
      decide (∀ m ∈ fresh n, m.fid = s → m.setsField 6 = false) &&
      (match getFname n.names.db n.names.txn p.name with
        | .ok (some q) => decide (s = q.fid)
        | _ => true)
  | .finish v => decide (5 ≤ v.num) &&
      decide (∀ x ∈ n.deleted, ∀ m ∈ fresh n, m.fid = x.fid → m.setsField (ProfileNode.fieldOf (e.protocol x)) = false) &&
      decide ((n.atEnd e v).1 = .ok ())
  | .other _ => false
  | .commit => decide (n.deleted = [])
  | .drop | .block _ => true

def allFine : ProfileNode → List ProfileOp → Bool
  | _, [] => true
  | n, o :: ops => fine n o && allFine (n.exec e o) ops

theorem profile_valid : ∀ m ∈ [setName, setEth, setSol], StoreKind.userData.Valid m := by
  intro m hm
  simp only [List.mem_cons, List.not_mem_nil, or_false] at hm
  rcases hm with rfl | rfl | rfl <;>
    exact ⟨by decide, by decide, by decide, by decide, rfl, _, _, rfl, by decide, by decide⟩

theorem verifications_valid : ∀ m ∈ [verify, verifyAgain, unverify, verifySol], StoreKind.verifications.Valid m := by
  intro m hm
  simp only [List.mem_cons, List.not_mem_nil, or_false] at hm
  rcases hm with rfl | rfl | rfl | rfl
  · exact ⟨by decide, by decide, by decide, by decide, .inl ⟨rfl, _, rfl, by decide⟩⟩
  · exact ⟨by decide, by decide, by decide, by decide, .inl ⟨rfl, _, rfl, by decide⟩⟩
  · exact ⟨by decide, by decide, by decide, by decide, .inr ⟨rfl, _, rfl, by decide⟩⟩
  · exact ⟨by decide, by decide, by decide, by decide, .inl ⟨rfl, _, rfl, by decide⟩⟩

theorem fine_ok {n : ProfileNode} {o : ProfileOp} (h : fine n o = true) :
    n.Orderly e (· ∈ msgs) o ∧ n.NamesSource o ∧ n.Reported e o := by
  cases o with
  | set p v m =>
    simp only [fine, Bool.and_eq_true, decide_eq_true_eq] at h
    refine ⟨⟨profile_valid m h.1, ?_, h.2⟩, trivial, trivial⟩
    have := h.1
    simp only [List.mem_cons, List.not_mem_nil, or_false, msgs] at this ⊢
    rcases this with h | h | h <;> simp [h]
  | verification f m =>
    simp only [fine, Bool.and_eq_true, decide_eq_true_eq] at h
    obtain ⟨⟨h1, h2⟩, h3⟩ := h
    have hu : m ∈ msgs := by
      have := h1
      simp only [List.mem_cons, List.not_mem_nil, or_false, msgs] at this ⊢
      rcases this with h | h | h | h <;> simp [h]
    refine ⟨?_, trivial, .inl ?_⟩
    · cases f with
      | false => exact ⟨verifications_valid m h1, hu⟩
      | true =>
        refine ⟨verifications_valid m h1, hu, fun x hx => h2 rfl x ?_⟩
        rcases has_cases hx with hx | hx
        · exact List.mem_append.2 (.inl hx)
        · exact List.mem_append.2 (.inr hx.2)
    · split at h3
      · exact ⟨_, by assumption⟩
      · cases h3
  | transfer p s =>
    simp only [fine, Bool.and_eq_true, decide_eq_true_eq] at h
    obtain ⟨⟨⟨h1, h2⟩, h3⟩, h4⟩ := h
    refine ⟨⟨h1, h2, nothingNew h3⟩, ?_, trivial⟩
    intro q hq _ _ _
    rw [hq] at h4
    exact of_decide_eq_true h4
  | finish v =>
    simp only [fine, Bool.and_eq_true, decide_eq_true_eq] at h
    exact ⟨⟨h.1.1, fun x hx => nothingNew (h.1.2 x hx)⟩, trivial, h.2⟩
  | other o => cases h
  | commit => exact ⟨trivial, trivial, of_decide_eq_true (p := n.deleted = []) h⟩
  | drop => exact ⟨trivial, trivial, trivial⟩
  | block k => exact ⟨trivial, trivial, trivial⟩

theorem allFine_ok : ∀ (ops : List ProfileOp) (n : ProfileNode), allFine n ops = true →
    Along e (fun n o => n.Orderly e (· ∈ msgs) o) n ops ∧ Along e (fun n o => n.NamesSource o) n ops ∧
      Along e (fun n o => n.Reported e o) n ops
  | [], _, _ => ⟨trivial, trivial, trivial⟩
  | o :: ops, n, h => by
    simp only [allFine, Bool.and_eq_true] at h
    obtain ⟨a, b, c⟩ := fine_ok h.1
    obtain ⟨a', b', c'⟩ := allFine_ok ops _ h.2
    exact ⟨⟨a, a'⟩, ⟨b, b'⟩, ⟨c, c'⟩⟩

end Case87

open Case87

/-- The theorems cover this history. -/
example : ChannelNaming e.channelOf ∧ HashesIdentify (· ∈ msgs) ∧ (∀ s a, e.lib.solAddress s = some a → e.solText a = s) ∧
    Along e (fun n o => n.Orderly e (· ∈ msgs) o) {} (setUp ++ lose) ∧
    Along e (fun n o => n.NamesSource o) {} (setUp ++ lose) ∧ Along e (fun n o => n.Reported e o) {} (setUp ++ lose) := by
  refine ⟨Case.noChannels_naming, hashes, ?_, allFine_ok _ _ (by decide +kernel)⟩
  intro s a h
  simp only [e] at h ⊢
  split at h
  · next hs => exact hs.symm
  · cases h

/-- It shows something: the user has a username and two primary addresses, then loses the username with the name and one
address with its verification. -/
example : profile (after setUp) = [setName, setEth, setSol] ∧ profile (after (setUp ++ lose)) = [setSol] := by decide +kernel

/-- Messages naming someone else's name, an unverified address or an address verified for the other protocol are refused. -/
example : (after setUp).accepts e false .v21 { setName with fid := 9 } = false ∧
    (after setUp).accepts e false .v21 { setName with body := .userData 6 cd } = false ∧
    (after setUp).accepts e false .v21 { setEth with fid := 9 } = false ∧
    ((after setUp).accepts { e with protocol := fun _ => 1 } false .v21 setEth = false) ∧
    (after (setUp ++ lose)).accepts e false .v21 setEth = false ∧
    (after setUp).accepts e false .v21 setEth = true := by decide +kernel

/-! ### What is not covered -/

/-- The revocation reads the committed database: a username set earlier in the same batch survives the transfer of the
name, and is committed. -/
theorem C87_same_batch_username_stays :
    let n := after [.transfer give 0, .set false .v21 setName, .transfer take 7, .finish .v21, .commit]
    n.Shows 7 6 ab ∧ ¬ n.OwnsName 7 ab ∧ n.OwnsName 8 ab := by
  refine ⟨⟨setName, by unfold StoreState.Has; decide +kernel, rfl, rfl⟩, ?_, ⟨take, by decide +kernel, rfl⟩⟩
  intro ⟨q, hq, hf⟩
  have : getFname (after [.transfer give 0, .set false .v21 setName, .transfer take 7, .finish .v21, .commit]).names.db
    (after [.transfer give 0, .set false .v21 setName, .transfer take 7, .finish .v21, .commit]).names.txn ab = .ok (some take) := by
    decide +kernel
  rw [this] at hq
  cases hq
  cases hf

/-- Whichever name is taken from a user, the username they show goes: here `ab` goes when `cd` is taken, though `ab` is
theirs still. -/
theorem C87_other_username_revoked :
    let n := after (setUp ++ [.transfer give2 0, .commit, .transfer take2 7, .finish .v21, .commit])
    profile n = [setEth, setSol] ∧ n.OwnsName 7 ab := by
  exact ⟨by decide +kernel, give, by decide +kernel, rfl⟩

/-- A transfer the registry refuses (here because it is a repetition of an older one) revokes the username as well. -/
theorem C87_refused_transfer_revokes :
    let n := after setUp
    (mergeFname n.names give).1 = .error .duplicate ∧ profile (n.run e [.transfer give 7, .finish .v21, .commit]) = [setEth, setSol] ∧
    (n.run e [.transfer give 7, .finish .v21, .commit]).OwnsName 7 ab :=
  ⟨by decide +kernel, by decide +kernel, give, by decide +kernel, rfl⟩

/-- Verifying the same address again revokes it as primary address, though it is verified throughout. -/
theorem C87_reverification_revokes :
    let n := after (setUp ++ [.verification false verifyAgain, .finish .v21, .commit])
    profile n = [setName, setSol] ∧ n.Verified e 7 0 addr :=
  ⟨by decide +kernel, verifyAgain, by unfold StoreState.Has; decide +kernel, rfl, rfl, rfl⟩

/-- A verification that goes because its key was removed, or because the user is over their storage limit, leaves the
primary address in place. -/
theorem C87_revoked_verification_leaves_address :
    let n := after (setUp ++ [.other (.call .verifications (.revokeSigner 7 [1])), .finish .v21, .commit])
    let n' := after (setUp ++ [.other (.call .verifications (.prune 7 2 1)), .finish .v21, .commit])
    profile n = [setName, setEth, setSol] ∧ storedMessages verificationStore n.store.db 7 = [verifySol] ∧
    profile n' = [setName, setEth, setSol] ∧ storedMessages verificationStore n'.store.db 7 = [verifySol] := by decide +kernel

/-- An address set as primary and removed as verification within one batch stays primary. -/
theorem C87_same_batch_address_stays :
    let n := after [.verification false verify, .set false .v21 setEth, .verification false unverify, .finish .v21, .commit]
    profile n = [setEth] ∧ storedMessages verificationStore n.store.db 7 = [unverify] := by decide +kernel

/-- When the block's event numbers have run out, the first address goes without an event (so the trie keeps it) and the
second stays though its verification has gone; the error is only logged. -/
theorem C87_no_event_numbers :
    let unverifySol : Msg := ⟨7, .verificationRemove, 140, Case.h20 8, [1], .verificationRemove sol⟩
    let n := after (setUp ++ [.block 1, .verification false unverify, .verification false unverifySol])
    let low : ProfileNode := { n with store := { n.store with pend := { n.store.pend with gen := ⟨1, 16384⟩ } } }
    (low.atEnd e .v21).1 = .error .invalidParameter ∧ profile (low.run e [.finish .v21, .commit]) = [setName, setSol] ∧
    storedMessages verificationStore (low.run e [.finish .v21, .commit]).store.db 7 = [unverify, unverifySol] ∧
    profile (n.run e [.finish .v21, .commit]) = [setName] := by decide +kernel

end Verif
