import Verif.Lemmas.Migrations
import Verif.Props.C17
/-!
C80: upgrading a database.  The index of verifications by address used to hold one row per address; the
migration replaces it by one row per address and user while the node keeps merging messages.
-/
namespace Verif

/-- A shard that starts with a database of the old kind: `before` is what had been stored, `db` the database
the old code left. -/
def upgraded (ctx : Nat → MergeCtx) (before : List StoreOp) (db : Db SVal) (reg : Db OVal) (version : Nat) : Mig :=
  { live := ⟨db, (({} : StoreState).run verificationStore ctx before).pend⟩, reg := reg, version := version }

/-- The assumptions on an upgrade.  Message hashes identify messages, addresses have 20 or 32 bytes, the engine's
calls are those C11 covers, the old database differs from one the new code would have written in the index
only, users with stored verifications are registered, and registrations arrive as the chain emits them. -/
structure UpgradeOK (ctx : Nat → MergeCtx) (U : Msg → Prop) (before : List StoreOp) (db : Db SVal) (reg : Db OVal)
    (version : Nat) (ops : List MigOp) : Prop where
  hashes : HashesIdentify U
  lengths : AddressLengths U
  calls : StoreKind.verifications.ProperRun (fun _ => none) ctx U {} (before ++ MigOp.calls ops)
  old : OldIndex db (({} : StoreState).run verificationStore ctx before).db
  registry : RegistryOK reg
  registered : ∀ m, (({} : StoreState).run verificationStore ctx before).db.get
    (makeMessagePrimaryKey m.fid 4 (some m.tsHash)) = some (.msg m) → Registered reg m.fid
  chain : ChainRun ctx (upgraded ctx before db reg version) ops
  version : version < 2

theorem properRun_append {kind : StoreKind} {ch : Bytes → Option Bytes} {ctx : Nat → MergeCtx} {U : Msg → Prop} :
    ∀ (l l' : List StoreOp) (st : StoreState), kind.ProperRun ch ctx U st (l ++ l') ↔
      kind.ProperRun ch ctx U st l ∧ kind.ProperRun ch ctx U (st.run (kind.store ch) ctx l) l'
  | [], l', st => by simp [StoreKind.ProperRun, StoreState.run]
  | o :: l, l', st => by
    have := properRun_append (kind := kind) (ch := ch) (ctx := ctx) (U := U) l l' (st.exec (kind.store ch) ctx o)
    simp only [List.cons_append, StoreKind.ProperRun, StoreState.run, List.foldl_cons, and_assoc] at this ⊢
    rw [this]

theorem upgrade_inv {ctx : Nat → MergeCtx} {U : Msg → Prop} {before : List StoreOp} {db : Db SVal} {reg : Db OVal}
    {version : Nat} {ops : List MigOp} (h : UpgradeOK ctx U before db reg version ops) :
    MigInv ctx U ((upgraded ctx before db reg version).run ctx ops)
      (({} : StoreState).run verificationStore ctx (before ++ MigOp.calls ops)) := by
  have hp := (properRun_append before _ _).1 h.calls
  obtain ⟨L0, L, hinv⟩ := kind_run .verifications noNaming h.hashes before (kind_init .verifications) hp.1
  have h0 := mig_init h.hashes h.lengths hinv h.old h.registry h.registered h.version
  have := mig_run h.hashes h.lengths ops h0 h.chain hp.2
  unfold StoreState.run at this ⊢
  rw [List.foldl_append]
  exact this

/-- **C80.** Once the schema version says the migration is done, the database and the pending batch are the ones
a node running the new code from the beginning would have, whatever the engine did meanwhile and wherever the
process stopped or the task failed. -/
theorem C80_migrated (ctx : Nat → MergeCtx) (U : Msg → Prop) (before : List StoreOp) (db : Db SVal) (reg : Db OVal)
    (version : Nat) (ops : List MigOp) (h : UpgradeOK ctx U before db reg version ops)
    (hv : ((upgraded ctx before db reg version).run ctx ops).version = 2) :
    ((upgraded ctx before db reg version).run ctx ops).live =
      ({} : StoreState).run verificationStore ctx (before ++ MigOp.calls ops) :=
  (upgrade_inv h).done h.hashes h.lengths hv

/-- **C80.** So from then on the users found for an address are exactly those with a stored verification of it. -/
theorem C80_lookups (ctx : Nat → MergeCtx) (U : Msg → Prop) (before : List StoreOp) (db : Db SVal) (reg : Db OVal)
    (version : Nat) (ops : List MigOp) (h : UpgradeOK ctx U before db reg version ops)
    (hv : ((upgraded ctx before db reg version).run ctx ops).version = 2) (address : Bytes) (ha : address ≠ []) :
    let st := ((upgraded ctx before db reg version).run ctx ops).live
    ∃ cs, verificationsByAddress st.db (some st.pend.txn) address = .ok cs ∧
      ∀ f th, (f, th) ∈ cs ↔ ∃ m, U m ∧ StoreKind.verifications.Valid m ∧ st.Has verificationStore m ∧
        m.body = .verificationAdd address ∧ m.fid = f ∧ m.tsHash = th := by
  intro st
  have e : st = ({} : StoreState).run verificationStore ctx (before ++ MigOp.calls ops) :=
    C80_migrated ctx U before db reg version ops h hv
  rw [e]
  exact C17_candidates ctx U h.hashes _ h.calls address ha

/-- **C80.** At every moment, migrated or not, the migration has changed nothing outside the index, has not
touched the pending batch, and has put no wrong row into the index: what is not a slot of the old kind is a row
the new code would have there. -/
theorem C80_nothing_else_changes (ctx : Nat → MergeCtx) (U : Msg → Prop) (before : List StoreOp) (db : Db SVal)
    (reg : Db OVal) (version : Nat) (ops : List MigOp) (h : UpgradeOK ctx U before db reg version ops) :
    let st := ((upgraded ctx before db reg version).run ctx ops).live
    let new := ({} : StoreState).run verificationStore ctx (before ++ MigOp.calls ops)
    st.pend = new.pend ∧ (∀ k, k.head? ≠ some 14 → st.db.get k = new.db.get k) ∧
      ∀ k v, k.head? = some 14 → st.db.get k = some v → LegacySlot k v ∨ new.db.get k = some v := by
  intro st new
  have := upgrade_inv h
  exact ⟨this.pend, this.off, this.idx⟩

/-- **C80.** A finished migration stays finished. -/
theorem C80_version_stays (ctx : Nat → MergeCtx) (U : Msg → Prop) (before : List StoreOp) (db : Db SVal) (reg : Db OVal)
    (version : Nat) (ops : List MigOp) (h : UpgradeOK ctx U before db reg version ops)
    (hv : ((upgraded ctx before db reg version).run ctx ops).version = 2) (more : List MigOp) :
    ((upgraded ctx before db reg version).run ctx (ops ++ more)).version = 2 := by
  have hpc := (upgrade_inv h).pcOK.2.1 hv
  have key : ∀ (more : List MigOp) (s : Mig), s.version = 2 → s.pc = .off → (s.run ctx more).version = 2 := by
    intro more
    induction more with
    | nil => intro s h1 _; exact h1
    | cons o more ih =>
      intro s h1 h2
      refine ih (s.exec ctx o) ?_ ?_
      · cases o with
        | step => simp only [Mig.exec, Mig.step, h2]; exact h1
        | crash => simp only [Mig.exec, Mig.boot, h1]; simp [h1]
        | _ => exact h1
      · cases o with
        | step => simp only [Mig.exec, Mig.step, h2]
        | crash => simp only [Mig.exec, Mig.boot, h1]; simp
        | fail => rfl
        | _ => exact h2
  have := key more _ hv hpc
  unfold Mig.run at this ⊢
  rw [List.foldl_append]
  exact this

/-- **C80.** The migration finishes: after any history, a restarted shard whose task is left to run reaches the
new version. -/
theorem C80_completes (ctx : Nat → MergeCtx) (U : Msg → Prop) (before : List StoreOp) (db : Db SVal) (reg : Db OVal)
    (version : Nat) (ops : List MigOp) (h : UpgradeOK ctx U before db reg version ops) :
    ∃ n, ((upgraded ctx before db reg version).run ctx (ops ++ .crash :: List.replicate n .step)).version = 2 := by
  have hi := upgrade_inv h
  obtain ⟨L0, L, hinv⟩ := hi.inv
  have hi' := boot_inv (live_inv h.hashes h.lengths hi (o := .drop) trivial)
  have hrun : ∀ n, (upgraded ctx before db reg version).run ctx (ops ++ .crash :: List.replicate n .step) =
      (((upgraded ctx before db reg version).run ctx ops).exec ctx .crash).run ctx (List.replicate n .step) := by
    intro n
    unfold Mig.run
    rw [List.foldl_append, List.foldl_cons]
  by_cases hv : ((upgraded ctx before db reg version).run ctx ops).version = 2
  · refine ⟨0, ?_⟩
    rw [hrun]
    show (Mig.exec ctx _ MigOp.crash).version = 2
    simp only [Mig.exec, Mig.boot, hv]; simp [hv]
  · have hle := hi.pcOK.1
    obtain ⟨n, hn⟩ := completes_of_inv hi' (by
      show (Mig.boot _).pc ≠ .off
      unfold Mig.boot
      rw [if_neg (by show ¬ (2 ≤ Mig.version _); show ¬ (2 ≤ ((upgraded ctx before db reg version).run ctx ops).version); omega)]
      split <;> simp)
    exact ⟨n, by rw [hrun]; exact hn⟩

/-! ### Non-vacuity -/

/-- A database without its index of verifications by address. -/
def withoutIndex (db : Db SVal) : Db SVal :=
  ⟨db.rows.filter (fun r => r.1.head? ≠ some 14), List.Pairwise.filter _ db.sorted⟩

theorem get_withoutIndex (db : Db SVal) (k : Bytes) :
    (withoutIndex db).get k = if k.head? = some 14 then none else db.get k := by
  apply Option.ext
  intro v
  rw [OMap.get_eq_some_iff]
  show (k, v) ∈ db.rows.filter (fun r => r.1.head? ≠ some 14) ↔ _
  rw [List.mem_filter, ← OMap.get_eq_some_iff]
  by_cases h : k.head? = some 14 <;> simp [h]

/-- The old code's database: its index has one slot. -/
theorem oldIndex_slot (db : Db SVal) (a : Bytes) (f : Nat) (ha : a.length = 20 ∨ a.length = 32) :
    OldIndex ((withoutIndex db).put (14 :: a) (.raw (makeFidKey f))) db := by
  constructor
  · intro k hk
    rw [OMap.get_put, if_neg (by rintro rfl; exact hk rfl), get_withoutIndex, if_neg hk]
  · intro k v hk hg
    rw [OMap.get_put] at hg
    by_cases h : k = 14 :: a
    · rw [if_pos h] at hg; cases hg; exact ⟨a, f, ha, h, rfl⟩
    · rw [if_neg h, get_withoutIndex, if_pos hk] at hg; cases hg

def addr80 : Bytes := Case.h20 170
def verify80 (fid ts : Nat) (h : UInt8) : Msg := ⟨fid, .verificationAdd, ts, Case.h20 h, [1], .verificationAdd addr80⟩
def unverify80 : Msg := ⟨7, .verificationRemove, 150, Case.h20 5, [1], .verificationRemove addr80⟩
def msgs80 : List Msg := [verify80 7 100 1, verify80 8 120 2, verify80 9 160 3, unverify80]
def register80 (fid block : Nat) : OEvent := ⟨3, fid, block, 0, 0, 5, .idRegister [1] .register⟩
def before80 : List StoreOp := [.merge (verify80 7 100 1), .merge (verify80 8 120 2), .commit]
def old80 : StoreState := ({} : StoreState).run verificationStore Case.allOn before80
def db80 : Db SVal := (withoutIndex old80.db).put (14 :: addr80) (.raw (makeFidKey 8))
def reg80 : Db OVal :=
  ((OMap.empty : Db OVal).put (oPrimaryKey (register80 7 10)) (.event (register80 7 10))).put
    (oPrimaryKey (register80 8 11)) (.event (register80 8 11))
/-- User 7 removes their verification between the scan of their addresses and the transaction for the address;
user 9 registers and verifies meanwhile; then the process stops and starts over. -/
def ops80 : List MigOp :=
  [.crash, .step, .step, .step, .live (.merge unverify80), .live .commit, .step, .chain (register80 9 12),
    .live (.merge (verify80 9 160 3)), .live .commit, .step, .crash] ++ List.replicate 16 .step

theorem idEvent80 (f b : Nat) (h0 : 0 < f) (h1 : f < 2 ^ 32 - 1) (h2 : b < 2 ^ 32) : (register80 f b).IdEvent :=
  ⟨rfl, h0, h1, h2, by show 0 < 2 ^ 32; decide⟩

theorem reg80_mem {k : Bytes} {v : OVal} (h : reg80.get k = some v) :
    ∃ f b, (register80 f b).IdEvent ∧ k = oPrimaryKey (register80 f b) ∧ v = .event (register80 f b) := by
  unfold reg80 at h
  rw [OMap.get_put] at h
  split at h
  · rename_i e; cases h; exact ⟨8, 11, idEvent80 _ _ (by decide) (by decide) (by decide), e, rfl⟩
  · rw [OMap.get_put] at h
    split at h
    · rename_i e; cases h; exact ⟨7, 10, idEvent80 _ _ (by decide) (by decide) (by decide), e, rfl⟩
    · simp at h

theorem upgrade80 : UpgradeOK Case.allOn (· ∈ msgs80) before80 db80 reg80 0 ops80 where
  hashes := by
    have h : ∀ a ∈ msgs80, ∀ b ∈ msgs80, a.fid = b.fid → a.ts = b.ts → a.hash = b.hash → a = b := by decide +kernel
    exact fun a b ha hb => h a ha b hb
  lengths := by
    intro m a hm hb
    simp only [msgs80, List.mem_cons, List.not_mem_nil, or_false] at hm
    rcases hm with rfl | rfl | rfl | rfl <;> cases hb <;> exact .inl rfl
  calls := by
    have hv : ∀ f t h, 0 < f → f < 2 ^ 32 → t < 2 ^ 32 → StoreKind.verifications.Valid (verify80 f t h) :=
      fun f t h h0 h1 h2 => ⟨h0, h1, h2, by simp [verify80, Case.h20], .inl ⟨rfl, _, rfl, by decide⟩⟩
    have hu : StoreKind.verifications.Valid unverify80 :=
      ⟨by decide, by decide, by decide, by decide, .inr ⟨rfl, _, rfl, by decide⟩⟩
    have e : before80 ++ MigOp.calls ops80 = [.merge (verify80 7 100 1), .merge (verify80 8 120 2), .commit, .drop,
        .merge unverify80, .commit, .merge (verify80 9 160 3), .commit, .drop] := by decide +kernel
    rw [e]
    exact ⟨⟨hv _ _ _ (by decide) (by decide) (by decide), by decide +kernel⟩,
      ⟨hv _ _ _ (by decide) (by decide) (by decide), by decide +kernel⟩, trivial, trivial, ⟨hu, by decide +kernel⟩, trivial,
      ⟨hv _ _ _ (by decide) (by decide) (by decide), by decide +kernel⟩, trivial, trivial, trivial⟩
  old := oldIndex_slot _ _ _ (.inl rfl)
  registry := by
    refine ⟨?_, ?_⟩
    · intro k v _ hg
      obtain ⟨f, b, h1, h2, h3⟩ := reg80_mem hg
      exact ⟨_, h3, h2, h1⟩
    · intro e he hg
      obtain ⟨f, b, h1, h2, h3⟩ := reg80_mem hg
      cases h3
      exact ⟨_, [1], h1, hg, rfl, rfl, .inr ⟨rfl, Nat.le_refl _⟩⟩
  registered := by
    intro m hm
    have hrows : ∀ r ∈ (({} : StoreState).run verificationStore Case.allOn before80).db.rows,
        ∀ x, r.2 = .msg x → x = verify80 7 100 1 ∨ x = verify80 8 120 2 := by
      have : ∀ r ∈ (({} : StoreState).run verificationStore Case.allOn before80).db.rows,
          r.2 = .msg (verify80 7 100 1) ∨ r.2 = .msg (verify80 8 120 2) ∨ SVal.decodeMsg r.2 = none := by decide +kernel
      intro r hr x hx
      rcases this r hr with h | h | h <;> rw [hx] at h
      · cases h; exact .inl rfl
      · cases h; exact .inr rfl
      · cases h
    rcases hrows _ ((OMap.get_eq_some_iff _).1 hm) m rfl with rfl | rfl
    · exact ⟨register80 7 10, [1], by decide +kernel, rfl, rfl, rfl⟩
    · exact ⟨register80 8 11, [1], by decide +kernel, rfl, rfl, rfl⟩
  chain := by
    have hq : ∀ (l : List MigOp) (s : Mig), (∀ o ∈ l, ∀ e, o ≠ .chain e) → ChainRun Case.allOn s l := by
      intro l
      induction l with
      | nil => intro s _; trivial
      | cons o l ih =>
        intro s h
        refine ⟨?_, ih _ (fun o' h' => h o' (by simp [h']))⟩
        cases o with
        | chain e => exact absurd rfl (h _ (by simp) e)
        | _ => trivial
    refine ⟨trivial, trivial, trivial, trivial, trivial, trivial, trivial, ?_, hq _ _ ?_⟩
    · exact ⟨idEvent80 _ _ (by decide) (by decide) (by decide), by decide +kernel, .inl ⟨[1], rfl⟩⟩
    · intro o ho e
      have ho : o ∈ [MigOp.live (.merge (verify80 9 160 3)), .live .commit, .step, .crash] ++ List.replicate 16 .step := ho
      simp only [List.nil_append, List.cons_append, List.mem_cons, List.mem_replicate] at ho
      rcases ho with rfl | rfl | rfl | rfl | ⟨_, rfl⟩ <;> simp
  version := by decide

/-- The history ends with the new version; users 8 and 9 are found for the address, user 7 is not, and the old
slot is gone.  Before, the database of the old code found nobody. -/
example :
    let s := (upgraded Case.allOn before80 db80 reg80 0).run Case.allOn ops80
    s.version = 2 ∧ (verificationsByAddress s.live.db none addr80).map (·.map (·.1)) = .ok [8, 9] ∧
      s.live.db.get (14 :: addr80) = none ∧
      verificationsByAddress db80 none addr80 = .ok [] ∧ db80.get (14 :: addr80) ≠ none := by decide +kernel

/-! ### Where the assumptions matter -/

/-- A hundred events of user 5, none of them a registration. -/
def transfers80 : Db OVal := (List.range 100).foldl
  (fun db i => db.put (oPrimaryKey ⟨3, 5, i, 0, 0, 5, .idRegister [1] .transfer⟩) (.event ⟨3, 5, i, 0, 0, 5, .idRegister [1] .transfer⟩))
  reg80

/-- The first event of a user must be a registration: a page of a hundred other events ends the iteration, so the
registered users 7 and 8 behind it are skipped, the old slots are deleted all the same and the version is
raised: nobody is found for the address any more. -/
theorem C80_page_without_registration_ends_the_iteration :
    let s := (upgraded Case.allOn before80 db80 transfers80 1).run Case.allOn (.crash :: List.replicate 4 .step)
    transfers80.get (oPrimaryKey (register80 8 11)) = some (.event (register80 8 11)) ∧
    FidIter.next transfers80 {} = .ok (none, {}) ∧ s.version = 2 ∧
      verificationsByAddress s.live.db none addr80 = .ok [] ∧
      old80.db.get (byAddressKey addr80 8) = some (.raw (verify80 8 120 2).tsHash) := by decide +kernel

/-- A registration row that cannot be read ends the task without raising the version or deleting a slot; the
migration is tried again at the next start. -/
theorem C80_unreadable_row_ends_the_task :
    let s := (upgraded Case.allOn before80 db80 (reg80.put (oPrimaryKey (register80 8 11)) (.raw [0])) 1).run Case.allOn
      (.crash :: List.replicate 20 .step)
    s.version = 1 ∧ s.pc = .off ∧ s.live.db.get (14 :: addr80) ≠ none := by decide +kernel

/-- While the task runs, verifications stored before the upgrade may be missing from the index. -/
theorem C80_incomplete_while_running :
    let s := (upgraded Case.allOn before80 db80 reg80 0).run Case.allOn (.crash :: List.replicate 5 .step)
    s.version = 1 ∧ (verificationsByAddress s.live.db none addr80).map (·.map (·.1)) = .ok [7] ∧
      (verificationsByAddress old80.db none addr80).map (·.map (·.1)) = .ok [7, 8] := by decide +kernel

end Verif
