import Verif.Spec.OnChain
import Verif.Lemmas.Scan
namespace Verif
open Spec

theorem pk_eq (e : OEvent) :
    oPrimaryKey e = 12 :: 1 :: UInt8.ofNat e.ty :: (makeFidKey e.fid ++ (be 4 e.block ++ be 4 e.log)) := by
  simp [oPrimaryKey, oTypePrefix]

theorem pk_length (e : OEvent) : (oPrimaryKey e).length = 15 := by simp [pk_eq, makeFidKey]

theorem ofNat_u8_inj {a b : Nat} (ha : a < 255) (hb : b < 255) (h : UInt8.ofNat a = UInt8.ofNat b) : a = b := by
  have := congrArg UInt8.toNat h
  simp only [UInt8.toNat_ofNat'] at this
  omega

theorem fidKey_inj {a b : Nat} (ha : a < 2 ^ 32) (hb : b < 2 ^ 32) (h : makeFidKey a = makeFidKey b) : a = b :=
  be_inj (w := 4) (by omega) (by omega) h

theorem pk_inj {a b : OEvent} (ha : Spec.OEvent.Fits a) (hb : Spec.OEvent.Fits b) (h : oPrimaryKey a = oPrimaryKey b) :
    SamePlace a b := by
  rw [pk_eq, pk_eq] at h
  simp only [List.cons.injEq, true_and] at h
  obtain ⟨h1, h2⟩ := h
  have h3 := List.append_inj h2 (by simp [makeFidKey])
  have h4 := List.append_inj h3.2 (by simp)
  obtain ⟨a1, a2, a3, a4⟩ := ha
  obtain ⟨b1, b2, b3, b4⟩ := hb
  exact ⟨ofNat_u8_inj a1 b1 h1, fidKey_inj a2 b2 h3.1, be_inj (w := 4) (by omega) (by omega) h4.1,
    be_inj (w := 4) (by omega) (by omega) h4.2⟩

theorem pk_of_same {a b : OEvent} (h : SamePlace a b) : oPrimaryKey a = oPrimaryKey b := by
  obtain ⟨h1, h2, h3, h4⟩ := h
  simp [pk_eq, h1, h2, h3, h4]

theorem signerKey_inj {f f' : Nat} {k k' : Bytes} (hf : f < 2 ^ 32) (hf' : f' < 2 ^ 32)
    (h : signerKey f k = signerKey f' k') : f = f' ∧ k = k' := by
  unfold signerKey at h
  simp only [List.cons.injEq, true_and] at h
  have := List.append_inj h (by simp [makeFidKey])
  exact ⟨fidKey_inj hf hf' this.1, this.2⟩

theorem byOwner_inj {o o' k k' : Bytes} (h : o.length = 20) (h' : o'.length = 20)
    (he : chanByOwnerKey o k = chanByOwnerKey o' k') : o = o' ∧ k = k' := by
  unfold chanByOwnerKey at he
  simp only [List.cons.injEq, true_and] at he
  exact List.append_inj he (by omega)

/-- The latest event of a selection, as a fold. -/
def keepNewer (sel : OEvent → Bool) (r : Option OEvent) (e : OEvent) : Option OEvent :=
  if sel e then (match r with | some o => if o.block > e.block then some o else some e | none => some e) else r

def latest (sel : OEvent → Bool) (log : List OEvent) : Option OEvent := log.foldl (keepNewer sel) none

theorem latest_append (sel log e) : latest sel (log ++ [e]) = keepNewer sel (latest sel log) e := by
  unfold latest; rw [List.foldl_append]; rfl

theorem snoc_induction {α : Type} {P : List α → Prop} (nil : P []) (snoc : ∀ l a, P l → P (l ++ [a])) (l : List α) : P l := by
  have : ∀ l : List α, P l.reverse := by
    intro l
    induction l with
    | nil => exact nil
    | cons a l ih => rw [List.reverse_cons]; exact snoc _ _ ih
  have h := this l.reverse
  rwa [List.reverse_reverse] at h

theorem latest_none {sel log} : latest sel log = none ↔ ∀ e ∈ log, sel e = false := by
  induction log using snoc_induction with
  | nil => simp [latest]
  | snoc l a ih =>
    rw [latest_append]
    unfold keepNewer
    cases ha : sel a
    · simp only [Bool.false_eq_true, if_false, ih, List.mem_append, List.mem_singleton]
      constructor
      · rintro h e (he | rfl)
        · exact h e he
        · exact ha
      · exact fun h e he => h e (Or.inl he)
    · simp only [if_true]
      constructor
      · intro h
        split at h
        · split at h <;> simp at h
        · simp at h
      · intro h
        have := h a (by simp)
        simp [ha] at this

theorem latest_some {sel log r} (h : latest sel log = some r) : LatestOf (fun e => sel e = true) log r := by
  induction log using snoc_induction generalizing r with
  | nil => simp [latest] at h
  | snoc l a ih =>
    rw [latest_append] at h
    unfold keepNewer at h
    cases ha : sel a
    · simp only [ha, Bool.false_eq_true, if_false] at h
      obtain ⟨pre, post, h1, h2, h3, h4⟩ := ih h
      refine ⟨pre, post ++ [a], by simp [h1], h2, h3, ?_⟩
      intro e he hs
      rcases List.mem_append.mp he with he | he
      · exact h4 e he hs
      · simp only [List.mem_singleton] at he; subst he; simp [ha] at hs
    · simp only [ha, if_true] at h
      cases hl : latest sel l with
      | none =>
        rw [hl] at h
        simp only [Option.some.injEq] at h
        subst h
        refine ⟨l, [], rfl, ha, ?_, by simp⟩
        intro e he hs
        have := latest_none.mp hl e he
        simp [this] at hs
      | some o =>
        rw [hl] at h
        obtain ⟨pre, post, h1, h2, h3, h4⟩ := ih hl
        simp only at h
        by_cases hb : o.block > a.block
        · rw [if_pos hb] at h
          simp only [Option.some.injEq] at h
          subst h
          refine ⟨pre, post ++ [a], by simp [h1], h2, h3, ?_⟩
          intro e he hs
          rcases List.mem_append.mp he with he | he
          · exact h4 e he hs
          · simp only [List.mem_singleton] at he; subst he; omega
        · rw [if_neg hb] at h
          simp only [Option.some.injEq] at h
          subst h
          refine ⟨l, [], rfl, ha, ?_, by simp⟩
          intro e he hs
          rw [h1] at he
          rcases List.mem_append.mp he with he | he
          · have := h3 e he hs; omega
          · rcases List.mem_cons.mp he with rfl | he
            · omega
            · have := h4 e he hs; omega

theorem latest_mem {sel log r} (h : latest sel log = some r) : r ∈ log ∧ sel r = true := by
  obtain ⟨pre, post, h1, h2, _, _⟩ := latest_some h
  exact ⟨by rw [h1]; simp, h2⟩

/-- `LatestOf` determines the event. -/
theorem LatestOf.unique {sel log r r'} (h : LatestOf sel log r) (h' : LatestOf sel log r') : r = r' := by
  obtain ⟨p, q, h1, h2, h3, h4⟩ := h
  obtain ⟨p', q', h1', h2', h3', h4'⟩ := h'
  rw [h1] at h1'
  rcases List.append_eq_append_iff.mp h1' with ⟨a, ha, hb⟩ | ⟨a, ha, hb⟩
  · cases a with
    | nil => simp only [List.nil_append, List.cons.injEq] at hb; exact hb.1
    | cons x a =>
      simp only [List.cons_append, List.cons.injEq] at hb
      have m1 : r' ∈ q := by rw [hb.2]; simp
      have m2 : r ∈ p' := by rw [ha, hb.1]; simp
      have := h4 r' m1 h2'
      have := h3' r m2 h2
      omega
  · cases a with
    | nil => simp only [List.nil_append, List.cons.injEq] at hb; exact hb.1.symm
    | cons x a =>
      simp only [List.cons_append, List.cons.injEq] at hb
      have m1 : r ∈ q' := by rw [hb.2]; simp
      have m2 : r' ∈ p := by rw [ha, hb.1]; simp
      have := h4' r m1 h2
      have := h3 r' m2 h2'
      omega

theorem LatestOf.congr {s s' : OEvent → Prop} {log r} (hs : ∀ e, s e ↔ s' e) : LatestOf s log r ↔ LatestOf s' log r := by
  unfold LatestOf; simp only [hs]

/-- Decidable selections. -/
def selId (fid : Nat) (e : OEvent) : Bool :=
  decide (e.fid = fid) && (match e.body with | .idRegister _ ty => decide (ty ≠ .changeRecovery) | _ => false)

theorem selId_iff {fid e} : selId fid e = true ↔ Registers fid e := by
  unfold selId Registers
  cases e.body <;> simp
  grind

def selSigner (fid : Nat) (key : Bytes) (e : OEvent) : Bool :=
  decide (e.fid = fid) && (match e.body with | .signer k _ _ => decide (k = key) | _ => false)

theorem selSigner_iff {fid key e} : selSigner fid key e = true ↔ AboutSigner fid key e := by
  unfold selSigner AboutSigner
  cases e.body <;> simp

/-! Channel ownership as a fold. -/

structure ChanSt where
  owner : Bytes → Option ChanOwner := fun _ => none
  label : Bytes → Option Bytes := fun _ => none

def upd {α : Type} (f : Bytes → Option α) (k : Bytes) (v : α) : Bytes → Option α := fun x => if x = k then some v else f x

def chanStep (keccak : Bytes → Bytes) (c : ChanSt) (e : OEvent) : ChanSt :=
  match e.body with
  | .channelRegister ty key label owner expiry =>
    if label.length ≠ 32 then c
    else match ty with
      | .register =>
        if owner.length ≠ 20 ∨ keccak key ≠ label then c
        else if (c.owner key).any (olderThan e) then c
        else ⟨upd c.owner key ⟨key, owner, expiry, e.block, e.tx, e.log⟩, upd c.label label key⟩
      | .renew =>
        if keccak key ≠ label then c
        else match c.owner key with
          | none => c
          | some old => if olderThan e old then c
            else ⟨upd c.owner key { old with expiry := expiry, block := e.block, tx := e.tx, log := e.log }, c.label⟩
      | .transfer =>
        if owner.length ≠ 20 then c
        else match c.label label with
          | none => c
          | some k => match c.owner k with
            | none => c
            | some old => if olderThan e old then c
              else ⟨upd c.owner k { old with owner := owner, block := e.block, tx := e.tx, log := e.log }, c.label⟩
      | .none => c
  | _ => c

def chanState (keccak : Bytes → Bytes) (log : List OEvent) : ChanSt := log.foldl (chanStep keccak) {}

theorem chanState_append (keccak log e) : chanState keccak (log ++ [e]) = chanStep keccak (chanState keccak log) e := by
  unfold chanState; rw [List.foldl_append]; rfl

structure ChanSt.Good (keccak : Bytes → Bytes) (c : ChanSt) : Prop where
  owner : ∀ k o, c.owner k = some o → o.owner.length = 20 ∧ o.key = k
  label : ∀ l k, c.label l = some k → keccak k = l ∧ (c.owner k).isSome
  named : ∀ k, (c.owner k).isSome → c.label (keccak k) ≠ none

theorem chanStep_good {keccak c} (h : ChanSt.Good keccak c) (e) : ChanSt.Good keccak (chanStep keccak c e) := by
  unfold chanStep
  split
  · rename_i ty key label owner expiry _
    by_cases hl : label.length ≠ 32
    · simpa [hl] using h
    · simp only [hl, if_false]
      cases ty with
      | none => exact h
      | register =>
        simp only
        by_cases h1 : owner.length ≠ 20 ∨ keccak key ≠ label
        · simpa [h1] using h
        · simp only [h1, if_false]
          by_cases h2 : (c.owner key).any (olderThan e) = true
          · simpa [h2] using h
          · simp only [h2]
            have h1' : owner.length = 20 ∧ keccak key = label := by
              constructor
              · exact Classical.byContradiction fun hc => h1 (Or.inl hc)
              · exact Classical.byContradiction fun hc => h1 (Or.inr hc)
            refine ⟨?_, ?_, ?_⟩
            · intro k o ho
              simp only [upd, Bool.false_eq_true, if_false] at ho
              split at ho
              · simp only [Option.some.injEq] at ho; subst ho; subst_vars; exact ⟨h1'.1, rfl⟩
              · exact h.owner k o ho
            · intro l k hk
              simp only [upd, Bool.false_eq_true, if_false] at hk ⊢
              split at hk
              · simp only [Option.some.injEq] at hk; subst hk; subst_vars; exact ⟨h1'.2, by simp⟩
              · obtain ⟨a, b⟩ := h.label l k hk
                exact ⟨a, by split <;> simp [b]⟩
            · intro k hk
              simp only [upd, Bool.false_eq_true, if_false] at hk ⊢
              split
              · simp
              · rename_i hne
                split at hk
                · rename_i hkk; subst hkk; exact absurd h1'.2 hne
                · exact h.named k hk
      | renew =>
        simp only
        by_cases h1 : keccak key ≠ label
        · simpa [h1] using h
        · simp only [h1, if_false]
          cases ho : c.owner key with
          | none => exact h
          | some old =>
            simp only
            split
            · exact h
            · refine ⟨?_, ?_, ?_⟩
              · intro k o hk
                simp only [upd] at hk
                split at hk
                · simp only [Option.some.injEq] at hk; subst hk; subst_vars; exact h.owner _ old ho
                · exact h.owner k o hk
              · intro l k hk
                obtain ⟨a, b⟩ := h.label l k hk
                exact ⟨a, by simp only [upd]; split <;> simp [b]⟩
              · intro k hk
                simp only [upd] at hk
                split at hk
                · subst_vars; exact h.named _ (by simp [ho])
                · exact h.named k hk
      | transfer =>
        simp only
        by_cases h1 : owner.length ≠ 20
        · simpa [h1] using h
        · simp only [h1, if_false]
          cases hlk : c.label label with
          | none => exact h
          | some key =>
          simp only
          cases ho : c.owner key with
          | none => exact h
          | some old =>
            simp only
            split
            · exact h
            · refine ⟨?_, ?_, ?_⟩
              · intro k o hk
                simp only [upd] at hk
                split at hk
                · simp only [Option.some.injEq] at hk; subst hk; subst_vars
                  exact ⟨Classical.byContradiction fun hc => h1 hc, (h.owner _ old ho).2⟩
                · exact h.owner k o hk
              · intro l k hk
                obtain ⟨a, b⟩ := h.label l k hk
                exact ⟨a, by simp only [upd]; split <;> simp [b]⟩
              · intro k hk
                simp only [upd] at hk
                split at hk
                · subst_vars; exact h.named _ (by simp [ho])
                · exact h.named k hk
  · exact h

theorem chanState_good (keccak log) : ChanSt.Good keccak (chanState keccak log) := by
  induction log using snoc_induction with
  | nil => exact ⟨by simp [chanState], by simp [chanState], by simp [chanState]⟩
  | snoc l a ih => rw [chanState_append]; exact chanStep_good ih a

end Verif
