import Verif.Lemmas.OnChain
namespace Verif
open Spec

/-- What the rows say, given the accepted events. -/
structure ViewOk (keccak : Bytes → Bytes) (g : Bytes → Option OVal) (log : List OEvent) : Prop where
  prim : ∀ k v, g (12 :: 1 :: k) = some v ↔ ∃ e ∈ log, 12 :: 1 :: k = oPrimaryKey e ∧ v = .event e
  shape : ∀ k v, g k = some v → ∃ b r, k = 12 :: b :: r ∧ b.toNat ≤ 57 ∧ (b = 57 → 20 ≤ r.length)
  id : ∀ fid, fid < 2 ^ 32 → g (idRegisterKey fid) = (latest (selId fid) log).map (fun e => .raw (oPrimaryKey e))
  signer : ∀ fid key, fid < 2 ^ 32 → ∀ v, g (signerKey fid key) = some v →
    ∃ e ∈ log, AboutSigner fid key e ∧ v = .raw (oPrimaryKey e)
  signerExact : ∀ fid key, fid < 2 ^ 32 → (∀ e ∈ log, ¬ Resets fid key e) →
    g (signerKey fid key) = (latest (selSigner fid key) log).map (fun e => .raw (oPrimaryKey e))
  owner : ∀ key, g (chanOwnerKey key) = ((chanState keccak log).owner key).map .owner
  label : ∀ l, g (chanLabelKey l) = ((chanState keccak log).label l).map .raw
  byOwner : ∀ o key, o.length = 20 → g (chanByOwnerKey o key) =
    if ((chanState keccak log).owner key).any (fun x => x.owner = o) then some (.raw [1]) else none

/-- Events that fit, at different places. -/
structure LogOk (log : List OEvent) : Prop where
  fits : ∀ e ∈ log, Spec.OEvent.Fits e
  apart : log.Pairwise (fun a b => ¬ SamePlace a b)

theorem viewOk_nil (keccak) : ViewOk keccak (fun _ => none) [] := by
  constructor <;> simp [latest, chanState]

/-- The rows as a function. -/
def look (db : Db OVal) (t : Txn OVal) : Bytes → Option OVal := getFromDbOrTxn db t

def over (g : Bytes → Option OVal) (k : Bytes) (v : OVal) : Bytes → Option OVal := fun j => if j = k then some v else g j

theorem look_put (db t k v) : look db (t.stagePut k v) = over (look db t) k v := by
  funext j; exact getFromDbOrTxn_stagePut db t k j v

theorem look_del (db t k) : look db (t.stageDel k) = fun j => if j = k then none else look db t j := by
  funext j; exact getFromDbOrTxn_stageDel db t k j

theorem over_self (g k v) : over g k v k = some v := by simp [over]

theorem over_ne {g k v j} (h : j ≠ k) : over g k v j = g j := by simp [over, h]

section
variable {keccak : Bytes → Bytes} {g : Bytes → Option OVal} {log : List OEvent}

/-- Reading an event through an index row. -/
theorem ViewOk.event (h : ViewOk keccak g log) (hl : LogOk log) {e : OEvent} (he : e ∈ log) :
    g (oPrimaryKey e) = some (.event e) := by
  have := (h.prim (UInt8.ofNat e.ty :: (makeFidKey e.fid ++ (be 4 e.block ++ be 4 e.log))) (.event e)).mpr
    ⟨e, he, (pk_eq e).symm, rfl⟩
  rwa [← pk_eq] at this

theorem apart_eq {log : List OEvent} (hl : LogOk log) {a b : OEvent} (ha : a ∈ log) (hb : b ∈ log)
    (h : oPrimaryKey a = oPrimaryKey b) : a = b := by
  have hp := pk_inj (hl.fits a ha) (hl.fits b hb) h
  have hpw := hl.apart
  clear hl
  induction log with
  | nil => simp at ha
  | cons x l ih =>
    obtain ⟨h1, h2⟩ := List.pairwise_cons.mp hpw
    rcases List.mem_cons.mp ha with ha' | ha' <;> rcases List.mem_cons.mp hb with hb' | hb'
    · rw [ha', hb']
    · exact absurd hp (ha' ▸ h1 b hb')
    · exact absurd ⟨hp.1.symm, hp.2.1.symm, hp.2.2.1.symm, hp.2.2.2.symm⟩ (hb' ▸ h1 a ha')
    · exact ih ha' hb' h2

/-- A merge is a duplicate exactly when an accepted event has its place. -/
theorem ViewOk.dup (h : ViewOk keccak g log) (hl : LogOk log) {e : OEvent} (he : Spec.OEvent.Fits e) :
    (g (oPrimaryKey e)).isSome = true ↔ ∃ x ∈ log, SamePlace x e := by
  rw [Option.isSome_iff_exists]
  constructor
  · rintro ⟨v, hv⟩
    rw [pk_eq] at hv
    obtain ⟨x, hx, hk, _⟩ := (h.prim _ _).mp hv
    rw [← pk_eq] at hk
    exact ⟨x, hx, pk_inj (hl.fits x hx) he hk.symm⟩
  · rintro ⟨x, hx, hp⟩
    exact ⟨_, by rw [← pk_of_same hp]; exact h.event hl hx⟩

end

theorem eventBySecondaryKey_none {db t k} (h : look db t k = none) : eventBySecondaryKey db t k = .ok none := by
  unfold eventBySecondaryKey; unfold look at h; rw [h]

theorem eventBySecondaryKey_some {db t k e} (h : look db t k = some (.raw (oPrimaryKey e)))
    (h2 : look db t (oPrimaryKey e) = some (.event e)) : eventBySecondaryKey db t k = .ok (some e) := by
  unfold eventBySecondaryKey; unfold look at h h2; rw [h]; simp only []; rw [h2]

/-- Adding an event row alone, when none of the indices changes. -/
theorem ViewOk.add {keccak g log} (h : ViewOk keccak g log) {e : OEvent}
    (hid : ∀ fid, selId fid e = false) (hsig : ∀ fid key, selSigner fid key e = false)
    (hch : chanStep keccak (chanState keccak log) e = chanState keccak log)
    (hnew : ∀ x ∈ log, oPrimaryKey x ≠ oPrimaryKey e) :
    ViewOk keccak (over g (oPrimaryKey e) (.event e)) (log ++ [e]) := by
  have hne : ∀ b r, b ≠ (1 : UInt8) → over g (oPrimaryKey e) (.event e) (12 :: b :: r) = g (12 :: b :: r) := by
    intro b r hb
    apply over_ne
    rw [pk_eq]
    intro hc
    simp only [List.cons.injEq, true_and] at hc
    exact hb hc.1
  constructor
  · intro k v
    unfold over
    by_cases hk : 12 :: 1 :: k = oPrimaryKey e
    · rw [if_pos hk]
      constructor
      · intro hv
        exact ⟨e, by simp, hk, (Option.some.inj hv).symm⟩
      · rintro ⟨x, hx, hxk, rfl⟩
        rcases List.mem_append.mp hx with hx | hx
        · exact absurd (hxk.symm.trans hk) (hnew x hx)
        · simp only [List.mem_singleton] at hx; rw [hx]
    · rw [if_neg hk, h.prim]
      constructor
      · rintro ⟨x, hx, hxk, hv⟩; exact ⟨x, by simp [hx], hxk, hv⟩
      · rintro ⟨x, hx, hxk, hv⟩
        rcases List.mem_append.mp hx with hx | hx
        · exact ⟨x, hx, hxk, hv⟩
        · simp only [List.mem_singleton] at hx; exact absurd (hx ▸ hxk) hk
  · intro k v hv
    unfold over at hv
    split at hv
    · rename_i hk; rw [hk, pk_eq]; exact ⟨1, _, rfl, by decide, by simp⟩
    · exact h.shape k v hv
  · intro fid hf
    rw [idRegisterKey, hne _ _ (by decide), latest_append]
    unfold keepNewer
    rw [hid]
    exact h.id fid hf
  · intro fid key hf v hv
    rw [signerKey, hne _ _ (by decide)] at hv
    obtain ⟨x, hx, hs, hv⟩ := h.signer fid key hf v hv
    exact ⟨x, by simp [hx], hs, hv⟩
  · intro fid key hf hr
    rw [signerKey, hne _ _ (by decide), latest_append]
    unfold keepNewer
    rw [hsig]
    exact h.signerExact fid key hf (fun x hx => hr x (by simp [hx]))
  · intro key; rw [chanOwnerKey, hne _ _ (by decide), chanState_append, hch]; exact h.owner key
  · intro l; rw [chanLabelKey, hne _ _ (by decide), chanState_append, hch]; exact h.label l
  · intro o key ho; rw [chanByOwnerKey, hne _ _ (by decide), chanState_append, hch]; exact h.byOwner o key ho

/-- Events of the wrong body do not touch the channels. -/
theorem chanStep_other {keccak c} {e : OEvent} (h : ∀ ty k l o x, e.body ≠ .channelRegister ty k l o x) :
    chanStep keccak c e = c := by
  unfold chanStep
  split
  · rename_i hb; exact absurd hb (h _ _ _ _ _)
  · rfl

theorem idKey_inj {a b : Nat} (ha : a < 2 ^ 32) (hb : b < 2 ^ 32) (h : idRegisterKey a = idRegisterKey b) : a = b := by
  unfold idRegisterKey at h
  simp only [List.cons.injEq, true_and] at h
  exact fidKey_inj ha hb h

section step
variable {keccak : Bytes → Bytes} {db : Db OVal} {t : Txn OVal} {log saved : List OEvent} {e : OEvent}

/-- The rows after adding the event row only: everything but the index the event feeds. -/
theorem prim_after {g : Bytes → Option OVal} (h : ViewOk keccak g log)
    (hnew : ∀ x ∈ log, oPrimaryKey x ≠ oPrimaryKey e) (k v) :
    over g (oPrimaryKey e) (.event e) (12 :: 1 :: k) = some v ↔
      ∃ x ∈ log ++ [e], 12 :: 1 :: k = oPrimaryKey x ∧ v = .event x := by
  unfold over
  by_cases hk : 12 :: 1 :: k = oPrimaryKey e
  · rw [if_pos hk]
    constructor
    · intro hv
      exact ⟨e, by simp, hk, (Option.some.inj hv).symm⟩
    · rintro ⟨x, hx, hxk, rfl⟩
      rcases List.mem_append.mp hx with hx | hx
      · exact absurd (hxk.symm.trans hk) (hnew x hx)
      · simp only [List.mem_singleton] at hx; rw [hx]
  · rw [if_neg hk, h.prim]
    constructor
    · rintro ⟨x, hx, hxk, hv⟩; exact ⟨x, by simp [hx], hxk, hv⟩
    · rintro ⟨x, hx, hxk, hv⟩
      rcases List.mem_append.mp hx with hx | hx
      · exact ⟨x, hx, hxk, hv⟩
      · simp only [List.mem_singleton] at hx; exact absurd (hx ▸ hxk) hk

theorem over_pk_ne {g : Bytes → Option OVal} {b : UInt8} {r : Bytes} (hb : b ≠ 1) :
    over g (oPrimaryKey e) (.event e) (12 :: b :: r) = g (12 :: b :: r) := by
  apply over_ne
  rw [pk_eq]
  intro hc
  simp only [List.cons.injEq, true_and] at hc
  exact hb hc.1

/-- Assembling a view after one more event. -/
theorem ViewOk.mk' {g g' : Bytes → Option OVal} (h : ViewOk keccak g log)
    (hnew : ∀ x ∈ log, oPrimaryKey x ≠ oPrimaryKey e)
    (h1 : ∀ k, g' (12 :: 1 :: k) = over g (oPrimaryKey e) (.event e) (12 :: 1 :: k))
    (hshape : ∀ k v, g' k = some v → ∃ b r, k = 12 :: b :: r ∧ b.toNat ≤ 57 ∧ (b = 57 → 20 ≤ r.length))
    (hid : ∀ fid, fid < 2 ^ 32 → g' (idRegisterKey fid) =
      (keepNewer (selId fid) (latest (selId fid) log) e).map (fun e => .raw (oPrimaryKey e)))
    (hs1 : ∀ fid key, fid < 2 ^ 32 → ∀ v, g' (signerKey fid key) = some v →
      ∃ x ∈ log ++ [e], AboutSigner fid key x ∧ v = .raw (oPrimaryKey x))
    (hs2 : ∀ fid key, fid < 2 ^ 32 → (∀ x ∈ log ++ [e], ¬ Resets fid key x) → g' (signerKey fid key) =
      (keepNewer (selSigner fid key) (latest (selSigner fid key) log) e).map (fun e => .raw (oPrimaryKey e)))
    (ho : ∀ key, g' (chanOwnerKey key) = ((chanStep keccak (chanState keccak log) e).owner key).map .owner)
    (hl : ∀ l, g' (chanLabelKey l) = ((chanStep keccak (chanState keccak log) e).label l).map .raw)
    (hb : ∀ o key, o.length = 20 → g' (chanByOwnerKey o key) =
      if ((chanStep keccak (chanState keccak log) e).owner key).any (fun x => x.owner = o) then some (.raw [1]) else none) :
    ViewOk keccak g' (log ++ [e]) := by
  constructor
  · intro k v; rw [h1]; exact prim_after h hnew k v
  · exact hshape
  · intro fid hf; rw [latest_append]; exact hid fid hf
  · exact hs1
  · intro fid key hf hr; rw [latest_append]; exact hs2 fid key hf hr
  · intro key; rw [chanState_append]; exact ho key
  · intro l; rw [chanState_append]; exact hl l
  · intro o key h20; rw [chanState_append]; exact hb o key h20

theorem over_shape {g : Bytes → Option OVal} {k0 v0}
    (h : ∀ k v, g k = some v → ∃ b r, k = 12 :: b :: r ∧ b.toNat ≤ 57 ∧ (b = 57 → 20 ≤ r.length))
    (h0 : ∃ b r, k0 = 12 :: b :: r ∧ b.toNat ≤ 57 ∧ ((b : UInt8) = 57 → 20 ≤ r.length)) :
    ∀ k v, over g k0 v0 k = some v → ∃ b r, k = 12 :: b :: r ∧ b.toNat ≤ 57 ∧ ((b : UInt8) = 57 → 20 ≤ r.length) := by
  intro k v hv
  unfold over at hv
  split at hv
  · rename_i hk; rw [hk]; exact h0
  · exact h k v hv

theorem keepNewer_false {sel : OEvent → Bool} {r e} (h : sel e = false) : keepNewer sel r e = r := by
  simp [keepNewer, h]

/-- Merging an id registration. -/
theorem merge_id (h : ViewOk keccak (look db t) log) (hl : LogOk log) (hf : Spec.OEvent.Fits e)
    (hnew : ∀ x ∈ log, oPrimaryKey x ≠ oPrimaryKey e) {to ty} (hb : e.body = .idRegister to ty) :
    ∃ t2, indexIdRegister db (t.stagePut (oPrimaryKey e) (.event e)) e ty = .ok t2 ∧ ViewOk keccak (look db t2) (log ++ [e]) := by
  have hsel : ∀ fid, selId fid e = (decide (e.fid = fid) && decide (ty ≠ .changeRecovery)) := by
    intro fid; simp [selId, hb]
  have hsig : ∀ fid key, selSigner fid key e = false := by intro fid key; simp [selSigner, hb]
  have hch : chanStep keccak (chanState keccak log) e = chanState keccak log := chanStep_other (by simp [hb])
  unfold indexIdRegister
  by_cases hty : ty = .changeRecovery
  · rw [if_pos hty]
    refine ⟨_, rfl, ?_⟩
    rw [look_put]
    exact h.add (by intro fid; simp [hsel, hty]) hsig hch hnew
  · rw [if_neg hty]
    have hg : look db (t.stagePut (oPrimaryKey e) (.event e)) (idRegisterKey e.fid) =
        (latest (selId e.fid) log).map (fun e => .raw (oPrimaryKey e)) := by
      rw [look_put, idRegisterKey, over_pk_ne (by decide)]; exact h.id e.fid hf.2.1
    -- the written view
    have hput : ViewOk keccak (over (over (look db t) (oPrimaryKey e) (.event e)) (idRegisterKey e.fid) (.raw (oPrimaryKey e))) (log ++ [e]) ∨
        ∃ o, latest (selId e.fid) log = some o ∧ o.block > e.block := by
      by_cases hc : ∃ o, latest (selId e.fid) log = some o ∧ o.block > e.block
      · exact Or.inr hc
      · left
        have hne : ∀ (b : UInt8) r v, b ≠ 52 → b ≠ 1 → over (over (look db t) (oPrimaryKey e) (.event e)) (idRegisterKey e.fid) v (12 :: b :: r) =
            look db t (12 :: b :: r) := by
          intro b r v h52 h1
          rw [over_ne, over_pk_ne h1]
          unfold idRegisterKey; intro hc; simp only [List.cons.injEq, true_and] at hc; exact h52 hc.1
        apply h.mk' hnew
        · intro k
          rw [over_ne]
          unfold idRegisterKey; simp
        · apply over_shape
          · apply over_shape h.shape
            rw [pk_eq]; exact ⟨1, _, rfl, by decide, by simp⟩
          · exact ⟨52, _, rfl, by decide, by simp⟩
        · intro fid hfid
          by_cases hfe : fid = e.fid
          · subst hfe
            rw [over_self]
            unfold keepNewer
            simp only [hsel, decide_true, Bool.true_and, hty, ne_eq, not_false_eq_true, if_true]
            cases hlat : latest (selId e.fid) log with
            | none => rfl
            | some o =>
              have : ¬ o.block > e.block := fun hb => hc ⟨o, hlat, hb⟩
              simp only [if_neg this]; rfl
          · rw [over_ne (fun hk => hfe (idKey_inj hfid hf.2.1 hk)), idRegisterKey, over_pk_ne (by decide),
              keepNewer_false (by rw [hsel]; simp [Ne.symm hfe])]
            exact h.id fid hfid
        · intro fid key hfid v hv
          rw [signerKey, hne _ _ _ (by decide) (by decide)] at hv
          obtain ⟨x, hx, hs, hv⟩ := h.signer fid key hfid v hv
          exact ⟨x, by simp [hx], hs, hv⟩
        · intro fid key hfid hr
          rw [signerKey, hne _ _ _ (by decide) (by decide), keepNewer_false (hsig fid key)]
          exact h.signerExact fid key hfid (fun x hx => hr x (by simp [hx]))
        · intro key; rw [chanOwnerKey, hne _ _ _ (by decide) (by decide), hch]; exact h.owner key
        · intro l; rw [chanLabelKey, hne _ _ _ (by decide) (by decide), hch]; exact h.label l
        · intro o key ho; rw [chanByOwnerKey, hne _ _ _ (by decide) (by decide), hch]; exact h.byOwner o key ho
    cases hlat : latest (selId e.fid) log with
    | none =>
      rw [hlat] at hg
      rw [eventBySecondaryKey_none hg]
      refine ⟨_, rfl, ?_⟩
      rw [look_put, look_put]
      rcases hput with hput | ⟨o, ho, _⟩
      · exact hput
      · simp [hlat] at ho
    | some o =>
      rw [hlat] at hg
      have hmem := latest_mem hlat
      have hev : look db (t.stagePut (oPrimaryKey e) (.event e)) (oPrimaryKey o) = some (.event o) := by
        rw [look_put, over_ne (hnew o hmem.1)]; exact h.event hl hmem.1
      rw [eventBySecondaryKey_some hg hev]
      simp only
      by_cases hbk : o.block > e.block
      · rw [if_pos hbk]
        refine ⟨_, rfl, ?_⟩
        rw [look_put]
        have hne : ∀ (b : UInt8) r, b ≠ 1 → over (look db t) (oPrimaryKey e) (.event e) (12 :: b :: r) = look db t (12 :: b :: r) :=
          fun b r h1 => over_pk_ne h1
        apply h.mk' hnew
        · intro k; rfl
        · apply over_shape h.shape
          rw [pk_eq]; exact ⟨1, _, rfl, by decide, by simp⟩
        · intro fid hfid
          rw [idRegisterKey, hne _ _ (by decide)]
          have hk : keepNewer (selId fid) (latest (selId fid) log) e = latest (selId fid) log := by
            by_cases hfe : fid = e.fid
            · subst hfe
              unfold keepNewer
              rw [hlat]
              simp [hbk]
            · exact keepNewer_false (by rw [hsel]; simp [Ne.symm hfe])
          rw [hk]; exact h.id fid hfid
        · intro fid key hfid v hv
          rw [signerKey, hne _ _ (by decide)] at hv
          obtain ⟨x, hx, hs, hv⟩ := h.signer fid key hfid v hv
          exact ⟨x, by simp [hx], hs, hv⟩
        · intro fid key hfid hr
          rw [signerKey, hne _ _ (by decide), keepNewer_false (hsig fid key)]
          exact h.signerExact fid key hfid (fun x hx => hr x (by simp [hx]))
        · intro key; rw [chanOwnerKey, hne _ _ (by decide), hch]; exact h.owner key
        · intro l; rw [chanLabelKey, hne _ _ (by decide), hch]; exact h.label l
        · intro o key ho; rw [chanByOwnerKey, hne _ _ (by decide), hch]; exact h.byOwner o key ho
      · rw [if_neg hbk]
        refine ⟨_, rfl, ?_⟩
        rw [look_put, look_put]
        rcases hput with hput | ⟨o', ho', hb'⟩
        · exact hput
        · rw [hlat] at ho'; simp only [Option.some.injEq] at ho'; subst ho'; exact absurd hb' hbk

/-- Everything but the signer rows. -/
theorem signer_rest {g' : Bytes → Option OVal} (h : ViewOk keccak (look db t) log)
    (hnew : ∀ x ∈ log, oPrimaryKey x ≠ oPrimaryKey e) {key kt ty} (hb : e.body = .signer key kt ty)
    (hne : ∀ (b : UInt8) r, b ≠ 51 → g' (12 :: b :: r) = over (look db t) (oPrimaryKey e) (.event e) (12 :: b :: r))
    (hshape : ∀ k v, g' k = some v → ∃ b r, k = 12 :: b :: r ∧ b.toNat ≤ 57 ∧ (b = 57 → 20 ≤ r.length))
    (hs1 : ∀ fid key, fid < 2 ^ 32 → ∀ v, g' (signerKey fid key) = some v →
      ∃ x ∈ log ++ [e], AboutSigner fid key x ∧ v = .raw (oPrimaryKey x))
    (hs2 : ∀ fid key, fid < 2 ^ 32 → (∀ x ∈ log ++ [e], ¬ Resets fid key x) → g' (signerKey fid key) =
      (keepNewer (selSigner fid key) (latest (selSigner fid key) log) e).map (fun e => .raw (oPrimaryKey e))) :
    ViewOk keccak g' (log ++ [e]) := by
  have hsel : ∀ fid, selId fid e = false := by intro fid; simp [selId, hb]
  have hch : chanStep keccak (chanState keccak log) e = chanState keccak log := chanStep_other (by simp [hb])
  apply h.mk' hnew
  · intro k; exact hne _ _ (by decide)
  · exact hshape
  · intro fid hfid
    rw [idRegisterKey, hne _ _ (by decide), over_pk_ne (by decide), keepNewer_false (hsel fid)]
    exact h.id fid hfid
  · exact hs1
  · exact hs2
  · intro key; rw [chanOwnerKey, hne _ _ (by decide), over_pk_ne (by decide), hch]; exact h.owner key
  · intro l; rw [chanLabelKey, hne _ _ (by decide), over_pk_ne (by decide), hch]; exact h.label l
  · intro o key ho; rw [chanByOwnerKey, hne _ _ (by decide), over_pk_ne (by decide), hch]; exact h.byOwner o key ho

theorem selSigner_self {key kt ty} (hb : e.body = .signer key kt ty) (fid key') :
    selSigner fid key' e = (decide (e.fid = fid) && decide (key = key')) := by simp [selSigner, hb]

/-- A signer event that leaves the signer rows alone. -/
theorem signer_skip (h : ViewOk keccak (look db t) log) (hf : Spec.OEvent.Fits e)
    (hnew : ∀ x ∈ log, oPrimaryKey x ≠ oPrimaryKey e) {key kt ty} (hb : e.body = .signer key kt ty)
    (hskip : ty = .adminReset ∨ (∀ x ∈ log, ¬ Resets e.fid key x) →
      ty = .adminReset ∨ keepNewer (selSigner e.fid key) (latest (selSigner e.fid key) log) e = latest (selSigner e.fid key) log) :
    ViewOk keccak (look db (t.stagePut (oPrimaryKey e) (.event e))) (log ++ [e]) := by
  rw [look_put]
  refine signer_rest h hnew hb (fun b r _ => rfl) ?_ ?_ ?_
  · apply over_shape h.shape
    rw [pk_eq]; exact ⟨1, _, rfl, by decide, by simp⟩
  · intro fid key' hfid v hv
    rw [signerKey, over_pk_ne (by decide)] at hv
    obtain ⟨x, hx, hs, hv⟩ := h.signer fid key' hfid v hv
    exact ⟨x, by simp [hx], hs, hv⟩
  · intro fid key' hfid hr
    rw [signerKey, over_pk_ne (by decide)]
    have hk : keepNewer (selSigner fid key') (latest (selSigner fid key') log) e = latest (selSigner fid key') log := by
      by_cases hfe : e.fid = fid ∧ key = key'
      · obtain ⟨rfl, rfl⟩ := hfe
        have hnr : ty ≠ .adminReset := by
          intro hc
          exact hr e (by simp) ⟨rfl, kt, by rw [hb, hc]⟩
        rcases hskip (Or.inr fun x hx => hr x (by simp [hx])) with hc | hc
        · exact absurd hc hnr
        · exact hc
      · exact keepNewer_false (by rw [selSigner_self hb]; simpa using hfe)
    rw [hk]
    exact h.signerExact fid key' hfid (fun x hx => hr x (by simp [hx]))

/-- A signer event that points the signer row at an event. -/
theorem signer_put (h : ViewOk keccak (look db t) log) (hf : Spec.OEvent.Fits e)
    (hnew : ∀ x ∈ log, oPrimaryKey x ≠ oPrimaryKey e) {key kt ty} (hb : e.body = .signer key kt ty) {a : OEvent}
    (ha : a ∈ log ++ [e]) (hab : AboutSigner e.fid key a)
    (hput : (∀ x ∈ log, ¬ Resets e.fid key x) → ty = .adminReset ∨
      keepNewer (selSigner e.fid key) (latest (selSigner e.fid key) log) e = some a) :
    ViewOk keccak (look db ((t.stagePut (oPrimaryKey e) (.event e)).stagePut (signerKey e.fid key) (.raw (oPrimaryKey a))))
      (log ++ [e]) := by
  rw [look_put, look_put]
  refine signer_rest h hnew hb ?_ ?_ ?_ ?_
  · intro b r h51
    rw [over_ne]
    unfold signerKey; intro hc; simp only [List.cons.injEq, true_and] at hc; exact h51 hc.1
  · apply over_shape
    · apply over_shape h.shape
      rw [pk_eq]; exact ⟨1, _, rfl, by decide, by simp⟩
    · exact ⟨51, _, rfl, by decide, by simp⟩
  · intro fid key' hfid v hv
    by_cases hk : signerKey fid key' = signerKey e.fid key
    · obtain ⟨rfl, rfl⟩ := signerKey_inj hfid hf.2.1 hk
      rw [over_self] at hv
      exact ⟨a, ha, hab, (Option.some.inj hv).symm⟩
    · rw [over_ne hk, signerKey, over_pk_ne (by decide)] at hv
      obtain ⟨x, hx, hs, hv⟩ := h.signer fid key' hfid v hv
      exact ⟨x, by simp [hx], hs, hv⟩
  · intro fid key' hfid hr
    by_cases hk : signerKey fid key' = signerKey e.fid key
    · obtain ⟨rfl, rfl⟩ := signerKey_inj hfid hf.2.1 hk
      rw [over_self]
      have hnr : ty ≠ .adminReset := fun hc => hr e (by simp) ⟨rfl, kt, by rw [hb, hc]⟩
      rcases hput (fun x hx => hr x (by simp [hx])) with hc | hc
      · exact absurd hc hnr
      · rw [hc]; rfl
    · rw [over_ne hk, signerKey, over_pk_ne (by decide), keepNewer_false]
      · exact h.signerExact fid key' hfid (fun x hx => hr x (by simp [hx]))
      · rw [selSigner_self hb]
        by_cases hfe : e.fid = fid ∧ key = key'
        · exact absurd (by rw [hfe.1, hfe.2]) hk
        · simpa using hfe

end step

theorem incrRev_append {r r' a : Bytes} (h : incrRev r = some r') : incrRev (r ++ a) = some (r' ++ a) := by
  induction r generalizing r' with
  | nil => simp [incrRev] at h
  | cons b bs ih =>
    simp only [incrRev, List.cons_append] at h ⊢
    split at h
    · rename_i hb; rw [if_pos hb]; simp only [Option.some.injEq] at h; rw [← h]; rfl
    · rename_i hb
      rw [if_neg hb]
      cases hx : incrRev bs with
      | none => simp [hx] at h
      | some x => rw [ih hx]; rw [hx] at h; simp only [Option.map_some, Option.some.injEq] at h ⊢; rw [← h]; rfl

theorem incrementVec_append {a p : Bytes} (hp : ∃ b ∈ p, b ≠ 255) : incrementVec (a ++ p) = a ++ incrementVec p := by
  unfold incrementVec
  cases h : incrRev p.reverse with
  | none =>
    obtain ⟨b, hb, hne⟩ := hp
    exact absurd (incrRev_none.mp h b (by simpa using hb)) hne
  | some r =>
    rw [List.reverse_append, incrRev_append h]
    simp

/-- Keys of the store, for scans. -/
theorem noShort_type {keccak} {db : Db OVal} {log} (h : ViewOk keccak db.get log) {ty : Nat} (hty : ty < 255) (f : Bytes) (hf : f.length = 4) :
    NoShortKey db (oTypePrefix ty ++ f) := by
  have hn : ∃ b ∈ UInt8.ofNat ty :: f, b ≠ 255 := by
    refine ⟨UInt8.ofNat ty, by simp, ?_⟩
    intro hc
    have := congrArg UInt8.toNat hc
    simp only [UInt8.toNat_ofNat'] at this
    have h2 : (255 : UInt8).toNat = 255 := rfl
    omega
  have hsplit : oTypePrefix ty ++ f = [12, 1] ++ (UInt8.ofNat ty :: f) := rfl
  have hlen := incrementVec_length hn
  intro r hr h1 h2
  rw [hsplit, incrementVec_append hn] at h2 ⊢
  have hg := (OMap.get_eq_some_iff db).mpr hr
  obtain ⟨b, s, hk, hb57, hb⟩ := h.shape r.1 r.2 hg
  have h2' := h2
  rw [hk] at h2'
  obtain ⟨z, hz⟩ := h2'
  simp only [List.cons_append, List.nil_append, List.cons.injEq, true_and] at hz
  have hb1 : b = 1 := hz.1
  apply h2.eq_of_length_le
  rw [hk, hb1] at hg
  obtain ⟨x, _, hx, _⟩ := (h.prim s r.2).mp hg
  have : r.1.length = 15 := by rw [hk, hb1, hx]; exact pk_length x
  rw [this]
  simp only [List.length_append, List.length_cons, List.length_nil, hlen, hf]
  omega

theorem decodeEvents_map (l : List (Bytes × OVal)) (f : Bytes × OVal → OEvent) (h : ∀ r ∈ l, r.2 = .event (f r)) :
    decodeEvents l = .ok (l.map f) := by
  induction l with
  | nil => rfl
  | cons r l ih =>
    obtain ⟨k, v⟩ := r
    have hv : v = .event (f (k, v)) := h (k, v) (by simp)
    have : decodeEvents ((k, v) :: l) = decodeEvents ((k, .event (f (k, v))) :: l) := by rw [← hv]
    rw [this]
    simp only [decodeEvents, ih (fun r hr => h r (by simp [hr])), List.map_cons]

/-- Chain position within a type and user: block, then log index. -/
def placeLt (a b : OEvent) : Prop := a.block < b.block ∨ (a.block = b.block ∧ a.log < b.log)

theorem pk_lt {a b : OEvent} (ha : Spec.OEvent.Fits a) (hb : Spec.OEvent.Fits b) (ht : a.ty = b.ty) (hf : a.fid = b.fid)
    (h : Bytes.blt (oPrimaryKey a) (oPrimaryKey b) = true) : placeLt a b := by
  obtain ⟨_, _, a3, a4⟩ := ha
  obtain ⟨_, _, b3, b4⟩ := hb
  have e1 : oPrimaryKey a = (oTypePrefix a.ty ++ makeFidKey a.fid) ++ (be 4 a.block ++ be 4 a.log) := by simp [oPrimaryKey]
  have e2 : oPrimaryKey b = (oTypePrefix a.ty ++ makeFidKey a.fid) ++ (be 4 b.block ++ be 4 b.log) := by simp [oPrimaryKey, ht, hf]
  rw [e1, e2, Bytes.blt_append_left] at h
  by_cases hbk : a.block = b.block
  · rw [hbk, Bytes.blt_append_left] at h
    exact Or.inr ⟨hbk, (be_blt_iff (w := 4) (by omega) (by omega)).mp h⟩
  · left
    rcases Bytes.blt_tri (be 4 a.block) (be 4 b.block) with hc | hc | hc
    · exact (be_blt_iff (w := 4) (by omega) (by omega)).mp hc
    · exact absurd (be_inj (w := 4) (by omega) (by omega) hc) hbk
    · have h3 := Bytes.blt_append_of_blt (by simp) hc (be 4 b.log) (be 4 a.log)
      have h4 := Bytes.blt_trans h h3
      rw [Bytes.blt_irrefl] at h4
      exact absurd h4 (by decide)

/-- The stored events of a type and user, in chain order. -/
theorem onchainEvents_spec {keccak} {db : Db OVal} {log} (h : ViewOk keccak db.get log) (hl : LogOk log) {ty fid : Nat}
    (hty : ty < 255) (hf : fid < 2 ^ 32) :
    ∃ es, onchainEvents db ty fid = .ok es ∧ (∀ e, e ∈ es ↔ e ∈ log ∧ e.ty = ty ∧ e.fid = fid) ∧ es.Pairwise placeLt := by
  unfold onchainEvents
  have hp : ∃ b ∈ oTypePrefix ty ++ makeFidKey fid, b ≠ 255 := ⟨12, by simp [oTypePrefix], by decide⟩
  simp only
  rw [scan_prefix_eq db _ hp (noShort_type h hty _ (by simp [makeFidKey])) false]
  simp only [inDirection, Bool.false_eq_true, if_false]
  have hrow : ∀ r ∈ rowsStartingWith db (oTypePrefix ty ++ makeFidKey fid), ∃ e ∈ log, r.1 = oPrimaryKey e ∧ r.2 = .event e ∧ e.ty = ty ∧ e.fid = fid := by
    intro r hr
    obtain ⟨hr1, hr2⟩ := List.mem_filter.mp hr
    have hpre := List.isPrefixOf_iff_prefix.mp hr2
    obtain ⟨z, hz⟩ := hpre
    have hz' : r.1 = 12 :: 1 :: (UInt8.ofNat ty :: (makeFidKey fid ++ z)) := by rw [← hz]; simp [oTypePrefix]
    have hg := (OMap.get_eq_some_iff db).mpr hr1
    rw [hz'] at hg
    obtain ⟨e, he, hk, hv⟩ := (h.prim _ _).mp hg
    refine ⟨e, he, hz'.trans hk, hv, ?_⟩
    rw [pk_eq] at hk
    simp only [List.cons.injEq, true_and] at hk
    have := List.append_inj hk.2 (by simp [makeFidKey])
    have hfit := hl.fits e he
    exact ⟨(ofNat_u8_inj hty hfit.1 hk.1).symm, (fidKey_inj hf hfit.2.1 this.1).symm⟩
  let f : Bytes × OVal → OEvent := fun r => match r.2 with | .event e => e | _ => ⟨0, 0, 0, 0, 0, 0, .none⟩
  have hdec := decodeEvents_map _ f (fun r hr => by
    obtain ⟨e, _, _, hv, _⟩ := hrow r hr
    show r.2 = .event (match r.2 with | .event e => e | _ => ⟨0, 0, 0, 0, 0, 0, .none⟩)
    rw [hv])
  refine ⟨_, hdec, ?_, ?_⟩
  · intro e
    constructor
    · intro he
      obtain ⟨r, hr, rfl⟩ := List.mem_map.mp he
      obtain ⟨x, hx, _, hv, h1, h2⟩ := hrow r hr
      have : f r = x := by show (match r.2 with | .event e => e | _ => _) = x; rw [hv]
      rw [this]; exact ⟨hx, h1, h2⟩
    · rintro ⟨he, rfl, rfl⟩
      refine List.mem_map.mpr ⟨(oPrimaryKey e, .event e), ?_, rfl⟩
      refine List.mem_filter.mpr ⟨(OMap.get_eq_some_iff db).mp (h.event hl he), ?_⟩
      rw [List.isPrefixOf_iff_prefix]
      exact ⟨be 4 e.block ++ be 4 e.log, by simp [oPrimaryKey]⟩
  · rw [List.pairwise_map]
    have hs : (rowsStartingWith db (oTypePrefix ty ++ makeFidKey fid)).Pairwise (fun a b => a.1 ≺ b.1) :=
      List.Pairwise.sublist List.filter_sublist db.sorted
    refine List.Pairwise.imp_of_mem ?_ hs
    intro a b ha hb hlt
    obtain ⟨x, hx, hkx, hvx, hx1, hx2⟩ := hrow a ha
    obtain ⟨y, hy, hky, hvy, hy1, hy2⟩ := hrow b hb
    have fa : f a = x := by show (match a.2 with | .event e => e | _ => _) = x; rw [hvx]
    have fb : f b = y := by show (match b.2 with | .event e => e | _ => _) = y; rw [hvy]
    rw [fa, fb]
    refine pk_lt (hl.fits x hx) (hl.fits y hy) (hx1.trans hy1.symm) (hx2.trans hy2.symm) ?_
    rw [← hkx, ← hky]; exact hlt

section step
variable {keccak : Bytes → Bytes} {db : Db OVal} {t : Txn OVal} {log saved : List OEvent} {e : OEvent}

/-- The writes of a signer event that is not outdated. -/
theorem write_signer (h : ViewOk keccak (look db t) log) (hd : ViewOk keccak db.get saved) (hls : LogOk saved)
    (hsub : ∀ x ∈ saved, x ∈ log) (hf : Spec.OEvent.Fits e)
    (hnew : ∀ x ∈ log, oPrimaryKey x ≠ oPrimaryKey e) {key kt ty} (hb : e.body = .signer key kt ty)
    (hold : ∀ o, latest (selSigner e.fid key) log = some o → (∀ x ∈ log, ¬ Resets e.fid key x) → ¬ o.block > e.block) :
    ∃ t2, writeSigner db (t.stagePut (oPrimaryKey e) (.event e)) e key ty = .ok t2 ∧ ViewOk keccak (look db t2) (log ++ [e]) := by
  unfold writeSigner
  by_cases hr : ty = .adminReset
  · rw [if_pos hr]
    obtain ⟨es, hes, hmem, _⟩ := onchainEvents_spec hd hls (ty := 1) (by decide) hf.2.1
    rw [hes]
    simp only
    cases hfind : es.find? (isAddOf key) with
    | none =>
      exact ⟨_, rfl, signer_skip h hf hnew hb (fun _ => Or.inl hr)⟩
    | some a =>
      have ha := (hmem a).mp (List.mem_of_find?_eq_some hfind)
      have hadd := List.find?_some hfind
      refine ⟨_, rfl, signer_put h hf hnew hb (by simp [hsub a ha.1]) ?_ (fun _ => Or.inl hr)⟩
      unfold isAddOf at hadd
      split at hadd
      · rename_i k kt' hbody
        have : k = key := by simpa using hadd
        subst this
        exact ⟨ha.2.2, _, _, hbody⟩
      · simp at hadd
  · rw [if_neg hr]
    refine ⟨_, rfl, signer_put h hf hnew hb (by simp) ⟨rfl, _, _, hb⟩ (fun hnr => Or.inr ?_)⟩
    unfold keepNewer
    rw [selSigner_self hb]
    simp only [decide_true, Bool.and_self, if_true]
    cases hlat : latest (selSigner e.fid key) log with
    | none => rfl
    | some o => simp only [if_neg (hold o hlat hnr)]

/-- Merging a signer event. -/
theorem merge_signer (h : ViewOk keccak (look db t) log) (hl : LogOk log) (hd : ViewOk keccak db.get saved) (hls : LogOk saved)
    (hsub : ∀ x ∈ saved, x ∈ log) (hf : Spec.OEvent.Fits e)
    (hnew : ∀ x ∈ log, oPrimaryKey x ≠ oPrimaryKey e) {key kt ty} (hb : e.body = .signer key kt ty) :
    ∃ t2, indexSigner db (t.stagePut (oPrimaryKey e) (.event e)) e key ty = .ok t2 ∧ ViewOk keccak (look db t2) (log ++ [e]) := by
  unfold indexSigner
  have hg : look db (t.stagePut (oPrimaryKey e) (.event e)) (signerKey e.fid key) = look db t (signerKey e.fid key) := by
    rw [look_put, signerKey, over_pk_ne (by decide)]
  cases hv : look db t (signerKey e.fid key) with
  | none =>
    rw [eventBySecondaryKey_none (hg.trans hv)]
    refine write_signer h hd hls hsub hf hnew hb ?_
    intro o ho hnr
    have := h.signerExact e.fid key hf.2.1 hnr
    rw [hv, ho] at this
    simp at this
  | some v =>
    obtain ⟨o, ho, hab, rfl⟩ := h.signer e.fid key hf.2.1 v hv
    have hev : look db (t.stagePut (oPrimaryKey e) (.event e)) (oPrimaryKey o) = some (.event o) := by
      rw [look_put, over_ne (hnew o ho)]; exact h.event hl ho
    rw [eventBySecondaryKey_some (hg.trans hv) hev]
    simp only
    have hlat : (∀ x ∈ log, ¬ Resets e.fid key x) → latest (selSigner e.fid key) log = some o := by
      intro hnr
      have := h.signerExact e.fid key hf.2.1 hnr
      rw [hv] at this
      cases hl' : latest (selSigner e.fid key) log with
      | none => rw [hl'] at this; simp at this
      | some o' =>
        rw [hl'] at this
        simp only [Option.map_some, Option.some.injEq, OVal.raw.injEq] at this
        rw [apart_eq hl ho (latest_mem hl').1 this]
    by_cases hbk : o.block > e.block
    · rw [if_pos hbk]
      refine ⟨_, rfl, signer_skip h hf hnew hb ?_⟩
      rintro (hc | hnr)
      · exact Or.inl hc
      · right
        rw [hlat hnr]
        unfold keepNewer
        simp [hbk]
    · rw [if_neg hbk, if_neg (by rintro ⟨rfl, hc⟩; cases hc)]
      refine write_signer h hd hls hsub hf hnew hb ?_
      intro o' ho' hnr
      rw [hlat hnr] at ho'
      simp only [Option.some.injEq] at ho'
      subst ho'
      exact hbk

end step
end Verif
