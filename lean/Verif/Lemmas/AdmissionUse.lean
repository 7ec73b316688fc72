import Verif.Lemmas.Admission
import Verif.Props.C33
import Verif.Props.C72
/-! What the signer check of an admitted message says about the events and notes. -/
namespace Verif
open Spec

theorem event_unique {log : List OEvent} (hl : LogOk log) {a b : OEvent} (ha : a ∈ log) (hb : b ∈ log)
    (h : SamePlace a b) : a = b := by
  have hs : ∀ {x y : OEvent}, SamePlace x y → SamePlace y x := fun h => ⟨h.1.symm, h.2.1.symm, h.2.2.1.symm, h.2.2.2.symm⟩
  have key : ∀ (l : List OEvent), l.Pairwise (fun a b => ¬ SamePlace a b) → a ∈ l → b ∈ l → a = b := by
    intro l
    induction l with
    | nil => intro _ ha; simp at ha
    | cons x l ih =>
      intro hp ha hb
      rw [List.pairwise_cons] at hp
      rcases List.mem_cons.1 ha with ha | ha <;> rcases List.mem_cons.1 hb with hb | hb
      · rw [ha, hb]
      · rw [ha] at h; exact absurd h (hp.1 b hb)
      · rw [hb] at h; exact absurd (hs h) (hp.1 a ha)
      · exact ih hp.2 ha hb
  exact key log hl.apart ha hb

/-- On-chain signers as a view shows them. -/
theorem activeSigner_view {keccak : Bytes → Bytes} {db : Db OVal} {t : Txn OVal} {log : List OEvent}
    (hv : ViewOk keccak (look db t) log) (hl : LogOk log) {fid : Nat} (hf : fid < 2 ^ 32) (key : Bytes) :
    ∃ r, activeSigner db t fid key = .ok r ∧ (∀ e, r = some e → OnChainKey log fid key) ∧
      ((∀ x ∈ log, ¬ Resets fid key x) → ∀ e, LatestOf (AboutSigner fid key) log e →
        (r.isSome ↔ e.body = .signer key 1 .add)) := by
  unfold activeSigner
  cases hk : look db t (signerKey fid key) with
  | none =>
    rw [eventBySecondaryKey_none hk]
    refine ⟨none, rfl, by simp, ?_⟩
    intro hr e he
    have hx := hv.signerExact fid key hf hr
    rw [hk] at hx
    cases hlat : latest (selSigner fid key) log with
    | none =>
      obtain ⟨p, q, h1, h2, -⟩ := he
      have := latest_none.1 hlat e (by rw [h1]; simp)
      rw [← Bool.not_eq_true] at this
      exact absurd (selSigner_iff.2 h2) this
    | some o => rw [hlat] at hx; simp at hx
  | some w =>
    obtain ⟨e, he, ha, rfl⟩ := hv.signer fid key hf w hk
    rw [eventBySecondaryKey_some hk (hv.event hl he)]
    obtain ⟨h1, kt, ty, hb⟩ := ha
    have hlast : (∀ x ∈ log, ¬ Resets fid key x) → LatestOf (AboutSigner fid key) log e := by
      intro hr
      have hx := hv.signerExact fid key hf hr
      rw [hk] at hx
      cases hlat : latest (selSigner fid key) log with
      | none => rw [hlat] at hx; simp at hx
      | some o =>
        rw [hlat] at hx
        simp only [Option.map_some, Option.some.injEq, OVal.raw.injEq] at hx
        have : e = o := event_unique hl he (latest_mem hlat).1 (pk_inj (hl.fits e he) (hl.fits o (latest_mem hlat).1) hx)
        rw [this]
        exact (LatestOf.congr (fun e => selSigner_iff)).mp (latest_some hlat)
    simp only [hb]
    split
    · rename_i k' heq
      simp only [OBody.signer.injEq] at heq
      obtain ⟨_, rfl, rfl⟩ := heq
      refine ⟨_, rfl, fun _ _ => ⟨e, he, h1, hb, hlast⟩, ?_⟩
      intro hr e' he'
      have := LatestOf.unique he' (hlast hr)
      subst this
      simp [hb]
    · rename_i hno
      refine ⟨none, rfl, by simp, ?_⟩
      intro hr e' he'
      have := LatestOf.unique he' (hlast hr)
      subst this
      simp only [Option.isSome_none, Bool.false_eq_true, false_iff]
      intro hc
      rw [hb] at hc
      simp only [OBody.signer.injEq, true_and] at hc
      exact hno _ (by rw [hc.1, hc.2])

/-- What the gasless tables answer. -/
theorem keyRecord_rows {db : Db GVal} {t : Txn GVal} {notes : List KeyNote} (h : KeyRows (db.commit t) notes)
    {fid : Nat} (hf : fid < 2 ^ 32) (key : Bytes) :
    (key.length ≠ 32 ∧ getKeyRecord db t fid key = .error .validation) ∨
    (key.length = 32 ∧ getKeyRecord db t fid key = .ok none ∧ ∀ g events since, ¬ Granted notes fid key g events since) ∨
    (key.length = 32 ∧ ∃ g events since rf, getKeyRecord db t fid key = .ok (some ⟨g, rf⟩) ∧
      Granted notes fid key g events since ∧
      (db.commit t).get (23 :: 104 :: (makeFidKey fid ++ key)) = some (.raw (be 4 (lastActive fid key g since))) ∧
      lastActive fid key g since < 2 ^ 32) := by
  rw [getKeyRecord_view]
  by_cases hk : key.length = 32
  · simp only [hk, ne_eq, not_true_eq_false, if_false]
    rcases h fid key hf hk with ⟨h1, h2⟩ | ⟨g, events, since, rf, h1, h2, h3, hb⟩
    · rw [h1]; exact .inr (.inl ⟨trivial, rfl, h2⟩)
    · rw [h2]; exact .inr (.inr ⟨trivial, g, events, since, rf, rfl, h1, h3, hb⟩)
  · exact .inl ⟨hk, by simp [hk]⟩

theorem readTxn_new {α : Type} {v : EngineVersion} (hv : 7 ≤ v.num) (t : Txn α) : readTxn v t = t := by
  unfold readTxn
  exact if_pos (decide_eq_true hv)

theorem readTxn_old {α : Type} {v : EngineVersion} (hv : v.num < 7) (t : Txn α) : readTxn v t = OMap.empty := by
  unfold readTxn
  exact if_neg (fun h => absurd (of_decide_eq_true h) (Nat.not_le.2 hv))

theorem admits_iff (g : KeyAddMsg) (ty : MessageType) :
    (ActiveKey.gasless (computeScopesMask g.scopes) g.ttl).admits ty = true ↔ (ty.num : Int) ∈ g.scopes :=
  C33_mask_is_membership _ _ _

theorem isKey_iff (ty : MessageType) : ty.isKey = true ↔ ty = .keyAdd ∨ ty = .keyRemove := by
  cases ty <;> decide

theorem refusedType_iff (v : EngineVersion) (ty : MessageType) : refusedType v ty = true ↔ NotHere v.num ty.num := by
  have h21 : v.isEnabled .verificationsOnShardZero = true ↔ 21 ≤ v.num :=
    decide_eq_true_iff
  cases ty <;> simp [refusedType, NotHere, MessageType.num, h21]

end Verif
