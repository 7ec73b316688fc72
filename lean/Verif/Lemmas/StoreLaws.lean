import Verif.Lemmas.StoreOrder
import Verif.Lemmas.Keys
/-! Building `Lawful` from a description of a store's rows as logical row keys. -/
namespace Verif

namespace RowKey
theorem bytes_inj {r r' : RowKey} (h : r.WF) (h' : r'.WF) (e : r.bytes = r'.bytes) : r = r' := by
  have := parse_bytes r h
  rw [e, parse_bytes r' h'] at this
  exact (Option.some.inj this).symm

/-- Not a message row or an event row. -/
def isAux : RowKey → Bool
  | message _ _ _ => false
  | hubEvent _ => false
  | _ => true

theorem user_prefix {f fid : Nat} {p set : UInt8} {rest : Bytes}
    (h : makeMessagePrimaryKey f set none <+: makeUserKey fid ++ p :: rest) : p = set := by
  obtain ⟨t, ht⟩ := h
  simp only [makeMessagePrimaryKey, List.append_assoc] at ht
  obtain ⟨_, h2⟩ := List.append_inj ht (by simp [makeUserKey, makeFidKey])
  simp only [List.cons_append, List.nil_append, List.cons.injEq] at h2
  exact h2.1.symm

theorem not_prefix {r : RowKey} (h : r.WF) (ha : r.isAux = true) {set : UInt8} (hs : set.toNat ≤ 85) (f : Nat) :
    ¬ (makeMessagePrimaryKey f set none <+: r.bytes) := by
  intro hp
  have low : ∀ p : UInt8, p.toNat ≤ 85 ∨ p ≠ set := by
    intro p
    by_cases e : p = set
    · left; rw [e]; exact hs
    · right; exact e
  cases r <;> simp only [isAux] at ha <;> try (cases ha)
  all_goals first
    | (have := user_prefix hp; subst this; first | (simp at hs; done) | (have := h.2; simp only at this; omega))
    | (simp [bytes, makeMessagePrimaryKey, makeUserKey] at hp; done)

theorem ne_event {r : RowKey} (ha : r.isAux = true) (id : Nat) : r.bytes ≠ eventKey id := by
  cases r <;> simp only [isAux] at ha <;> try (cases ha)
  all_goals simp [bytes, eventKey, makeUserKey]
end RowKey

/-- A store's rows as logical row keys. -/
structure StoreRows (D : StoreDef) (ok : Msg → Prop) where
  akR : Msg → RowKey
  rkR : Msg → RowKey
  idxR : Msg → List (RowKey × SVal)
  folR : Msg → List (RowKey × SVal)

namespace StoreDef
variable {D : StoreDef} {ok : Msg → Prop}

theorem Lawful.ofRows (R : StoreRows D ok) (hset : D.set.toNat ≤ 85)
    (hash : ∀ {m}, ok m → m.hash.length = 20)
    (fid : ∀ {m}, ok m → m.fid < 2 ^ 32)
    (ts : ∀ {m}, ok m → m.ts < 2 ^ 32)
    (kind : ∀ {m}, ok m → (D.isAdd m = true ∧ D.isRemove m = false) ∨ (D.isAdd m = false ∧ D.isRemove m = true))
    (notCompact : ∀ {m}, ok m → D.isCompact m = false)
    (inj : ∀ {m m'}, ok m → ok m' → m.fid = m'.fid → m.ts = m'.ts → m.hash = m'.hash → m = m')
    (addKey : ∀ {m}, ok m → D.addKey m = .ok (R.akR m).bytes ∧ (R.akR m).WF ∧ (R.akR m).isAux = true)
    (removeKey : D.removeSupported = true → ∀ {m}, ok m →
      D.removeKey m = .ok (R.rkR m).bytes ∧ (R.rkR m).WF ∧ (R.rkR m).isAux = true)
    (idx : ∀ {m}, ok m →
      (D.indexRows (tsh m) m = .ok ((R.idxR m).map (fun r => (r.1.bytes, r.2))) ∨
        (D.isAdd m = false ∧ (∃ e, D.indexRows (tsh m) m = .error e) ∧ R.idxR m = [])))
    (idxKeys : ∀ {m}, ok m → D.isAdd m = true → D.indexKeys (tsh m) m = .ok ((R.idxR m).map (fun r => r.1.bytes)))
    (fol : ∀ {m}, ok m → D.followRows m = (R.folR m).map (fun r => (r.1.bytes, r.2)) ∧
      D.followKeys m = (R.folR m).map (fun r => r.1.bytes))
    (auxWF : ∀ {m}, ok m → ∀ r ∈ R.idxR m ++ R.folR m, r.1.WF ∧ r.1.isAux = true)
    (itemFid : ∀ {m m'}, ok m → ok m' → R.akR m = R.akR m' → m.fid = m'.fid)
    (rkIff : D.removeSupported = true → ∀ {m m'}, ok m → ok m' → (R.akR m = R.akR m' ↔ R.rkR m = R.rkR m'))
    (akRk : D.removeSupported = true → ∀ m m', R.akR m ≠ R.rkR m')
    (akAux : ∀ {m m'}, ok m → ok m' → ∀ r ∈ R.idxR m' ++ R.folR m', R.akR m ≠ r.1)
    (rkAux : D.removeSupported = true → ∀ {m m'}, ok m → ok m' → ∀ r ∈ R.idxR m' ++ R.folR m', R.rkR m ≠ r.1)
    (auxDisj : ∀ {m m'}, ok m → ok m' → ∀ r ∈ R.idxR m ++ R.folR m, ∀ r' ∈ R.idxR m' ++ R.folR m',
      r.1 = r'.1 → R.akR m = R.akR m')
    (auxFun : ∀ {m}, ok m → ∀ r ∈ R.idxR m ++ R.folR m, ∀ r' ∈ R.idxR m ++ R.folR m, r.1 = r'.1 → r.2 = r'.2)
    (cmpSelf : ∀ m, D.cmp m m = 0)
    (cmpAnti : ∀ {a b}, ok a → ok b → (D.cmp a b < 0 ↔ D.cmp b a > 0))
    (cmpEq : ∀ {a b}, ok a → ok b → D.cmp a b = 0 → a.ts = b.ts ∧ a.hash = b.hash)
    (cmpTrans : ∀ {a b c}, ok a → ok b → ok c → D.cmp a b > 0 → D.cmp b c > 0 → D.cmp a c > 0) :
    D.Lawful ok := by
  have eak : ∀ {m}, ok m → D.ak m = (R.akR m).bytes := fun h => by unfold ak; rw [(addKey h).1]
  have erk : D.removeSupported = true → ∀ {m}, ok m → D.rk m = (R.rkR m).bytes :=
    fun hs _ h => by unfold rk; rw [(removeKey hs h).1]
  have eidx : ∀ {m}, ok m → D.idxRows m = (R.idxR m).map (fun r => (r.1.bytes, r.2)) := by
    intro m h
    unfold idxRows
    rcases idx h with e | ⟨_, ⟨x, e⟩, e'⟩
    · rw [e]
    · rw [e, e']; rfl
  have eaux : ∀ {m}, ok m → D.auxKeys m = (R.idxR m ++ R.folR m).map (fun r => r.1.bytes) := by
    intro m h
    unfold auxKeys
    rw [eidx h, (fol h).1]
    simp [Function.comp_def]
  have memaux : ∀ {m}, ok m → ∀ k ∈ D.auxKeys m, ∃ r ∈ R.idxR m ++ R.folR m, k = r.1.bytes := by
    intro m h k hk
    rw [eaux h] at hk
    obtain ⟨r, hr, e⟩ := List.mem_map.1 hk
    exact ⟨r, hr, e.symm⟩
  have akinj : ∀ {m m'}, ok m → ok m' → (D.ak m = D.ak m' ↔ R.akR m = R.akR m') := by
    intro m m' h h'
    rw [eak h, eak h']
    exact ⟨RowKey.bytes_inj (addKey h).2.1 (addKey h').2.1, fun e => by rw [e]⟩
  have hitem : ∀ {m m'}, ok m → ok m' → D.ak m = D.ak m' → m.fid = m'.fid :=
    fun h h' e => itemFid h h' ((akinj h h').1 e)
  constructor
  · exact hash
  · exact fid
  · exact ts
  · exact kind
  · exact notCompact
  · intro m h; rw [eak h]; exact (addKey h).1
  · intro hs m h; rw [erk hs h]; exact (removeKey hs h).1
  · intro m h ha
    rcases idx h with e | ⟨e, _⟩
    · refine ⟨by rw [e, eidx h], ?_⟩
      rw [idxKeys h ha, eidx h]; simp [Function.comp_def]
    · rw [e] at ha; cases ha
  · intro m h; rw [(fol h).1, (fol h).2]; simp [Function.comp_def]
  · exact inj
  · exact hitem
  · intro hs m m' h h'
    rw [akinj h h', erk hs h, erk hs h', rkIff hs h h']
    exact ⟨fun e => by rw [e], RowKey.bytes_inj (removeKey hs h).2.1 (removeKey hs h').2.1⟩
  · intro m h f; rw [eak h]; exact RowKey.not_prefix (addKey h).2.1 (addKey h).2.2 hset f
  · intro hs m h f; rw [erk hs h]; exact RowKey.not_prefix (removeKey hs h).2.1 (removeKey hs h).2.2 hset f
  · intro m h k hk f
    obtain ⟨r, hr, rfl⟩ := memaux h k hk
    exact RowKey.not_prefix (auxWF h r hr).1 (auxWF h r hr).2 hset f
  · intro hs m m' h h' e
    rw [eak h, erk hs h'] at e
    exact akRk hs m m' (RowKey.bytes_inj (addKey h).2.1 (removeKey hs h').2.1 e)
  · intro m m' h h' hk
    obtain ⟨r, hr, e⟩ := memaux h' _ hk
    rw [eak h] at e
    exact akAux h h' r hr (RowKey.bytes_inj (addKey h).2.1 (auxWF h' r hr).1 e)
  · intro hs m m' h h' hk
    obtain ⟨r, hr, e⟩ := memaux h' _ hk
    rw [erk hs h] at e
    exact rkAux hs h h' r hr (RowKey.bytes_inj (removeKey hs h).2.1 (auxWF h' r hr).1 e)
  · intro m m' h h' k hk hk'
    obtain ⟨r, hr, e⟩ := memaux h k hk
    obtain ⟨r', hr', e'⟩ := memaux h' k hk'
    rw [akinj h h']
    exact auxDisj h h' r hr r' hr' (RowKey.bytes_inj (auxWF h r hr).1 (auxWF h' r' hr').1 (e.symm.trans e'))
  · intro m h k v v' hv hv'
    rw [eidx h, (fol h).1, ← List.map_append] at hv hv'
    obtain ⟨r, hr, e⟩ := List.mem_map.1 hv
    obtain ⟨r', hr', e'⟩ := List.mem_map.1 hv'
    simp only [Prod.mk.injEq] at e e'
    rw [← e.2, ← e'.2]
    exact auxFun h r hr r' hr' (RowKey.bytes_inj (auxWF h r hr).1 (auxWF h r' hr').1 (e.1.trans e'.1.symm))
  · intro m h id; rw [eak h]; exact RowKey.ne_event (addKey h).2.2 id
  · intro hs m h id; rw [erk hs h]; exact RowKey.ne_event (removeKey hs h).2.2 id
  · intro m h k hk id
    obtain ⟨r, hr, rfl⟩ := memaux h k hk
    exact RowKey.ne_event (auxWF h r hr).2 id
  · exact cmpSelf
  · exact cmpAnti
  · intro a b ha hb e h0
    obtain ⟨h1, h2⟩ := cmpEq ha hb h0
    exact inj ha hb (hitem ha hb e) h1 h2
  · intro a b c ha hb hc _ _ h1 h2
    exact cmpTrans ha hb hc h1 h2

end StoreDef
end Verif
