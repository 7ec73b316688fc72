import Verif.Lemmas.StoreKinds
import Verif.Lemmas.StoreSafe
import Verif.Case.Store
/-!
C09: one winner per logical item.  After any history of merges, for every item about which something was
merged, exactly one of those messages is stored: the one that beats all the others.  Lookups return it.
-/
namespace Verif

theorem C09_one_winner (kind : StoreKind) (channelOf : Bytes → Option Bytes) (hch : ChannelNaming channelOf)
    (ctx : Nat → MergeCtx) (ops : List StoreOp) (ho : MergesOnly ops)
    (hvalid : ∀ m ∈ StoreOp.merged ops, kind.Valid m) (hU : HashesIdentify (· ∈ StoreOp.merged ops))
    (m : Msg) (hm : m ∈ StoreOp.merged ops) :
    let D := kind.store channelOf
    let st := ({} : StoreState).run D ctx ops
    ∃ w ∈ StoreOp.merged ops, w.Rivals m ∧
      (∀ x ∈ StoreOp.merged ops, x.Rivals m → x ≠ w → kind.beats w x) ∧
      (∀ x, x.Rivals m → kind.Valid x → (st.Has D x ↔ x = w)) ∧
      (¬ w.isRemoval → D.getAdd st.db st.pend.txn m = .ok (some w) ∧
        (D.removeSupported = true → D.getRemove st.db st.pend.txn m = .ok none)) ∧
      (w.isRemoval → D.getAdd st.db st.pend.txn m = .ok none ∧ D.getRemove st.db st.pend.txn m = .ok (some w)) := by
  intro D st
  have H : D.Lawful (okIn kind (· ∈ StoreOp.merged ops)) := kind_lawful kind hch hU
  obtain ⟨L, hi⟩ := StoreDef.merge_run (ctx := ctx) H (kind_compactOut kind hU) ops ho (fun m hm => ⟨hvalid m hm, hm⟩)
  have hok : ∀ x ∈ StoreOp.merged ops, okIn kind (· ∈ StoreOp.merged ops) x := fun x hx => ⟨hvalid x hx, hx⟩
  have hmem := hi.winners.mem_iff H hok hi.holds.items
  obtain ⟨w, hw, hwe, _⟩ := hi.winners.dom m hm
  have hwm := hi.winners.sub w hw
  have riv : ∀ {a b}, a ∈ StoreOp.merged ops → b ∈ StoreOp.merged ops → (D.ak a = D.ak b ↔ a.Rivals b) :=
    fun ha hb => kind_rivals kind (hok _ ha) (hok _ hb)
  have hwr : w.Rivals m := (riv hwm hm).1 hwe
  have h0 : m.fid ≠ 0 := by have := (hok m hm).1.1; omega
  have hmo := hok m hm
  have hwo := hok w hwm
  have hadd : D.isAdd w = true ↔ ¬ w.isRemoval := kind_isAdd kind hwo
  refine ⟨w, hwm, hwr, ?_, ?_, ?_, ?_⟩
  · intro x hx hxr hne
    have hxe := (riv hx hm).2 hxr
    have h1 := ((hmem w).1 hw).2 x hx (hxe.trans hwe.symm)
    rw [← kind_beats (channelOf := channelOf) kind hwo (hok x hx)]
    have hanti := H.cmpAnti hwo (hok x hx)
    have : ¬ D.cmp w x = 0 := fun e => hne (H.cmpEq hwo (hok x hx) (hwe.trans hxe.symm) e).symm
    have h2 : ¬ D.cmp w x < 0 := fun e => h1 (hanti.1 e)
    show D.cmp w x > 0
    omega
  · intro x hxr hxv
    have hp : st.Has D x ↔ x ∈ L := by
      constructor
      · intro hx
        obtain ⟨y, hy, hr⟩ := (hi.holds.rows _ (StoreDef.Space.prim x) _).1 hx
        have hyo := hi.holds.valid y hy
        rcases StoreDef.mem_rowsOf hr with e | e | e | e
        · have := e.2; cases this; exact hy
        · exact absurd e.2.1 (H.prim_ne_ak hyo)
        · exact absurd e.2.1 (H.prim_ne_rk (H.remove_of_not_add hyo e.1).2 hyo)
        · exact absurd e.2.1 (H.prim_notin_aux hyo)
      · intro hx; exact hi.holds.get_prim H hx
    rw [hp]
    constructor
    · intro hx
      exact hi.holds.unique hx hw (((riv (hi.winners.sub x hx) hm).2 hxr).trans hwe.symm)
    · intro e; rw [e]; exact hw
  · intro hrem
    have ha := hadd.2 hrem
    constructor
    · rcases getAdd_eq (t := st.pend.txn) H hi.holds hmo h0 with ⟨x, hx, e, _, hg⟩ | ⟨hn, _⟩
      · rw [hi.holds.unique hw hx (hwe.trans e.symm)]; exact hg
      · rw [hn w hw hwe] at ha; cases ha
    · intro hs
      rcases getRemove_eq (t := st.pend.txn) H hi.holds hmo h0 hs with ⟨x, hx, e, e', _⟩ | ⟨_, hg⟩
      · rw [← hi.holds.unique hw hx (hwe.trans e.symm), ha] at e'; cases e'
      · exact hg
  · intro hrem
    have ha : D.isAdd w = false := by
      cases h : D.isAdd w
      · rfl
      · exact absurd hrem (hadd.1 h)
    have hs := (H.remove_of_not_add hwo ha).2
    constructor
    · rcases getAdd_eq (t := st.pend.txn) H hi.holds hmo h0 with ⟨x, hx, e, e', _⟩ | ⟨_, hg⟩
      · rw [← hi.holds.unique hw hx (hwe.trans e.symm), ha] at e'; cases e'
      · exact hg
    · rcases getRemove_eq (t := st.pend.txn) H hi.holds hmo h0 hs with ⟨x, hx, e, _, hg⟩ | ⟨hn, _⟩
      · rw [hi.holds.unique hw hx (hwe.trans e.symm)]; exact hg
      · rw [hn w hw hwe] at ha; cases ha

/-- Items nothing was merged about have no message. -/
theorem C09_nothing_else (kind : StoreKind) (channelOf : Bytes → Option Bytes) (hch : ChannelNaming channelOf)
    (ctx : Nat → MergeCtx) (ops : List StoreOp) (ho : MergesOnly ops)
    (hvalid : ∀ m ∈ StoreOp.merged ops, kind.Valid m) (item : Msg)
    (hU : HashesIdentify (fun m => m ∈ StoreOp.merged ops ∨ m = item)) (hi : kind.Valid item)
    (hnone : ∀ x ∈ StoreOp.merged ops, ¬ x.Rivals item) :
    let D := kind.store channelOf
    let st := ({} : StoreState).run D ctx ops
    ¬ st.Has D item ∧ D.getAdd st.db st.pend.txn item = .ok none ∧
      (D.removeSupported = true → D.getRemove st.db st.pend.txn item = .ok none) := by
  intro D st
  have H : D.Lawful (okIn kind (fun m => m ∈ StoreOp.merged ops ∨ m = item)) := kind_lawful kind hch hU
  obtain ⟨L, h⟩ := StoreDef.merge_run (ctx := ctx) H (kind_compactOut kind hU) ops ho
    (fun m hm => ⟨hvalid m hm, .inl hm⟩)
  have hio : okIn kind (fun m => m ∈ StoreOp.merged ops ∨ m = item) item := ⟨hi, .inr rfl⟩
  have h0 : item.fid ≠ 0 := by have := hi.1; omega
  have hno : ∀ x ∈ L, D.ak x ≠ D.ak item := by
    intro x hx e
    have hxm := h.winners.sub x hx
    exact hnone x hxm ((kind_rivals (channelOf := channelOf) kind ⟨hvalid x hxm, .inl hxm⟩ hio).1 e)
  refine ⟨?_, ?_, ?_⟩
  · intro hx
    obtain ⟨y, hy, hr⟩ := (h.holds.rows _ (StoreDef.Space.prim item) _).1 hx
    have hyo := h.holds.valid y hy
    rcases StoreDef.mem_rowsOf hr with e | e | e | e
    · have := e.2; cases this; exact hno _ hy rfl
    · exact absurd e.2.1 (H.prim_ne_ak hyo)
    · exact absurd e.2.1 (H.prim_ne_rk (H.remove_of_not_add hyo e.1).2 hyo)
    · exact absurd e.2.1 (H.prim_notin_aux hyo)
  · rcases getAdd_eq (t := st.pend.txn) H h.holds hio h0 with ⟨x, hx, e, _⟩ | ⟨_, hg⟩
    · exact absurd e (hno x hx)
    · exact hg
  · intro hs
    rcases getRemove_eq (t := st.pend.txn) H h.holds hio h0 hs with ⟨x, hx, e, _⟩ | ⟨_, hg⟩
    · exact absurd e (hno x hx)
    · exact hg

/-- Follow, unfollow and follow again, arriving in the wrong order: the last follow wins. -/
example :
    let ops : List StoreOp := [.merge Case.refollow8, .merge Case.follow8, .commit, .merge Case.follow9,
      .merge Case.unfollow8]
    MergesOnly ops ∧ (∀ m ∈ StoreOp.merged ops, StoreKind.links.Valid m) ∧
      HashesIdentify (· ∈ StoreOp.merged ops) ∧
      linkStore.getAdd (({} : StoreState).run linkStore Case.allOn ops).db
        (({} : StoreState).run linkStore Case.allOn ops).pend.txn Case.unfollow8 = .ok (some Case.refollow8) := by
  refine ⟨by simp [MergesOnly], ?_, ?_, by decide +kernel⟩
  · intro m hm
    refine Case.links_valid m ?_
    simp [StoreOp.merged, Case.links] at hm ⊢
    rcases hm with h | h | h | h <;> simp [h]
  · intro a b ha hb
    refine Case.links_hashes a b ?_ ?_
    · simp [StoreOp.merged, Case.links] at ha ⊢
      rcases ha with h | h | h | h <;> simp [h]
    · simp [StoreOp.merged, Case.links] at hb ⊢
      rcases hb with h | h | h | h <;> simp [h]

end Verif
