import Verif.Lemmas.Listing
/-! The listings of the cast, link and reaction stores. -/
namespace Verif
variable {U : Msg → Prop} {channelOf : Bytes → Option Bytes} {ctx : Nat → MergeCtx} {db : Db SVal} {kind : StoreKind}

theorem ne_eventKey {x : UInt8} {k : Bytes} (hx : x ≠ 9) (id : Nat) : x :: k ≠ eventKey id := by
  intro e; simp only [eventKey, List.cons.injEq] at e; exact hx e.1

theorem prefix_fixed {a b c : Bytes} (hl : a.length = b.length) (h : a <+: b ++ c) : a = b := by
  obtain ⟨t, ht⟩ := h
  exact (List.append_inj ht hl).1

theorem cast_row_cases {follows : Bool} {m : Msg} {r : RowKey} {v : SVal}
    (h : (r, v) ∈ StoreKind.casts.rows channelOf follows m) :
    (∃ k, r.bytes = 3 :: k) ∨
    (∃ p, m.HasParent p ∧ r.bytes = 4 :: (p.key ++ (m.tsHash ++ be 4 m.fid))) ∨
    (∃ x, m.Mentions x ∧ r.bytes = 5 :: (be 4 x ++ (m.tsHash ++ be 4 m.fid))) := by
  unfold StoreKind.rows at h
  rw [List.mem_cons] at h
  rcases h with h | h
  · left
    simp only [Prod.mk.injEq] at h
    rw [h.1]
    exact ⟨_, rfl⟩
  · split at h <;> try contradiction
    · rename_i hk ht hb
      rw [List.mem_cons, List.mem_append] at h
      rcases h with h | h | h
      · simp only [Prod.mk.injEq] at h
        rw [h.1]
        exact .inl ⟨_, rfl⟩
      · split at h
        · rename_i p
          simp only [List.mem_singleton, Prod.mk.injEq] at h
          right; left
          refine ⟨p, ⟨ht, _, hb⟩, ?_⟩
          rw [h.1]; rfl
        · simp at h
      · obtain ⟨x, hx, e⟩ := List.mem_map.1 h
        simp only [Prod.mk.injEq] at e
        right; right
        refine ⟨x, ⟨ht, _, _, hb, hx⟩, ?_⟩
        rw [← e.1]; rfl
    · simp only [List.mem_singleton, Prod.mk.injEq] at h
      rw [h.1]
      exact .inl ⟨_, rfl⟩

theorem reaction_row_cases {follows : Bool} {m : Msg} {r : RowKey} {v : SVal}
    (h : (r, v) ∈ StoreKind.reactions.rows channelOf follows m) :
    (∃ k, r.bytes = 3 :: k) ∨
    (∃ ty t, m.ReactsTo ty t ∧ r.bytes = 7 :: (t.key ++ (m.tsHash ++ be 4 m.fid)) ∧ v = .raw [UInt8.ofNat ty]) ∨
    (∃ u c, m.ReactsTo 1 (.url u) ∧ follows = true ∧ channelOf u = some c ∧ v = .raw (be 4 m.ts) ∧
      (r.bytes = followByFidKey m.fid c ∨ r.bytes = followByChannelKey c m.fid)) := by
  unfold StoreKind.rows at h
  rw [List.mem_cons] at h
  rcases h with h | h
  · left
    simp only [Prod.mk.injEq] at h
    rw [h.1]
    exact ⟨_, rfl⟩
  · split at h <;> try contradiction
    · rename_i hk ht hb
      rw [List.mem_cons, List.mem_cons] at h
      rcases h with h | h | h
      · simp only [Prod.mk.injEq] at h
        rw [h.1]
        exact .inl ⟨_, rfl⟩
      · simp only [Prod.mk.injEq] at h
        right; left
        refine ⟨_, _, ⟨ht, hb⟩, ?_, h.2⟩
        rw [h.1]; rfl
      · split at h
        · split at h
          · rename_i hc
            obtain ⟨rfl, hfo⟩ := hc
            split at h
            · rename_i c hc
              right; right
              refine ⟨_, c, ⟨ht, hb⟩, hfo, hc, ?_⟩
              simp only [List.mem_cons, List.not_mem_nil, or_false, Prod.mk.injEq] at h
              rcases h with h | h
              · exact ⟨h.2, .inl (by rw [h.1]; rfl)⟩
              · exact ⟨h.2, .inr (by rw [h.1]; rfl)⟩
            · simp at h
          · simp at h
        · simp at h
    · simp only [List.mem_singleton, Prod.mk.injEq] at h
      rw [h.1]
      exact .inl ⟨_, rfl⟩

theorem link_row_cases {follows : Bool} {m : Msg} {r : RowKey} {v : SVal}
    (h : (r, v) ∈ StoreKind.links.rows channelOf follows m) :
    (∃ k, r.bytes = 3 :: k) ∨
    (∃ ty t, m.LinksTo ty t ∧ r.bytes = 6 :: (be 4 t ++ (m.tsHash ++ be 4 m.fid)) ∧ v = .raw ty) := by
  unfold StoreKind.rows at h
  rw [List.mem_cons] at h
  rcases h with h | h
  · left
    simp only [Prod.mk.injEq] at h
    rw [h.1]
    exact ⟨_, rfl⟩
  · split at h <;> try contradiction
    · rename_i hk ht hb
      simp only [List.mem_cons, List.not_mem_nil, or_false, Prod.mk.injEq] at h
      rcases h with h | h
      · rw [h.1]
        exact .inl ⟨_, rfl⟩
      · right
        refine ⟨_, _, ⟨ht, hb⟩, ?_, h.2⟩
        rw [h.1]; rfl
    · simp only [List.mem_singleton, Prod.mk.injEq] at h
      rw [h.1]
      exact .inl ⟨_, rfl⟩

theorem valid_sizes {m : Msg} (h : kind.Valid m) : m.fid < 2 ^ 32 ∧ m.ts < 2 ^ 32 ∧ m.hash.length = 20 :=
  ⟨h.2.1, h.2.2.1, h.2.2.2.1⟩

theorem tail_length {m : Msg} (h : kind.Valid m) : (m.tsHash ++ be 4 m.fid).length = 28 := by
  simp [Msg.tsHash, h.2.2.2.1]

theorem list_mentions (h : CommittedRows .casts channelOf ctx U db) (fid : Nat) (hf : fid < 2 ^ 32) :
    ListsExactly (getCastsByMention db fid) (fun m => Committed castStore db m ∧ m.Mentions fid) := by
  refine lists_exactly db _ castStore _ _ ⟨5, by simp, by decide⟩ ?_ ?_ ?_ ?_
  · apply noShortKey_of_head _ (by decide)
    intro y k v hg hy
    obtain ⟨m, hv, _, _, r, hr, e⟩ := (h _ (by
      apply ne_eventKey; rintro rfl; rcases hy with hy | hy
      · exact absurd hy (by decide)
      · exact absurd hy (by decide)) v).1 hg
    rcases cast_row_cases hr with ⟨k', e'⟩ | ⟨p, _, e'⟩ | ⟨x, _, e'⟩
    · rw [e'] at e; simp only [List.cons.injEq] at e; rw [e.1] at hy; exact absurd hy (by decide)
    · rw [e'] at e; simp only [List.cons.injEq] at e; rw [e.1] at hy; exact absurd hy (by decide)
    · rw [e'] at e; simp only [List.cons.injEq] at e
      rw [e.2, List.length_append, tail_length hv]; simp [makeFidKey]
  · intro k v hg hp _
    obtain ⟨t, rfl⟩ := hp
    obtain ⟨m, hv, _, hc, r, hr, e⟩ := (h _ (fun id => ne_eventKey (by decide) id) v).1 hg
    rcases cast_row_cases hr with ⟨k', e'⟩ | ⟨p, _, e'⟩ | ⟨x, hx, e'⟩
    · rw [e'] at e; simp at e
    · rw [e'] at e; simp at e
    · rw [e'] at e
      simp only [List.cons.injEq, true_and] at e
      obtain ⟨e1, e2⟩ := List.append_inj e (by simp [makeFidKey])
      have hxf : x = fid := by
        have hxl : x < 2 ^ 32 := by
          obtain ⟨hty, p, ms, hb, hm⟩ := hx
          rcases hv.2.2.2.2 with ⟨_, p', ms', hb', hl⟩ | ⟨ht, _⟩
          · rw [hb] at hb'; cases hb'; exact hl x hm
          · rw [hty] at ht; cases ht
        exact (be_inj (w := 4) (by omega) (by omega) e1).symm
      subst hxf
      exact ⟨m, ⟨hc, hx⟩, by rw [e2]⟩
  · rintro m ⟨hc, hx⟩
    obtain ⟨hv, hu⟩ := h.valid hc
    refine ⟨.raw [1], rfl, (h _ (fun id => ne_eventKey (by decide) id) _).2 ⟨m, hv, hu, hc,
      .castByMention fid m.tsHash m.fid, ?_, rfl⟩⟩
    · obtain ⟨ht, p, ms, hb, hm⟩ := hx
      unfold StoreKind.rows
      rw [ht, hb]
      simp [hm]
  · rintro m ⟨hc, _⟩
    have := valid_sizes (h.valid hc).1
    exact ⟨this.1, this.2.1, this.2.2, hc⟩

theorem list_links (h : CommittedRows .links channelOf ctx U db) (fid : Nat) (hf : fid < 2 ^ 32) (ty : Bytes) :
    ListsExactly (getLinksByTarget db fid ty)
      (fun m => Committed linkStore db m ∧ ∃ ty', m.LinksTo ty' fid ∧ (ty = [] ∨ ty' = ty)) := by
  have htgt : ∀ m ty' t, StoreKind.links.Valid m → m.LinksTo ty' t → t < 2 ^ 32 := by
    rintro m ty' t hv ⟨_, hb⟩
    obtain ⟨ty2, t2, hb2, _, _, hl⟩ := hv.2.2.2.2.2
    rw [hb] at hb2; cases hb2; exact hl
  refine lists_exactly db _ linkStore _ _ ⟨6, by simp, by decide⟩ ?_ ?_ ?_ ?_
  · apply noShortKey_of_head _ (by decide)
    intro y k v hg hy
    obtain ⟨m, hv, _, _, r, hr, e⟩ := (h _ (by
      apply ne_eventKey; rintro rfl; rcases hy with hy | hy
      · exact absurd hy (by decide)
      · exact absurd hy (by decide)) v).1 hg
    rcases link_row_cases hr with ⟨k', e'⟩ | ⟨ty', t, _, e', _⟩
    · rw [e'] at e; simp only [List.cons.injEq] at e; rw [e.1] at hy; exact absurd hy (by decide)
    · rw [e'] at e; simp only [List.cons.injEq] at e
      rw [e.2, List.length_append, tail_length hv]; simp [makeFidKey]
  · intro k v hg hp hk
    obtain ⟨t, rfl⟩ := hp
    obtain ⟨m, hv, _, hc, r, hr, e⟩ := (h _ (fun id => ne_eventKey (by decide) id) v).1 hg
    rcases link_row_cases hr with ⟨k', e'⟩ | ⟨ty', x, hx, e', ev⟩
    · rw [e'] at e; simp at e
    · rw [e'] at e
      simp only [List.cons.injEq, true_and] at e
      obtain ⟨e1, e2⟩ := List.append_inj e (by simp [makeFidKey])
      have hxf : x = fid := by
        have hxl := htgt m ty' x hv hx
        exact (be_inj (w := 4) (by omega) (by omega) e1).symm
      subst hxf
      refine ⟨m, ⟨hc, ty', hx, ?_⟩, by rw [e2]⟩
      rw [ev] at hk
      simpa using hk
  · rintro m ⟨hc, ty', hx, hty⟩
    obtain ⟨hv, hu⟩ := h.valid hc
    refine ⟨.raw ty', by simpa using hty, (h _ (fun id => ne_eventKey (by decide) id) _).2 ⟨m, hv, hu, hc,
      .linkByTarget fid m.tsHash m.fid, ?_, rfl⟩⟩
    obtain ⟨ht, hb⟩ := hx
    unfold StoreKind.rows
    rw [ht, hb]
    simp
  · rintro m ⟨hc, _⟩
    have := valid_sizes (h.valid hc).1
    exact ⟨this.1, this.2.1, this.2.2, hc⟩

theorem list_parent (h : CommittedRows .casts channelOf ctx U db) (t : Target) (ht : t.Proper)
    (hfree : ∀ m t', Committed castStore db m → m.HasParent t' → t.key <+: indexTail t' m → t' = t) :
    ListsExactly (getCastsByParent db t) (fun m => Committed castStore db m ∧ m.HasParent t) := by
  refine lists_exactly db _ castStore _ _ ⟨4, by simp, by decide⟩ ?_ ?_ ?_ ?_
  · cases t with
    | url u => exact noShortKey_of_text db (by decide) ht
    | castId f hash =>
      apply noShortKey_of_head _ (by decide)
      intro y k v hg hy
      have hl : (Target.castId f hash).key.length = 24 := by
        simp [Target.key, makeCastIdKey, makeFidKey, ht.2]
      rw [hl]
      obtain ⟨m, hv, _, _, r, hr, e⟩ := (h _ (by
        apply ne_eventKey; rintro rfl; rcases hy with hy | hy
        · exact absurd hy (by decide)
        · exact absurd hy (by decide)) v).1 hg
      rcases cast_row_cases hr with ⟨k', e'⟩ | ⟨p, _, e'⟩ | ⟨x, _, e'⟩
      · rw [e'] at e; simp only [List.cons.injEq] at e; rw [e.1] at hy; exact absurd hy (by decide)
      · rw [e'] at e; simp only [List.cons.injEq] at e
        rw [e.2, List.length_append, tail_length hv]; omega
      · rw [e'] at e; simp only [List.cons.injEq] at e
        rw [e.2, List.length_append, tail_length hv]; omega
  · intro k v hg hp _
    obtain ⟨s, rfl⟩ := hp
    obtain ⟨m, hv, _, hc, r, hr, e⟩ := (h _ (fun id => ne_eventKey (by decide) id) v).1 hg
    rcases cast_row_cases hr with ⟨k', e'⟩ | ⟨p, hx, e'⟩ | ⟨x, hx, e'⟩
    · rw [e'] at e; simp at e
    · rw [e'] at e
      simp only [List.cons.injEq, true_and] at e
      have := hfree m p hc hx ⟨s, e⟩
      subst this
      exact ⟨m, ⟨hc, hx⟩, congrArg (List.cons 4) e⟩
    · rw [e'] at e; simp at e
  · rintro m ⟨hc, hx⟩
    obtain ⟨hv, hu⟩ := h.valid hc
    refine ⟨.raw [1], rfl, (h _ (fun id => ne_eventKey (by decide) id) _).2 ⟨m, hv, hu, hc,
      .castByParent t.key m.tsHash m.fid, ?_, rfl⟩⟩
    obtain ⟨ht, ms, hb⟩ := hx
    unfold StoreKind.rows
    rw [ht, hb]
    simp
  · rintro m ⟨hc, _⟩
    have := valid_sizes (h.valid hc).1
    exact ⟨this.1, this.2.1, this.2.2, hc⟩

theorem list_reactions (h : CommittedRows .reactions channelOf ctx U db) (t : Target) (ht : t.Proper) (ty : Nat)
    (hty : ty < 256)
    (hfree : ∀ m ty' t', Committed (reactionStore channelOf) db m → m.ReactsTo ty' t' → (ty = 0 ∨ ty' = ty) →
      t.key <+: indexTail t' m → t' = t) :
    ListsExactly (getReactionsByTarget db t ty)
      (fun m => Committed (reactionStore channelOf) db m ∧ ∃ ty', m.ReactsTo ty' t ∧ (ty = 0 ∨ ty' = ty)) := by
  have hkeep : ∀ m ty' t', StoreKind.reactions.Valid m → m.ReactsTo ty' t' →
      ((decide (ty = 0) || decide (SVal.raw [UInt8.ofNat ty'] = .raw [UInt8.ofNat ty])) = true ↔ (ty = 0 ∨ ty' = ty)) := by
    rintro m ty' t' hv ⟨_, hb⟩
    obtain ⟨ty2, t2, hb2, _, hl⟩ := hv.2.2.2.2.2
    rw [hb] at hb2; cases hb2
    simp only [Bool.or_eq_true, decide_eq_true_eq, SVal.raw.injEq, List.cons.injEq, and_true]
    constructor
    · rintro (h | h)
      · exact .inl h
      · right
        have := congrArg UInt8.toNat h
        simp at this; omega
    · rintro (h | h)
      · exact .inl h
      · exact .inr (by rw [h])
  refine lists_exactly db _ (reactionStore channelOf) _ _ ⟨7, by simp, by decide⟩ ?_ ?_ ?_ ?_
  · cases t with
    | url u => exact noShortKey_of_text db (by decide) ht
    | castId f hash =>
      apply noShortKey_of_head _ (by decide)
      intro y k v hg hy
      have hl : (Target.castId f hash).key.length = 24 := by
        simp [Target.key, makeCastIdKey, makeFidKey, ht.2]
      rw [hl]
      obtain ⟨m, hv, _, _, r, hr, e⟩ := (h _ (by
        apply ne_eventKey; rintro rfl; rcases hy with hy | hy
        · exact absurd hy (by decide)
        · exact absurd hy (by decide)) v).1 hg
      rcases reaction_row_cases hr with ⟨k', e'⟩ | ⟨ty', p, _, e', _⟩ | ⟨u, c, _, _, _, _, e' | e'⟩
      · rw [e'] at e; simp only [List.cons.injEq] at e; rw [e.1] at hy; exact absurd hy (by decide)
      · rw [e'] at e; simp only [List.cons.injEq] at e
        rw [e.2, List.length_append, tail_length hv]; omega
      · rw [e'] at e; simp only [followByFidKey, List.cons.injEq] at e; rw [e.1] at hy; exact absurd hy (by decide)
      · rw [e'] at e; simp only [followByChannelKey, List.cons.injEq] at e; rw [e.1] at hy; exact absurd hy (by decide)
  · intro k v hg hp hk
    obtain ⟨s, rfl⟩ := hp
    obtain ⟨m, hv, _, hc, r, hr, e⟩ := (h _ (fun id => ne_eventKey (by decide) id) v).1 hg
    rcases reaction_row_cases hr with ⟨k', e'⟩ | ⟨ty', p, hx, e', ev⟩ | ⟨u, c, _, _, _, _, e' | e'⟩
    · rw [e'] at e; simp at e
    · rw [e'] at e
      simp only [List.cons.injEq, true_and] at e
      rw [ev] at hk
      have hk' := (hkeep m ty' p hv hx).1 hk
      have := hfree m ty' p hc hx hk' ⟨s, e⟩
      subst this
      exact ⟨m, ⟨hc, ty', hx, hk'⟩, congrArg (List.cons 7) e⟩
    · rw [e'] at e; simp [followByFidKey] at e
    · rw [e'] at e; simp [followByChannelKey] at e
  · rintro m ⟨hc, ty', hx, hk⟩
    obtain ⟨hv, hu⟩ := h.valid hc
    refine ⟨.raw [UInt8.ofNat ty'], (hkeep m ty' t hv hx).2 hk, (h _ (fun id => ne_eventKey (by decide) id) _).2 ⟨m, hv, hu, hc,
      .reactionByTarget t.key m.tsHash m.fid, ?_, rfl⟩⟩
    obtain ⟨ht, hb⟩ := hx
    unfold StoreKind.rows
    rw [ht, hb]
    simp
  · rintro m ⟨hc, _⟩
    have := valid_sizes (h.valid hc).1
    exact ⟨this.1, this.2.1, this.2.2, hc⟩

end Verif
