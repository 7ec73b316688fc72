import Verif.Spec.Consensus
/-!
Read nodes.
-/
namespace Verif
open Spec
variable {B : Type} {env : ReadEnv B}

theorem ofRows_rows {K V : Type} [StrictOrd K] {l : List (K × V)} (h : OMapL.Sorted l) : (OMap.ofRows l).rows = l := by
  have key : ∀ (l p : List (K × V)) (m : OMap K V), m.rows = p → OMapL.Sorted (p ++ l) →
      (l.foldl (fun acc r => acc.put r.1 r.2) m).rows = p ++ l := by
    intro l
    induction l with
    | nil => intro p m hm _; simpa using hm
    | cons a l ih =>
      intro p m hm hs
      simp only [List.foldl_cons]
      have hput : (m.put a.1 a.2).rows = p ++ [a] := by
        show OMapL.put a.1 a.2 m.rows = _
        rw [hm]
        have hlt : ∀ x ∈ p, x.1 ≺ a.1 := by
          intro x hx
          exact (List.pairwise_append.1 hs).2.2 x hx a List.mem_cons_self
        clear ih hm hs
        induction p with
        | nil => rfl
        | cons b p ih2 =>
          obtain ⟨kb, vb⟩ := b
          have hb : kb ≺ a.1 := hlt _ List.mem_cons_self
          have hnb : ¬ a.1 ≺ kb := fun e => StrictOrd.irrefl _ (StrictOrd.trans hb e)
          simp only [OMapL.put, if_neg hnb, if_pos hb, List.cons_append]
          rw [ih2 (fun x hx => hlt x (List.mem_cons_of_mem _ hx))]
      have := ih (p ++ [a]) _ hput (by simpa using hs)
      simpa using this
  unfold OMap.ofRows
  simpa using key l [] OMap.empty rfl (by simpa using h)

/-- What holds of a read node that started at `h0`: its log has the next heights in order, everything logged or
buffered passed the checks and is filed under its height, the buffer holds only heights above the next one. -/
structure ReadInv (env : ReadEnv B) (h0 : BlockHeight) (seen : List (Decided B)) (n : ReadNode B) : Prop where
  heights : n.log.map (·.height) = heightsAfter h0 n.log.length
  last : n.last = ⟨h0.shard, h0.block + n.log.length⟩
  logged : ∀ v ∈ n.log, v ∈ seen ∧ Passes env v
  buffered : ∀ r ∈ n.buf.rows, r.2.height = r.1 ∧ n.last.next ≺ r.1 ∧ r.2 ∈ seen ∧ Passes env r.2

theorem heightsAfter_succ {h : BlockHeight} {k : Nat} :
    heightsAfter h (k + 1) = heightsAfter h k ++ [⟨h.shard, h.block + 1 + k⟩] := by
  simp [heightsAfter, List.range_succ]

/-- The part of the invariant the buffered loop works with. -/
structure BufferInv (env : ReadEnv B) (h0 : BlockHeight) (seen : List (Decided B)) (n : ReadNode B) : Prop where
  heights : n.log.map (·.height) = heightsAfter h0 n.log.length
  last : n.last = ⟨h0.shard, h0.block + n.log.length⟩
  logged : ∀ v ∈ n.log, v ∈ seen ∧ Passes env v

theorem next_eq {h0 : BlockHeight} {k : Nat} (hb : h0.block + k + 1 < 2 ^ 64) :
    BlockHeight.next ⟨h0.shard, h0.block + k⟩ = ⟨h0.shard, h0.block + k + 1⟩ := by
  simp only [BlockHeight.next, BlockHeight.mk.injEq, true_and]
  exact Nat.mod_eq_of_lt hb

theorem commit_inv {h0 : BlockHeight} {seen : List (Decided B)} {n n' : ReadNode B} {v : Decided B}
    (h : BufferInv env h0 seen n) (hv : v.height = n.last.next) (hs : v ∈ seen) (hp : Passes env v)
    (hb : h0.block + n.log.length + 1 < 2 ^ 64) (hc : commitDecided env n v v.height = some n') :
    BufferInv env h0 seen n' ∧ n'.buf = n.buf ∧ n'.log = n.log ++ [v] := by
  unfold commitDecided at hc
  split at hc
  · simp only [Option.some.injEq] at hc
    subst hc
    rw [h.last, next_eq hb] at hv
    refine ⟨⟨?_, ?_, ?_⟩, rfl, rfl⟩
    · simp only [List.map_append, List.map_cons, List.map_nil, List.length_append, List.length_cons, List.length_nil,
        Nat.zero_add, heightsAfter_succ, h.heights, hv]
      congr 3; omega
    · simp only [hv, List.length_append, List.length_cons, List.length_nil]
      congr 1
    · intro x hx
      rcases List.mem_append.1 hx with hx | hx
      · exact h.logged x hx
      · rw [List.mem_singleton.1 hx]; exact ⟨hs, hp⟩
  · exact absurd hc (by simp)

theorem processBuffered_inv {h0 : BlockHeight} {seen : List (Decided B)} {rows : List (BlockHeight × Decided B)} :
    ∀ {n n' : ReadNode B} {rest : List (BlockHeight × Decided B)},
    BufferInv env h0 seen n → OMapL.Sorted rows →
    (∀ r ∈ rows, r.2.height = r.1 ∧ r.2 ∈ seen ∧ Passes env r.2) →
    h0.block + n.log.length + rows.length + 1 < 2 ^ 64 →
    processBuffered env n rows = some (n', rest) →
    BufferInv env h0 seen n' ∧ rest <:+ rows ∧ (∀ r ∈ rest, n'.last.next ≺ r.1) ∧ n.log <+: n'.log ∧
      (∀ r ∈ rows, r ∉ rest → r.1 ≺ n.last.next ∨ r.2 ∈ n'.log) ∧
      n'.log.length + rest.length ≤ n.log.length + rows.length := by
  induction rows with
  | nil =>
    intro n n' rest h _ _ _ hp
    simp only [processBuffered, Option.some.injEq, Prod.mk.injEq] at hp
    obtain ⟨rfl, rfl⟩ := hp
    exact ⟨h, List.suffix_refl _, by simp, List.prefix_refl _, by simp, Nat.le_refl _⟩
  | cons r rows ih =>
    intro n n' rest h hs hr hb hp
    obtain ⟨k, v⟩ := r
    have hs' := List.pairwise_cons.1 hs
    have hr0 := hr _ List.mem_cons_self
    simp only [List.length_cons] at hb
    simp only [processBuffered] at hp
    split at hp
    · rename_i hk
      cases hc : commitDecided env n v k with
      | none => rw [hc] at hp; exact absurd hp (by simp)
      | some m =>
        rw [hc] at hp
        have hv : v.height = n.last.next := by rw [← hk]; exact hr0.1
        obtain ⟨i1, _, i3⟩ := commit_inv h hv hr0.2.1 hr0.2.2 (by omega) (by rw [show v.height = k from hr0.1]; exact hc)
        have hlen : m.log.length = n.log.length + 1 := by rw [i3]; simp
        obtain ⟨j1, j2, j3, j4, j5, j6⟩ := ih i1 hs'.2 (fun r hr' => hr r (List.mem_cons_of_mem _ hr')) (by omega) hp
        refine ⟨j1, j2.trans (List.suffix_cons _ _), j3, (i3 ▸ List.prefix_append _ _).trans j4, ?_, ?_⟩
        · intro r hr' hn
          rcases List.mem_cons.1 hr' with e | e
          · right
            rw [e]
            exact j4.subset (by rw [i3]; simp)
          · rcases j5 r e hn with g | g
            · left
              have h1 := hs'.1 r e
              simp only at h1
              have hl : m.last.next = ⟨h0.shard, h0.block + n.log.length + 2⟩ := by
                rw [i1.last, hlen, next_eq (by omega)]; rfl
              have hl' : n.last.next = ⟨h0.shard, h0.block + n.log.length + 1⟩ := by
                rw [h.last, next_eq (by omega)]
              rw [hl] at g
              rw [hk, hl'] at h1
              exfalso
              simp only [StrictOrd.lt] at g h1
              omega
            · exact .inr g
        · simp only [List.length_cons]; omega
    · split at hp
      · rename_i hlt
        simp only [Option.some.injEq, Prod.mk.injEq] at hp
        obtain ⟨rfl, rfl⟩ := hp
        refine ⟨h, List.suffix_refl _, ?_, List.prefix_refl _, fun r hr' hn => absurd hr' hn, Nat.le_refl _⟩
        intro r hr'
        rcases List.mem_cons.1 hr' with e | e
        · rw [e]; exact hlt
        · exact StrictOrd.trans hlt (hs'.1 r e)
      · rename_i hne hlt
        obtain ⟨j1, j2, j3, j4, j5, j6⟩ := ih h hs'.2 (fun r hr' => hr r (List.mem_cons_of_mem _ hr')) (by omega) hp
        refine ⟨j1, j2.trans (List.suffix_cons _ _), j3, j4, ?_, by simp only [List.length_cons]; omega⟩
        intro r hr' hn
        rcases List.mem_cons.1 hr' with e | e
        · left
          rw [e]
          rcases StrictOrd.tri k n.last.next with g | g | g
          · exact g
          · exact absurd g hne
          · exact absurd g hlt
        · exact j5 r e hn

/-- What one delivery does. -/
theorem processDecided_inv {h0 : BlockHeight} {seen : List (Decided B)} {n n' : ReadNode B} {v : Decided B}
    (h : ReadInv env h0 seen n) (hb : h0.block + n.log.length + n.buf.rows.length + 2 < 2 ^ 64)
    (hp : processDecided env n v = some n') :
    ReadInv env h0 (seen ++ [v]) n' ∧ n.log <+: n'.log ∧
      n'.log.length + n'.buf.rows.length ≤ n.log.length + n.buf.rows.length + 1 ∧
      (n.buf.rows.length ≤ env.maxBuffered → n'.buf.rows.length ≤ env.maxBuffered) ∧
      (∀ k, (n.buf.get k).isSome → (n'.buf.get k).isSome ∨ k ∈ n'.log.map (·.height)) ∧
      (Passes env v → (n'.buf.get v.height).isSome ∨ v.height ∈ n'.log.map (·.height) ∨ v.height ≺ n.last.next ∨
        (n.last.next ≺ v.height ∧ env.maxBuffered ≤ n.buf.rows.length)) ∧
      (∀ k, (n'.buf.get k).isSome → (n.buf.get k).isSome ∨ (k = v.height ∧ Passes env v)) := by
  have mono : ∀ x, x ∈ seen ∧ Passes env x → x ∈ seen ++ [v] ∧ Passes env x := fun x hx =>
    ⟨List.mem_append_left _ hx.1, hx.2⟩
  have same : ReadInv env h0 (seen ++ [v]) n := ⟨h.heights, h.last, fun x hx => mono x (h.logged x hx),
    fun r hr => ⟨(h.buffered r hr).1, (h.buffered r hr).2.1, mono _ (h.buffered r hr).2.2⟩⟩
  unfold processDecided at hp
  split at hp
  · rename_i hsig
    simp only [Option.some.injEq] at hp; subst hp
    refine ⟨same, List.prefix_refl _, by omega, fun e => e, fun k hk => .inl hk, fun hpass => ?_, fun k hk => .inl hk⟩
    rw [hpass.1] at hsig; exact absurd hsig (by simp)
  · split at hp
    · rename_i hsig hver
      simp only [Option.some.injEq] at hp; subst hp
      refine ⟨same, List.prefix_refl _, by omega, fun e => e, fun k hk => .inl hk, fun hpass => ?_, fun k hk => .inl hk⟩
      rw [hpass.2] at hver; exact absurd hver (by simp)
    · rename_i hsig hver
      have hpass : Passes env v := ⟨by simpa using hsig, by simpa using hver⟩
      split at hp
      · rename_i hlt
        split at hp
        · rename_i hroom
          simp only [Option.some.injEq] at hp; subst hp
          have hrows : ∀ r ∈ (n.buf.put v.height v).rows, r = (v.height, v) ∨ r ∈ n.buf.rows := fun r hr => OMapL.mem_put hr
          have hlen : (n.buf.put v.height v).rows.length ≤ n.buf.rows.length + 1 := by
            have : ∀ l : List (BlockHeight × Decided B), (OMapL.put v.height v l).length ≤ l.length + 1 := by
              intro l
              induction l with
              | nil => simp [OMapL.put]
              | cons a l ih =>
                obtain ⟨k', v'⟩ := a
                simp only [OMapL.put]
                split
                · simp
                · split
                  · simp only [List.length_cons]; omega
                  · simp
            exact this _
          refine ⟨⟨h.heights, h.last, same.logged, ?_⟩, List.prefix_refl _, by simp only; omega, fun _ => by simp only; omega, ?_, ?_, ?_⟩
          · intro r hr
            rcases hrows r hr with e | e
            · rw [e]; exact ⟨rfl, hlt, by simp, hpass⟩
            · exact same.buffered r e
          · intro k hk
            left
            simp only [OMap.get_put]
            split
            · rfl
            · exact hk
          · intro _
            left
            simp only [OMap.get_put]
            simp
          · intro k hk
            simp only [OMap.get_put] at hk
            split at hk
            · rename_i e; exact .inr ⟨e, hpass⟩
            · exact .inl hk
        · rename_i hroom
          simp only [Option.some.injEq] at hp; subst hp
          exact ⟨same, List.prefix_refl _, by omega, fun e => e, fun k hk => .inl hk,
            fun _ => .inr (.inr (.inr ⟨hlt, by omega⟩)), fun k hk => .inl hk⟩
      · rename_i hnlt
        split at hp
        · rename_i hk
          cases hc : commitDecided env n v v.height with
          | none => rw [hc] at hp; exact absurd hp (by simp)
          | some m =>
            rw [hc] at hp
            have hL : BufferInv env h0 (seen ++ [v]) n := ⟨same.heights, same.last, same.logged⟩
            obtain ⟨i1, i2, i3⟩ := commit_inv hL hk (by simp) hpass (by omega) hc
            have hlen : m.log.length = n.log.length + 1 := by rw [i3]; simp
            simp only at hp
            cases hpb : processBuffered env m m.buf.rows with
            | none => rw [hpb] at hp; exact absurd hp (by simp)
            | some x =>
              obtain ⟨m', rest⟩ := x
              rw [hpb] at hp
              simp only [Option.some.injEq] at hp; subst hp
              rw [i2] at hpb
              obtain ⟨j1, j2, j3, j4, j5, j6⟩ := processBuffered_inv i1 n.buf.sorted
                (fun r hr => ⟨(same.buffered r hr).1, (same.buffered r hr).2.2⟩) (by omega) hpb
              have hrest : OMapL.Sorted rest := n.buf.sorted.sublist j2.sublist
              have hor : (OMap.ofRows rest).rows = rest := ofRows_rows hrest
              refine ⟨⟨j1.heights, j1.last, j1.logged, ?_⟩, ?_, ?_, ?_, ?_, ?_, ?_⟩
              · intro r hr
                simp only [hor] at hr
                exact ⟨(same.buffered r (j2.subset hr)).1, j3 r hr, (same.buffered r (j2.subset hr)).2.2⟩
              · exact (i3 ▸ List.prefix_append n.log [v]).trans j4
              · simp only [hor]; omega
              · intro hle
                simp only [hor]
                have := j2.length_le
                omega
              · intro k hk'
                obtain ⟨x, hx⟩ := Option.isSome_iff_exists.1 hk'
                have hmem := (OMap.get_eq_some_iff _).1 hx
                by_cases hr : (k, x) ∈ rest
                · left
                  simp only
                  rw [(OMap.get_eq_some_iff (OMap.ofRows rest)).2 (by rw [hor]; exact hr)]; rfl
                · right
                  rcases j5 _ hmem hr with g | g
                  · have h1 := (same.buffered _ hmem).2.1
                    have hl : m.last.next = ⟨h0.shard, h0.block + n.log.length + 2⟩ := by
                      rw [i1.last, hlen, next_eq (by omega)]; rfl
                    have hl' : n.last.next = ⟨h0.shard, h0.block + n.log.length + 1⟩ := by
                      rw [h.last, next_eq (by omega)]
                    rw [hl] at g
                    rw [hl'] at h1
                    exfalso
                    simp only [StrictOrd.lt] at g h1
                    omega
                  · exact List.mem_map.2 ⟨x, g, (same.buffered _ hmem).1⟩
              · intro _
                right; left
                exact List.mem_map_of_mem (j4.subset (by rw [i3]; simp))
              · intro k hk'
                obtain ⟨x, hx⟩ := Option.isSome_iff_exists.1 hk'
                have hmem := (OMap.get_eq_some_iff _).1 hx
                simp only [hor] at hmem
                left
                rw [(OMap.get_eq_some_iff _).2 (j2.subset hmem)]; rfl
        · rename_i hne
          simp only [Option.some.injEq] at hp; subst hp
          refine ⟨same, List.prefix_refl _, by omega, fun e => e, fun k hk => .inl hk, fun _ => ?_, fun k hk => .inl hk⟩
          rcases StrictOrd.tri v.height n.last.next with g | g | g
          · exact .inr (.inr (.inl g))
          · exact absurd g hne
          · exact absurd g hnlt

end Verif
