import Verif.Lemmas.ZeroNumbers
import Verif.Lemmas.ZeroEngine
/-!
Channel messages on shard 0 are all handed on.
-/
namespace Verif
namespace ZeroCfg
variable {F : Type} {c : ZeroCfg}

/-- A channel message is among the results of a past block, or among the events of this one. -/
def Told (past : List Spec.ZBlock) (v : EngineVersion) (es : List ZEv) (m : Msg) : Prop :=
  18 ≤ m.ty.num →
    (∃ b ∈ past, b.ctx.version.isEnabled .channelMessages = true ∧ ZHub.mergeMessage (some m) ∈ b.hubs) ∨
    (v.isEnabled .channelMessages = true ∧ ∃ old, ZEv.store (.merge m old) ∈ es)

theorem Told.more {past : List Spec.ZBlock} {v : EngineVersion} {es es' : List ZEv} {m : Msg} (h : Told past v es m) :
    Told past v (es ++ es') m := by
  intro ht
  rcases h ht with h | ⟨h, old, ho⟩
  · exact .inl h
  · exact .inr ⟨h, old, by simp [ho]⟩

/-- The rows are told of. -/
def RowsTold (past : List Spec.ZBlock) (v : EngineVersion) (es : List ZEv) (w : ZWork) : Prop :=
  w.st.store.From (Told past v es)

section
variable {past : List Spec.ZBlock} {v : EngineVersion} {pre : List ZEv}

theorem RowsTold.more {es es' : List ZEv} {w : ZWork} (h : RowsTold past v es w) : RowsTold past v (es ++ es') w :=
  From.mono (fun _ h => h.more) h

theorem told_validated {clock ts : Nat} {w : ZWork} {slot : Slot} {n : VCounts} {m : Msg} {t : Txn GVal} {K : ChanKind}
    (hv : c.validateUser clock v ts w slot n m = .ok (t, some K)) : v.isEnabled .channelMessages = true := by
  cases hd : (c.wire m).data with
  | none => unfold validateUser at hv; rw [hd] at hv; cases hv
  | some d =>
    obtain ⟨_, _, _, _, _, _, _, ha, _⟩ := validated_cases hd hv
    exact arm_channel ha

theorem told_doUser {clock ts : Nat} {x x' : ZLoop} {m : Msg} (h : RowsTold past v (pre ++ x.events) x.w)
    (hx : c.doUser clock v ts x m = .ok x') : RowsTold past v (pre ++ x'.events) x'.w := by
  unfold doUser at hx
  split at hx
  · cases hx; exact h
  · rename_i t k hv
    have hch : c.mergeChannel v x (c.posted x.w v ts t m) k m = .ok x' → RowsTold past v (pre ++ x'.events) x'.w := by
      intro e
      unfold mergeChannel at e
      split at e
      · cases e
      · rename_i K
        have hen := told_validated hv
        split at e <;> rename_i hr
        · cases e
          refine ⟨fun k' m' hk => List.append_assoc _ _ _ ▸ (h.db k' m' hk).more, ?_⟩
          unfold mergeSlot at hr
          have : ∀ s : SSt, s.txn = x.w.st.store.pend.txn → s.From (Told past v (pre ++ (x.events ++ [ZEv.failed m]))) := by
            intro s hs k' m' hk
            rw [hs] at hk
            exact List.append_assoc _ _ _ ▸ (h.pend k' m' hk).more
          split at hr
          · cases hr; exact this _ rfl
          · unfold SM.nested at hr
            split at hr <;> cases hr
            exact this _ rfl
        · obtain ⟨old, rfl⟩ := slot_event hr
          have hp := mergeSlot_puts (G := Told past v (pre ++ (x.events ++ [ZEv.store (.merge m old)]))) K c.caps x.w.st.store.db
            (v.isEnabled .channelMessages) (m := m) (fun _ => .inr ⟨hen, old, by simp⟩) x.w.st.store.pend
            (fun k' m' hk => List.append_assoc _ _ _ ▸ (h.pend k' m' hk).more)
          have hr' : mergeSlot K c.caps x.w.st.store.db (v.isEnabled .channelMessages) m x.w.st.store.pend = _ := hr
          rw [hr'] at hp
          cases e
          exact ⟨fun k' m' hk => List.append_assoc _ _ _ ▸ (h.db k' m' hk).more, hp⟩
    have hver : m.ty.num < 18 → c.mergeVerification v x (c.posted x.w v ts t m) m = .ok x' → RowsTold past v (pre ++ x'.events) x'.w := by
      intro hlt e
      unfold mergeVerification at e
      have hp := StoreDef.merge_puts (G := Told past v (pre ++ x.events)) (kind_rawRows .verifications (fun _ => none)) x.w.st.store.db
        (c.ctx m.ts) (m := m) (fun h => absurd h (by omega)) x.w.st.store.pend h.pend
      have hp : (verificationStore.merge x.w.st.store.db (c.ctx m.ts) m x.w.st.store.pend).2.From (Told past v (pre ++ x.events)) := hp
      split at e
      · split at e <;> rename_i hr <;>
          (have hr' : verificationStore.merge x.w.st.store.db (c.ctx m.ts) m x.w.st.store.pend = _ := hr; rw [hr'] at hp)
        · cases e
          exact List.append_assoc _ _ _ ▸ RowsTold.more (w := stage _ _) ⟨h.db, hp⟩
        · split at e
          · cases e
          · cases e
            exact List.append_assoc _ _ _ ▸ RowsTold.more (w := stage _ _) ⟨h.db, hp⟩
      · cases e; exact h
    have hl : m.ty.num < 18 → RowsTold past v (pre ++ (c.mergeLend clock v x (c.posted x.w v ts t m) m).events)
        (c.mergeLend clock v x (c.posted x.w v ts t m) m).w := by
      intro hlt
      unfold mergeLend
      have hp := lendMerge_puts (G := Told past v (pre ++ x.events)) x.w.st.store.db (c.ctx m.ts) (m := m)
        (fun h => absurd h (by omega)) x.w.st.store.pend h.pend
      split
      · split <;> rename_i hr <;>
          (have hr' : lendMerge x.w.st.store.db (c.ctx m.ts) m x.w.st.store.pend = _ := hr; rw [hr'] at hp)
        · exact ⟨h.db, hp⟩
        · exact List.append_assoc _ _ _ ▸ RowsTold.more (w := stage _ _) ⟨h.db, hp⟩
      · exact h
    have hk : RowsTold past v (pre ++ (c.mergeKeyArm v x (c.posted x.w v ts t m) m).events)
        (c.mergeKeyArm v x (c.posted x.w v ts t m) m).w := by
      unfold mergeKeyArm
      split
      · split
        · exact List.append_assoc _ _ _ ▸ RowsTold.more (w := { c.posted x.w v ts t m with admit := _ }) h
        · exact h
      · exact h
    simp only at hx
    split at hx <;> rename_i hty <;> first
      | exact hver (by rw [hty]; decide) hx
      | exact hch hx
      | (cases hx; first | exact hl (by rw [hty]; decide) | exact hk | exact h)

theorem told_doUsers {clock ts : Nat} : ∀ (l : List Msg) (x x' : ZLoop), RowsTold past v (pre ++ x.events) x.w →
    c.doUsers clock v ts l x = .ok x' → RowsTold past v (pre ++ x'.events) x'.w
  | [], x, x', h, hx => by cases hx; exact h
  | m :: l, x, x', h, hx => by
    unfold doUsers at hx
    split at hx
    · cases hx
    · rename_i y hy
      exact told_doUsers l y x' (told_doUser h hy) hx

theorem told_doSyss : ∀ (l : List (SysMsg F)) (w : ZWork) (es : List ZEv), RowsTold past v (pre ++ es) w →
    RowsTold past v (pre ++ (c.doSyss v l w es).2) (c.doSyss v l w es).1
  | [], _, _, h => h
  | m :: l, w, es, h => by
    unfold doSyss
    refine told_doSyss l _ _ ?_
    have h1 : (c.doSys v w m).1.st = w.st := by
      unfold doSys
      split
      · rfl
      · split <;> rfl
    unfold RowsTold
    rw [h1, ← List.append_assoc]
    exact RowsTold.more h

theorem told_replay {clock ts : Nat} {w : ZWork} {t : ETxn F} {r : Bytes} {x : ZLoop} (h : RowsTold past v pre w)
    (hx : c.replay clock v ts w t = .ok (r, x)) : RowsTold past v (pre ++ x.events) x.w := by
  unfold replay at hx
  simp only at hx
  have h1 := told_doSyss (c := c) (past := past) (v := v) (pre := pre) (sysOrder v t.sys) w [] (by simpa using h)
  split at hx
  · cases hx
  · split at hx
    · cases hx
    · split at hx
      · cases hx
      · rename_i y hy
        have h2 := told_doUsers _ _ _ h1 hy
        unfold close at hx
        split at hx
        · cases hx
        · cases hx
          exact h2

end

theorem told_replays {past : List Spec.ZBlock} {v : EngineVersion} {clock ts : Nat} {claimed : Bool} :
    ∀ (l : List (ETxn F)) (w w' : ZWork) (rs : List Bytes) (pre es : List ZEv), RowsTold past v pre w →
      c.replays clock v ts claimed l w = .ok (rs, w', es) → RowsTold past v (pre ++ es) w'
  | [], w, w', rs, pre, es, h, hx => by cases hx; simpa using h
  | t :: l, w, w', rs, pre, es, h, hx => by
    unfold replays at hx
    split at hx
    · cases hx
    · rename_i r x hr
      split at hx
      · cases hx
      · split at hx
        · cases hx
        · rename_i rs' w2 es' hl
          cases hx
          rw [← List.append_assoc]
          exact told_replays l _ _ _ _ _ (told_replay h hr) hl

/-- The block as C38 sees it. -/
def resultsOf (c : ZeroCfg) (b : ZBlock F) (hubs : List ZHub) : Spec.ZBlock := ⟨⟨c.net, b.height, b.ts, c.ver b.ts⟩, hubs, b.eventsHash⟩

theorem told_commit {past : List Spec.ZBlock} {v : EngineVersion} {k : Nat} {d d' : ZWork} {b : ZBlock F}
    (hw : (c.ver b.ts).isEnabled .writeDataToShardZero = true) (hx : c.commit k d b = some d') (h : RowsTold past v [] d) :
    ∃ hubs es, commitBlockEvents c.HB c.encB d.bev ⟨c.net, b.height, b.ts, c.ver b.ts⟩ hubs b.eventsHash = some (d'.bev, es) ∧
      RowsTold (past ++ [c.resultsOf b hubs]) v [] d' := by
  unfold commit at hx
  rw [if_pos hw] at hx
  split at hx
  · cases hx
  · rename_i w hr
    unfold replayProposal at hr
    split at hr
    · cases hr
    · rename_i rs w1 es hl
      have hb := replays_bev _ _ _ _ _ hl
      have hin : RowsTold past (c.ver b.ts) [] (c.begin d (c.ver b.ts) b.height) := by
        refine ⟨fun k' m' hk ht => ?_, ?_⟩
        · rcases h.db k' m' hk ht with h | ⟨_, _, h⟩
          · exact .inl h
          · cases h
        · intro k' m' hk; simp [begin, OMap.get_empty] at hk
      have ht := told_replays _ _ _ _ _ _ hin hl
      split at hr
      · cases hr
      · rename_i w2 bs he
        split at hr
        · cases hr
        · rename_i hn
          simp only [ne_eq, Decidable.not_not] at hn
          have hw2 : w2 = w := by
            split at hr
            · cases hr
            · split at hr <;> cases hr
              rfl
          subst hw2
          unfold events at he
          split at he
          · cases he
          · rename_i n hmax
            simp only at he
            split at he
            · cases he
            · rename_i t ht'
              cases he
              have hbev : w1.bev = d.bev := hb.1
              have hbp : w1.bpend = OMap.empty := hb.2
              rw [hbp] at ht'
              rw [hbev] at hmax
              refine ⟨es.map ZEv.hub, generateBlockEvents c.HB c.encB ⟨c.net, b.height, b.ts, c.ver b.ts⟩ n (es.map ZEv.hub), ?_, ?_⟩
              · unfold commitBlockEvents
                rw [hmax]
                simp only [ht']
                rw [if_neg (by simpa using hn)]
                unfold finish at hx
                split at hx
                · cases hx
                · cases hx
                  simp only [hbev]
              · unfold finish at hx
                split at hx
                · cases hx
                · cases hx
                  refine From.mono ?_ (StoreState.From.exec ht (kind_rawRows .casts (fun _ => none)) (ctx := c.ctx) (o := .commit) (by simp))
                  intro m hm h18
                  rcases hm h18 with ⟨p, hp, h1⟩ | ⟨h1, old, h2⟩
                  · exact .inl ⟨p, by simp [hp], h1⟩
                  · refine .inl ⟨_, List.mem_append.2 (.inr (List.mem_singleton.2 rfl)), h1, ?_⟩
                    exact List.mem_map.2 ⟨_, by simpa using h2, rfl⟩

/-- The run as C38 sees it: the committed blocks with data. -/
theorem told_run {v : EngineVersion} : ∀ (calls : List (ZCall F)) (past : List Spec.ZBlock) (d d' : ZWork), RowsTold past v [] d →
    c.run calls d = some d' → ∃ bs ess, Spec.shard0Run c.HB c.encB bs d.bev = some (d'.bev, ess) ∧
      bs.map (fun b => (b.ctx, b.claimed)) =
        (((commits calls).map (·.2)).filter (fun b => (c.ver b.ts).isEnabled .writeDataToShardZero)).map
          (fun b => ((⟨c.net, b.height, b.ts, c.ver b.ts⟩ : BlockCtx), b.eventsHash)) ∧
      RowsTold (past ++ bs) v [] d'
  | [], past, d, d', h, hx => by cases hx; exact ⟨[], [], rfl, rfl, by simpa using h⟩
  | x :: xs, past, d, d', h, hx => by
    unfold run at hx
    split at hx
    · cases hx
    · rename_i d1 h1
      by_cases hc : ∃ k b, x = .commit k b
      · obtain ⟨k, b, rfl⟩ := hc
        simp only [step] at h1
        by_cases hw : (c.ver b.ts).isEnabled .writeDataToShardZero = true
        · obtain ⟨hubs, es, h2, h3⟩ := told_commit hw h1 h
          obtain ⟨bs, ess, h4, h5, h6⟩ := told_run xs _ d1 d' h3 hx
          refine ⟨c.resultsOf b hubs :: bs, es :: ess, ?_, ?_, by simpa using h6⟩
          · unfold Spec.shard0Run
            simp only [resultsOf, h2, h4]
          · simp [commits, hw, h5, resultsOf]
        · obtain ⟨bs, ess, h4, h5, h6⟩ := told_run xs past d1 d' (by
            unfold commit at h1; rw [if_neg hw] at h1; cases h1; exact h) hx
          refine ⟨bs, ess, ?_, ?_, h6⟩
          · unfold commit at h1; rw [if_neg hw] at h1; cases h1; exact h4
          · simpa [commits, hw] using h5
      · have hn : ∀ k b, x ≠ .commit k b := fun k b e => hc ⟨k, b, e⟩
        obtain ⟨g, rfl⟩ := step_same h1 hn
        have e2 : commits (x :: xs) = commits xs := by
          cases x <;> first | rfl | exact absurd rfl (hn _ _)
        obtain ⟨bs, ess, h4, h5, h6⟩ := told_run xs past _ d' (by exact ⟨h.db, h.pend⟩) hx
        exact ⟨bs, ess, h4, e2 ▸ h5, h6⟩

end ZeroCfg
end Verif
