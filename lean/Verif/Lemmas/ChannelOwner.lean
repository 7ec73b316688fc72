import Verif.Lemmas.OnChainChan
import Verif.Spec.ChannelOwner
/-!
Lemmas for C46: what one event does to the record of one channel.
-/
namespace Verif
open Spec

/-- Position of a record. -/
def AtPos (o : ChanOwner) (e : OEvent) : Prop := o.block = e.block ∧ o.tx = e.tx ∧ o.log = e.log

theorem olderThan_iff {e : OEvent} {o : ChanOwner} {x : OEvent} (h : AtPos o x) : olderThan e o = true ↔ Earlier e x := by
  obtain ⟨a, b, c⟩ := h
  unfold olderThan Earlier
  rw [a, b, c]; simp

/-- The four things an event can do to the record of a channel. -/
inductive ChanEffect (keccak : Bytes → Bytes) (key : Bytes) (old new : Option ChanOwner) (known : Prop) (e : OEvent) : Prop
  | register (owner expiry) (h : RegistersChannel keccak key owner expiry e) (hn : ∀ o, old = some o → ¬ olderThan e o = true)
      (he : new = some ⟨key, owner, expiry, e.block, e.tx, e.log⟩)
  | renew (expiry o) (h : RenewsChannel keccak key expiry e) (ho : old = some o) (hn : ¬ olderThan e o = true)
      (he : new = some { o with expiry := expiry, block := e.block, tx := e.tx, log := e.log })
  | transfer (owner o) (h : TransfersChannel keccak key owner e) (ho : old = some o) (hn : ¬ olderThan e o = true)
      (he : new = some { o with owner := owner, block := e.block, tx := e.tx, log := e.log })
  | nothing (he : new = old)
      (h1 : ∀ o x, RegistersChannel keccak key o x e → ∃ r, old = some r ∧ olderThan e r = true)
      (h2 : ∀ x r, RenewsChannel keccak key x e → old = some r → olderThan e r = true)
      (h3 : ∀ o r, TransfersChannel keccak key o e → known → old = some r → olderThan e r = true)

theorem chanStep_effect {keccak c} (hg : ChanSt.Good keccak c) (e : OEvent) (key : Bytes) :
    ChanEffect keccak key (c.owner key) ((chanStep keccak c e).owner key) (∀ k, c.label (keccak key) = some k → k = key) e := by
  unfold chanStep
  cases hb : e.body with
  | channelRegister ty k label owner expiry =>
    simp only
    by_cases hl : label.length ≠ 32
    · rw [if_pos hl]
      refine .nothing rfl ?_ ?_ ?_ <;>
      · intro a b h
        simp only [RegistersChannel, RenewsChannel, TransfersChannel, hb, OBody.channelRegister.injEq] at h
        grind
    · simp only [hl, if_false]
      have hl' : label.length = 32 := Classical.byContradiction hl
      cases ty with
      | none =>
        refine .nothing rfl ?_ ?_ ?_ <;>
        · intro a b h
          simp only [RegistersChannel, RenewsChannel, TransfersChannel, hb, OBody.channelRegister.injEq] at h
          grind
      | register =>
        simp only
        by_cases h1 : owner.length ≠ 20 ∨ keccak k ≠ label
        · simp only [h1, if_true]
          refine .nothing rfl ?_ ?_ ?_ <;>
          · intro a b h
            simp only [RegistersChannel, RenewsChannel, TransfersChannel, hb, OBody.channelRegister.injEq] at h
            grind
        · simp only [h1, if_false]
          have ho : owner.length = 20 := Classical.byContradiction fun hc => h1 (Or.inl hc)
          have hk : keccak k = label := Classical.byContradiction fun hc => h1 (Or.inr hc)
          by_cases h2 : (c.owner k).any (olderThan e) = true
          · simp only [h2, if_true]
            refine .nothing rfl ?_ ?_ ?_
            · intro a b h
              simp only [RegistersChannel, hb, OBody.channelRegister.injEq] at h
              obtain ⟨⟨_, rfl, _⟩, _⟩ := h
              cases hc : c.owner k with
              | none => rw [hc] at h2; simp at h2
              | some r => rw [hc] at h2; exact ⟨r, rfl, by simpa using h2⟩
            · intro a b h
              simp [RenewsChannel, hb] at h
            · intro a b h
              simp [TransfersChannel, hb] at h
          · simp only [h2]
            by_cases hkk : key = k
            · subst hkk
              refine .register owner expiry ⟨by rw [hb, hk], by rw [hk]; exact hl', ho⟩ ?_ (by simp [upd])
              intro o hoo hc
              rw [hoo] at h2
              exact h2 (by simpa using hc)
            · refine .nothing (by simp [upd, hkk]) ?_ ?_ ?_
              · intro a b h
                simp only [RegistersChannel, hb, OBody.channelRegister.injEq] at h
                exact absurd h.1.2.1.symm hkk
              · intro a b h
                simp [RenewsChannel, hb] at h
              · intro a b h
                simp [TransfersChannel, hb] at h
      | renew =>
        simp only
        have nr : ∀ o x, ¬ RegistersChannel keccak key o x e := by intro a b h; simp [RegistersChannel, hb] at h
        have nt : ∀ o, ¬ TransfersChannel keccak key o e := by intro a h; simp [TransfersChannel, hb] at h
        by_cases h1 : keccak k ≠ label
        · rw [if_pos h1]
          refine .nothing rfl (fun a b h => absurd h (nr a b)) ?_ (fun a b h => absurd h (nt a))
          intro a b h
          simp only [RenewsChannel, hb, OBody.channelRegister.injEq] at h
          grind
        · simp only [h1, if_false]
          have hk : keccak k = label := Classical.byContradiction h1
          have same : ∀ x, RenewsChannel keccak key x e → key = k := by
            intro x h
            simp only [RenewsChannel, hb, OBody.channelRegister.injEq] at h
            obtain ⟨_, ⟨_, h, _⟩, _⟩ := h; exact h.symm
          cases ho : c.owner k with
          | none =>
            refine .nothing rfl (fun a b h => absurd h (nr a b)) ?_ (fun a b h => absurd h (nt a))
            intro x r h hr
            rw [same x h, ho] at hr; simp at hr
          | some old =>
            simp only
            by_cases h2 : olderThan e old = true
            · simp only [h2, if_true]
              refine .nothing rfl (fun a b h => absurd h (nr a b)) ?_ (fun a b h => absurd h (nt a))
              intro x r h hr
              rw [same x h, ho] at hr
              simp only [Option.some.injEq] at hr; subst hr; exact h2
            · simp only [h2]
              by_cases hkk : key = k
              · subst hkk
                exact .renew expiry old ⟨owner, by rw [hb, hk], by rw [hk]; exact hl'⟩ ho h2 (by simp [upd])
              · refine .nothing (by simp [upd, hkk]) (fun a b h => absurd h (nr a b)) ?_ (fun a b h => absurd h (nt a))
                intro x r h; exact absurd (same x h) hkk
      | transfer =>
        simp only
        have nr : ∀ o x, ¬ RegistersChannel keccak key o x e := by intro a b h; simp [RegistersChannel, hb] at h
        have nn : ∀ x, ¬ RenewsChannel keccak key x e := by intro a h; simp [RenewsChannel, hb] at h
        by_cases h1 : owner.length ≠ 20
        · rw [if_pos h1]
          refine .nothing rfl (fun a b h => absurd h (nr a b)) (fun a b h => absurd h (nn a)) ?_
          intro a b h
          simp only [TransfersChannel, hb, OBody.channelRegister.injEq] at h
          grind
        · simp only [h1, if_false]
          have ho20 : owner.length = 20 := Classical.byContradiction h1
          have same : ∀ o, TransfersChannel keccak key o e → keccak key = label := by
            intro x h
            simp only [TransfersChannel, hb, OBody.channelRegister.injEq] at h
            obtain ⟨_, _, ⟨_, _, h, _⟩, _⟩ := h; exact h.symm
          cases hlk : c.label label with
          | none =>
            refine .nothing rfl (fun a b h => absurd h (nr a b)) (fun a b h => absurd h (nn a)) ?_
            intro o r h _ hr
            have := hg.named key (by simp [hr])
            rw [same o h] at this; exact absurd hlk this
          | some k' =>
            simp only
            obtain ⟨hk', _⟩ := hg.label _ _ hlk
            cases ho : c.owner k' with
            | none =>
              refine .nothing rfl (fun a b h => absurd h (nr a b)) (fun a b h => absurd h (nn a)) ?_
              intro o r h hkn hr
              have := hkn k' (by rw [same o h]; exact hlk)
              rw [← this, ho] at hr; simp at hr
            | some old =>
              simp only
              by_cases h2 : olderThan e old = true
              · simp only [h2, if_true]
                refine .nothing rfl (fun a b h => absurd h (nr a b)) (fun a b h => absurd h (nn a)) ?_
                intro o r h hkn hr
                have := hkn k' (by rw [same o h]; exact hlk)
                rw [← this, ho] at hr
                simp only [Option.some.injEq] at hr; subst hr; exact h2
              · simp only [h2]
                by_cases hkk : key = k'
                · subst hkk
                  exact .transfer owner old ⟨k, expiry, by rw [hb, hk'], by rw [hk']; exact hl', ho20⟩ ho h2 (by simp [upd])
                · refine .nothing (by simp [upd, hkk]) (fun a b h => absurd h (nr a b)) (fun a b h => absurd h (nn a)) ?_
                  intro o r h hkn
                  exact absurd (hkn k' (by rw [same o h]; exact hlk)).symm hkk
  | _ =>
    refine .nothing rfl ?_ ?_ ?_ <;>
    · intro a b h
      simp [RegistersChannel, RenewsChannel, TransfersChannel, hb] at h

theorem isChan_reg {keccak key o x e} (h : RegistersChannel keccak key o x e) : IsChannelEvent e := ⟨_, _, _, _, _, h.1⟩
theorem isChan_ren {keccak key x e} (h : RenewsChannel keccak key x e) : IsChannelEvent e := by
  obtain ⟨o, h, _⟩ := h; exact ⟨_, _, _, _, _, h⟩
theorem isChan_tr {keccak key o e} (h : TransfersChannel keccak key o e) : IsChannelEvent e := by
  obtain ⟨k, x, h, _⟩ := h; exact ⟨_, _, _, _, _, h⟩

/-- Every record comes from accepted events: its position is that of one, and the channel was registered. -/
theorem record_source (keccak) (log : List OEvent) (key o) (h : (chanState keccak log).owner key = some o) :
    (∃ x ∈ log, IsChannelEvent x ∧ AtPos o x) ∧ ∃ x ∈ log, Registered keccak key x := by
  induction log using snoc_induction generalizing o with
  | nil => simp [chanState] at h
  | snoc l e ih =>
    rw [chanState_append] at h
    have up : ∀ {P : OEvent → Prop}, (∃ x ∈ l, P x) → ∃ x ∈ l ++ [e], P x := by
      rintro P ⟨x, hx, hp⟩; exact ⟨x, by simp [hx], hp⟩
    cases chanStep_effect (chanState_good keccak l) e key with
    | register ow ex hr hn he =>
      rw [he] at h; simp only [Option.some.injEq] at h; subst h
      exact ⟨⟨e, by simp, isChan_reg hr, rfl, rfl, rfl⟩, e, by simp, ow, ex, hr⟩
    | renew ex o' hr ho hn he =>
      rw [he] at h; simp only [Option.some.injEq] at h; subst h
      exact ⟨⟨e, by simp, isChan_ren hr, rfl, rfl, rfl⟩, up (ih _ ho).2⟩
    | transfer ow o' hr ho hn he =>
      rw [he] at h; simp only [Option.some.injEq] at h; subst h
      exact ⟨⟨e, by simp, isChan_tr hr, rfl, rfl, rfl⟩, up (ih _ ho).2⟩
    | nothing he _ _ _ =>
      rw [he] at h
      exact ⟨up (ih _ h).1, up (ih _ h).2⟩

/-- A channel registered by an accepted event has a record, in any order. -/
theorem record_exists (keccak) (log : List OEvent) (key) (h : ∃ x ∈ log, Registered keccak key x) :
    ((chanState keccak log).owner key).isSome := by
  induction log using snoc_induction with
  | nil => simp at h
  | snoc l e ih =>
    rw [chanState_append]
    cases chanStep_effect (chanState_good keccak l) e key with
    | register ow ex hr hn he => rw [he]; rfl
    | renew ex o' hr ho hn he => rw [he]; rfl
    | transfer ow o' hr ho hn he => rw [he]; rfl
    | nothing he h1 _ _ =>
      rw [he]
      obtain ⟨x, hx, o, ex, hr⟩ := h
      rcases List.mem_append.mp hx with hx | hx
      · exact ih ⟨x, hx, o, ex, hr⟩
      · simp only [List.mem_singleton] at hx; subst hx
        obtain ⟨r, hr, _⟩ := h1 o ex hr
        simp [hr]

theorem record_known {keccak} {l : List OEvent} (hc : NoLabelCollision keccak l) {key} (ho : ((chanState keccak l).owner key).isSome) :
    ∀ k, (chanState keccak l).label (keccak key) = some k → k = key := by
  intro k hk
  obtain ⟨a, b⟩ := (chanState_good keccak l).label _ _ hk
  obtain ⟨o, ho⟩ := Option.isSome_iff_exists.mp ho
  obtain ⟨o', ho'⟩ := Option.isSome_iff_exists.mp b
  obtain ⟨_, x, hx, rx⟩ := record_source keccak l key o ho
  obtain ⟨_, y, hy, ry⟩ := record_source keccak l k o' ho'
  exact hc y hy x hx k key ry rx a

theorem lastSays_snoc {α} {sel : α → OEvent → Prop} {l e v} (h : sel v e) : LastSays sel (l ++ [e]) v :=
  ⟨l, e, [], by simp, h, by simp⟩

theorem lastSays_skip {α} {sel : α → OEvent → Prop} {l e v} (h : LastSays sel l v) (hn : ∀ w, ¬ sel w e) : LastSays sel (l ++ [e]) v := by
  obtain ⟨p, x, q, rfl, h1, h2⟩ := h
  refine ⟨p, x, q ++ [e], by simp, h1, ?_⟩
  intro y hy
  rcases List.mem_append.mp hy with hy | hy
  · exact h2 y hy
  · simp only [List.mem_singleton] at hy; subst hy; exact hn

theorem bodies_apart {keccak key e} :
    (∀ o x x', RegistersChannel keccak key o x e → ¬ RenewsChannel keccak key x' e) ∧
    (∀ o x o', RegistersChannel keccak key o x e → ¬ TransfersChannel keccak key o' e) ∧
    (∀ o x, RenewsChannel keccak key x e → ¬ TransfersChannel keccak key o e) := by
  refine ⟨?_, ?_, ?_⟩
  · rintro o x x' ⟨h, _⟩ ⟨_, h', _⟩; rw [h] at h'; simp at h'
  · rintro o x x' ⟨h, _⟩ ⟨_, _, h', _⟩; rw [h] at h'; simp at h'
  · rintro o x ⟨_, h, _⟩ ⟨_, _, h', _⟩; rw [h] at h'; simp at h'

/-- Merged in chain order, the record is what the last events say. -/
theorem record_in_order {keccak} (log : List OEvent) (hord : InChainOrder log) (hc : NoLabelCollision keccak log) {key o}
    (h : (chanState keccak log).owner key = some o) :
    LastSays (GivesTo keccak key) log o.owner ∧ LastSays (SetsExpiry keccak key) log o.expiry := by
  induction log using snoc_induction generalizing o with
  | nil => simp [chanState] at h
  | snoc l e ih =>
    have hord' : InChainOrder l := (List.pairwise_append.mp hord).1
    have hlast : ∀ x ∈ l, IsChannelEvent x → IsChannelEvent e → ¬ Earlier e x :=
      fun x hx => (List.pairwise_append.mp hord).2.2 x hx e (by simp)
    have hc' : NoLabelCollision keccak l := fun a ha b hb => hc a (by simp [ha]) b (by simp [hb])
    have hnew : ∀ r, (chanState keccak l).owner key = some r → IsChannelEvent e → ¬ olderThan e r = true := by
      intro r hr he hc
      obtain ⟨⟨x, hx, hcx, hp⟩, _⟩ := record_source keccak l key r hr
      exact hlast x hx hcx he ((olderThan_iff hp).mp hc)
    rw [chanState_append] at h
    obtain ⟨ap1, ap2, ap3⟩ := bodies_apart (keccak := keccak) (key := key) (e := e)
    cases chanStep_effect (chanState_good keccak l) e key with
    | register ow ex hr hn he =>
      rw [he] at h; simp only [Option.some.injEq] at h; subst h
      exact ⟨lastSays_snoc (Or.inl ⟨ex, hr⟩), lastSays_snoc (Or.inl ⟨ow, hr⟩)⟩
    | renew ex o' hr ho hn he =>
      rw [he] at h; simp only [Option.some.injEq] at h; subst h
      refine ⟨lastSays_skip (ih hord' hc' ho).1 ?_, lastSays_snoc (Or.inr hr)⟩
      rintro w (⟨x, hx⟩ | hx)
      · exact ap1 _ _ _ hx hr
      · exact ap3 _ _ hr hx
    | transfer ow o' hr ho hn he =>
      rw [he] at h; simp only [Option.some.injEq] at h; subst h
      refine ⟨lastSays_snoc (Or.inr hr), lastSays_skip (ih hord' hc' ho).2 ?_⟩
      rintro w (⟨x, hx⟩ | hx)
      · exact ap2 _ _ _ hx hr
      · exact ap3 _ _ hx hr
    | nothing he h1 h2 h3 =>
      rw [he] at h
      have n1 : ∀ o x, ¬ RegistersChannel keccak key o x e := by
        intro o x hr
        obtain ⟨r, hr1, hr2⟩ := h1 o x hr
        exact hnew r hr1 (isChan_reg hr) hr2
      refine ⟨lastSays_skip (ih hord' hc' h).1 ?_, lastSays_skip (ih hord' hc' h).2 ?_⟩
      · rintro w (⟨x, hx⟩ | hx)
        · exact n1 _ _ hx
        · exact hnew _ h (isChan_tr hx) (h3 w _ hx (record_known hc' (by simp [h])) h)
      · rintro w (⟨x, hx⟩ | hx)
        · exact n1 _ _ hx
        · exact hnew _ h (isChan_ren hx) (h2 w _ hx h)

/-- With registrations only, the record is the registration at the highest position, whatever the order. -/
theorem record_registers_only {keccak} (log : List OEvent) {key}
    (hr : ∀ e ∈ log, (∀ x, ¬ RenewsChannel keccak key x e) ∧ (∀ o, ¬ TransfersChannel keccak key o e)) {o}
    (h : (chanState keccak log).owner key = some o) :
    ∃ x ∈ log, RegistersChannel keccak key o.owner o.expiry x ∧ o.key = key ∧ AtPos o x ∧
      ∀ y ∈ log, Registered keccak key y → ¬ Earlier x y := by
  induction log using snoc_induction generalizing o with
  | nil => simp [chanState] at h
  | snoc l e ih =>
    have hr' := fun x hx => hr x (List.mem_append_left [e] hx)
    obtain ⟨ne1, ne2⟩ := hr e (by simp)
    rw [chanState_append] at h
    cases chanStep_effect (chanState_good keccak l) e key with
    | renew ex o' hx ho hn he => exact absurd hx (ne1 _)
    | transfer ow o' hx ho hn he => exact absurd hx (ne2 _)
    | register ow ex hx hn he =>
      rw [he] at h; simp only [Option.some.injEq] at h; subst h
      refine ⟨e, by simp, hx, rfl, ⟨rfl, rfl, rfl⟩, ?_⟩
      intro y hy hry
      rcases List.mem_append.mp hy with hy | hy
      · obtain ⟨r, hr0⟩ := Option.isSome_iff_exists.mp (record_exists keccak l key ⟨y, hy, hry⟩)
        obtain ⟨x, hx', _, _, hp, hmax⟩ := ih hr' hr0
        have h1 := hmax y hy hry
        have h2 := hn r hr0
        rw [olderThan_iff hp] at h2
        unfold Earlier at *; omega
      · simp only [List.mem_singleton] at hy; subst hy; unfold Earlier; omega
    | nothing he h1 _ _ =>
      rw [he] at h
      obtain ⟨x, hx, a, b, hp, hmax⟩ := ih hr' h
      refine ⟨x, by simp [hx], a, b, hp, ?_⟩
      intro y hy hry
      rcases List.mem_append.mp hy with hy | hy
      · exact hmax y hy hry
      · simp only [List.mem_singleton] at hy; subst hy
        obtain ⟨ow, ex, hry⟩ := hry
        obtain ⟨r, hr0, hr1⟩ := h1 _ _ hry
        rw [h] at hr0; simp only [Option.some.injEq] at hr0; subst hr0
        rw [olderThan_iff hp] at hr1
        unfold Earlier at *; omega

end Verif
