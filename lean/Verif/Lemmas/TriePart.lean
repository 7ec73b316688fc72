import Verif.Lemmas.TrieReads
/-! Partially loaded trees behave like the full tree they stand for. -/
namespace Verif
open OMapL

/-- Every node of the full tree has its row in the database. -/
inductive Stored (db : Db NodeRow) : Bytes → Tree → Prop
  | node (p : Bytes) (items : Nat) (key : Option Bytes) (hashes : Hashes) (kids : Kids) :
      db.get (nodeKey p none) = rowOf (.node items key hashes kids) → (∀ k, key = some k → k ≠ [] ∧ p <+: k) →
      (∀ c t, OMapL.get c kids = some t → Stored db (p ++ [c]) t) → Stored db p (.node items key hashes kids)

/-- A partially loaded tree that stands for a full tree. -/
inductive Part (db : Db NodeRow) : Bytes → Tree → Tree → Prop
  | stored (p : Bytes) (t : Tree) : Stored db p t → Part db p .stored t
  | node (p : Bytes) (items : Nat) (key : Option Bytes) (hashes : Hashes) (kids kids' : Kids) :
      kids.map (·.1) = kids'.map (·.1) → (∀ k, key = some k → p <+: k) →
      (∀ c a b, OMapL.get c kids = some a → OMapL.get c kids' = some b → Part db (p ++ [c]) a b) →
      Part db p (.node items key hashes kids) (.node items key hashes kids')

theorem get_isSome_of_keys {V W : Type} {l : List (UInt8 × V)} {m : List (UInt8 × W)} (h : l.map (·.1) = m.map (·.1)) (c : UInt8) :
    (OMapL.get c l).isSome = (OMapL.get c m).isSome := by
  induction l generalizing m with
  | nil => cases m with
    | nil => rfl
    | cons => simp at h
  | cons a l ih =>
    cases m with
    | nil => simp at h
    | cons b m =>
      obtain ⟨k, v⟩ := a; obtain ⟨k', w⟩ := b
      simp only [List.map_cons, List.cons.injEq] at h
      obtain ⟨rfl, h⟩ := h
      simp only [OMapL.get]
      split
      · exact ih h
      · rfl

theorem put_keys {V W : Type} {l : List (UInt8 × V)} {m : List (UInt8 × W)} (h : l.map (·.1) = m.map (·.1)) (c : UInt8) (v : V) (w : W) :
    (OMapL.put c v l).map (·.1) = (OMapL.put c w m).map (·.1) := by
  induction l generalizing m with
  | nil => cases m with
    | nil => rfl
    | cons => simp at h
  | cons a l ih =>
    cases m with
    | nil => simp at h
    | cons b m =>
      obtain ⟨k, v⟩ := a; obtain ⟨k', w⟩ := b
      simp only [List.map_cons, List.cons.injEq] at h
      obtain ⟨rfl, h⟩ := h
      simp only [OMapL.put]
      split
      · simp [h]
      · split
        · simp [ih h]
        · simp [h]

theorem del_keys {V W : Type} {l : List (UInt8 × V)} {m : List (UInt8 × W)} (h : l.map (·.1) = m.map (·.1)) (c : UInt8) :
    (OMapL.del c l).map (·.1) = (OMapL.del c m).map (·.1) := by
  induction l generalizing m with
  | nil => cases m with
    | nil => rfl
    | cons => simp at h
  | cons a l ih =>
    cases m with
    | nil => simp at h
    | cons b m =>
      obtain ⟨k, v⟩ := a; obtain ⟨k', w⟩ := b
      simp only [List.map_cons, List.cons.injEq] at h
      obtain ⟨rfl, h⟩ := h
      simp only [OMapL.del]
      split
      · simp [ih h]
      · exact ih h

theorem get_stub {kids : Kids} (c : UInt8) : OMapL.get c ((kids.map (·.1)).map (fun c => (c, Tree.stored))) =
    (OMapL.get c kids).map (fun _ => Tree.stored) := by
  induction kids with
  | nil => rfl
  | cons a l ih =>
    obtain ⟨k, v⟩ := a
    simp only [List.map_cons, OMapL.get]
    split
    · exact ih
    · rfl

/-- The children of a partial node and of its full node. -/
def KidsPart (db : Db NodeRow) (p : Bytes) (kids kids' : Kids) : Prop :=
  kids.map (·.1) = kids'.map (·.1) ∧
  ∀ c a b, OMapL.get c kids = some a → OMapL.get c kids' = some b → Part db (p ++ [c]) a b

theorem KidsPart.put {db : Db NodeRow} {p : Bytes} {kids kids' : Kids} (h : KidsPart db p kids kids') {c : UInt8} {a b : Tree}
    (hab : Part db (p ++ [c]) a b) : KidsPart db p (OMapL.put c a kids) (OMapL.put c b kids') := by
  refine ⟨put_keys h.1 c a b, fun d x y hx hy => ?_⟩
  rw [OMapL.get_put] at hx hy
  by_cases e : d = c
  · rw [if_pos e] at hx hy; injection hx with hx; injection hy with hy; subst hx; subst hy; subst e; exact hab
  · rw [if_neg e] at hx hy; exact h.2 d x y hx hy

theorem KidsPart.del {db : Db NodeRow} {p : Bytes} {kids kids' : Kids} (h : KidsPart db p kids kids') (c : UInt8) :
    KidsPart db p (OMapL.del c kids) (OMapL.del c kids') := by
  refine ⟨del_keys h.1 c, fun d x y hx hy => ?_⟩
  rw [OMapL.get_del] at hx hy
  by_cases e : d = c
  · rw [if_pos e] at hx; cases hx
  · rw [if_neg e] at hx hy; exact h.2 d x y hx hy

theorem KidsPart.get {db : Db NodeRow} {p : Bytes} {kids kids' : Kids} (h : KidsPart db p kids kids') (c : UInt8) :
    (OMapL.get c kids = none ∧ OMapL.get c kids' = none) ∨
    ∃ a b, OMapL.get c kids = some a ∧ OMapL.get c kids' = some b ∧ Part db (p ++ [c]) a b := by
  have := get_isSome_of_keys h.1 c
  cases h1 : OMapL.get c kids with
  | none =>
    rw [h1] at this
    left
    refine ⟨rfl, ?_⟩
    cases h2 : OMapL.get c kids' with
    | none => rfl
    | some b => rw [h2] at this; simp at this
  | some a =>
    rw [h1] at this
    cases h2 : OMapL.get c kids' with
    | none => rw [h2] at this; simp at this
    | some b => exact .inr ⟨a, b, rfl, rfl, h.2 c a b h1 h2⟩

theorem KidsPart.leaf {db : Db NodeRow} {p : Bytes} {kids kids' : Kids} (h : KidsPart db p kids kids') :
    Tree.isLeaf kids = Tree.isLeaf kids' := by
  have := h.1
  cases kids <;> cases kids' <;> simp [Tree.isLeaf] at *

theorem ofRow_part {db : Db NodeRow} {p : Bytes} {t : Tree} (h : Stored db p t) :
    ∃ r, db.get (nodeKey p none) = some r ∧ Part db p (ofRow r) t := by
  cases h with
  | node _ items key hashes kids hrow hkey hk =>
    refine ⟨_, hrow, ?_⟩
    have : (if key.getD [] = [] then none else some (key.getD [])) = key := by
      cases key with
      | none => rfl
      | some k => simp [(hkey k rfl).1]
    simp only [ofRow, this]
    refine .node p items key hashes _ _ (by simp) (fun k e => (hkey k e).2) ?_
    intro c a b ha hb
    rw [get_stub, hb] at ha
    injection ha with ha
    subst ha
    exact .stored _ _ (hk c b hb)

/-- Loading a child. -/
theorem loadChild_part {db db' : Db NodeRow} {p : Bytes} {c : UInt8} {a b : Tree} (h : Part db (p ++ [c]) a b) :
    ∃ a', loadChild db p c (some a) = .ok a' ∧ Part db (p ++ [c]) a' b ∧ (∃ n k hs kids, a' = .node n k hs kids) ∧
      loadChild db' p c (some b) = .ok b := by
  cases h with
  | stored _ _ hst =>
    obtain ⟨r, hr, hp⟩ := ofRow_part hst
    refine ⟨ofRow r, ?_, hp, ⟨_, _, _, _, rfl⟩, ?_⟩
    · have : nodeKey p (some c) = nodeKey (p ++ [c]) none := by simp [nodeKey]
      simp only [loadChild, this, hr]
    · cases hst; rfl
  | node _ items key hashes kids kids' h1 h2 h3 =>
    exact ⟨_, rfl, .node _ _ _ _ _ _ h1 h2 h3, ⟨_, _, _, _, rfl⟩, rfl⟩

/-- Results that agree. -/
inductive ResPart (db : Db NodeRow) (p : Bytes) : Except TrieErr Upd → Except TrieErr Upd → Prop
  | error (e : TrieErr) : ResPart db p (.error e) (.error e)
  | ok (t t' : Tree) (ph : Hashes) (txn : Txn NodeRow) (res : List Bool) :
      (∃ n k hs kids, t = .node n k hs kids) → Part db p t t' → ResPart db p (.ok ⟨t, ph, txn, res⟩) (.ok ⟨t', ph, txn, res⟩)

/-- A recursive call on a partial tree agrees with the call on its full tree. -/
def RecPart (db : Db NodeRow) (rec rec' : Rec) : Prop :=
  ∀ p t t' ph txn ks, (∃ n k hs kids, t = .node n k hs kids) → Part db p t t' → (∀ k ∈ ks, p <+: k) →
    ResPart db p (rec t ph txn ks p.length) (rec' t' ph txn ks p.length)

/-- Loop states that agree. -/
inductive LoopPart (db : Db NodeRow) (p : Bytes) : Except TrieErr Loop → Except TrieErr Loop → Prop
  | error (e : TrieErr) : LoopPart db p (.error e) (.error e)
  | ok (h : Hashes) (kids kids' : Kids) (txn : Txn NodeRow) (res : List Bool) (n : Nat) :
      KidsPart db p kids kids' → LoopPart db p (.ok ⟨h, kids, txn, res, n⟩) (.ok ⟨h, kids', txn, res, n⟩)

theorem part_items {db : Db NodeRow} {p : Bytes} {t t' : Tree} (h : Part db p t t') (hn : ∃ n k hs kids, t = .node n k hs kids) :
    t.items = t'.items := by
  obtain ⟨n, k, hs, kids, rfl⟩ := hn
  cases h; rfl

theorem part_row {db : Db NodeRow} {p : Bytes} {t t' : Tree} (h : Part db p t t') (hn : ∃ n k hs kids, t = .node n k hs kids) :
    rowOf t = rowOf t' := by
  obtain ⟨n, k, hs, kids, rfl⟩ := hn
  cases h with
  | node _ _ _ _ _ kids' h1 _ _ => simp [rowOf, h1]

theorem part_hash (H : Bytes → Bytes) {db : Db NodeRow} {p : Bytes} {t t' : Tree} (h : Part db p t t')
    (hn : ∃ n k hs kids, t = .node n k hs kids) : nodeHash H t = nodeHash H t' := by
  obtain ⟨n, k, hs, kids, rfl⟩ := hn
  cases h with
  | node _ _ _ _ _ kids' h1 _ h3 =>
    simp only [nodeHash, KidsPart.leaf (db := db) (p := p) ⟨h1, h3⟩]

theorem part_put {db : Db NodeRow} {p : Bytes} {t t' : Tree} (h : Part db p t t') (hn : ∃ n k hs kids, t = .node n k hs kids)
    (txn : Txn NodeRow) (q : Bytes) : putNode txn t q = putNode txn t' q := by
  simp only [putNode, part_row h hn]

theorem part_update (H : Bytes → Bytes) {db : Db NodeRow} {p : Bytes} {t t' : Tree} (h : Part db p t t')
    (hn : ∃ n k hs kids, t = .node n k hs kids) (ph : Hashes) (q : Bytes) : updateHash H t ph q = updateHash H t' ph q := by
  simp only [updateHash, part_hash H h hn]

theorem group_under {p : Bytes} {ks : List (Nat × Bytes)} (hks : ∀ k ∈ ks, p <+: k.2) (c : UInt8) :
    ∀ x ∈ (group p.length ks c).map (·.2), p ++ [c] <+: x := by
  intro x hx
  obtain ⟨k, hk, rfl⟩ := List.mem_map.1 hx
  obtain ⟨h1, h2⟩ := mem_group.1 hk
  exact snoc_prefix (hks k h1) h2

theorem foldGroups_part {db : Db NodeRow} {p : Bytes} {step step' : Loop → UInt8 → Except TrieErr Loop} (cs : List UInt8)
    (hstep : ∀ c h kids kids' txn res n, KidsPart db p kids kids' →
      LoopPart db p (step ⟨h, kids, txn, res, n⟩ c) (step' ⟨h, kids', txn, res, n⟩ c))
    (h : Hashes) (kids kids' : Kids) (txn : Txn NodeRow) (res : List Bool) (n : Nat) (hk : KidsPart db p kids kids') :
    LoopPart db p (foldGroups step cs ⟨h, kids, txn, res, n⟩) (foldGroups step' cs ⟨h, kids', txn, res, n⟩) := by
  induction cs generalizing h kids kids' txn res n with
  | nil => exact .ok _ _ _ _ _ _ hk
  | cons c cs ih =>
    have := hstep c h kids kids' txn res n hk
    simp only [foldGroups]
    generalize step ⟨h, kids, txn, res, n⟩ c = a at this
    generalize step' ⟨h, kids', txn, res, n⟩ c = b at this
    cases this with
    | error e => exact .error e
    | ok h1 k1 k1' t1 r1 n1 hk1 => exact ih h1 k1 k1' t1 r1 n1 hk1

theorem empty_part {db : Db NodeRow} {p : Bytes} : Part db p .empty .empty :=
  .node p 0 none _ _ _ rfl (by simp) (by simp [OMapL.get])

theorem insertGroup_part {db db' : Db NodeRow} {p : Bytes} {rec rec' : Rec} (hrec : RecPart db rec rec')
    {ks : List (Nat × Bytes)} (hks : ∀ k ∈ ks, p <+: k.2) (c : UInt8) (h : Hashes) (kids kids' : Kids) (txn : Txn NodeRow)
    (res : List Bool) (n : Nat) (hk : KidsPart db p kids kids') :
    LoopPart db p (insertGroup rec db p p.length ks ⟨h, kids, txn, res, n⟩ c)
      (insertGroup rec' db' p p.length ks ⟨h, kids', txn, res, n⟩ c) := by
  have hp : Part db (p ++ [c]) ((OMapL.get c kids).getD .empty) ((OMapL.get c kids').getD .empty) := by
    rcases hk.get c with ⟨h1, h2⟩ | ⟨a, b, h1, h2, h3⟩
    · rw [h1, h2]; exact empty_part
    · rw [h1, h2]; exact h3
  obtain ⟨a', h1, h2, h3, h4⟩ := loadChild_part (db' := db') hp
  unfold insertGroup
  simp only [h1, h4]
  have := hrec (p ++ [c]) a' _ h txn ((group p.length ks c).map (·.2)) h3 h2 (group_under hks c)
  rw [show (p ++ [c]).length = p.length + 1 by simp] at this
  generalize rec a' h txn ((group p.length ks c).map (·.2)) (p.length + 1) = x at this
  generalize rec' ((OMapL.get c kids').getD .empty) h txn ((group p.length ks c).map (·.2)) (p.length + 1) = y at this
  cases this with
  | error e => exact .error e
  | ok t t' ph txn' res' _ ht => exact .ok _ _ _ _ _ _ (hk.put ht)

theorem deleteGroup_part {db db' : Db NodeRow} {p : Bytes} {rec rec' : Rec} (hrec : RecPart db rec rec')
    {ks : List (Nat × Bytes)} (hks : ∀ k ∈ ks, p <+: k.2) (c : UInt8) (h : Hashes) (kids kids' : Kids) (txn : Txn NodeRow)
    (res : List Bool) (n : Nat) (hk : KidsPart db p kids kids') :
    LoopPart db p (deleteGroup rec db p p.length ks ⟨h, kids, txn, res, n⟩ c)
      (deleteGroup rec' db' p p.length ks ⟨h, kids', txn, res, n⟩ c) := by
  unfold deleteGroup
  rcases hk.get c with ⟨h1, h2⟩ | ⟨a, b, h1, h2, h3⟩
  · simp only [h1, h2, Option.isNone_none, if_true]
    exact .ok _ _ _ _ _ _ hk
  · simp only [h1, h2, Option.isNone_some, Bool.false_eq_true, if_false]
    obtain ⟨a', g1, g2, g3, g4⟩ := loadChild_part (db' := db') h3
    simp only [g1, g4]
    have := hrec (p ++ [c]) a' _ h txn ((group p.length ks c).map (·.2)) g3 g2 (group_under hks c)
    rw [show (p ++ [c]).length = p.length + 1 by simp] at this
    generalize rec a' h txn ((group p.length ks c).map (·.2)) (p.length + 1) = x at this
    generalize rec' b h txn ((group p.length ks c).map (·.2)) (p.length + 1) = y at this
    cases this with
    | error e => exact .error e
    | ok t t' ph txn' res' hn ht =>
      simp only [part_items ht hn]
      refine .ok _ _ _ _ _ _ ?_
      split
      · exact hk.del c
      · exact hk.put ht

theorem insertBelow_part (H : Bytes → Bytes) (ord : List UInt8 → List UInt8) {db db' : Db NodeRow} {p : Bytes} {rec rec' : Rec}
    (hrec : RecPart db rec rec') (items : Nat) (key : Option Bytes) (hkey : ∀ k, key = some k → p <+: k) (hashes : Hashes)
    {kids kids' : Kids} (hk : KidsPart db p kids kids') (ph : Hashes) (txn : Txn NodeRow) (res : List Bool)
    {ks : List (Nat × Bytes)} (hks : ∀ k ∈ ks, p <+: k.2) :
    ResPart db p (insertBelow H ord rec db items key hashes kids ph txn p p.length res ks)
      (insertBelow H ord rec' db' items key hashes kids' ph txn p p.length res ks) := by
  unfold insertBelow
  split
  · exact .error _
  · have := foldGroups_part (step := insertGroup rec db p p.length ks) (step' := insertGroup rec' db' p p.length ks)
      (ord (groupChars p.length ks)) (fun c h kids kids' txn res n hk => insertGroup_part hrec hks c h kids kids' txn res n hk)
      hashes kids kids' txn res 0 hk
    generalize foldGroups (insertGroup rec db p p.length ks) (ord (groupChars p.length ks)) ⟨hashes, kids, txn, res, 0⟩ = x at this
    generalize foldGroups (insertGroup rec' db' p p.length ks) (ord (groupChars p.length ks)) ⟨hashes, kids', txn, res, 0⟩ = y at this
    cases this with
    | error e => exact .error e
    | ok h1 k1 k1' t1 r1 n1 hk1 =>
      simp only
      split
      · exact .ok _ _ _ _ _ ⟨_, _, _, _, rfl⟩ (.node _ _ _ _ _ _ hk1.1 hkey hk1.2)
      · have hp : Part db p (.node (items + n1) key h1 k1) (.node (items + n1) key h1 k1') := .node _ _ _ _ _ _ hk1.1 hkey hk1.2
        rw [part_update H hp ⟨_, _, _, _, rfl⟩, part_put hp ⟨_, _, _, _, rfl⟩]
        exact .ok _ _ _ _ _ ⟨_, _, _, _, rfl⟩ hp

theorem splitInsert_part (H : Bytes → Bytes) (ord : List UInt8 → List UInt8) {db db' : Db NodeRow} {p : Bytes} {rec rec' : Rec}
    (hrec : RecPart db rec rec') (items : Nat) (key : Bytes) (hkey : p <+: key) (hashes : Hashes)
    {kids kids' : Kids} (hk : KidsPart db p kids kids') (ph : Hashes) (txn : Txn NodeRow) (res : List Bool)
    {ks : List (Nat × Bytes)} (hks : ∀ k ∈ ks, p <+: k.2) :
    ResPart db p (splitInsert H ord rec db items key hashes kids ph txn p p.length res ks)
      (splitInsert H ord rec' db' items key hashes kids' ph txn p p.length res ks) := by
  unfold splitInsert
  cases hc : key[p.length]? with
  | none => exact .error _
  | some c =>
    simp only
    have := hrec (p ++ [c]) .empty .empty hashes txn [key] ⟨_, _, _, _, rfl⟩ empty_part
      (by intro k hk'; simp at hk'; subst hk'; exact snoc_prefix hkey hc)
    rw [show (p ++ [c]).length = p.length + 1 by simp] at this
    generalize rec .empty hashes txn [key] (p.length + 1) = x at this
    generalize rec' .empty hashes txn [key] (p.length + 1) = y at this
    cases this with
    | error e => exact .error e
    | ok t t' ph' txn' res' hn ht =>
      simp only [part_hash H ht hn]
      have hk' := hk.put ht
      have hp : Part db p (.node items none (ph'.put c (nodeHash H t')) (OMapL.put c t kids))
          (.node items none (ph'.put c (nodeHash H t')) (OMapL.put c t' kids')) := .node _ _ _ _ _ _ hk'.1 (by simp) hk'.2
      rw [part_put hp ⟨_, _, _, _, rfl⟩]
      exact insertBelow_part H ord hrec items none (by simp) _ hk' ph _ res hks

theorem leafInsert_part (H : Bytes → Bytes) (ord : List UInt8 → List UInt8) {db db' : Db NodeRow} {p : Bytes} {rec rec' : Rec}
    (hrec : RecPart db rec rec') (items : Nat) (key : Bytes) (hkey : p <+: key) (hashes : Hashes)
    {kids kids' : Kids} (hk : KidsPart db p kids kids') (ph : Hashes) (txn : Txn NodeRow) (res : List Bool) (off : Nat)
    {ks : List Bytes} (hks : ∀ k ∈ ks, p <+: k) :
    ResPart db p (leafInsert H ord rec db items key hashes kids ph txn p p.length res off ks)
      (leafInsert H ord rec' db' items key hashes kids' ph txn p p.length res off ks) := by
  unfold leafInsert
  split
  · exact .ok _ _ _ _ _ ⟨_, _, _, _, rfl⟩ (.node _ _ _ _ _ _ hk.1 (by intro k e; injection e with e; subst e; exact hkey) hk.2)
  · refine splitInsert_part H ord hrec items key hkey hashes hk ph txn res ?_
    intro x hx
    unfold remaining at hx
    obtain ⟨⟨a, j⟩, hz, rfl⟩ := List.mem_map.1 hx
    have := (List.mem_filter.1 hz).1
    exact hks a (List.mem_of_getElem? (List.mem_zipIdx_iff_le_and_getElem?_sub.1 this).2)

theorem zip_under {p : Bytes} {ks : List Bytes} (hks : ∀ k ∈ ks, p <+: k) :
    ∀ k ∈ ks.zipIdx.map (fun k => (k.2, k.1)), p <+: k.2 := by
  intro x hx
  obtain ⟨⟨a, j⟩, hz, rfl⟩ := List.mem_map.1 hx
  exact hks a (List.mem_of_getElem? (List.mem_zipIdx_iff_getElem?.1 hz))

theorem nodeInsert_part (H : Bytes → Bytes) (ord : List UInt8 → List UInt8) (db db' : Db NodeRow) (n : Nat) :
    RecPart db (nodeInsert H ord db n) (nodeInsert H ord db' n) := by
  induction n with
  | zero => intro p t t' ph txn ks _ _ _; exact .error _
  | succ n ih =>
    intro p t t' ph txn ks hn ht hks
    obtain ⟨items, key, hashes, kids, rfl⟩ := hn
    cases ht with
    | node _ _ _ _ _ kids' h1 h2 h3 =>
      have hk : KidsPart db p kids kids' := ⟨h1, h3⟩
      cases ks with
      | nil => exact .error _
      | cons k0 rest =>
        have htake : k0.take p.length = p := (List.prefix_iff_eq_take.1 (hks k0 (by simp))).symm
        simp only [nodeInsert, insertLevel, htake, hk.leaf]
        by_cases hl : uncompacted ≤ p.length ∧ Tree.isLeaf kids' = true
        · rw [if_pos hl, if_pos hl]
          cases key with
          | none =>
            simp only
            have hlast : p <+: (k0 :: rest).getLast (by simp) := hks _ (List.getLast_mem _)
            have hp : Part db p (.node (items + 1) (some ((k0 :: rest).getLast (by simp))) hashes kids)
                (.node (items + 1) (some ((k0 :: rest).getLast (by simp))) hashes kids') :=
              .node _ _ _ _ _ _ h1 (by intro k e; injection e with e; subst e; exact hlast) h3
            rw [part_update H hp ⟨_, _, _, _, rfl⟩, part_put hp ⟨_, _, _, _, rfl⟩]
            exact leafInsert_part H ord ih _ _ hlast _ hk _ _ _ _
              (fun k hk => hks k ((List.dropLast_sublist _).subset hk))
          | some k => exact leafInsert_part H ord ih _ _ (h2 k rfl) _ hk _ _ _ _ hks
        · rw [if_neg hl, if_neg hl]
          exact insertBelow_part H ord ih _ _ h2 _ hk _ _ _ (zip_under hks)

theorem deleteFinish_part (H : Bytes → Bytes) {db db' : Db NodeRow} {p : Bytes} (items : Nat) (key : Option Bytes)
    (hkey : ∀ k, key = some k → p <+: k) (ph : Hashes) (h1 : Hashes) (k1 k1' : Kids) (t1 : Txn NodeRow) (r1 : List Bool) (n1 : Nat)
    (hk : KidsPart db p k1 k1') :
    ResPart db p (deleteFinish H db items key ph p p.length ⟨h1, k1, t1, r1, n1⟩)
      (deleteFinish H db' items key ph p p.length ⟨h1, k1', t1, r1, n1⟩) := by
  unfold deleteFinish
  have hp : ∀ m, Part db p (.node m key h1 k1) (.node m key h1 k1') := fun m => .node _ _ _ _ _ _ hk.1 hkey hk.2
  simp only
  split
  · exact .ok _ _ _ _ _ ⟨_, _, _, _, rfl⟩ (hp _)
  · split
    · rw [part_update H (hp 0) ⟨_, _, _, _, rfl⟩]
      exact .ok _ _ _ _ _ ⟨_, _, _, _, rfl⟩ (hp _)
    · have hcomp : ∀ m, (∃ e, compactNode db m key h1 k1 t1 p p.length = .error e ∧ compactNode db' m key h1 k1' t1 p p.length = .error e) ∨
          ∃ t t' txn, compactNode db m key h1 k1 t1 p p.length = .ok (t, txn) ∧ compactNode db' m key h1 k1' t1 p p.length = .ok (t', txn) ∧
            (∃ n k hs kids, t = .node n k hs kids) ∧ Part db p t t' := by
        intro m
        unfold compactNode
        rw [hk.1]
        have hstay : (∃ e, (Except.ok (Tree.node m key h1 k1, t1) : Except TrieErr (Tree × Txn NodeRow)) = .error e ∧
              (Except.ok (Tree.node m key h1 k1', t1) : Except TrieErr (Tree × Txn NodeRow)) = .error e) ∨
            ∃ t t' txn, (Except.ok (Tree.node m key h1 k1, t1) : Except TrieErr (Tree × Txn NodeRow)) = .ok (t, txn) ∧
              (Except.ok (Tree.node m key h1 k1', t1) : Except TrieErr (Tree × Txn NodeRow)) = .ok (t', txn) ∧
              (∃ n k hs kids, t = .node n k hs kids) ∧ Part db p t t' :=
          .inr ⟨_, _, _, rfl, rfl, ⟨_, _, _, _, rfl⟩, hp m⟩
        cases hm : k1'.map (·.1) with
        | nil => exact hstay
        | cons c l =>
          cases l with
          | cons => exact hstay
          | nil =>
            simp only
            split
            · rcases hk.get c with ⟨g1, g2⟩ | ⟨a, b, g1, g2, g3⟩
              · rw [g1, g2]; exact .inl ⟨_, rfl, rfl⟩
              · rw [g1, g2]
                obtain ⟨a', e1, e2, ⟨n', k', hs', kids', rfl⟩, e4⟩ := loadChild_part (db' := db') g3
                rw [e1, e4]
                simp only
                cases e2 with
                | node _ _ _ _ _ kids'' f1 f2 f3 =>
                  have hd := hk.del c
                  have hput := hk.put (.node _ n' k' hs' kids' kids'' f1 f2 f3)
                  cases k' with
                  | none => exact .inr ⟨_, _, _, rfl, rfl, ⟨_, _, _, _, rfl⟩, .node _ _ _ _ _ _ hput.1 hkey hput.2⟩
                  | some k' =>
                    refine .inr ⟨_, _, _, rfl, rfl, ⟨_, _, _, _, rfl⟩, .node _ _ _ _ _ _ hd.1 ?_ hd.2⟩
                    intro k e
                    injection e with e
                    subst e
                    exact prefix_of_snoc (f2 _ rfl)
            · exact hstay
      rcases hcomp (items - n1) with ⟨e, g1, g2⟩ | ⟨t, t', txn, g1, g2, g3, g4⟩
      · rw [g1, g2]; exact .error _
      · rw [g1, g2]
        simp only
        rw [part_update H g4 g3, part_put g4 g3]
        exact .ok _ _ _ _ _ g3 g4

theorem nodeDelete_part (H : Bytes → Bytes) (ord : List UInt8 → List UInt8) (db db' : Db NodeRow) (n : Nat) :
    RecPart db (nodeDelete H ord db n) (nodeDelete H ord db' n) := by
  induction n with
  | zero => intro p t t' ph txn ks _ _ _; exact .error _
  | succ n ih =>
    intro p t t' ph txn ks hn ht hks
    obtain ⟨items, key, hashes, kids, rfl⟩ := hn
    cases ht with
    | node _ _ _ _ _ kids' h1 h2 h3 =>
      have hk : KidsPart db p kids kids' := ⟨h1, h3⟩
      cases ks with
      | nil => exact .error _
      | cons k0 rest =>
        have htake : k0.take p.length = p := (List.prefix_iff_eq_take.1 (hks k0 (by simp))).symm
        simp only [nodeDelete, deleteLevel, htake, hk.leaf]
        split
        · cases findKey key (k0 :: rest) with
          | none => exact .ok _ _ _ _ _ ⟨_, _, _, _, rfl⟩ (.node _ _ _ _ _ _ h1 h2 h3)
          | some j =>
            have hp : Part db p (.node (items - 1) none hashes kids) (.node (items - 1) none hashes kids') :=
              .node _ _ _ _ _ _ h1 (by simp) h3
            simp only
            rw [part_update H hp ⟨_, _, _, _, rfl⟩]
            exact .ok _ _ _ _ _ ⟨_, _, _, _, rfl⟩ hp
        · split
          · exact .error _
          · have hz := zip_under hks
            generalize (k0 :: rest).zipIdx.map (fun k => (k.2, k.1)) = zs at hz
            have := foldGroups_part (step := deleteGroup (nodeDelete H ord db n) db p p.length zs)
              (step' := deleteGroup (nodeDelete H ord db' n) db' p p.length zs)
              (ord (groupChars p.length zs)) (fun c h kids kids' txn res n hk => deleteGroup_part ih hz c h kids kids' txn res n hk)
              hashes kids kids' txn ((k0 :: rest).map (fun _ => false)) 0 hk
            generalize foldGroups (deleteGroup (nodeDelete H ord db n) db p p.length zs) (ord (groupChars p.length zs))
              ⟨hashes, kids, txn, (k0 :: rest).map (fun _ => false), 0⟩ = x at this
            generalize foldGroups (deleteGroup (nodeDelete H ord db' n) db' p p.length zs) (ord (groupChars p.length zs))
              ⟨hashes, kids', txn, (k0 :: rest).map (fun _ => false), 0⟩ = y at this
            cases this with
            | error e => exact .error e
            | ok h1' k1 k1' t1 r1 n1 hk1 => exact deleteFinish_part H _ _ h2 _ _ _ _ _ _ _ hk1

/-- The membership test agrees. -/
theorem nodeExists_part (db db' : Db NodeRow) (key : Bytes) (rest : Bytes) {p : Bytes} {t t' : Tree}
    (hn : ∃ n k hs kids, t = .node n k hs kids) (h : Part db p t t') :
    nodeExists db key p rest t = nodeExists db' key p rest t' := by
  induction rest generalizing p t t' with
  | nil =>
    obtain ⟨items, k, hashes, kids, rfl⟩ := hn
    cases h with
    | node _ _ _ _ _ kids' h1 h2 h3 =>
      have hk : KidsPart db p kids kids' := ⟨h1, h3⟩
      simp only [nodeExists, hk.leaf]
  | cons c rest ih =>
    obtain ⟨items, k, hashes, kids, rfl⟩ := hn
    cases h with
    | node _ _ _ _ _ kids' h1 h2 h3 =>
      have hk : KidsPart db p kids kids' := ⟨h1, h3⟩
      simp only [nodeExists, hk.leaf]
      split
      · rfl
      · rcases hk.get c with ⟨g1, g2⟩ | ⟨a, b, g1, g2, g3⟩
        · rw [g1, g2]; rfl
        · rw [g1, g2]
          simp only [Option.isNone_some, Bool.false_eq_true, if_false]
          obtain ⟨a', e1, e2, e3, e4⟩ := loadChild_part (db' := db') g3
          rw [e1, e4]
          exact ih e3 e2

/-- Once every node has its row again, the partial tree can be read from the new database. -/
theorem Part.rebase {db db' : Db NodeRow} {p : Bytes} {t t' : Tree} (h : Part db p t t') (hs : Stored db' p t') : Part db' p t t' := by
  induction h with
  | stored p t _ => exact .stored p t hs
  | node p items key hashes kids kids' h1 h2 h3 ih =>
    refine .node p items key hashes kids kids' h1 h2 ?_
    intro c a b ha hb
    apply ih c a b ha hb
    cases hs with
    | node _ _ _ _ _ _ _ hk => exact hk c b hb

theorem stored_of_rows {H : Bytes → Bytes} {db : Db NodeRow} {p : Bytes} {t : Tree} (hg : t.Good H p) (h : t.RowsOK db.get p) : Stored db p t := by
  induction h with
  | node p items key hashes kids hrow _ ih =>
    cases hg with
    | leaf _ k _ hp hk _ =>
      refine .node p _ _ _ _ hrow ?_ (by intro c t h; cases h)
      intro k' e
      injection e with e
      subst e
      refine ⟨?_, hk⟩
      rintro rfl
      have := hk.length_le
      simp [uncompacted] at *
      subst this; simp at hp
    | inner _ _ _ _ hs hk _ _ =>
      exact .node p _ _ _ _ hrow (by simp) (fun c t h => ih c t h (hk c t h))

theorem part_self {H : Bytes → Bytes} {db : Db NodeRow} {p : Bytes} {t : Tree} (hg : t.Good H p) : Part db p t t := by
  induction hg with
  | leaf p k hashes _ hk _ =>
    exact .node p _ _ _ _ _ rfl (by intro k' e; injection e with e; subst e; exact hk) (by intro c a b h; cases h)
  | inner p hashes kids _ hs _ _ _ ih =>
    refine .node p _ _ _ _ _ rfl (by simp) ?_
    intro c a b ha hb
    rw [ha] at hb
    injection hb with hb
    subst hb
    exact ih c a ha

end Verif
