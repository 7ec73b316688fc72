import Verif.Lemmas.TrieReads
/-! The paging loop. -/
namespace Verif
open OMapL
variable {H : Bytes → Bytes}

mutual
/-- Number of nodes of a tree. -/
def Tree.size : Tree → Nat
  | .stored => 1
  | .node _ _ _ kids => 2 + Tree.sizeKids kids
/-- Number of nodes below the children. -/
def Tree.sizeKids : List (UInt8 × Tree) → Nat
  | [] => 0
  | (_, t) :: rest => t.size + Tree.sizeKids rest
end

/-- The levels of an enumeration in progress, innermost first: what is left of the children of the nodes on the
path. -/
inductive Frames (H : Bytes → Bytes) (db : Db NodeRow) (root : Tree) (pre : Bytes) : Bytes → List Kids → Prop
  | nil : Frames H db root pre [] []
  | base (n : Nat) (k : Option Bytes) (h : Hashes) (done rest : Kids) :
      nodeAt db [] pre root = some (.node n k h (done ++ rest)) → (Tree.node n k h (done ++ rest)).Good H pre →
      Frames H db root pre [] [rest]
  | push (rel : Bytes) (c : UInt8) (f : Kids) (fs : List Kids) (n : Nat) (k : Option Bytes) (h : Hashes) (done rest : Kids) :
      Frames H db root pre rel (f :: fs) → nodeAt db [] (pre ++ rel ++ [c]) root = some (.node n k h (done ++ rest)) →
      (Tree.node n k h (done ++ rest)).Good H (pre ++ rel ++ [c]) → Frames H db root pre (rel ++ [c]) (rest :: f :: fs)

theorem Frames.pop {db : Db NodeRow} {root : Tree} {pre rel : Bytes} {f : Kids} {fs : List Kids}
    (h : Frames H db root pre rel (f :: fs)) : Frames H db root pre rel.dropLast fs := by
  cases h with
  | base => exact .nil
  | push rel c f' fs' n k h done rest hf _ _ => simpa using hf

theorem Frames.length {db : Db NodeRow} {root : Tree} {pre rel : Bytes} {fs : List Kids}
    (h : Frames H db root pre rel fs) : rel.length = fs.length - 1 := by
  induction h with
  | nil => rfl
  | base => rfl
  | push rel c f fs n k h done rest hf _ _ ih => simp at *; omega

/-- The node at the innermost level, and the rest of its children. -/
theorem Frames.top {db : Db NodeRow} {root : Tree} {pre rel : Bytes} {f : Kids} {fs : List Kids}
    (h : Frames H db root pre rel (f :: fs)) : ∃ n k hs done, nodeAt db [] (pre ++ rel) root = some (.node n k hs (done ++ f)) ∧
      (Tree.node n k hs (done ++ f)).Good H (pre ++ rel) := by
  cases h with
  | base n k h done rest h1 h2 => exact ⟨n, k, h, done, by simpa using h1, by simpa using h2⟩
  | push rel c f' fs' n k h done rest hf h1 h2 => exact ⟨n, k, h, done, by simpa using h1, by simpa using h2⟩

theorem Frames.advance {db : Db NodeRow} {root : Tree} {pre rel : Bytes} {x : UInt8 × Tree} {f : Kids} {fs : List Kids}
    (h : Frames H db root pre rel ((x :: f) :: fs)) : Frames H db root pre rel (f :: fs) := by
  cases h with
  | base n k h done rest h1 h2 =>
    exact .base n k h (done ++ [x]) f (by simpa using h1) (by simpa using h2)
  | push rel c f' fs' n k h done rest hf h1 h2 =>
    exact .push rel c f' fs' n k h (done ++ [x]) f hf (by simpa using h1) (by simpa using h2)

theorem nodeAt_snoc (db : Db NodeRow) (path : Bytes) (c : UInt8) (p : Bytes) (t : Tree) {n : Nat} {k : Option Bytes} {h : Hashes}
    {kids : Kids} (he : nodeAt db p path t = some (.node n k h kids)) {s : Tree} (hg : OMapL.get c kids = some s)
    {q : Bytes} (hs : s.Good H q) : nodeAt db p (path ++ [c]) t = some s := by
  induction path generalizing p t with
  | nil =>
    have : nodeAt db p [] t = some t := by cases t <;> rfl
    rw [this] at he
    injection he with he
    subst he
    simp only [List.nil_append, nodeAt, hg, Option.isNone_some, Bool.false_eq_true, if_false]
    rw [loadChild_node (.inr hs)]
  | cons d path ih =>
    cases t with
    | stored => simp [nodeAt] at he
    | node n' k' h' kids' =>
      simp only [nodeAt, List.cons_append] at he ⊢
      split at he
      · cases he
      · rename_i hne
        rw [if_neg hne]
        cases hl : loadChild db p d (OMapL.get d kids') with
        | error e => rw [hl] at he; cases he
        | ok child => rw [hl] at he; exact ih (p ++ [d]) child he

/-- The keys still to come. -/
def pendingKeys (fs : List Kids) : List Bytes := fs.flatMap Tree.listKids
/-- Work still to do. -/
def pendingWork (fs : List Kids) : Nat := (fs.map (fun f => 1 + Tree.sizeKids f)).sum

theorem pendingKeys_cons (f : Kids) (fs : List Kids) : pendingKeys (f :: fs) = Tree.listKids f ++ pendingKeys fs := by
  simp [pendingKeys]
theorem pendingWork_cons (f : Kids) (fs : List Kids) : pendingWork (f :: fs) = 1 + Tree.sizeKids f + pendingWork fs := by
  simp [pendingWork]

/-- The loop returns the next keys, and a token for the rest. -/
theorem pageLoop_ok (db : Db NodeRow) (root : Tree) (pre : Bytes) (max : Nat) (hroot : root.Good H []) (B n : Nat) :
    ∀ (rel : Bytes) (fs : List Kids) (acc ks : List Bytes), Frames H db root pre rel fs →
      pendingKeys fs = ks.map expandNibbles → (∀ k ∈ ks, k ≠ []) → pendingWork fs < n ∧ pendingWork fs ≤ B → acc.length ≤ max →
      (acc.length + ks.length < max ∧ pageLoop db root pre max n rel (fs.map (·.map (·.1))) acc = .ok (acc ++ ks, none)) ∨
      (max ≤ acc.length + ks.length ∧ ∃ rel' fs', Frames H db root pre rel' fs' ∧ pendingWork fs' ≤ B ∧
        pendingKeys fs' = (ks.drop (max - acc.length)).map expandNibbles ∧
        pageLoop db root pre max n rel (fs.map (·.map (·.1))) acc =
          .ok (acc ++ ks.take (max - acc.length), some (pageToken rel' (fs'.map (·.map (·.1)))))) := by
  induction n with
  | zero => intro _ _ _ _ _ _ _ h; omega
  | succ n ih =>
    intro rel fs acc ks hf hk hne hw hacc
    simp only [pageLoop]
    by_cases hfull : max ≤ acc.length
    · right
      rw [if_pos hfull]
      refine ⟨by omega, rel, fs, hf, hw.2, ?_, ?_⟩
      · rw [show max - acc.length = 0 by omega]; simpa using hk
      · rw [show max - acc.length = 0 by omega]; simp
    · rw [if_neg hfull]
      cases fs with
      | nil =>
        left
        have : ks = [] := by
          cases ks with
          | nil => rfl
          | cons a l => simp [pendingKeys] at hk
        subst this
        exact ⟨by simp; omega, by simp⟩
      | cons f fs =>
        cases f with
        | nil =>
          have := ih rel.dropLast fs acc ks hf.pop (by rw [pendingKeys_cons] at hk; simpa [Tree.listKids] using hk) hne
            (by rw [pendingWork_cons] at hw; omega) hacc
          simpa using this
        | cons x f =>
          obtain ⟨c, t⟩ := x
          obtain ⟨m, k, hs, done, hn, hg⟩ := hf.top
          have hk' : ∃ ht : t.Good H (pre ++ rel ++ [c]), nodeAt db [] (pre ++ rel ++ [c]) root = some t := by
            generalize hkids : done ++ (c, t) :: f = kids at hn hg
            cases hg with
            | leaf _ k hashes _ _ _ =>
              exact absurd hkids (by simp)
            | inner _ _ kids hne' hs' hk'' hh h2 =>
              have hgc : OMapL.get c kids = some t := by rw [← hkids]; exact get_of_split (hkids ▸ hs')
              have ht := hk'' c t hgc
              exact ⟨ht, nodeAt_snoc db (pre ++ rel) c [] root hn hgc ht⟩
          obtain ⟨ht, hnt⟩ := hk'
          simp only [List.map_cons]
          rw [hnt]
          rw [pendingKeys_cons] at hk
          rw [pendingWork_cons] at hw
          simp only [Tree.listKids] at hk
          simp only [Tree.sizeKids] at hw
          cases ht with
          | leaf _ key hashes _ _ _ =>
            simp only [Tree.isLeaf, List.isEmpty_nil, if_true]
            simp only [Tree.toList, Tree.listKids, Option.toList_some, List.append_nil, List.cons_append, List.nil_append] at hk
            obtain ⟨b, ks', rfl⟩ : ∃ b ks', ks = b :: ks' := by
              cases ks with
              | nil => simp at hk
              | cons b ks' => exact ⟨b, ks', rfl⟩
            simp only [List.map_cons, List.cons.injEq] at hk
            obtain ⟨e1, e2⟩ := hk
            subst e1
            have hb : b ≠ [] := hne b (by simp)
            have hne' : expandNibbles b ≠ [] := by
              intro e
              have := expandNibbles_length b
              rw [e] at this
              cases b with
              | nil => exact hb rfl
              | cons => simp at this
            rw [if_neg hne', combine_expand]
            simp only
            have := ih rel (f :: fs) (acc ++ [b]) ks' hf.advance (by rw [pendingKeys_cons]; exact e2)
              (fun k hk => hne k (by simp [hk])) (by rw [pendingWork_cons]; simp only [Tree.size, Tree.sizeKids] at hw; omega)
              (by simp; omega)
            simp only [List.map_cons, List.length_append, List.length_cons, List.length_nil] at this
            rcases this with ⟨h1, h2⟩ | ⟨h1, rel', fs', h2, hB, h3, h4⟩
            · left
              refine ⟨by simp; omega, ?_⟩
              rw [h2]; simp
            · right
              have e : max - acc.length = (max - (acc.length + (0 + 1))) + 1 := by omega
              refine ⟨by simp; omega, rel', fs', h2, hB, ?_, ?_⟩
              · rw [e, List.drop_succ_cons]; exact h3
              · rw [e, List.take_succ_cons, h4]; simp
          | inner _ hashes kids hne' hs' hk'' hh h2 =>
            simp only [isLeaf_false hne', Bool.false_eq_true, if_false]
            simp only [Tree.toList, Option.toList_none, List.nil_append, List.append_assoc] at hk
            have := ih (rel ++ [c]) (kids :: f :: fs) acc ks
              (.push rel c f fs (totalItems kids) none hashes [] kids hf.advance (by simpa using hnt)
                (by simpa using Tree.Good.inner (H := H) _ hashes kids hne' hs' hk'' hh h2))
              (by rw [pendingKeys_cons, pendingKeys_cons]; exact hk) hne
              (by rw [pendingWork_cons, pendingWork_cons]; simp only [Tree.size] at hw; omega) hacc
            simpa using this

theorem decodeSegments_ok (segs acc : List Bytes) (h : ∀ s ∈ segs, s.length < 2 ^ 32) :
    decodeSegments segs.length (segs.flatMap encodeSegment) acc = .ok (acc ++ segs) := by
  induction segs generalizing acc with
  | nil => simp [decodeSegments]
  | cons a l ih =>
    have ha : fromBe (be 4 a.length) = a.length := fromBe_be_of_lt (h a (by simp))
    have hl : (be 4 a.length).length = 4 := by simp
    have htake : (((a :: l).flatMap encodeSegment)).take 4 = be 4 a.length := by
      simp only [List.flatMap_cons, encodeSegment, List.append_assoc]
      rw [List.take_append_of_le_length (by simp), List.take_of_length_le (by simp)]
    have hdrop : (((a :: l).flatMap encodeSegment)).drop 4 = a ++ l.flatMap encodeSegment := by
      simp only [List.flatMap_cons, encodeSegment, List.append_assoc]
      rw [List.drop_append_of_le_length (by simp), List.drop_of_length_le (by simp)]
      simp [encodeSegment]
    simp only [List.length_cons, decodeSegments, htake, hdrop, ha]
    rw [if_neg (by simp [encodeSegment]), if_neg (by simp)]
    rw [List.drop_left, List.take_left, ih _ (fun s hs => h s (by simp [hs]))]
    simp

end Verif
