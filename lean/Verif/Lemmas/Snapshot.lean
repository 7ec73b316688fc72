import Verif.Spec.Snapshot
import Verif.Lemmas.MempoolKeys
import Verif.Lemmas.ChannelUri
/-!
Lemmas for snapshots.
-/
namespace Verif
namespace Snap

/-! ### Backup -/

theorem copyRows_eq {V : Type} (limit : Nat) : ∀ (rows batch : List (Bytes × V)) (d : Db V),
    copyRows limit d batch rows = writeRows d (batch ++ rows)
  | [], batch, d => by simp [copyRows]
  | r :: rows, batch, d => by
    unfold copyRows
    split
    · rw [copyRows_eq limit rows]
      simp [writeRows]
    · rw [copyRows_eq limit rows]
      simp

theorem writeRows_get {V : Type} : ∀ (rows : List (Bytes × V)) (d : Db V) (k : Bytes), OMapL.Sorted rows →
    (writeRows d rows).get k = (match OMapL.get k rows with
      | some v => some v
      | none => d.get k)
  | [], d, k, _ => rfl
  | (k', v) :: rows, d, k, h => by
    obtain ⟨h1, h2⟩ := List.pairwise_cons.1 h
    show (writeRows (d.put k' v) rows).get k = _
    rw [writeRows_get rows _ k h2]
    by_cases e : k = k'
    · subst e
      have : OMapL.get k rows = none := OMapL.get_none_of_lt h1
      have e2 : OMapL.get k ((k, v) :: rows) = some v := by
        unfold OMapL.get
        rw [if_neg (by rintro (h | h) <;> exact StrictOrd.irrefl _ h)]
      rw [this, e2]
      simp
    · have : OMapL.get k ((k', v) :: rows) = OMapL.get k rows := by
        rw [OMapL.get, if_pos]
        rcases StrictOrd.tri k k' with h | h | h
        · exact Or.inl h
        · exact absurd h e
        · exact Or.inr h
      rw [this]
      cases OMapL.get k rows with
      | some w => rfl
      | none => exact OMap.get_put_ne d v e

theorem backup_eq {V : Type} (db : Db V) : backup true db = db := by
  unfold backup
  rw [if_pos rfl]
  rw [copyRows_eq]
  apply OMap.ext
  intro k
  rw [List.nil_append, writeRows_get db.rows _ k db.sorted]
  show (match db.get k with
      | some v => some v
      | none => none) = _
  cases db.get k <;> rfl

/-! ### Chunks -/

/-- What a writer has written. -/
def Writer.all (w : Writer) : List Bytes := w.done ++ w.cur.toList

theorem write_all_flatten (max : Nat) (w : Writer) (buf : Bytes) (n : Nat) :
    (w.write max buf n).all.flatten = w.all.flatten ++ buf.take n := by
  obtain ⟨d, c⟩ := w
  cases c with
  | none => simp [Writer.write, Writer.next, Writer.all]
  | some c =>
    simp only [Writer.write]
    split <;> simp [Writer.next, Writer.all]

theorem writeAll_flatten (max : Nat) (takes : Bytes → Nat) : ∀ (f : Nat) (w w' : Writer) (buf : Bytes),
    Writer.writeAll max takes f w buf = some w' → w'.all.flatten = w.all.flatten ++ buf
  | f, w, w', [], h => by
    cases f <;> (cases h; simp)
  | 0, w, w', _ :: _, h => by cases h
  | f + 1, w, w', b :: l, h => by
    unfold Writer.writeAll at h
    simp only at h
    split at h
    · cases h
    · rw [writeAll_flatten max takes f _ _ _ h, write_all_flatten, List.append_assoc, List.take_append_drop]

theorem parts_flatten (max : Nat) (takes : Bytes → Nat) : ∀ (bufs : List Bytes) (w : Writer) (ps : List Bytes),
    parts max takes w bufs = some ps → ps.flatten = w.all.flatten ++ bufs.flatten
  | [], w, ps, h => by cases h; simp [Writer.all]
  | b :: bs, w, ps, h => by
    unfold parts at h
    split at h
    · cases h
    · rename_i w' hw
      rw [parts_flatten max takes bs w' ps h, writeAll_flatten max takes _ _ _ _ hw]
      simp

theorem writeAll_some (max : Nat) {takes : Bytes → Nat} (ht : ∀ b, b ≠ [] → 1 ≤ takes b) : ∀ (f : Nat) (w : Writer) (buf : Bytes),
    buf.length ≤ f → ∃ w', Writer.writeAll max takes f w buf = some w'
  | f, w, [], _ => ⟨w, by cases f <;> rfl⟩
  | 0, w, _ :: _, h => by simp at h
  | f + 1, w, b :: l, h => by
    unfold Writer.writeAll
    have := ht (b :: l) (by simp)
    simp only
    rw [if_neg (by omega)]
    exact writeAll_some max ht f _ _ (by simp only [List.length_drop, List.length_cons] at *; omega)

theorem parts_some (max : Nat) {takes : Bytes → Nat} (ht : ∀ b, b ≠ [] → 1 ≤ takes b) : ∀ (bufs : List Bytes) (w : Writer),
    ∃ ps, parts max takes w bufs = some ps
  | [], w => ⟨_, rfl⟩
  | b :: bs, w => by
    obtain ⟨w', hw⟩ := writeAll_some max ht b.length w b (Nat.le_refl _)
    unfold parts
    rw [hw]
    exact parts_some max ht bs w'

theorem write_sizes {max N : Nat} {w : Writer} {buf : Bytes} {n : Nat} (hN : max ≤ N) (hb : buf.length ≤ N)
    (hw : ∀ p ∈ w.all, p.length ≤ N) : ∀ p ∈ (w.write max buf n).all, p.length ≤ N := by
  obtain ⟨d, c⟩ := w
  have ht : (buf.take n).length ≤ buf.length := by rw [List.length_take]; omega
  intro p hp
  cases c with
  | none =>
    simp only [Writer.write, Writer.next, Writer.all, Option.toList_none, List.append_nil, Option.map_some, List.nil_append,
      Option.toList_some, List.mem_append, List.mem_singleton] at hp
    rcases hp with hp | rfl
    · exact hw p (by simp [Writer.all, hp])
    · omega
  | some c =>
    simp only [Writer.write] at hp
    split at hp
    · simp only [Writer.next, Writer.all, Option.map_some, List.nil_append, Option.toList_some, List.mem_append,
        List.mem_singleton] at hp
      rcases hp with (hp | rfl) | rfl
      · exact hw p (by simp [Writer.all, hp])
      · exact hw p (by simp [Writer.all])
      · omega
    · simp only [Writer.all, Option.map_some, Option.toList_some, List.mem_append, List.mem_singleton] at hp
      rcases hp with hp | rfl
      · exact hw p (by simp [Writer.all, hp])
      · rw [List.length_append]; omega

theorem writeAll_sizes {max N : Nat} {takes : Bytes → Nat} (hN : max ≤ N) : ∀ (f : Nat) (w w' : Writer) (buf : Bytes), buf.length ≤ N →
    (∀ p ∈ w.all, p.length ≤ N) → Writer.writeAll max takes f w buf = some w' → ∀ p ∈ w'.all, p.length ≤ N
  | f, w, w', [], _, hw, h => by
    cases f <;> (cases h; exact hw)
  | 0, w, w', _ :: _, _, _, h => by cases h
  | f + 1, w, w', b :: l, hb, hw, h => by
    unfold Writer.writeAll at h
    simp only at h
    split at h
    · cases h
    · exact writeAll_sizes hN f _ _ _ (by rw [List.length_drop]; omega) (write_sizes hN hb hw) h

theorem parts_sizes {max N : Nat} {takes : Bytes → Nat} (hN : max ≤ N) : ∀ (bufs : List Bytes) (w : Writer) (ps : List Bytes),
    (∀ b ∈ bufs, b.length ≤ N) → (∀ p ∈ w.all, p.length ≤ N) → parts max takes w bufs = some ps → ∀ p ∈ ps, p.length ≤ N
  | [], w, ps, _, hw, h => by cases h; exact hw
  | b :: bs, w, ps, hb, hw, h => by
    unfold parts at h
    split at h
    · cases h
    · rename_i w' hw'
      exact parts_sizes hN bs w' ps (fun x hx => hb x (List.mem_cons_of_mem _ hx))
        (writeAll_sizes hN _ _ _ _ (hb b List.mem_cons_self) hw hw') h

theorem filesFrom_contents : ∀ (n : Nat) (ps : List Bytes), (filesFrom n ps).map (·.2) = ps
  | _, [] => rfl
  | n, p :: ps => by rw [filesFrom, List.map_cons, filesFrom_contents]

/-! ### Keys -/

theorem split_slash {a a' b b' : Bytes} (h : 47 ∉ a) (h' : 47 ∉ a') (e : a ++ 47 :: b = a' ++ 47 :: b') : a = a' ∧ b = b' := by
  induction a generalizing a' with
  | nil =>
    cases a' with
    | nil => simpa using e
    | cons c a' =>
      simp only [List.nil_append, List.cons_append, List.cons.injEq] at e
      exact absurd (by simp [e.1]) h'
  | cons c a ih =>
    cases a' with
    | nil =>
      simp only [List.nil_append, List.cons_append, List.cons.injEq] at e
      exact absurd (by simp [e.1]) h
    | cons c' a' =>
      simp only [List.cons_append, List.cons.injEq] at e
      obtain ⟨e1, e2⟩ := ih (fun m => h (List.mem_cons_of_mem _ m)) (fun m => h' (List.mem_cons_of_mem _ m)) e.2
      exact ⟨by rw [e.1, e1], e2⟩

theorem decimal_no_slash {n : Nat} (h : n < 2 ^ 32) : 47 ∉ decimal n :=
  ((decimal_iff (t := decimal n) (by omega)).1 rfl).not_mem (by decide)

def snapName (u : Upload) : Bytes := [115, 110, 97, 112, 115, 104, 111, 116, 45] ++ u.stamp ++ [46, 116, 97, 114, 46, 103, 122]

def latestName : Bytes := [108, 97, 116, 101, 115, 116, 46, 106, 115, 111, 110]

theorem snapName_no_slash {u : Upload} (h : 47 ∉ u.stamp) : 47 ∉ snapName u := by
  simp [snapName, h]

theorem key_eq (net : Bytes) (u : Upload) (name : Bytes) :
    u.key net name = net ++ 47 :: (decimal u.shard ++ 47 :: (snapName u ++ 47 :: name)) := by
  simp [Upload.key, Upload.base, dir, snapName]

theorem meta_eq (net : Bytes) (shard : Nat) : metaPath net shard = net ++ 47 :: (decimal shard ++ 47 :: latestName) := by
  simp [metaPath, dir, latestName]

theorem key_ne_meta {net : Bytes} {u : Upload} {name : Bytes} {shard : Nat} (hn : 47 ∉ net) (h1 : u.shard < 2 ^ 32) (h2 : shard < 2 ^ 32)
    : u.key net name ≠ metaPath net shard := by
  intro e
  rw [key_eq, meta_eq] at e
  obtain ⟨_, e⟩ := split_slash hn hn e
  obtain ⟨_, e⟩ := split_slash (decimal_no_slash h1) (decimal_no_slash h2) e
  have : (47 : UInt8) ∈ latestName := by rw [← e]; simp
  exact absurd this (by decide)

theorem meta_inj {net : Bytes} {a b : Nat} (hn : 47 ∉ net) (h1 : a < 2 ^ 32) (h2 : b < 2 ^ 32) (e : metaPath net a = metaPath net b) :
    a = b := by
  rw [meta_eq, meta_eq] at e
  obtain ⟨_, e⟩ := split_slash hn hn e
  obtain ⟨e, _⟩ := split_slash (decimal_no_slash h1) (decimal_no_slash h2) e
  exact decimal_inj (by omega) (by omega) e

theorem key_inj {net : Bytes} {u v : Upload} {a b : Bytes} (hn : 47 ∉ net) (h1 : u.shard < 2 ^ 32) (h2 : v.shard < 2 ^ 32)
    (h3 : 47 ∉ u.stamp) (h4 : 47 ∉ v.stamp) (e : u.key net a = v.key net b) : u.shard = v.shard ∧ u.stamp = v.stamp ∧ a = b := by
  rw [key_eq, key_eq] at e
  obtain ⟨_, e⟩ := split_slash hn hn e
  obtain ⟨e1, e⟩ := split_slash (decimal_no_slash h1) (decimal_no_slash h2) e
  obtain ⟨e2, e3⟩ := split_slash (snapName_no_slash h3) (snapName_no_slash h4) e
  refine ⟨decimal_inj (by omega) (by omega) e1, ?_, e3⟩
  unfold snapName at e2
  rw [List.append_assoc, List.append_assoc] at e2
  exact List.append_cancel_right (List.append_cancel_left e2)

theorem base_key {net : Bytes} {u v : Upload} {a b : Bytes} (h : u.base net = v.base net) (hab : a = b) : u.key net a = v.key net b := by
  unfold Upload.key; rw [h, hab]

theorem hasInfix_prefix {p : Bytes} : ∀ {s : Bytes}, p <+: s → hasInfix p s = true
  | [], h => by simpa [hasInfix] using h
  | c :: s, h => by simp [hasInfix, List.isPrefixOf_iff_prefix.2 h]

theorem prefix_of_slash {a b r : Bytes} (h : 47 ∉ a) (e : a <+: b ++ 47 :: r) : a <+: b := by
  induction a generalizing b with
  | nil => exact List.nil_prefix
  | cons c a ih =>
    cases b with
    | nil =>
      rw [List.nil_append, List.cons_prefix_cons] at e
      exact absurd (by simp [e.1]) h
    | cons d b =>
      rw [List.cons_append, List.cons_prefix_cons] at e
      rw [List.cons_prefix_cons]
      exact ⟨e.1, ih (fun m => h (List.mem_cons_of_mem _ m)) e.2⟩

theorem dir_prefix {net : Bytes} {a b : Nat} {r : Bytes} (h : a < 2 ^ 32) (e : dir net a <+: net ++ 47 :: (decimal b ++ 47 :: r)) :
    decimal a <+: decimal b := by
  unfold dir at e
  rw [List.prefix_append_right_inj, List.cons_prefix_cons] at e
  exact prefix_of_slash (decimal_no_slash h) e.2

/-! ### Histories -/

/-- The snapshot is there, with its description. -/
def Holds (net : Bytes) (s : Bucket) (u : Upload) : Prop :=
  s (metaPath net u.shard) = some (.info ⟨u.base net, u.files.map (·.1)⟩) ∧
  ∀ f ∈ u.files, s (u.key net f.1) = some (.chunk f.2)

theorem fetch_of {get : Bytes → Option Obj} {net : Bytes} {u : Upload} : ∀ (fs : List (Bytes × Bytes)),
    (∀ f ∈ fs, get (u.key net f.1) = some (.chunk f.2)) →
    fetch get (u.base net) (fs.map (·.1)) = some ((fs.map (·.2)).flatten)
  | [], _ => rfl
  | f :: fs, h => by
    have h1 := h f List.mem_cons_self
    unfold Upload.key at h1
    simp only [List.map_cons, fetch, h1, fetch_of fs (fun x hx => h x (List.mem_cons_of_mem _ hx)), Option.map_some, List.flatten_cons]

theorem download_of {net : Bytes} {s : Bucket} {u : Upload} (h : Holds net s u) : download net s u.shard = some u.content := by
  unfold download
  rw [h.1]
  exact fetch_of u.files h.2

theorem holds_put_chunk {net : Bytes} {s : Bucket} {u v : Upload} {name c : Bytes} (hn : 47 ∉ net) (h1 : u.shard < 2 ^ 32)
    (h2 : v.shard < 2 ^ 32) (h3 : 47 ∉ u.stamp) (h4 : 47 ∉ v.stamp) (hd : u.shard ≠ v.shard ∨ u.stamp ≠ v.stamp) (h : Holds net s u) :
    Holds net (Act.run s (.put (v.key net name) (.chunk c))) u := by
  refine ⟨?_, fun f hf => ?_⟩
  · show (if _ then _ else _) = _
    rw [if_neg (fun e => key_ne_meta hn h2 h1 e.symm)]
    exact h.1
  · show (if _ then _ else _) = _
    rw [if_neg]
    · exact h.2 f hf
    · intro e
      obtain ⟨e1, e2, _⟩ := key_inj hn h1 h2 h3 h4 e
      rcases hd with hd | hd
      · exact hd e1
      · exact hd e2

theorem holds_puts {net : Bytes} {u v : Upload} (hn : 47 ∉ net) (h1 : u.shard < 2 ^ 32)
    (h2 : v.shard < 2 ^ 32) (h3 : 47 ∉ u.stamp) (h4 : 47 ∉ v.stamp) (hd : u.shard ≠ v.shard ∨ u.stamp ≠ v.stamp) :
    ∀ (fs : List (Bytes × Bytes)) (s : Bucket), Holds net s u →
      Holds net ((fs.map fun f => Act.put (v.key net f.1) (.chunk f.2)).foldl Act.run s) u
  | [], _, h => h
  | f :: fs, s, h => holds_puts hn h1 h2 h3 h4 hd fs _ (holds_put_chunk hn h1 h2 h3 h4 hd h)

theorem holds_put_info {net : Bytes} {s : Bucket} {u v : Upload} {m : Info} (hn : 47 ∉ net) (h1 : u.shard < 2 ^ 32)
    (h2 : v.shard < 2 ^ 32) (hd : u.shard ≠ v.shard) (h : Holds net s u) :
    Holds net (Act.run s (.put (metaPath net v.shard) (.info m))) u := by
  refine ⟨?_, fun f hf => ?_⟩
  · show (if _ then _ else _) = _
    rw [if_neg (fun e => hd (meta_inj hn h1 h2 e))]
    exact h.1
  · show (if _ then _ else _) = _
    rw [if_neg (key_ne_meta hn h1 h2)]
    exact h.2 f hf

theorem clear_keeps {net : Bytes} {s : Bucket} {shard : Nat} {listed : Bytes → Bool} {k : Bytes}
    (h : ∀ m, s (metaPath net shard) = some (.info m) →
      (dir net shard).isPrefixOf k = false ∨ hasInfix m.base k = true ∨ hasInfix (metaPath net shard) k = true) :
    Act.run s (.clear net shard listed) k = s k := by
  simp only [Act.run]
  cases hm : s (metaPath net shard) with
  | none => rfl
  | some o =>
    cases o with
    | chunk b => rfl
    | info m =>
      show (if _ then _ else _) = _
      rw [if_neg]
      rcases h m hm with e | e | e <;> simp [e]

theorem holds_clear_own {net : Bytes} {s : Bucket} {u : Upload} {listed : Bytes → Bool} (h : Holds net s u) :
    Holds net (Act.run s (.clear net u.shard listed)) u := by
  refine ⟨?_, fun f hf => ?_⟩
  · rw [clear_keeps (fun m hm => Or.inr (Or.inr (hasInfix_prefix (List.prefix_refl _))))]
    exact h.1
  · rw [clear_keeps]
    · exact h.2 f hf
    · intro m hm
      rw [h.1] at hm
      cases hm
      exact Or.inr (Or.inl (hasInfix_prefix (List.prefix_append _ _)))

theorem holds_clear_other {net : Bytes} {s : Bucket} {u : Upload} {shard : Nat} {listed : Bytes → Bool} (h1 : shard < 2 ^ 32)
    (ha : ¬ decimal shard <+: decimal u.shard) (h : Holds net s u) : Holds net (Act.run s (.clear net shard listed)) u := by
  have key : ∀ r, (dir net shard).isPrefixOf (net ++ 47 :: (decimal u.shard ++ 47 :: r)) = false := by
    intro r
    cases e : (dir net shard).isPrefixOf (net ++ 47 :: (decimal u.shard ++ 47 :: r)) with
    | false => rfl
    | true => exact absurd (dir_prefix h1 (List.isPrefixOf_iff_prefix.1 e)) ha
  refine ⟨?_, fun f hf => ?_⟩
  · rw [clear_keeps (fun m hm => Or.inl (by rw [meta_eq]; exact key _))]
    exact h.1
  · rw [clear_keeps (fun m hm => Or.inl (by rw [key_eq]; exact key _))]
    exact h.2 f hf

theorem puts_get {net : Bytes} {v : Upload} (hn : 47 ∉ net) (h2 : v.shard < 2 ^ 32) (h4 : 47 ∉ v.stamp) :
    ∀ (fs : List (Bytes × Bytes)) (s : Bucket), (fs.map (·.1)).Nodup → ∀ f ∈ fs,
      ((fs.map fun f => Act.put (v.key net f.1) (.chunk f.2)).foldl Act.run s) (v.key net f.1) = some (.chunk f.2)
  | g :: fs, s, hnd, f, hf => by
    rw [List.map_cons, List.nodup_cons] at hnd
    rw [List.map_cons, List.foldl_cons]
    rcases List.mem_cons.1 hf with rfl | hf
    · have aux : ∀ (l : List (Bytes × Bytes)) (s : Bucket), f.1 ∉ l.map (·.1) → s (v.key net f.1) = some (.chunk f.2) →
          ((l.map fun f => Act.put (v.key net f.1) (.chunk f.2)).foldl Act.run s) (v.key net f.1) = some (.chunk f.2) := by
        intro l
        induction l with
        | nil => intro s _ h; exact h
        | cons x l ih =>
          intro s hm h
          rw [List.map_cons, List.foldl_cons]
          rw [List.map_cons, List.mem_cons] at hm
          refine ih _ (fun m => hm (Or.inr m)) ?_
          show (if _ then _ else _) = _
          rw [if_neg]
          · exact h
          · intro e
            exact hm (Or.inl (key_inj hn h2 h2 h4 h4 e).2.2)
      exact aux fs _ hnd.1 (by show (if _ then _ else _) = _; rw [if_pos rfl])
    · exact puts_get hn h2 h4 fs _ hnd.2 f hf

/-- One upload, ended after `n` steps. -/
theorem holds_step {net : Bytes} {s : Bucket} {u v : Upload} {n : Nat} (hn : 47 ∉ net) (h1 : u.shard < 2 ^ 32)
    (h2 : v.shard < 2 ^ 32) (h3 : 47 ∉ u.stamp) (h4 : 47 ∉ v.stamp) (hd : u.shard ≠ v.shard ∨ u.stamp ≠ v.stamp)
    (hc : v.files.length < n → u.shard ≠ v.shard) (ha : u.shard ≠ v.shard → ¬ decimal v.shard <+: decimal u.shard) (h : Holds net s u) :
    Holds net (((v.acts net).take n).foldl Act.run s) u := by
  unfold Upload.acts
  rw [List.take_append, ← List.map_take, List.foldl_append]
  have h0 := holds_puts hn h1 h2 h3 h4 hd (v.files.take n) s h
  rw [List.length_map]
  by_cases hl : v.files.length < n
  · have hs := hc hl
    obtain ⟨k, rfl⟩ : ∃ k, n = v.files.length + 1 + k := ⟨n - v.files.length - 1, by omega⟩
    rw [show v.files.length + 1 + k - v.files.length = k + 1 by omega, List.take_succ_cons, List.foldl_cons]
    have h5 := holds_put_info (m := ⟨v.base net, v.files.map (·.1)⟩) hn h1 h2 hs h0
    cases k with
    | zero => exact h5
    | succ k =>
      rw [List.take_succ_cons, List.foldl_cons, List.take_nil, List.foldl_nil]
      exact holds_clear_other h2 (ha hs) h5
  · rw [show n - v.files.length = 0 by omega, List.take_zero]
    exact h0

theorem holds_new {net : Bytes} {s : Bucket} {v : Upload} {n : Nat} (hn : 47 ∉ net)
    (h2 : v.shard < 2 ^ 32) (h4 : 47 ∉ v.stamp) (hnd : (v.files.map (·.1)).Nodup) (hl : v.files.length < n) :
    Holds net (((v.acts net).take n).foldl Act.run s) v := by
  unfold Upload.acts
  rw [List.take_append, ← List.map_take, List.foldl_append, List.length_map]
  obtain ⟨k, rfl⟩ : ∃ k, n = v.files.length + 1 + k := ⟨n - v.files.length - 1, by omega⟩
  rw [show v.files.length + 1 + k - v.files.length = k + 1 by omega, List.take_succ_cons, List.foldl_cons,
    List.take_of_length_le (l := v.files) (by omega)]
  have h5 : Holds net (Act.run ((v.files.map fun f => Act.put (v.key net f.1) (.chunk f.2)).foldl Act.run s)
      (.put (metaPath net v.shard) (.info ⟨v.base net, v.files.map (·.1)⟩))) v := by
    refine ⟨?_, fun f hf => ?_⟩
    · show (if _ then _ else _) = _
      rw [if_pos rfl]
    · show (if _ then _ else _) = _
      rw [if_neg (key_ne_meta hn h2 h2)]
      exact puts_get hn h2 h4 v.files s hnd f hf
  cases k with
  | zero => exact h5
  | succ k =>
    rw [List.take_succ_cons, List.foldl_cons, List.take_nil, List.foldl_nil]
    exact holds_clear_own h5

theorem latest_mem {H : History} {shard : Nat} {u : Upload} (h : H.latest shard = some u) :
    ∃ n, (u, n) ∈ H ∧ u.shard = shard ∧ u.files.length < n := by
  unfold History.latest at h
  obtain ⟨x, hx, rfl⟩ := Option.map_eq_some_iff.1 h
  have := List.mem_filter.1 (List.mem_of_getLast? hx)
  obtain ⟨h1, h2⟩ := this
  simp only [published, Bool.and_eq_true, beq_iff_eq, decide_eq_true_eq] at h2
  exact ⟨x.2, h1, h2.1, h2.2⟩

theorem latest_snoc (H : History) (x : Upload × Nat) (shard : Nat) :
    History.latest (H ++ [x]) shard = if published shard x then some x.1 else H.latest shard := by
  unfold History.latest
  rw [List.filter_append]
  by_cases h : published shard x = true
  · rw [if_pos h, List.filter_cons_of_pos h]
    simp
  · rw [if_neg h, List.filter_cons_of_neg h]
    simp

theorem holds_history {net : Bytes} : ∀ (rest pre : History) (s : Bucket), Proper net (pre ++ rest) → Distinct (pre ++ rest) →
    Apart (pre ++ rest) → (∀ shard u, pre.latest shard = some u → Holds net s u) →
    ∀ shard u, History.latest (pre ++ rest) shard = some u → Holds net ((rest.acts net).foldl Act.run s) u
  | [], pre, s, _, _, _, h, shard, u, hu => by
    rw [List.append_nil] at hu
    exact h shard u hu
  | x :: rest, pre, s, hp, hd, ha, h, shard, u, hu => by
    have e : pre ++ x :: rest = (pre ++ [x]) ++ rest := by simp
    rw [show History.acts net (x :: rest) = (x.1.acts net).take x.2 ++ History.acts net rest from rfl, List.foldl_append]
    refine holds_history rest (pre ++ [x]) _ (e ▸ hp) (e ▸ hd) (e ▸ ha) ?_ shard u (e ▸ hu)
    intro shard u hu
    have hx : x ∈ pre ++ x :: rest := by simp
    rw [latest_snoc] at hu
    split at hu
    · rename_i hpub
      cases hu
      simp only [published, Bool.and_eq_true, beq_iff_eq, decide_eq_true_eq] at hpub
      exact holds_new hp.net (hp.shard x hx) (hp.stamp x hx) (hp.names x hx) hpub.2
    · rename_i hpub
      obtain ⟨n, hm, hs, hl⟩ := latest_mem hu
      have hm' : (u, n) ∈ pre ++ x :: rest := List.mem_append_left _ hm
      have hdd := (List.pairwise_append.1 hd).2.2 (u, n) hm x List.mem_cons_self
      refine holds_step hp.net (hp.shard _ hm') (hp.shard x hx) (hp.stamp _ hm') (hp.stamp x hx) hdd ?_ ?_ (h shard u hu)
      · intro hl' e
        apply hpub
        simp [published, ← e, hs, hl']
      · intro hne
        exact ha x hx (u, n) hm' (fun e => hne e.symm)

/-! ### Any bytes that are read -/

theorem acts_mem {net : Bytes} {H : History} {a : Act} (h : a ∈ H.acts net) :
    (∃ x ∈ H, ∃ f ∈ x.1.files, a = .put (x.1.key net f.1) (.chunk f.2)) ∨
    (∃ x ∈ H, x.1.files.length < x.2 ∧ a = .put (metaPath net x.1.shard) (.info ⟨x.1.base net, x.1.files.map (·.1)⟩)) ∨
    (∃ x ∈ H, a = .clear net x.1.shard x.1.listed) := by
  obtain ⟨x, hx, hm⟩ := List.mem_flatMap.1 h
  unfold Upload.acts at hm
  rw [List.take_append, List.length_map] at hm
  rcases List.mem_append.1 hm with hm | hm
  · obtain ⟨f, hf, rfl⟩ := List.mem_map.1 (List.mem_of_mem_take hm)
    exact Or.inl ⟨x, hx, f, hf, rfl⟩
  · by_cases hl : x.1.files.length < x.2
    · have := List.mem_of_mem_take hm
      rcases List.mem_cons.1 this with rfl | this
      · exact Or.inr (Or.inl ⟨x, hx, hl, rfl⟩)
      · cases List.mem_singleton.1 this
        exact Or.inr (Or.inr ⟨x, hx, rfl⟩)
    · rw [show x.2 - x.1.files.length = 0 by omega] at hm
      cases hm

/-- Everything in the bucket comes from an upload. -/
def Genuine (net : Bytes) (H : History) (s : Bucket) : Prop :=
  (∀ k b, s k = some (.chunk b) → ∃ x ∈ H, ∃ f ∈ x.1.files, k = x.1.key net f.1 ∧ b = f.2) ∧
  (∀ k m, s k = some (.info m) → ∃ x ∈ H, x.1.files.length < x.2 ∧ k = metaPath net x.1.shard ∧
    m = ⟨x.1.base net, x.1.files.map (·.1)⟩)

theorem genuine_run {net : Bytes} {H : History} : ∀ (acts : List Act) (s : Bucket), (∀ a ∈ acts, a ∈ H.acts net) → Genuine net H s →
    Genuine net H (acts.foldl Act.run s)
  | [], _, _, h => h
  | a :: acts, s, hm, h => by
    refine genuine_run acts _ (fun b hb => hm b (List.mem_cons_of_mem _ hb)) ?_
    rcases acts_mem (hm a List.mem_cons_self) with ⟨x, hx, f, hf, rfl⟩ | ⟨x, hx, hl, rfl⟩ | ⟨x, hx, rfl⟩
    · refine ⟨fun k b e => ?_, fun k m e => ?_⟩
      · have e : (if k = x.1.key net f.1 then some (.chunk f.2) else s k) = some (.chunk b) := e
        split at e
        · rename_i hk
          cases e
          exact ⟨x, hx, f, hf, hk, rfl⟩
        · exact h.1 k b e
      · have e : (if k = x.1.key net f.1 then some (.chunk f.2) else s k) = some (.info m) := e
        split at e
        · cases e
        · exact h.2 k m e
    · refine ⟨fun k b e => ?_, fun k m e => ?_⟩
      · have e : (if k = metaPath net x.1.shard then some (.info ⟨x.1.base net, x.1.files.map (·.1)⟩) else s k) = some (.chunk b) := e
        split at e
        · cases e
        · exact h.1 k b e
      · have e : (if k = metaPath net x.1.shard then some (.info ⟨x.1.base net, x.1.files.map (·.1)⟩) else s k) = some (.info m) := e
        split at e
        · rename_i hk
          cases e
          exact ⟨x, hx, hl, hk, rfl⟩
        · exact h.2 k m e
    · have : ∀ k o, Act.run s (.clear net x.1.shard x.1.listed) k = some o → s k = some o := by
        intro k o e
        simp only [Act.run] at e
        cases hm : s (metaPath net x.1.shard) with
        | none => rw [hm] at e; exact e
        | some o' =>
          rw [hm] at e
          cases o' with
          | chunk b => exact e
          | info m =>
            simp only at e
            split at e
            · cases e
            · exact e
      exact ⟨fun k b e => h.1 k b (this _ _ e), fun k m e => h.2 k m (this _ _ e)⟩

theorem distinct_eq : ∀ {H : History}, Distinct H → ∀ {x y : Upload × Nat}, x ∈ H → y ∈ H → x.1.shard = y.1.shard →
    x.1.stamp = y.1.stamp → x = y
  | z :: H, hd, x, y, hx, hy, e1, e2 => by
    obtain ⟨h1, h2⟩ := List.pairwise_cons.1 hd
    rcases List.mem_cons.1 hx with rfl | hx' <;> rcases List.mem_cons.1 hy with rfl | hy'
    · rfl
    · rcases h1 y hy' with h | h
      · exact absurd e1 h
      · exact absurd e2 h
    · rcases h1 x hx' with h | h
      · exact absurd e1.symm h
      · exact absurd e2.symm h
    · exact distinct_eq h2 hx' hy' e1 e2

theorem nodup_names : ∀ {fs : List (Bytes × Bytes)}, (fs.map (·.1)).Nodup → ∀ {f g : Bytes × Bytes}, f ∈ fs → g ∈ fs → f.1 = g.1 → f = g
  | z :: fs, hd, f, g, hf, hg, e => by
    rw [List.map_cons, List.nodup_cons] at hd
    rcases List.mem_cons.1 hf with rfl | hf' <;> rcases List.mem_cons.1 hg with rfl | hg'
    · rfl
    · exact absurd (e ▸ List.mem_map_of_mem hg') hd.1
    · exact absurd (e ▸ List.mem_map_of_mem hf') hd.1
    · exact nodup_names hd.2 hf' hg' e

theorem fetch_genuine {net : Bytes} {H : History} (hp : Proper net H) (hd : Distinct H) {x : Upload × Nat} (hx : x ∈ H)
    {get : Bytes → Option Obj}
    (hg : ∀ k b, get k = some (.chunk b) → ∃ y ∈ H, ∃ f ∈ y.1.files, k = y.1.key net f.1 ∧ b = f.2) :
    ∀ (fs : List (Bytes × Bytes)), (∀ f ∈ fs, f ∈ x.1.files) → ∀ b, fetch get (x.1.base net) (fs.map (·.1)) = some b →
      b = (fs.map (·.2)).flatten
  | [], _, b, h => by cases h; rfl
  | f :: fs, hf, b, h => by
    simp only [List.map_cons, fetch] at h
    split at h
    · rename_i c hc
      obtain ⟨r, hr, rfl⟩ := Option.map_eq_some_iff.1 h
      rw [fetch_genuine hp hd hx hg fs (fun g hg => hf g (List.mem_cons_of_mem _ hg)) r hr]
      obtain ⟨y, hy, g, hgm, hk, rfl⟩ := hg _ _ hc
      have hk : x.1.key net f.1 = y.1.key net g.1 := hk
      obtain ⟨e1, e2, e3⟩ := key_inj hp.net (hp.shard x hx) (hp.shard y hy) (hp.stamp x hx) (hp.stamp y hy) hk
      have := distinct_eq hd hx hy e1 e2
      subst this
      have := nodup_names (hp.names x hx) (hf f List.mem_cons_self) hgm e3
      subst this
      simp
    · cases h

/-! ### Names of chunks -/

theorem decVal_zeros (k : Nat) (b : Bytes) : decVal (List.replicate k 48 ++ b) = decVal b := by
  induction k with
  | zero => rfl
  | succ k ih =>
    rw [List.replicate_succ, List.cons_append, ← ih]
    rfl

theorem chunkName_inj {a b : Nat} (ha : a < 10 ^ 20) (hb : b < 10 ^ 20) (e : chunkName a = chunkName b) : a = b := by
  have e := List.append_cancel_left (List.append_cancel_right e)
  have e := congrArg decVal e
  rw [decVal_zeros, decVal_zeros] at e
  rw [← decVal_decimalAux 19 a ha, ← decVal_decimalAux 19 b hb]
  exact e

theorem chunkName_no_slash {n : Nat} (h : n < 2 ^ 64) : 47 ∉ chunkName n := by
  have := ((decimal_iff (t := decimal n) h).1 rfl).not_mem (c := 47) (by decide)
  simp [chunkName, this, List.mem_replicate]

theorem filesFrom_names : ∀ (n : Nat) (ps : List Bytes) (f : Bytes × Bytes), f ∈ filesFrom n ps →
    ∃ i, n ≤ i ∧ i < n + ps.length ∧ f.1 = chunkName i
  | n, p :: ps, f, h => by
    rcases List.mem_cons.1 h with rfl | h'
    · exact ⟨n, Nat.le_refl _, by simp, rfl⟩
    · obtain ⟨i, h1, h2, h3⟩ := filesFrom_names (n + 1) ps f h'
      exact ⟨i, by omega, by simp only [List.length_cons]; omega, h3⟩

theorem filesFrom_nodup : ∀ (n : Nat) (ps : List Bytes), n + ps.length < 10 ^ 20 → ((filesFrom n ps).map (·.1)).Nodup
  | _, [], _ => List.nodup_nil
  | n, p :: ps, h => by
    rw [List.length_cons] at h
    rw [filesFrom, List.map_cons, List.nodup_cons]
    refine ⟨fun hm => ?_, filesFrom_nodup (n + 1) ps (by omega)⟩
    obtain ⟨f, hf, e⟩ := List.mem_map.1 hm
    obtain ⟨i, h1, h2, h3⟩ := filesFrom_names _ _ f hf
    have := chunkName_inj (a := i) (b := n) (by omega) (by omega) (h3.symm.trans e)
    omega

theorem decimalAux_short : ∀ (k fuel n : Nat), n < 10 ^ (k + 1) → (decimalAux fuel n).length ≤ k + 1
  | _, 0, _, _ => by simp [decimalAux]
  | 0, fuel + 1, n, h => by
    have h : n < 10 := by simpa using h
    simp [decimalAux, h]
  | k + 1, fuel + 1, n, h => by
    unfold decimalAux
    split
    · simp
    · rw [List.length_append, List.length_singleton]
      have := decimalAux_short k fuel (n / 10) (by rw [Nat.pow_succ] at h; omega)
      omega

/-- Digits of the same number are ordered as their values. -/
theorem blt_digits : ∀ (n : Nat) (a b : Bytes), a.length = n → b.length = n → (∀ d ∈ a, 48 ≤ d.toNat ∧ d.toNat ≤ 57) →
    (∀ d ∈ b, 48 ≤ d.toNat ∧ d.toNat ≤ 57) → decVal a < decVal b → Bytes.blt a b = true
  | 0, a, b, ha, hb, _, _, h => by
    rw [List.length_eq_zero_iff.1 ha, List.length_eq_zero_iff.1 hb] at h
    exact absurd h (Nat.lt_irrefl _)
  | n + 1, a, b, ha, hb, da, db, h => by
    obtain ⟨a', x, rfl⟩ : ∃ a' x, a = a' ++ [x] := by
      rcases List.eq_nil_or_concat a with rfl | ⟨l, x, e⟩
      · simp at ha
      · exact ⟨l, x, by simpa using e⟩
    obtain ⟨b', y, rfl⟩ : ∃ b' y, b = b' ++ [y] := by
      rcases List.eq_nil_or_concat b with rfl | ⟨l, y, e⟩
      · simp at hb
      · exact ⟨l, y, by simpa using e⟩
    rw [List.length_append, List.length_singleton] at ha hb
    have ha : a'.length = n := by omega
    have hb : b'.length = n := by omega
    have da' : ∀ d ∈ a', 48 ≤ d.toNat ∧ d.toNat ≤ 57 := fun d hd => da d (List.mem_append_left _ hd)
    have db' : ∀ d ∈ b', 48 ≤ d.toNat ∧ d.toNat ≤ 57 := fun d hd => db d (List.mem_append_left _ hd)
    have hx := da x (by simp)
    have hy := db y (by simp)
    rw [decVal_snoc, decVal_snoc] at h
    rw [blt_snoc (ha.trans hb.symm)]
    rcases Bytes.blt_tri a' b' with g | g | g
    · exact .inl g
    · subst g
      exact .inr ⟨rfl, by omega⟩
    · by_cases hv : decVal a' < decVal b'
      · exact .inl (blt_digits n a' b' ha hb da' db' hv)
      · exfalso
        by_cases he : decVal b' < decVal a'
        · omega
        · exact eq_of_val n a' b' ha hb da' db' (by omega) |> fun e => by
            rw [e, Bytes.blt_irrefl] at g
            cases g
where
  eq_of_val : ∀ (n : Nat) (a b : Bytes), a.length = n → b.length = n → (∀ d ∈ a, 48 ≤ d.toNat ∧ d.toNat ≤ 57) →
      (∀ d ∈ b, 48 ≤ d.toNat ∧ d.toNat ≤ 57) → decVal a = decVal b → a = b
    | 0, a, b, ha, hb, _, _, _ => by rw [List.length_eq_zero_iff.1 ha, List.length_eq_zero_iff.1 hb]
    | n + 1, a, b, ha, hb, da, db, h => by
      obtain ⟨a', x, rfl⟩ : ∃ a' x, a = a' ++ [x] := by
        rcases List.eq_nil_or_concat a with rfl | ⟨l, x, e⟩
        · simp at ha
        · exact ⟨l, x, by simpa using e⟩
      obtain ⟨b', y, rfl⟩ : ∃ b' y, b = b' ++ [y] := by
        rcases List.eq_nil_or_concat b with rfl | ⟨l, y, e⟩
        · simp at hb
        · exact ⟨l, y, by simpa using e⟩
      rw [List.length_append, List.length_singleton] at ha hb
      have hx := da x (by simp)
      have hy := db y (by simp)
      rw [decVal_snoc, decVal_snoc] at h
      rw [eq_of_val n a' b' (by omega) (by omega) (fun d hd => da d (List.mem_append_left _ hd))
        (fun d hd => db d (List.mem_append_left _ hd)) (by omega), show x = y from UInt8.toNat_inj.1 (by omega)]

theorem chunkName_lt {a b : Nat} (hb : b < 10000) (h : a < b) : chunkName a ≺ chunkName b := by
  have len : ∀ n, n < 10000 → (List.replicate (4 - (decimal n).length) 48 ++ decimal n : Bytes).length = 4 := by
    intro n hn
    have := decimalAux_short 3 19 n hn
    rw [List.length_append, List.length_replicate]
    unfold decimal
    omega
  have dig : ∀ n, n < 10000 → ∀ d ∈ (List.replicate (4 - (decimal n).length) 48 ++ decimal n : Bytes), 48 ≤ d.toNat ∧ d.toNat ≤ 57 := by
    intro n hn d hd
    rcases List.mem_append.1 hd with hd | hd
    · rw [(List.mem_replicate.1 hd).2]; decide
    · exact ((decimal_iff (t := decimal n) (n := n) (by omega)).1 rfl).digits d hd
  have key := blt_digits 4 _ _ (len a (by omega)) (len b hb) (dig a (by omega)) (dig b hb) (by
    rw [decVal_zeros, decVal_zeros]
    have e1 := decVal_decimalAux 19 a (by omega)
    have e2 := decVal_decimalAux 19 b (by omega)
    unfold decimal
    omega)
  show Bytes.blt (chunkName a) (chunkName b) = true
  unfold chunkName
  refine Bytes.blt_append_of_blt ?_ ?_ _ _
  · have h1 := len a (by omega)
    have h2 := len b hb
    simp only [List.length_append] at h1 h2 ⊢
    omega
  · rw [Bytes.blt_append_left]
    exact key

theorem filesFrom_sorted : ∀ (n : Nat) (ps : List Bytes), n + ps.length ≤ 10000 →
    (filesFrom n ps).Pairwise fun f g => f.1 ≺ g.1
  | _, [], _ => List.Pairwise.nil
  | n, p :: ps, h => by
    rw [List.length_cons] at h
    refine List.pairwise_cons.2 ⟨fun f hf => ?_, filesFrom_sorted (n + 1) ps (by omega)⟩
    obtain ⟨i, h1, h2, h3⟩ := filesFrom_names _ _ f hf
    rw [h3]
    exact chunkName_lt (by omega) (by omega)

theorem sorted_listing {fs : List (Bytes × Bytes)} {ps : List Bytes} (hl : ps.length < 10000) (hp : fs.Perm (chunkFiles ps))
    (hs : fs.Pairwise fun f g => f.1 ≺ g.1) : fs = chunkFiles ps := by
  refine List.Perm.eq_of_pairwise (le := fun f g => f.1 ≺ g.1) ?_ hs (filesFrom_sorted 1 ps (by omega)) hp
  intro a b _ _ h1 h2
  have := Bytes.blt_trans h1 h2
  rw [Bytes.blt_irrefl] at this
  cases this

/-! ### Clean-up -/

theorem hasInfix_iff {p : Bytes} : ∀ {s : Bytes}, hasInfix p s = true → ∃ a b, s = a ++ (p ++ b)
  | [], h => by
    obtain ⟨b, hb⟩ := List.isPrefixOf_iff_prefix.1 h
    exact ⟨[], b, hb.symm⟩
  | c :: s, h => by
    simp only [hasInfix, Bool.or_eq_true] at h
    rcases h with h | h
    · obtain ⟨b, hb⟩ := List.isPrefixOf_iff_prefix.1 h
      exact ⟨[], b, hb.symm⟩
    · obtain ⟨a, b, rfl⟩ := hasInfix_iff h
      exact ⟨c :: a, b, rfl⟩

theorem slash_split : ∀ (a : Bytes), 47 ∉ a ∨ ∃ a1 a2, 47 ∉ a1 ∧ a = a1 ++ 47 :: a2
  | [] => Or.inl (by simp)
  | c :: a => by
    by_cases hc : c = 47
    · exact Or.inr ⟨[], a, by simp, by simp [hc]⟩
    · rcases slash_split a with h | ⟨a1, a2, h1, rfl⟩
      · exact Or.inl (by simp [h, Ne.symm hc])
      · exact Or.inr ⟨c :: a1, a2, by simp [h1, Ne.symm hc], rfl⟩

/-- A path of two slashes in one of three, where it can only be at the beginning. -/
theorem infix_path {n d x n' d' s r a b : Bytes} (hn : 47 ∉ n) (hd : 47 ∉ d) (hn' : 47 ∉ n') (hd' : 47 ∉ d') (hs : 47 ∉ s)
    (hr : 47 ∉ r) (hne : d ≠ s) (hnn : n = n') (e : n' ++ 47 :: (d' ++ 47 :: (s ++ 47 :: r)) = a ++ ((n ++ 47 :: (d ++ 47 :: x)) ++ b)) :
    d' = d ∧ s ++ 47 :: r = x ++ b := by
  subst hnn
  have assoc : ∀ a : Bytes, a ++ ((n ++ 47 :: (d ++ 47 :: x)) ++ b) = (a ++ n) ++ 47 :: (d ++ 47 :: (x ++ b)) := by simp
  rcases slash_split a with ha | ⟨a1, a2, ha1, rfl⟩
  · rw [assoc] at e
    obtain ⟨_, e⟩ := split_slash hn (by simp [ha, hn]) e
    obtain ⟨e1, e⟩ := split_slash hd' hd e
    exact ⟨e1, e⟩
  · exfalso
    rw [List.append_assoc, List.cons_append] at e
    obtain ⟨_, e⟩ := split_slash hn ha1 e
    rcases slash_split a2 with ha | ⟨a3, a4, ha3, rfl⟩
    · rw [assoc] at e
      obtain ⟨_, e⟩ := split_slash hd' (by simp [ha, hn]) e
      obtain ⟨e1, _⟩ := split_slash hs hd e
      exact hne e1.symm
    · rw [List.append_assoc, List.cons_append] at e
      obtain ⟨_, e⟩ := split_slash hd' ha3 e
      have := congrArg (List.count 47) e
      simp only [List.count_append, List.count_cons, beq_self_eq_true, if_true, List.count_eq_zero_of_not_mem hs,
        List.count_eq_zero_of_not_mem hr] at this
      omega

theorem infix_base {net : Bytes} {u v : Upload} {name : Bytes} (hn : 47 ∉ net) (h1 : u.shard < 2 ^ 32) (h2 : v.shard < 2 ^ 32)
    (h3 : 47 ∉ u.stamp) (h4 : 47 ∉ v.stamp) (hr : 47 ∉ name) (hl : u.stamp.length = v.stamp.length)
    (h : hasInfix (u.base net) (v.key net name) = true) : u.shard = v.shard ∧ u.stamp = v.stamp := by
  obtain ⟨a, b, e⟩ := hasInfix_iff h
  rw [key_eq, show u.base net = net ++ 47 :: (decimal u.shard ++ 47 :: snapName u) by simp [Upload.base, dir, snapName]] at e
  have hne : decimal u.shard ≠ snapName v := by
    intro e
    exact ((decimal_iff (t := decimal u.shard) (n := u.shard) (by omega)).1 rfl).not_mem (c := 115) (by decide) (by rw [e]; simp [snapName])
  obtain ⟨e1, e2⟩ := infix_path hn (decimal_no_slash h1) hn (decimal_no_slash h2) (snapName_no_slash h4) hr hne rfl e
  refine ⟨decimal_inj (by omega) (by omega) e1.symm, ?_⟩
  have hp : snapName u <+: snapName v := prefix_of_slash (snapName_no_slash h3) ⟨b, e2.symm⟩
  have e3 := hp.eq_of_length (by simp [snapName, hl])
  unfold snapName at e3
  rw [List.append_assoc, List.append_assoc] at e3
  exact List.append_cancel_right (List.append_cancel_left e3)

theorem infix_meta {net : Bytes} {v : Upload} {name : Bytes} {shard : Nat} (hn : 47 ∉ net) (h1 : shard < 2 ^ 32) (h2 : v.shard < 2 ^ 32)
    (h4 : 47 ∉ v.stamp) (hr : 47 ∉ name) : hasInfix (metaPath net shard) (v.key net name) = false := by
  cases h : hasInfix (metaPath net shard) (v.key net name) with
  | false => rfl
  | true =>
    exfalso
    obtain ⟨a, b, e⟩ := hasInfix_iff h
    rw [key_eq, meta_eq] at e
    have hne : decimal shard ≠ snapName v := by
      intro e
      exact ((decimal_iff (t := decimal shard) (n := shard) (by omega)).1 rfl).not_mem (c := 115) (by decide) (by rw [e]; simp [snapName])
    obtain ⟨_, e2⟩ := infix_path hn (decimal_no_slash h1) hn (decimal_no_slash h2) (snapName_no_slash h4) hr hne rfl e
    simp [snapName, latestName] at e2

/-- A complete upload, with all keys listed. -/
theorem cleared {net : Bytes} {s : Bucket} {u v : Upload} {n : Nat} {name : Bytes} (hn : 47 ∉ net)
    (h1 : u.shard < 2 ^ 32) (h3 : 47 ∉ u.stamp) (h4 : 47 ∉ v.stamp) (hr : 47 ∉ name) (hnd : (u.files.map (·.1)).Nodup)
    (hs : v.shard = u.shard) (hne : v.stamp ≠ u.stamp) (hl : u.stamp.length = v.stamp.length)
    (hk : u.listed (v.key net name) = true) (hc : u.files.length + 1 < n) :
    (((u.acts net).take n).foldl Act.run s) (v.key net name) = none := by
  have h5 := holds_new (s := s) (n := u.files.length + 1) hn h1 h3 hnd (by omega)
  have e : ((u.acts net).take n) = (u.acts net).take (u.files.length + 1) ++ [.clear net u.shard u.listed] := by
    unfold Upload.acts
    rw [List.take_append, List.take_append, List.length_map, List.take_of_length_le (i := n) (by simp; omega),
      List.take_of_length_le (i := u.files.length + 1) (by simp)]
    obtain ⟨k, rfl⟩ : ∃ k, n = u.files.length + 2 + k := ⟨n - u.files.length - 2, by omega⟩
    rw [show u.files.length + 2 + k - u.files.length = k + 2 by omega, show u.files.length + 1 - u.files.length = 1 by omega]
    simp
  rw [e, List.foldl_append]
  rw [List.foldl_cons, List.foldl_nil]
  simp only [Act.run, h5.1]
  rw [if_pos]
  have hp : (dir net u.shard).isPrefixOf (v.key net name) = true := by
    rw [List.isPrefixOf_iff_prefix, key_eq, hs]
    exact ⟨47 :: (snapName v ++ 47 :: name), by simp [dir]⟩
  have hb : hasInfix (u.base net) (v.key net name) = false := by
    cases hh : hasInfix (u.base net) (v.key net name) with
    | false => rfl
    | true => exact absurd (infix_base hn h1 (hs ▸ h1) h3 h4 hr hl hh).2.symm hne
  simp [hp, hk, hb, infix_meta hn h1 (hs ▸ h1) h4 hr]

end Snap
end Verif
