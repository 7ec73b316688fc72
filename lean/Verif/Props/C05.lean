import Verif.Lemmas.KV
/-!
# C05: uncommitted writes are read as if committed and vanish on abort
-/
namespace Verif
variable {V : Type}

/-- A staged write. -/
inductive Write (V : Type) where
  | put (k : Bytes) (v : V)
  | delete (k : Bytes)

/-- Stage a write in a batch. -/
def Write.stage (t : Txn V) : Write V → Txn V
  | .put k v => t.stagePut k v
  | .delete k => t.stageDel k

/-- Specification: apply a write directly to a key/value function. -/
def Write.applyTo (f : Bytes → Option V) : Write V → Bytes → Option V
  | .put k v => fun j => if j = k then some v else f j
  | .delete k => fun j => if j = k then none else f j

/-- **C05, read-your-writes.** After staging any sequence of puts and deletes, reading through the
batch gives what reading the database after committing gives, and both equal applying the writes one
by one. -/
theorem C05_staged_read_eq_committed (db : Db V) (ws : List (Write V)) (k : Bytes) :
    getFromDbOrTxn db (ws.foldl Write.stage OMap.empty) k
        = (db.commit (ws.foldl Write.stage OMap.empty)).get k ∧
      getFromDbOrTxn db (ws.foldl Write.stage OMap.empty) k = (ws.foldl Write.applyTo db.get) k := by
  refine ⟨(Db.get_commit db _ k).symm, ?_⟩
  have key : ∀ (ws : List (Write V)) (t : Txn V),
      getFromDbOrTxn db (ws.foldl Write.stage t)
        = ws.foldl Write.applyTo (getFromDbOrTxn db t) := by
    intro ws
    induction ws with
    | nil => intro t; rfl
    | cons w ws ih =>
      intro t
      rw [List.foldl_cons, List.foldl_cons, ih]
      congr 1
      funext j
      cases w with
      | put k v => exact getFromDbOrTxn_stagePut db t k j v
      | delete k => exact getFromDbOrTxn_stageDel db t k j
  rw [key]
  rfl

/-- The committed content depends only on the staged writes' net effect: for any batch, committing
gives exactly the overlay of the batch on the database. -/
theorem C05_commit_overlay (db : Db V) (t : Txn V) (k : Bytes) :
    (db.commit t).get k = match t.get k with | some v => v | none => db.get k :=
  Db.get_commit db t k

/-- **C05, abort.** With an empty batch every read is the database's: dropping a batch restores all
reads, since staging never changes the database value itself. -/
theorem C05_abort (db : Db V) (k : Bytes) : getFromDbOrTxn db OMap.empty k = db.get k := rfl

/-- Committing an empty batch changes nothing. -/
theorem C05_empty_commit (db : Db V) : db.commit OMap.empty = db := rfl

/-- **C05, merging batches.** Merging one batch into another and committing equals committing them one
after the other. -/
theorem C05_merge_commit (db : Db V) (t o : Txn V) : db.commit (t.merge o) = (db.commit t).commit o := by
  apply OMap.ext
  intro k
  rw [Db.get_commit, Db.get_commit]
  unfold getFromDbOrTxn
  rw [Txn.get_merge, Db.get_commit]
  cases o.get k <;> rfl

/-- Merging batches is associative. -/
theorem C05_merge_assoc (a b c : Txn V) : (a.merge b).merge c = a.merge (b.merge c) := by
  apply OMap.ext
  intro k
  rw [Txn.get_merge, Txn.get_merge, Txn.get_merge, Txn.get_merge]
  cases c.get k <;> cases b.get k <;> rfl

/-- Two databases that answer all point reads alike are the same database, so iteration agrees too. -/
theorem C05_reads_determine_db (a b : Db V) (h : ∀ k, a.get k = b.get k) : a = b := OMap.ext h

/-- Non-vacuity: put, overwrite and delete of the same keys. -/
example : let db : Db Nat := OMap.empty.put [1] 5
    let ws : List (Write Nat) := [.put [1] 6, .delete [1], .put [2] 7, .put [2] 8]
    getFromDbOrTxn db (ws.foldl Write.stage OMap.empty) [1] = none ∧
    getFromDbOrTxn db (ws.foldl Write.stage OMap.empty) [2] = some 8 ∧ db.get [1] = some 5 := by
  refine ⟨rfl, rfl, rfl⟩

end Verif
