import Verif.Spec.Replay
/-! Crashes while a chunk is being committed. -/
namespace Verif.Spec
section
variable {D W E F : Type}

/-- Where a crash can fall: a commit makes two writes, each of which happens entirely or not at all. -/
inductive CrashPoint where
  | beforeWrites
  | betweenWrites
  | afterWrites
  deriving DecidableEq, Repr

/-- The node restarted after a crash: the disk as the crash left it, nothing in memory
(/repo/src/storage/store/engine.rs:2421-2481 for the writes, 278 for the memory of a new engine).
`none` if the commit panics first. -/
def restarted (ops : EngineOps D W E F) (H : Bytes → Bytes) (ver : Nat → EngineVersion) (env : NodeEnv)
    (st : EngineState D W E F) (c : EChunk F) : CrashPoint → Option (EngineState D W E F)
  | .beforeWrites => some { st with pending := none }
  | .betweenWrites => (commitFirst ops H ver env st c).map (fun s => { s with pending := none })
  | .afterWrites => (commit ops H ver env st c).map (fun s => { s with pending := none })

/-- What is on a node's disk. -/
def disk (st : EngineState D W E F) : D × Db BEvent × Db (EChunk F) := (st.d, st.ev, st.chunks)

/-- The numbers of the events increase. -/
def Ascending (es : List BEvent) : Prop := (es.filterMap BEvent.number).Pairwise (· < ·)

end
end Verif.Spec
