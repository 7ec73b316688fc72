import Verif.Lemmas.Ingest
/-! C81: reading the events of a chain. -/
namespace Verif
open Ingest

/-- **C81.** Whatever the chain, the provider, the administrator and crashes do, no log of a watched contract below
the recorded block is passed over: each was handed to the mempool or its processing error was reported.  (Reading
resumes at the recorded block itself.)  On a streamed chain the provider's filters must deliver old logs too. -/
theorem C81_nothing_passed_over (cfg : Config) (hcfg : cfg.polled = false → cfg.replays = true) (chain : ChainView)
    (hchain : ChainOK chain) (ops : List Op) (hops : GrowingRun cfg { chain := chain } ops) (l : Log)
    (hl : l ∈ (Node.run cfg { chain := chain } ops).chain.logs) (hs : InScope cfg l)
    (hb : l.block < (Node.run cfg { chain := chain } ops).stored) :
    l ∈ (Node.run cfg { chain := chain } ops).handed ∨ l ∈ (Node.run cfg { chain := chain } ops).failed :=
  (good_run hcfg ops (good_new hchain) hops).base.stored l hl hs hb

/-- **C81.** Nothing is made up: what was handed over is a log of a watched contract. -/
theorem C81_only_logs (cfg : Config) (hcfg : cfg.polled = false → cfg.replays = true) (chain : ChainView)
    (hchain : ChainOK chain) (ops : List Op) (hops : GrowingRun cfg { chain := chain } ops) (l : Log)
    (hl : l ∈ (Node.run cfg { chain := chain } ops).handed) :
    l ∈ (Node.run cfg { chain := chain } ops).chain.logs ∧ l.contract ∈ cfg.contracts :=
  (good_run hcfg ops (good_new hchain) hops).base.honest l (.inl hl)

/-- **C81.** Catching up: after any history, a restarted node that is left alone hands over every log in scope
whose processing had not failed before.  A polled chain without a configured start must not have a stop block. -/
theorem C81_catches_up (cfg : Config) (hcfg : cfg.polled = false → cfg.replays = true)
    (hlive : cfg.start = none → cfg.polled = true → cfg.stop = none) (chain : ChainView)
    (hchain : ChainOK chain) (ops : List Op) (hops : GrowingRun cfg { chain := chain } ops) :
    let s := Node.run cfg { chain := chain } ops
    ∃ n, ∀ l ∈ s.chain.logs, InScope cfg l →
      l ∈ (s.run cfg (.restart :: List.replicate n (.step true))).handed ∨ l ∈ s.failed := by
  intro s
  have hg := good_run hcfg ops (good_new hchain) hops
  have hk : Keeps cfg s.chain s.failed (s.exec cfg .restart) :=
    ⟨rfl, rfl, good_exec hcfg hg .restart trivial⟩
  obtain ⟨n, hk', hn⟩ := catches_up hcfg hlive hk rfl
  refine ⟨n, fun l hl hs => ?_⟩
  rcases hn l hl hs with h | h
  · exact .inl h
  · rw [hk'.failed] at h; exact .inr h

/-! ### Non-vacuity -/

def log81 (b c : Nat) : Log := ⟨b, c, 0⟩
def chain81 : ChainView := ⟨2500, [log81 5 1, log81 5 2, log81 1007 1, log81 2400 2]⟩
def stream81 : Config := { first := 3, start := some 4, stop := none, contracts := [1, 2], polled := false, replays := true }
/-- The process stops in the historical sync; the chain grows while it goes on. -/
def ops81 : List Op :=
  .restart :: List.replicate 9 (.step true) ++ [.restart, .step true, .grow 2600 [log81 2550 1, log81 2550 2, log81 2600 3]] ++
    List.replicate 40 (.step true)

theorem chainOK81 : ChainOK chain81 := ⟨by decide, by decide⟩

example : GrowingRun stream81 { chain := chain81 } ops81 := by
  have hq : ∀ (n : Nat) (s : Node) (rest : List Op), (∀ s, GrowingRun stream81 s rest) →
      GrowingRun stream81 s (List.replicate n (.step true) ++ rest) := by
    intro n
    induction n with
    | zero => intro s rest h; exact h s
    | succ n ih => intro s rest h; exact ⟨trivial, ih _ rest h⟩
  have hgrow : Grows chain81 2600 [log81 2550 1, log81 2550 2, log81 2600 3] := ⟨by decide, by decide, by decide⟩
  exact ⟨trivial, trivial, trivial, trivial, trivial, trivial, trivial, trivial, trivial, trivial, trivial, trivial,
    hgrow, by
      have := hq 40 ((Node.run stream81 { chain := chain81 } (.restart :: List.replicate 9 (.step true) ++
        [.restart, .step true, .grow 2600 [log81 2550 1, log81 2550 2, log81 2600 3]]))) [] (fun _ => trivial)
      rw [List.append_nil] at this
      exact this⟩

example : (Node.run stream81 { chain := chain81 } ops81).stored = 2550 ∧
    (Node.run stream81 { chain := chain81 } ops81).handed = [log81 5 1, log81 5 2, log81 1007 1, log81 2400 2,
      log81 2550 1, log81 2550 2] := by decide +kernel

/-! ### Where the assumptions matter -/

/-- The same node with a provider whose filters only deliver logs of blocks after their creation. -/
def forward81 : Config := { stream81 with replays := false }

/-- Logs of blocks that appear during the historical sync are then lost, also for later starts: the logs of block
2550 come too late for the sync and too early for the filter, and a later log is recorded. -/
theorem C81_gap_between_sync_and_stream :
    let s := Node.run forward81 { chain := chain81 } (ops81 ++ [.grow 2700 [log81 2650 1]] ++ List.replicate 10 (.step true) ++
      .restart :: List.replicate 40 (.step true))
    log81 2550 1 ∈ s.chain.logs ∧ s.stored ≥ 2650 ∧ log81 2550 1 ∉ s.handed ∧ log81 2550 1 ∉ s.failed := by
  decide +kernel

/-- A log that could not be processed once, for instance because the block's time could not be fetched, is not
tried again. -/
theorem C81_failed_log_is_not_retried :
    let s := Node.run stream81 { chain := chain81 } (.restart :: [.step true, .step true, .step false] ++
      List.replicate 60 (.step true) ++ [.grow 2600 [log81 2550 1]] ++ List.replicate 20 (.step true) ++
      .restart :: List.replicate 60 (.step true))
    s.failed = [log81 5 1] ∧ log81 5 1 ∉ s.handed ∧ s.stored = 2600 := by decide +kernel

/-- An administrator can have it read again. -/
example :
    let s := Node.run stream81 { chain := chain81 } (.restart :: [.step true, .step true, .step false] ++
      List.replicate 60 (.step true) ++ [.retryRange 1 10 (fun _ => true)])
    log81 5 1 ∈ s.handed := by decide +kernel

/-- A polled chain with two contracts and a stop block that has been reached. -/
def poll81 : Config := { first := 1, start := none, stop := some 5, contracts := [1, 2], polled := true, replays := false }
def pollChain81 : ChainView := ⟨10, [log81 3 2]⟩

/-- The poll of the first contract then asks for an empty range for ever: the second contract is never read, and
the interval, requests of the administrator and the record of the block are never reached. -/
theorem C81_stop_block_starves_polling (n : Nat) :
    let s := Node.run poll81 { chain := pollChain81 } (.restart :: List.replicate n (.step true))
    log81 3 2 ∈ s.chain.logs ∧ InScope poll81 (log81 3 2) ∧ s.handed = [] ∧ s.failed = [] ∧ s.stored = 0 := by
  let a : Node := { chain := pollChain81, pc := .poll 1 [] [(1, 6), (2, 1)] (some 10) }
  let b : Node := { chain := pollChain81, pc := .pollLogs 1 [] [(1, 6), (2, 1)] 10 5 [] }
  have hab : ∀ n, Node.run poll81 a (List.replicate n (.step true)) = a ∨ Node.run poll81 a (List.replicate n (.step true)) = b := by
    intro n
    induction n with
    | zero => exact .inl rfl
    | succ n ih =>
      rw [List.replicate_succ']
      unfold Node.run at ih ⊢
      rw [List.foldl_append]
      rcases ih with h | h
      · rw [h]; exact .inr rfl
      · rw [h]; exact .inl rfl
  have hs : InScope poll81 (log81 3 2) := ⟨by decide, by decide, by intro stop h; cases h; decide⟩
  have h6 : Node.run poll81 { chain := pollChain81 } (.restart :: List.replicate 6 (.step true)) = a := rfl
  rcases Nat.lt_or_ge n 6 with h | h
  · have : n = 0 ∨ n = 1 ∨ n = 2 ∨ n = 3 ∨ n = 4 ∨ n = 5 := by omega
    rcases this with rfl | rfl | rfl | rfl | rfl | rfl <;> exact ⟨by decide, hs, rfl, rfl, rfl⟩
  · obtain ⟨m, rfl⟩ : ∃ m, n = 6 + m := ⟨n - 6, by omega⟩
    have e : Node.run poll81 { chain := pollChain81 } (.restart :: List.replicate (6 + m) (.step true)) =
        Node.run poll81 a (List.replicate m (.step true)) := by
      rw [← h6, ← List.replicate_append_replicate, ← List.cons_append]
      unfold Node.run
      rw [List.foldl_append]
    simp only [e]
    rcases hab m with h | h <;> rw [h] <;> exact ⟨by decide, hs, rfl, rfl, rfl⟩

end Verif
