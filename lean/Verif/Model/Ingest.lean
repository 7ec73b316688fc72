/-!
Reading a chain: `Subscriber` of /repo/src/connectors/onchain_events/mod.rs (below: the file), with its stored
block number in /repo/src/storage/store/node_local_state.rs:134-155.

The provider is a growing list of logs.  It answers consistently and blocks are never replaced.  What a log
decodes to (`process_log`, the file 879-1206) is left open: handing a log to the mempool either works or fails,
as the environment decides.  The machine below makes one request, one hand-over or one database write per step,
so that the process may stop between any two of them.
-/
namespace Verif
namespace Ingest

/-- A log of a watched or other contract. -/
structure Log where
  block : Nat
  contract : Nat
  id : Nat
  deriving DecidableEq, Repr

/-- What the provider knows: the number of the latest block and the logs up to it, in order. -/
structure ChainView where
  latest : Nat
  logs : List Log

/-- The configuration of a subscriber, the file 141-175, 506-533 and 543-590.  `polled` is the chain: on Base all
contracts are polled, on Optimism all are streamed (the file 646-685, 1422-1437).  `start` has been raised to
`first` already (the file 560-562). -/
structure Config where
  first : Nat
  start : Option Nat
  stop : Option Nat
  contracts : List Nat
  polled : Bool
  /-- whether a filter of the provider delivers the logs before its creation too (`watch_logs`, the file 1455);
  providers that follow the usual meaning of `eth_getFilterChanges` do not -/
  replays : Bool

/-- `get_logs` of the provider for one contract, the file 1208-1209 with the filters of 1279-1282 and 1344-1347. -/
def ChainView.between (c : ChainView) (contract lo hi : Nat) : List Log :=
  c.logs.filter (fun l => l.contract = contract && decide (lo ≤ l.block) && decide (l.block ≤ hi))

/-- The window of the historical sync, the file 1273. -/
def histWindow : Nat := 1000
/-- `BASE_BLOCK_PAGE_SIZE`, the file 138. -/
def pollWindow : Nat := 8000

/-- Where a subscriber is. -/
inductive Pc where
  /-- not running -/
  | off
  /-- `run`, about to ask for the latest block, the file 1660 -/
  | boot
  /-- historical sync from `s` to `e`, about to ask for the logs of the first of `todo` -/
  | hist (s e : Nat) (todo : List Nat)
  /-- historical sync, `logs` of the first of `todo` are to be handed over -/
  | histLogs (s e : Nat) (todo : List Nat) (logs : List Log)
  /-- about to start the live sync at a block, the file 1708 -/
  | subscribe (b : Nat)
  /-- streaming; the provider has gone through `seen` logs -/
  | stream (b seen : Nat)
  /-- streaming; a log of block `n` has been handed over and its number is to be recorded -/
  | streamRecord (b seen n : Nat)
  /-- polling, waiting for the interval; the contracts and their next blocks -/
  | idle (b : Nat) (cs : List (Nat × Nat))
  /-- polling; `cur` is the answer for the latest block, for the first of `rest` -/
  | poll (b : Nat) (done rest : List (Nat × Nat)) (cur : Option Nat)
  /-- polling; `logs` of the first of `rest` up to block `hi` are to be handed over -/
  | pollLogs (b : Nat) (done rest : List (Nat × Nat)) (cur hi : Nat) (logs : List Log)
  deriving DecidableEq, Repr

/-- A node with a subscriber.  `stored` is the block number in the database (0 when there is none,
`latest_block_in_db`, the file 1300-1315).  `handed` is what was given to the mempool, `failed` what could not be
processed and was only logged (the file 1213-1221, 1543-1548). -/
structure Node where
  chain : ChainView
  stored : Nat := 0
  handed : List Log := []
  failed : List Log := []
  pc : Pc := .off

/-- `record_block_number`, the file 826-844: never decreases. -/
def Node.record (s : Node) (n : Nat) : Node := if n > s.stored then { s with stored := n } else s

/-- `process_log` and what is done with its result. -/
def Node.attempt (s : Node) (l : Log) (ok : Bool) : Node :=
  if ok then { s with handed := s.handed ++ [l] } else { s with failed := s.failed ++ [l] }

/-- The match on `start_block_number` in `run`, the file 1671-1680. -/
def bootPc (cfg : Config) (latest stored : Nat) : Pc :=
  match cfg.start with
  | none => .subscribe (max cfg.first stored)
  | some start => .hist (max stored start) (min latest (cfg.stop.getD latest)) cfg.contracts

/-- What follows the historical sync, the file 1689-1711. -/
def afterHist (cfg : Config) (e : Nat) : Pc :=
  match cfg.stop with
  | none => .subscribe e
  | some stop => if stop > e then .subscribe e else .off

/-- The end of an iteration of the historical sync, the file 1287-1298: the window is recorded, the next one
starts 1000 blocks later. -/
def Node.histNext (cfg : Config) (s : Node) (b e : Nat) : Node :=
  let s := s.record (min e (b + histWindow))
  if b + histWindow > e then { s with pc := afterHist cfg e }
  else { s with pc := .hist (b + histWindow) e cfg.contracts }

/-- The filter of the stream, the file 1445-1453. -/
def streamed (cfg : Config) (b : Nat) (l : Log) : Bool :=
  cfg.contracts.contains l.contract && decide (b ≤ l.block) &&
    (match cfg.stop with | none => true | some stop => decide (l.block ≤ stop))

/-- The upper end of a polled range, the file 1332-1338. -/
def pollTo (cfg : Config) (from_ cur : Nat) : Nat :=
  min (match cfg.stop with | some stop => min stop cur | none => cur) (from_ + pollWindow)

/-- The least next block, the file 1522: `iter().min()`. -/
def leastNext : List (Nat × Nat) → Option Nat
  | [] => none
  | (_, n) :: r => match leastNext r with
    | none => some n
    | some m => some (min n m)

/-- After the polls of one tick, the file 1516-1526. -/
def Node.recordLeast (s : Node) (cs : List (Nat × Nat)) : Node :=
  match leastNext cs with
  | none => s
  | some n => if n > 0 then s.record (n - 1) else s

/-- One step of the subscriber; requests are answered, and `ok` says whether a log can be processed. -/
def Node.step (cfg : Config) (s : Node) (ok : Bool) : Node :=
  match s.pc with
  | .off => s
  | .boot => { s with pc := bootPc cfg s.chain.latest s.stored }
  | .hist b e [] => s.histNext cfg b e
  | .hist b e (c :: todo) =>
    { s with pc := .histLogs b e (c :: todo) (s.chain.between c b (min e (b + histWindow))) }
  | .histLogs b e todo [] => { s with pc := .hist b e todo.tail }
  | .histLogs b e todo (l :: logs) => { s.attempt l ok with pc := .histLogs b e todo logs }
  | .subscribe b =>
    if cfg.polled then { s with pc := .idle b (cfg.contracts.map (fun c => (c, b))) }
    else { s with pc := .stream b (if cfg.replays then 0 else s.chain.logs.length) }
  | .stream b seen => match s.chain.logs[seen]? with
    | none => s
    | some l =>
      if streamed cfg b l then
        if ok then { s.attempt l true with pc := .streamRecord b (seen + 1) l.block }
        else { s.attempt l false with pc := .stream b (seen + 1) }
      else { s with pc := .stream b (seen + 1) }
  | .streamRecord b seen n => { s.record n with pc := .stream b seen }
  | .idle b cs => { s with pc := .poll b [] cs none }
  | .poll b done [] _ => { s.recordLeast done with pc := .idle b done }
  | .poll b done (c :: rest) none => { s with pc := .poll b done (c :: rest) (some s.chain.latest) }
  | .poll b done ((c, n) :: rest) (some cur) =>
    if n ≤ cur then
      { s with pc := .pollLogs b done ((c, n) :: rest) cur (pollTo cfg n cur) (s.chain.between c n (pollTo cfg n cur)) }
    else { s with pc := .poll b (done ++ [(c, n)]) rest none }
  | .pollLogs b done rest cur hi [] =>
    match rest with
    | [] => { s with pc := .poll b done [] none }
    | (c, _) :: rest => { s with pc := .poll b done ((c, hi + 1) :: rest) (some cur) }
  | .pollLogs b done rest cur hi (l :: logs) => { s.attempt l ok with pc := .pollLogs b done rest cur hi logs }

/-- The request of the next step fails, after its retries if it has any: `run` ends with an error (the file
1284-1285, 1377-1408, 1660), the live sync is started again (1708-1725), or the poll goes on with the next contract
(1508-1515).  Otherwise there is no request to fail. -/
def Node.requestFails (s : Node) : Node :=
  match s.pc with
  | .boot => { s with pc := .off }
  | .hist _ _ (_ :: _) => { s with pc := .off }
  | .poll b done (c :: rest) _ => { s with pc := .poll b (done ++ [c]) rest none }
  | _ => s

/-- The stream ends, the file 1535-1538 and 1714-1725: the live sync starts again at the same block. -/
def Node.streamEnds (s : Node) : Node :=
  match s.pc with
  | .stream b _ => { s with pc := .subscribe b }
  | _ => s

/-- `retry_block_range`, the file 1582-1604, asked for by the administrator while the live sync waits. -/
def Node.retryRange (cfg : Config) (s : Node) (lo hi : Nat) (ok : Log → Bool) : Node :=
  let go := (s.chain.logs.filter (fun l => cfg.contracts.contains l.contract && decide (lo ≤ l.block) &&
    decide (l.block ≤ hi))).foldl (fun s l => s.attempt l (ok l)) s
  match s.pc with
  | .stream _ _ => go
  | .idle _ _ => go
  | _ => s

/-- What can happen. -/
inductive Op where
  /-- the chain grows to block `latest` -/
  | grow (latest : Nat) (logs : List Log)
  | step (ok : Bool)
  | requestFails
  | streamEnds
  | retryRange (lo hi : Nat) (ok : Log → Bool)
  /-- the process stops and starts again -/
  | restart

/-- Run one of them. -/
def Node.exec (cfg : Config) (s : Node) : Op → Node
  | .grow latest logs => { s with chain := ⟨latest, s.chain.logs ++ logs⟩ }
  | .step ok => s.step cfg ok
  | .requestFails => s.requestFails
  | .streamEnds => s.streamEnds
  | .retryRange lo hi ok => s.retryRange cfg lo hi ok
  | .restart => { s with pc := .boot }

/-- Run a history. -/
def Node.run (cfg : Config) (s : Node) (ops : List Op) : Node := ops.foldl (Node.exec cfg) s

end Ingest
end Verif
