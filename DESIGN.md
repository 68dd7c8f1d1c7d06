# Formal model of CGraph in Lean 4 — design

This directory holds a machine-checked model of the C++ library CGraph (source: `/repo`, read as
text only) and proofs of the properties listed in `properties.jsonl`.

## 1. Layout

* `lean/Verif/Model/*.lean`  — executable definitions transcribed function by function from `/repo/src`.
  Every definition cites file and lines and says where it simplifies.
* `lean/Verif/Spec/*.lean`   — small specifications written without the model's helpers (abstract queues,
  recency lists, transitive closure, antichains, histories …).
* `lean/Verif/Lemmas/*.lean` — proofs of helper facts.
* `lean/Verif/Props/*.lean`  — the property theorems (named after the property id) together with an
  `example` for each theorem that meets its hypotheses in a non-trivial way.
* `MANIFEST.json` — property → theorem names and status. `seeded/LOG.jsonl` — wrong-program experiments.

## 2. Trusted base

* Lean's kernel and the axioms `propext`, `Classical.choice`, `Quot.sound` (checked during the build for each
  property theorem by `lean/Verif/Audit.lean`; listed in section 6).  No own axioms, no `sorry`, no
  `native_decide`/`bv_decide`.
* The transcription from C++ to Lean (done by reading; nothing is extracted automatically).
* Assumptions about the platform, used in every module that has threads:
  - sequentially consistent interleaving of the modelled micro-steps.  Accesses to plain (non-atomic)
    shared variables such as the engine's current status are modelled as atomic reads/writes; in C++ a
    racy access is undefined behaviour, which the model does not represent unless stated.
    Exceptions: C95 (happens-before of the dynamic engine's runs) and C100 (lock-free ring and spin lock
    with out-of-date reads, on the memory model of `Spec/WeakMem.lean`).
  - `std::mutex`, `std::condition_variable`, `std::future`, `std::thread` behave as the standard says.
    Spurious wake-ups are allowed (they only re-evaluate the predicate) unless stated.
  - memory allocation never fails; `CSize`/`CInt` counters do not overflow unless the module says that
    it models the wrap-around.
  - user code (element bodies, aspects, parameters, events) is an arbitrary oracle: any status, any
    exception, any answer, but it terminates and does not corrupt the library's memory.
* Not modelled at all: real time (only the order of events), CPU affinity and scheduling policy, echo
  output, Python bindings, URandom, Distance, allocator, Windows branches.  Section 7 lists the modelled files.

## 3. Technique per area

| Area | Model | Proof |
|---|---|---|
| Status | codes are `Int`, messages `String`; macros become functions | induction over sequences |
| Containers / queues | concrete representation (indices, arrays as functions, lists) | abstraction function + refinement of every step, induction over histories |
| Lock-free ring | two threads, one micro-step per memory access | inductive invariant over all interleavings |
| Thread pool | list of queues, busy set, arbitrary scheduler | multiset conservation invariant |
| Dependency graph | element = `Nat` (stands for the pointer), adjacency lists kept as in the code | invariants by induction over registration histories |
| Kahn (`getTopo`, static layers) | the same worklist loops with fuel = number of elements | order soundness + completeness against `Relation.TransGen` |
| Dynamic engine | transition system, one step per shared access, arbitrary number of workers, oracle results | inductive invariant (edge/tokens accounting), termination measure, concrete counter-traces for the negative results |
| Optimisers | same recursion over paths, matching algorithm | path/closure lemmas; Dilworth/König style argument for the maximum antichain |
| Element, groups | `fatProcessor` as an interpreter over an oracle, producing a trace of calls | trace theorems by induction |
| Managers, pipeline | state machines `step : State → Op → State × Out` | invariants, refinement to maps |
| Storage codec | byte lists | round trip by structural induction |

When the code violates a property as stated, we prove the negation on a concrete witness (theorem name
ends in `_violated`) and keep the strongest true statement (suffix `_partial`), and list it in
section 5.

## 4. Plan per property

Each line: what is modelled → how it is proved.

* **C01** Status accumulation keeps the first error — `CStatus` with `+=` → induction on the list; first error equals `List.find?`.
* **C02** Copying a status preserves it — copy constructor / assignment literally → negation by witness (equal codes drop the message), partial: codes always equal, messages equal when codes differ.
* **C03** LRU cache returns the latest value and evicts the least recently used key — list + map of the cache as in the code → refinement to a recency list truncated to capacity.
* **C04** Small vector and unique array behave like ordered sets — array with length/capacity → refinement to duplicate-free lists.
* **C05** Bounded message channel is a FIFO with the chosen overflow policy — head/tail/capacity ring over a slot function → refinement to a bounded FIFO, all three policies.
* **C06** A channel of size n can hold n messages — same model → negation for every n (holds n-1), and size-1 channel never delivers.
* **C07** Single-producer single-consumer lock-free ring never loses, duplicates or reorders — two program counters, micro-steps → inductive invariant, popped is a prefix of pushed.
* **C08** Work stealing queue conserves tasks — deque operations with lock outcome as oracle → conservation (permutation) and end discipline.
* **C09** Pool task queue is FIFO and try-pop failure loses nothing — queue with oracle for try_lock → FIFO refinement.
* **C10** Tasks committed with a priority start in priority order — heap ordered by address → negation: pop order depends on the addresses only; partial: conservation.
* **C11** Semaphore wait blocks until a signal — counter + waiting set → negation (fresh wait returns), plus what is guaranteed.
* **C12** Spin lock gives mutual exclusion — flag + per-thread program counter, any number of threads → inductive invariant.
* **C13** Every task given to the pool is routed to a queue some thread reads — `dispatch`/`execute` on integer indices → case analysis, exact routing.
* **C14** Work stealing reaches every other thread and never oneself — steal target list → arithmetic modulo n.
* **C15** A submitted task runs exactly once while the pool is alive — pool transition system (per-thread deques, shared queue, priority queue, running set) → conservation and progress invariants.
* **C16** A priority or long-time task is eventually served — same → negation for the default configuration; positive under an explicit condition.
* **C17** The pool never exceeds its maximum thread count — thread counters → invariant by induction over events.
* **C18** Idle secondary threads retire exactly after their ttl — ttl counter → arithmetic over observation sequences.
* **C19** Task group submission reports success only if all tasks finished in time — futures with completion times → list reasoning.
* **C20** Destroying the pool does not drop accepted tasks — destroy in the pool system → negation by trace; partial: already taken tasks are finished.
* **C21** Registered dependencies stay symmetric and acyclic-checkable — graph with dependence/run-before lists and counter → invariant over histories.
* **C22** A failed dependency registration has no effect — iteration with early return → negation by witness; partial for the checks made up front.
* **C23** Cycle detection is exact — Kahn loop of `getTopo` → equivalence with acyclicity of `TransGen`.
* **C24** Topology engine executes a topological order once — topo run over an oracle → order + prefix theorem.
* **C25** Static engine executes layer by layer — layer loop of the static engine → order + partition.
* **C26** Dynamic engine runs each element exactly once after its dependencies — dynamic engine transition system → invariant over all interleavings and repeated runs.
* **C27** Dynamic engine run terminates when no element fails — same → progress + decreasing measure.
* **C28** Dynamic engine: after a failure no dependent of the failed element starts — same with failing oracle → invariant.
* **C29** Dynamic engine: a failing run always returns — same → negation by a concrete trace (lost wake-up); partial: woken when notified while sleeping.
* **C30** Dynamic engine: nothing of a run is still executing after run returned — same → negation by trace; partial: successful runs leave only harmless notifiers.
* **C31** Serial and fully parallel special cases are recognised correctly — classification and chunking functions → list and arithmetic proofs.
* **C32** Trim keeps the ordering constraints — path based trim → reachability preservation.
* **C33** Trim removes every redundant dependency — path based trim → transitive reduction (or negation if false).
* **C34** Maximum parallelism is exact — closure + matching as in the code → equality with maximum antichain.
* **C35** Separation check is exact for flat pipelines — path search → equivalence with `TransGen`.
* **C36** A serialisable pipeline is a total order — shape conditions → chain theorem (or negation for disconnected shapes).
* **C37** Path enumeration is exact — DFS path collection → soundness, completeness, no duplicates.
* **C38** Performance report marks a slowest path — longest path fold → maximality.
* **C39** An element runs its body the configured number of times with bracketing aspects — `fatProcessor` interpreter with trace → induction over the loop.
* **C40** An exception thrown by user code never escapes an element — same with exceptions → all throw positions.
* **C41** Hold repeats an element until released — same, hold oracle → induction.
* **C42** Loop and timeout settings cannot conflict — configuration state machine → invariant.
* **C43** Aspects fire in registration order and can be withdrawn — aspect list → trace theorem.
* **C44** Cancelling a run stops all elements that have not started — state flag interleaved with element loop → invariant + negation for the window in process().
* **C45** Suspend followed by resume does not lose work — same → negation by trace (skipped elements); partial for elements in their body.
* **C46** Cluster runs its children in order until the first failure — cluster interpreter → list induction.
* **C47** Condition runs exactly the chosen child — condition → case analysis on integers.
* **C48** Multi-condition runs exactly the matching children — multi condition → list induction.
* **C49** Some-group finishes when the required number of children finished — some group counter protocol → interleaving invariant; negation for finished children.
* **C50** Group life cycle reaches every child once — group init/destroy → list induction.
* **C51** Parameter store behaves as a typed map — map model → refinement.
* **C52** Parameter reset visits every parameter with the run status — setup/reset folds → list induction.
* **C53** Topic messages are isolated and ordered — topic map of rings → refinement and frame.
* **C54** Published messages reach exactly the current subscribers — pub/sub maps → refinement.
* **C55** Detaching or dropping leaves no dangling connection — heap of channels with freed flags → negation by trace; partial without detach/drop.
* **C56** Stage barrier releases exactly in groups of the threshold — barrier counter + waiters → interleaving invariant.
* **C57** Stage barrier can be reused — same → deadlock trace; partial for separated rounds.
* **C58** Pipeline life cycle is guarded — pipeline state machine with oracle outcomes → invariant.
* **C59** process = init, n runs, destroy — process loop → induction.
* **C60** Event notification runs every requested execution — transition system of notifications, pool workers and the thread in `run`/`destroy` (`Model/Event`) → synchronous, once, wait-on-run and end of the waits proved for all schedules; wait-on-destroy proved for a shared pool, violated for an own pool (deleted before the wait); wait-on-run made when no run follows is not waited for by `destroy` (violated).
* **C61** Pipeline manager hands out each pipeline to one caller at a time — transition system of any number of callers over the two lists (`Model/PipeMgr`) → invariant by induction over schedules, for histories with distinct pipelines and no removal of a busy one; violated for removal of busy ones and duplicates; exceptions lose the pipeline.
* **C62** Save then load restores the values — the byte codec with sessions, placeholders and back-patching over an arbitrary type environment → the buffer of `getSize` bytes is filled exactly, and reading gives the value back (nested induction over values); negation for vectors of a class without fields.
* **C63** Any saved pipeline can be loaded again — the storage classes as values of the codec, `buildPipelineStorage`, the three passes of `loadElement` and the other loads, end to end through the bytes → partial: pipelines without parameters come back with all relations; negations: parameters (class name never saved), two configuration members, unregistered elements, saving a loaded pipeline, loop 0 with a timeout.
* **C64** A pipeline refuses dependencies that leave it — `getTopo` on a subset of the elements → negation by witness (cycle accepted); partial: refused when no successor is foreign.
* **C65** A run begun after a failed run behaves like a first run — the dynamic engine's transition system with several runs → negation by witness, for any number of later runs by induction; partial: when the failed run's work is over; for independent elements return in every state whatever is left over, by an invariant that counts what is still under way (`LInv`).
* **C66** A pipeline made serial completes its run on the caller's thread — `checkSerializable`, dag classification and the dynamic engine → negation by a stuck execution when bindings differ; partial: equal bindings.
* **C67** Analysis calls end and do not misreport cyclic pipelines — path enumeration with unbounded recursion as `none` → divergence theorem and two-cycle witness; partial: acyclic graphs.
* **C68** Batch submission to one thread is atomic — the lock held across pushes in the pool transition system → induction over the schedule between first and last push.
* **C69** Loop counts multiply along nested groups — tree interpreter → structural induction with exact counts.
* **C70** A some-group returns whatever the size of the thread pool — the same transition system, a child needs one worker for its task and one for its body → decreasing measure and progress with more workers than children; negation for all smaller pools.
* **C71** Parameter access records are exact — objects with a recorded list in the store model of C51 → equality with the first occurrences of the accesses in the history; negation for a repeated create.
* **C72** The keys of the parameters an element uses can be listed at any time — heap with freed cells and a set of pointers per element → exact condition for reading freed memory; partial while nothing used is removed.
* **C73** init and destroy of the parts pair up — exact call list of a successful `init`/`destroy`; failed ones as violations.
* **C74** never runs without engine or pool — invariant over histories of the interface; violated after a failed `destroy`.
* **C75** A stage registered twice — map of stages and their objects → first registration wins; negation for the second.
* **C76** A cut or extended storage file is handled — the reader on prefixes of the saved bytes → negation for every proper prefix (read outside of the buffer); partial: further bytes are ignored.
* **C77** A daemon's task — the timer thread, callers of stop and a clock as an interleaved system; the list of timed events as observation → every event is possible given the events before (invariant), from which no overlap, distances and quiet after stop follow; ranking for the end of stop; negations for a concurrent stop, the lost notification (for every interval) and deletion without destroy.
* **C78** Elements with a timeout, and fences — bodies in the pool, calls of elements and fences, reset of the repository as an interleaved system over any number of runs; observed events → invariant relating futures, states and unfinished bodies, claims attached to every event of the history; absence of races for separated fences; negations by executions.
* **C79** Levels order init and destroy — the sorted set as a search tree with arbitrary rebalancing, comparator reading the present levels; history of calls → invariant (in-order sequence sorted, permutation of the registered elements); negations for every pair of elements when a level is set late.
* **C80** Nested regions do not exhaust the pool — tree of groups, stack of elements per thread, queues with steal range, arbitrary interleaving → invariant (stacks, states, dependencies), decreasing measure, analysis of stuck states; negations by a family of pipelines for every pool size and steal range, with a trap invariant.
* **C81** Performance analysis leaves no trace — perf aspects as aspects with odd numbers over the element/group model, records as addresses → simulation between computations with and without perf aspects, closed forms of inject and recover, invariant over histories; negations for failing analyses, leaks and aspects added during an analysis.
* **C82** Singleton elements — one flag, one object, pipelines as interleaved threads, the test of the flag and the call being separate steps → invariant relating flag, object automaton and pipeline phase; negations for shared use, race, managers and positive codes.
* **C83** Mutable groups — heap of relations with visibility, loops, shapes and kept engine arrays; reshape as a list of calls → closed forms of the calls, simulation between two states of the same group, reduction to C23; negations for cycles after a ready run.
* **C84** Configuration frozen while initialised — trees of nodes, regions and other groups, with the flags each initialiser sets → mutual induction: the flags after a success are those of the placed elements; history theorem; negations for nodes in other groups and for a failed init.
* **C85** Every object deleted exactly once — heap of numbered objects, pipelines with repository and managers, every allocating and deleting call → counting invariant (deleted + held + lost = 1 per allocated object) over all legal histories; negations for failed registration, foreign registration, repeated remove.
* **C86** The dumped graph shows exactly the pipeline — the text character by character, and an independent lexer and parser for DOT → round trip: reading the text of any tree gives exactly its nodes, edges and clusters (mutual induction); negations for quotes, backslashes and mutable groups.
* **C87** Dependencies and groups order everything nested in them — the model of C80 and an observer that records starts and ends → invariant on states carried over to the log: every event is preceded by what must precede it; injection of executing nodes into threads.
* **C88** The separation check looks through groups — `climb`, `agree`, `getPatch`, `isSeparate`, `checkSeparate` on trees of groups; specification: intervals in which elements are executed, per kind of group → lemma about the point where two paths part; members of one level apart (C35) and intervals nested; completeness by construction of a schedule with three phases.
* **C89** A serial pipeline with groups completes on the caller's thread — `isSerializable` at every depth, the caller's part of a run (`seqRun`, `walk`, `proc`, `levelRun`, `exec`) with the outcome `lost` for what the empty pool would have to do; specification `InOrder` by kind of group → induction over depth with the chain of C38 per level; the converse by steering the conditions to the offending element.
* **C90** A failure anywhere in nested groups stops what depends on it and reaches the caller — threads with stacks of frames, one engine status per group, elements handed out one at a time (`FailSt.step`); specification `Inside`, `Needs`, `begunF` → invariants `FInv` (who owns what, why an engine failed) and `PInv` (who still has to hand out what, what lies below a frame) by induction over the schedule, measure for termination.
* **C91** Trimming nested groups — the loop of `trim` with its recursion into regions on the shared heap of elements (`Heap.nestTrim`); specification `WaitsFor`, `ThroughRegions` → induction over the depth; inside, induction over the elements of a level with the dependencies of all unvisited levels unchanged; levels are disjoint because groups form a tree.
* **C92** Passed parameters are private copies — memory, tables of pointers and the caller's pointer variables (`Passed.step`), undefined behaviour as an outcome; specification: a machine without memory in which holders keep values (`PSpec`) → simulation relation `Sim` (addresses of parameters are distinct, alive and not the caller's) for every operation.
* **C93** Distances are those of Euclidean space — the loops over lists of real numbers, reading behind the end and not-a-number as outcomes (`Distance.calculate`, `batch`, `normalize`); specification: Mathlib's `EuclideanSpace` with `dist`, `angle` and the norm → the loops equal the sums in Mathlib's definitions, by induction over the vectors. Rounding of floating point numbers is not modelled.
* **C94** Overlapping runs of one pipeline do not disturb each other — the dynamic engine with any number of callers (`Overlap.OvSt.step`), every task, thread and event marked with the run it belongs to → invariant: in a forest, for each run and each element, starts plus starts still to come (queue, threads, callers) are the ends of its dependency in that run; with acyclicity each element starts at most once, and exactly once when nothing is to come. The violations are concrete schedules, the one of liveness for every continuation.
* **C95** An element sees everything its dependencies wrote — `Spec/HappensBefore.lean` states sequenced-before, synchronises-with (release sequences, mutexes, tasks), happens-before and data races over a list of memory operations; `Visible.step` is the dynamic engine with the operations each step performs → invariant: what each thread, each atomic and each task in the queue has learned; a thread that releases an element has learned of the ends of all its dependencies through the counter. Races: without failures nothing is written to plain memory; after a failure nothing leads from the writing thread to the others.
* **C96** destroy waits for the pipeline's own work — `Lifetime.LSt.step` is the dynamic engine with `destroy` in its steps and a log of starts, ends, destructions and uses → invariant: starts in the log are ends plus bodies going on; once elements are destroyed nothing of the engine is left in the pool (own pool: joined; shared pool: hypothesis). Negation: from every state in which a thread of a shared pool is about to use the engine or execute an element the offending continuation is constructed.
* **C97** the number of threads can be changed from inside a task — `Coord.St.step` is create, release and the retiring loop of the monitor step by step for any number of threads → progress invariant (`Good`: only the holder of the mutex joins, what it joins was told to end and executes a task that never asks for the mutex) and a measure that every step decreases. Negation: from every reached state in which a joined thread is about to take the mutex, neither thread moves under any schedule; two steps of a thread that was told to end and releases threads terminate the program.
* **C98** elements that pass a call on execute the function that was chosen — `AnnNode.run` with its table of functions, `FnSt.step` → case analysis over choice and outcomes against a separate relation `Chosen`; induction over histories against `lastGiven`.
* **C99** every accepted task is executed eventually — `trace` is an infinite schedule of `PoolSt.step`, `Fair` the assumption on the operating system → the owner reaches `pop` again and again (`prim_to_pop`) and each success brings the task nearer to the front while thieves take from the back (`own_held`, induction on the tasks in front); same for the shared queue with a secondary thread; without submissions, a state in which nothing finishes any more has empty queues (`one_more`). Negations: periodic fair schedules for every configuration, the state at each of the 6 (12) steps of the period is computed (`Stg`).
* **C100** ring and spin lock on weakly ordered memory — a log of operations in which every load names the store it reads (`WRing`, `SpSt`), allowed executions are `Spec.Coherent` → invariant over the positions of the slot accesses and stores (`Ring.RInv`): a thread's view of the other index only grows and is at most the real one, so the test for full and empty is safe with old values, and a slot is touched only after a store was acquired that comes after the other thread's access; for the lock the last clear happens before the next successful test_and_set (`Spin.Inv`).
* **C101** independent elements on weakly ordered memory — `parallelRunAll`/`parallelRunOne` as a log of operations (`PwSt`), every load names the store it reads → invariant (`Weak.Par.Inv`): every store to the counter since the store of 0 is a read-modify-write, so all are in the release sequences of each other; a value of at least the number of elements comes from a store of this run that is preceded by all the others, and reading it makes all elements happen before the return; values of earlier runs are hidden by read-write coherence behind the store of 0.
* **C102** dependent elements on weakly ordered memory — the engine of `Model/Dynamic.lean` (common dag type) whose reads name the store they read and go on with its value (`WdSt`); elements and the caller access cells of memory → every counter is changed by read-modify-writes only between resets, and a reset happens-before all decrements of its run, so read-modify-writes read the last value (`Weak.rmw_last`) and the state without memory (`SInv`, C26) is followed exactly, except for the caller's loads of `finished_end_size_`, which may be old (`Kind.low`) and then only cost a round; happens-before of the sequentially consistent model (C59) carries over operation by operation (`LInv.hb`); a caller that sleeps on an old value is in front of a notification under the mutex (`NInv`); return by the measure of C27.
* **C103** the static engine on weakly ordered memory — `GStaticEngine::run` with rows, macros, futures, results and exceptions, over a log of memory operations (`SwSt`); every task and every future is a location of its own that is written once → invariants over all steps: numbers of tasks (`Nums`), starts and ends per run and element (`Cnt`), what happens before what (`HB`: every queued task was stored after the begin and the ends of all earlier rows), returns (`RT`), accesses (`Acc`); rows to dependencies by `C25_layers`; end by a measure. An exception that leaves a run: counterexample.
* **C104** the dynamic engine on the real pool — product of `DynSt` and `PoolSt` (`EpSt`): what a step of the engine hands over is routed by `execute`, popped or stolen by the pool's threads and executed there → simulation by the engine alone (`sim`: the engine's queue = tasks that are in some queue or hand), which gives order; return: a measure that only waiting leaves unchanged, so that from some moment on only the pool moves, the pool part is then a fair schedule of C99, which drains, and the caller is asleep with nobody left, possible only after a failure. Lost wake-up: concrete fair schedule.
* **C105** blocked senders and receivers — `ChSt`: ring, per thread where it is in `push` / `waitPopWithTimeout` (asleep on either condition variable, woken, late, about to notify), log → invariant: if a receiver sleeps, there are no more messages than receivers that are awake plus senders about to notify (likewise room); fairness: somebody counted there moves, takes a message or wakes a sleeper. History: the log replayed on C05's channel. Fair infinite schedule as example.
* **C106** the static engine on the real pool — product of `StaticSt` and `PoolSt` (`SpSt`): what the caller commits is routed by `execute`, popped or stolen, executed between two steps of a thread; the end makes the future ready → simulation by the engine alone (waiting tasks ↔ `queued`, tasks being executed ↔ `running`), hence C25's order and result; return: the caller's remaining work decreases with each of its steps, so if it never returned only the pool would move, which drains (C99), and then every future is ready. Fair infinite schedule with two runs as example.
* **C107** the work stealing queue step by step — every access of `deque_` and `mutex_` is a step of one of any number of threads (`WqSt`) → invariant: only the owner of the mutex is inside, and the deque is what the completed calls left plus the effect of the owner so far; each call is appended to the history where it takes effect, and the history is one of the sequential specification `DqHist`. This justifies the atomic steps in `WsQueue`/`PoolSt`. The tests for emptiness without the mutex are a data race (`_violated`).
* **C108** the shared queue step by step — as C107 for UAtomicQueue, with sleeping on the condition variable, notification of one or all, spurious wake-ups and time-outs (`AqSt`) → history of the sequential specification `FqHist`; no lost wake-up: while a thread sleeps at an open queue, the values in it are at most as many as there are threads that will notify or were woken; at a closed queue a sleeper in `popWithTimeout` implies a pending `notify_all`.
* **C109** sleeping primary threads — one primary thread (`loopProcess`, `processTask(s)`, `fatWait` with both evaluations of the condition part by part) and any number of clients (`pushTask`, batches, stealing, the shared queue, `wakeupAllThread`, `reset`), one access per step (`PrSt`) → invariant: what the thread saw still holds under the mutex, or somebody is on the way to notify; infinite fair schedules without time-outs: ranking functions (clients' remaining steps; own queue; distance to the next removal, to the end) show that the queue drains and `destroy` returns; violations by schedules.
* **C110** independent elements on the pool — `parallelRunAll`/`parallelRunOne` with the pool's queues and threads (`PpSt`), each task by `execute` or by `executeWithTid` with the code's `enable`/`lockable` flags → simulation of the engine alone (`ParSt`, C31) with a lock-discipline invariant (`Good`: which queue the rest of the batch keeps locked); infinite fair schedules: a measure that only pool steps and the waiting caller keep, then drain the pool (C99) and contradict the caller sleeping; binding: violation by a schedule, partial by the shape of the matrix.
* **C111** parameters by many threads — `create`, `get` (with `addBacktrace`), `removeByKey`, `getKeys`, `clear` as steps of one access each (`PmSt`), any number of threads → invariant (mutex possessor, positions, liveness of the objects in the map, linearization log against `Spec.TsHist`); found from the history alone; violations by schedules; races classified by the accesses of the next steps (`Race`); release by a measure.
* **C112** publishing from many threads — the loop of `pubTopicValue` over queues as in C105, any number of threads (`PsSt`) → each queue follows a projected schedule (`trace_chan`), so C105 carries over; invariant on what each queue was sent by each thread; one order for non-overlapping publications; returning by induction on the remaining connections; violations by a schedule and by an invariant of all continuations.
* **C113** singleton created at first use — the accesses of `USingleton::get`/`create` (LAZY) as operations of the weak memory model (`Spec.Coherent`), the mutex as acquire/release, the handle as relaxed (`LzSt`) → invariant with three phases (nothing, constructed, assigned), every unlock after the assignment; violations by an execution.
* **C114** topics on many threads — each lock, lookup, allocation, insertion, deletion, erasure of the manager as a step, each queue the channel of C05 at micro-step level with its own sleeping threads (`TcSt`) → linearizability against a directory (`TdHist`), the projection to each queue is a channel run, ownership invariants for deletion, violations by schedules.
* **C115** index, CPU and scheduling of the threads — `thread_record_map_`, the threads with what the system grants them, ids that come back (`ThSt`) → invariant over all sequences of operations; counting residues for the CPUs; case analysis for the scheduling parameters.
* **C116** binding while others publish and subscribe — mutex, connection counter, both maps and the sets, one access per step (`BcSt`) → invariant over all schedules; ghosts record what was bound when a call began; accesses of the next steps for the races. Delivery is proved for accesses that take effect at once, which the code does not secure where it races.
* **C117** the priority queue used by many threads — mutex, heap nodes with their addresses, move out of the top and removal as two steps (`PqSt`) → invariant over all schedules that relates the heap in the midst of a call to a bag used by one call at a time (`Spec.PqConc`); a decreasing measure for try-pop. A `try_lock` is taken to fail only if the mutex is taken.
* **C118** the time counter — clock, start and threshold, with any time passing before each reading of the clock (`TcSt`) → induction over the calls; linear arithmetic.

## 5. Deviations found in the code

Each is proved about the model: the theorems with suffix `_violated` are the negation of the claim, universally where
possible, otherwise for a concrete reachable case.  What remains true is proved by the other theorems of the property.

* **C02** Copying a status preserves it — Violated by the code: the message is not transferred when the codes agree. Partial theorems give what is transferred. (`C02_assign_violated`, `C02_copy_violated`)
* **C06** A channel of size n can hold n messages — Violated by the code: a ring of n slots keeps n-1 messages; size 1 never delivers anything. (`C06_capacity_violated`, `C06_size_one_violated`)
* **C10** Tasks committed with a priority start in priority order — Violated by the code: the priority queue orders unique_ptr addresses. (`C10_priority_violated`)
* **C11** Semaphore wait blocks until a signal — Violated by the code: the wait predicate is inverted. (`C11_wait_without_signal_violated`, `C11_wait_after_signal_violated`)
* **C13** Every task given to the pool is routed to a queue some thread reads — Violated when the slot counter wraps with more than 101 slots and for a pool without slots; proved otherwise. (`C13_wrapped_counter_violated`, `C13_empty_pool_undefined_violated`)
* **C16** A priority or long-time task is eventually served — Violated without room for secondary threads, after release, and for the long-time strategy; proved for commitWithPriority with room. (`C16_no_secondary_violated`, `C16_after_release_violated`, `C16_long_time_violated`)
* **C17** The pool never exceeds its maximum thread count — Violated by two concurrent creations; proved when the calls do not overlap. (`C17_concurrent_create_violated`)
* **C20** Destroying the pool does not drop accepted tasks — Violated: queued tasks are discarded; proved: tasks taken by a worker are finished, and an idle pool drops nothing. (`C20_dropped_violated`)
* **C21** Registered dependencies stay symmetric and acyclic-checkable — Symmetry, irreflexivity and uniqueness proved for all histories; the counter clause fails after a refused addition (engines recompute the counter at setup). (`C21_counter_after_failure_violated`, `C21_mutable_setup_violated`)
* **C22** A failed dependency registration has no effect — Violated by the code: entries before the offending one stay recorded. (`C22_failed_registration_violated`)
* **C29** Dynamic engine: a failing run always returns — Violated by the code: the notification on error is sent without the mutex and can be lost. Proved: this is the only way to get stuck. (`C29_failing_run_returns_violated`)
* **C30** Dynamic engine: nothing of a run is still executing after run returned — Violated by the code for failing runs. Proved for runs that return OK. (`C30_executing_after_return_violated`, `C30_starting_after_return_violated`)
* **C36** A serialisable pipeline is a total order — Violated for a chain plus a separate cycle; proved for acyclic graphs. (`C36_cycle_accepted_violated`)
* **C39** An element runs its body the configured number of times with bracketing aspects — User code, aspects and body are arbitrary functions of the whole trace. Violated when prepareRun returns a positive code: nothing runs and no error is reported. (`C39_violated`)
* **C40** An exception thrown by user code never escapes an element — Violated for exceptions that are no CException and for throwing crash handlers or crash aspects. (`C40_violated`)
* **C44** Cancelling a run stops all elements that have not started — False for elements between their test and their body, for elements repeating because of isHold, and for a cancel between the loop test of process and the setup of the next run; holds otherwise. (`C44_passed_test_violated`, `C44_hold_violated`, `C44_between_runs_violated`)
* **C45** Suspend followed by resume does not lose work — Elements suspended in their body execute all their rounds once resumed; elements called while suspended are skipped, and the notification of resume can be lost. (`C45_skipped_violated`, `C45_lost_wakeup_violated`)
* **C49** Some-group finishes when the required number of children finished — Holds for runs that begin with no task of an earlier run left and all children normal; false otherwise (a left-over task counts in the next run), and the children that finished are marked as timed out like the others. (`C49_stale_task_violated`, `C49_finished_children_timed_out_violated`, `C49_second_round_empty_violated`)
* **C52** Parameter reset visits every parameter with the run status — Exact when every setup succeeds; when a setup fails no parameter is reset although all were set up. (`C52_no_reset_violated`)
* **C54** Published messages reach exactly the current subscribers — Exact without detach and without use of dropped connections; clear makes the ids start again. (`C54_ids_violated`)
* **C55** Detaching or dropping leaves no dangling connection — Nothing is freed twice or used after it was freed as long as nothing is detached and no dropped connection is used; otherwise it is. (`C55_drop_violated`, `C55_detach_violated`)
* **C57** Stage barrier can be reused — Holds when groups are separated; fails for every threshold of two or more otherwise. (`C57_violated`)
* **C59** process = init, n runs, destroy — Holds when runs and destroy return; an exception out of a run skips destroy and leaves the pipeline initialised. (`C59_exception_violated`)
* **C60** Event notification runs every requested execution — Synchronous and wait-on-run notifications during runs: proved. Wait-on-destroy: proved for a shared pool; with its own pool, queued handlers are dropped. Wait-on-run with no run after it: destroy does not wait. (`C60_destroy_violated`, `C60_run_destroy_violated`)
* **C61** Pipeline manager hands out each pipeline to one caller at a time — All schedules of run/fetch/release/add/remove/clear/init/destroy with distinct pipelines and no removal of a busy pipeline; removing a busy one, or adding one twice, gives it to two callers; an exception loses the pipeline. (`C61_throw_violated`, `C61_duplicate_violated`, `C61_remove_violated`)
* **C62** Save then load restores the values — Proved for all types and values where every class has a field and the size fits into 64 bits; a vector of a class without fields comes back empty. (`C62_empty_class_violated`)
* **C63** Any saved pipeline can be loaded again — Pipelines without parameters: proved end to end through the bytes, but for two configuration members. Any pipeline with a parameter fails to load. (`C63_param_violated`, `C63_config_violated`, `C63_orphan_violated`, `C63_resave_violated`, `C63_loop_violated`)
* **C64** A pipeline refuses dependencies that leave it — Violated by the code: foreign successors are counted by the DAG test, so that a cyclic graph can be accepted. (`C64_foreign_successors_violated`)
* **C65** A run begun after a failed run behaves like a first run — Violated by the code: work left over from the failed run joins the next run. That run may execute an element twice, return OK without having executed one, or return an error of the run before; the dependency counters may stay wrong for all later runs, which are all OK. Proved when the left over work has ended; runs of independent elements return whatever is left over. (`C65_run_after_failure_violated`, `C65_ok_without_element_violated`, `C65_damage_lasts_violated`, `C65_parallel_early_violated`, `C65_parallel_old_error_violated`)
* **C66** A pipeline made serial completes its run on the caller's thread — Violated when binding indices differ; proved when they are equal. (`C66_bound_elements_hang_violated`)
* **C67** Analysis calls end and do not misreport cyclic pipelines — Violated for cyclic graphs; proved for acyclic ones. (`C67_analysis_diverges_violated`, `C67_cycle_unnoticed_violated`)
* **C70** A some-group returns whatever the size of the thread pool — Holds with more workers than children; false for every smaller pool: all workers can wait for bodies queued behind them. (`C70_small_pool_violated`)
* **C71** Parameter access records are exact — The record is exact; but a repeated create that asks for recording reports success and leaves recording off. (`C71_second_create_violated`)
* **C72** The keys of the parameters an element uses can be listed at any time — Exact while no used parameter has been removed; after a removal the call reads freed memory for ever. (`C72_removed_violated`)
* **C73** init and destroy of the parts of a pipeline pair up — Successful calls pair up; after a failed init the initialised parts (running daemons among them) can never be destroyed, late parameters are destroyed without init, a repeated destroy destroys twice. (`C73_failed_init_violated`, `C73_late_param_violated`, `C73_repeated_destroy_violated`)
* **C74** A pipeline never runs without its engine or thread pool — Safe as long as no part fails to be destroyed; after a failed destroy the pipeline accepts run with its pool deleted. (`C74_after_failed_destroy_violated`)
* **C75** A stage registered twice — The first registration counts; later ones report success, are ignored and their stage is leaked. (`C75_duplicate_violated`)
* **C76** A damaged storage file is reported — Every cut file makes load read outside of its buffer; bytes after the value are ignored. (`C76_violated`)
* **C77** A daemon's task — No overlap, the distances, and quiet after a stop with no other stop in progress: proved. A concurrent second stop returns while the task runs; a stop may take a whole interval (lost notification); deleting an initialised pipeline may run the task on a half destroyed object. (`C77_stop_violated`, `C77_delay_violated`, `C77_freed_violated`)
* **C78** Elements with a timeout, and fences — Proved for all interleavings as long as no future was used by two threads at once, no exception has left run and no body was repeated after its timeout; the first is excluded when fences depend on their elements and share none. False: AS_ERROR bodies outlive the run and overlap with the next one; an exception of a late held body leaves run, and the next run silently skips the element; isHold after a timeout loses the future; fences without dependency, after an exception, or sharing an element. (`C78_alone_violated`, `C78_throw_violated`, `C78_repeat_violated`, `C78_fence_violated`, `C78_fence_throw_violated`, `C78_race_violated`)
* **C79** Levels order init and destroy — Proved for all call sequences in which no level is set after the registration of its element. setLevel is accepted after registration and changes a key inside the set: the order is stale, an element is no longer found, and the optimizer's row is outside of the matrix. (`C79_order_violated`, `C79_find_violated`)
* **C80** Nested regions do not exhaust the pool — Finiteness and the shape of a stuck state are proved for all pipelines; progress when the pool has more threads than there are groups whose thread may wait and workers may take from all queues. For every pool size W >= 2 there is a pipeline of W regions whose run never returns, and with steal range r >= 1 and W > r+1 threads r+1 regions suffice: workers waiting inside regions do not execute queued tasks. (`C80_violated`, `C80_range_violated`)
* **C81** Performance analysis leaves no trace — Transparency proved by a simulation for all user code whose begin aspects never answer with a positive code (with one, a status text differs); restoration proved for analyses that succeed and during which no aspect is added. A failing analysis leaves its aspects and records, which a later one leaks; an aspect added during the analysis is deleted in place of the analysis' own, which keeps a pointer to a deleted record. (`C81_failed_violated`, `C81_leak_violated`, `C81_added_violated`, `C81_code_violated`)
* **C82** A singleton element is initialised once, lives as long as it is used, and is destroyed once — Proved when at most one pipeline that uses the object is in use at a time; initialisation and destruction alternate whenever init and destroy calls do not overlap. False otherwise: the first pipeline to be destroyed destroys the object for all, concurrent init calls initialise it twice, the object has the managers of the pipeline that registered it last, and a positive code of init lets it be initialised again. (`C82_shared_violated`, `C82_race_violated`, `C82_managers_violated`, `C82_code_violated`)
* **C83** A run of a mutable group executes exactly what this run's reshape describes — Structure, independence of earlier runs, outcome and life cycle proved in full. For a cycle only: nothing is executed before the first ready run since init. After a ready run the engine runs with the arrays of that run although setup failed: it may loop for ever or wait for ends that never come. (`C83_cyclic_violated`, `C83_stale_violated`)
* **C84** Configuration is frozen while the pipeline is initialised — Proved for every element except nodes directly in groups other than regions, and while no init or destroy fails. Nodes in such groups never count as initialised (setters accepted, spawn refused); a failed init leaves the elements before the failing one frozen. (`C84_plain_violated`, `C84_failed_violated`)
* **C85** Every object is deleted exactly once — Proved for all histories of calls on live pipelines with elements that pipeline made: no double delete, no early delete, disjoint ownership; all deleted by clear when every registration succeeds and no stage key repeats. A failed registration leaks the new node for ever; an element registered in a second pipeline is deleted twice; a repeated remove deletes everything twice. (`C85_leak_violated`, `C85_shared_violated`, `C85_removed_violated`)
* **C86** The dumped graph shows exactly the pipeline — Proved against an independent reader of the DOT language, for names without quotes and backslashes and pipelines whose mutable groups have no children. Names are not escaped (a name can forge nodes, or make the text unreadable), and the children of mutable groups are missing. (`C86_quote_violated`, `C86_backslash_violated`, `C86_mutable_violated`)
* **C88** The separation check looks through groups — Violated in the code in two ways: for a group and an element inside of it the check answers true although they always overlap (C88_ancestor_violated, C88_within); a member of a GSome may go on after the group has returned, so it may overlap with an element that depends on the group although the check answers true (C88_some_violated). Exact for all other pairs in pipelines without GSome; completeness holds for all. (`C88_ancestor_violated`, `C88_some_violated`)
* **C89** A serial pipeline with groups completes on the caller's thread — Violated in the code: accepted pipelines whose run needs a thread of the empty pool are those in which two elements of one level have different bindings (a region next to a node has, by default), an element inside of a group other than a region has a timeout, or a parallel multi-condition has one member; C89_exact says that these are all, for the others C89_order_partial and C89_once_partial give the order. (`C89_binding_violated`, `C89_timeout_violated`, `C89_parallel_violated`)
* **C90** A failure anywhere in nested groups stops what depends on it and reaches the caller — Violated in the code: members that are in a queue when another member fails are executed nevertheless (unless the members are independent), and elements inside of a failed group begin after run() has returned; a pool with too few threads may wait for ever (C80), which is why progress asks for more threads than waiting groups. All other parts are proved. (`C90_after_return_violated`)
* **C91** Trimming reaches nested groups, keeps the order at every depth and removes every redundant dependency — Violated in the code: only regions that are reached through regions are trimmed; a region inside of a cluster, condition or other group keeps its redundant dependencies (GTrimOptimizer.h:51 asks for element type REGION only). Order, number and idempotence are proved for every pipeline, completeness for the levels reached through regions. (`C91_cluster_violated`)
* **C92** Passed parameters are private copies — Violated in the code: handing back the object obtained from a holder under the same key copies from an object that has just been deleted; when clone() throws, an element loses its parameter, leaks the new object and getEParam throws from then on, and the other holders are left with a default object. Proved for all programs without a throwing clone() that do not hand an object back to where it came from. (`C92_self_violated`, `C92_self_program_violated`, `C92_throw_element_violated`, `C92_throw_other_violated`)
* **C93** Distances are those of Euclidean space — Violated in the code: by default, and for cosine even with needCheck, a shorter second vector is read behind its end, and coordinates a longer one has more are ignored; the zero vector gives not-a-number with status OK for cosine and normalize; the check refuses vectors with 2^32 coordinates (the product wraps); normalize of an integral vector longer than 1 gives zero. Proved for vectors of equal size whose square is not a multiple of 2^64 and, for cosine and normalize, other than zero. Floating point numbers are modelled by real numbers: rounding and overflow are missing. (`C93_short_violated`, `C93_short_checked_violated`, `C93_long_violated`, `C93_zero_violated`, `C93_normalize_zero_violated`, `C93_wrap_violated`, `C93_integral_violated`)
* **C94** Overlapping runs of one pipeline do not disturb each other — Violated in the code: overlapping calls are not refused and share the counters of dependencies, the count of ended last elements, the status and the condition variable. With a join an element starts though a dependency has not run; a run returns OK before its own elements have been started; a caller whose elements are all done sleeps for ever; a run with a failed element returns OK after another one has begun; a run returns the error of another one. Proved for graphs in which no element has more than one dependency: order and at most once in each run for every schedule and every failure, and nothing is lost when nothing fails; nothing is proved about when and with which status such runs return. The dynamic engine is modelled, with the dag type common. (`C94_order_violated`, `C94_early_return_violated`, `C94_hang_violated`, `C94_status_lost_violated`, `C94_status_spreads_violated`)
* **C95** An element sees everything its dependencies wrote — Visibility is proved in full for the dynamic engine with the dag type common, for dependencies (also in runs with failures), for a caller whose run returned no error, and for later runs. Violated in the code: `cur_status_` is written under `status_lock_` but read without it, so that in every run in which an element executed by the pool fails there is a data race with every later reading by a thread that records no failure, among them the reading of the value that run returns; the caller of a failed run need not see what the elements wrote. Without failures there are no data races. A new run is begun only when nothing of a failed run is still going on. Assumed: handing a task to the pool and taking it synchronise (C09), atomics are read in one order. (`C95_race_violated`)
* **C96** destroy waits for the pipeline's own work — Proved in full for a pipeline with its own pool (the default), whatever fails. Violated with a shared pool (`setSharedThreadPool`): `destroy` does not wait for its threads. The thread that counts the last tail lets the caller of `run` go and then locks a mutex of the engine; if the caller destroys the pipeline in between, the engine is used after it was deleted, even after a run that returned OK. After a run that failed, tasks that are left in the shared pool execute elements that have been destroyed. With a shared pool and no failures the elements are safe, and everything is if nothing is left in the pool at the call. One cycle of init and destroy, dynamic engine, dag type common. (`C96_shared_engine_violated`, `C96_shared_elements_violated`)
* **C97** The number of threads can be changed from inside a task — Proved when tasks that secondary threads execute leave the number of threads alone (callers, primary threads and the monitor do what they like), and when threads are only created; the number of steps is bounded in every case; effect of one undisturbed call. Violated otherwise: `releaseSecondaryThread` destroys and so joins, with `st_mutex_` held, every thread that was told to end. Called by such a thread it joins itself, which throws in a destructor and terminates the program (a task that releases a thread twice, on a secondary thread); and if the thread that is joined, also by the monitor, is executing a task that creates or releases threads, the two wait for each other for ever. (`C97_deadlock_violated`, `C97_self_violated`)
* **C99** Every accepted task is executed eventually — Proved for tasks in the queue of a primary thread under any continuing load; for tasks in the shared queue under any continuing load if there is a secondary thread that is not told to stop; and for all tasks, in whichever queue, once submissions cease. Violated otherwise: a primary thread looks into the shared queue only when its own queue and those it may steal from are empty, and a secondary thread looks into the priority queue only when the shared queue is empty; in every pool there is a fair schedule in which a task of the shared queue (no secondary thread), or a task with a priority, is never started while tasks submitted later keep being executed. (`C99_starve_violated`, `C99_priority_starve_violated`)
* **C103** The static engine is right on weakly ordered memory, also when elements fail — Proved for all schedules, with errors and exceptions, except that an exception that an element throws (one that fatProcessor does not turn into a status, see C40) leaves run() through future.get() while other elements of the row are queued or executing: the next run can execute the same element a second time at once and race with it (C103_exception_violated). Race freedom is proved for executions in which no exception left a run. Order and once-per-run hold in all. Handing a task over and making a future ready are a release store and an acquire load of a fresh location. (`C103_exception_violated`)
* **C104** A run on the pool's real queues and threads returns — Order (also with failing elements) and return of runs without failures are proved for all fair schedules and configurations; the priority queue may be used only if there is a secondary thread (C99), and pools of more than 101 threads need one too. With failing elements run() returns or the wake-up of the caller was lost (C29): C104_failing_returns_violated is a fair schedule on two threads in which run() never returns. Runs after a failed one are assumed to begin when its leftovers have been executed (C65). (`C104_failing_returns_violated`)
* **C107** The work stealing queue acts as if each call happened at once — The code violates the last clause: tryPop, trySteal and isEmpty read deque_.empty() without the mutex, a data race with a concurrent push (C107_race_violated); no other access can meet a modification (C107_race_partial). Everything else is proved for sequentially consistent single accesses. (`C107_race_violated`)
* **C108** The shared queue of the pool acts as if each call happened at once, and forgets no waiting thread — The code violates two clauses: tryPop reads queue_.empty() without the mutex (C108_race_violated; no other access can meet a modification, C108_race_partial), and after reset popWithTimeout gives nothing although values are left (C108_drained_violated, cf. C20). setup() is not called while the queue is in use. (`C108_drained_violated`, `C108_race_violated`)
* **C109** An idle thread of the pool does not sleep through its tasks — Proved: no own task and no destruction is slept through, and both complete on every fair schedule even if the clock never wakes the thread. The code violates the other clauses: a task in the shared queue wakes no primary thread (C109_shared_violated), and waking all threads loses the notification between test and sleep (C109_trigger_violated) or when two such calls overlap (C109_overlap_violated) - then only the time-out helps; finding a task does not set the count of empty rounds back (C109_rounds_violated); done_ is read without the mutex in loopProcess (C109_race_violated). The calls of the shared queue are single steps (C108). (`C109_shared_violated`, `C109_trigger_violated`, `C109_overlap_violated`, `C109_rounds_violated`, `C109_race_violated`)
* **C110** Independent elements on the pool's queues and threads: every run returns — Proved: return on every fair schedule (any element results, any left-overs), once, result (runs begun after all left-overs of a failed run are done), the lock discipline of batches. The code violates the last clause: with more elements than threads, rows are handed over by executeWithTid with the row number, so the binding index is ignored (C110_bound_violated); with at most as many elements as threads it is honoured (C110_bound_partial). (`C110_bound_violated`)
* **C111** Parameters created, fetched and removed by many threads — Proved: linearizability, found, one object, backtrace, no double free, no leak, release. The code violates the safety of getGParam: get takes no lock, so a concurrent removal frees the object under it (C111_freed_violated) and even creating an unrelated key races with it (C111_race_violated). Proved of that clause: freed objects are only ever accessed by getGParam, never if no getGParam overlaps a removal; every race is between a getGParam and the one thread that modifies under the mutex. (`C111_freed_violated`, `C111_race_violated`)
* **C112** Publishing a topic from many threads — Proved: each connection's history, per-publisher order, returning of DROP and REPLACE. The code violates two clauses: overlapping publications reach two subscribers in different orders (C112_common_violated), and a publisher asleep at the full queue of one subscriber keeps the message from the subscribers after it (C112_slow_violated). Proved of these: one order if publications do not overlap; a WAIT publication returns if every subscriber keeps receiving and no other thread publishes meanwhile (with several waiting publishers one may be overtaken for ever, see C105). (`C112_common_violated`, `C112_slow_violated`)
* **C113** The message manager created at the first use — Proved: one object, returned to all, never null, on every execution of the memory model. The code violates the rest: handle_ is a plain pointer read outside of the mutex (C113_handle_violated), and a thread that finds it set is not ordered after the constructor (C113_use_violated). Proved of that clause: no race for a use that some passage through the mutex happens before. (`C113_use_violated`, `C113_handle_violated`)
* **C114** Topics created, used and removed by many threads — Proved: every call is atomic on the directory (the map is taken to be read and written in one step; see the races), one queue per topic, every queue is the channel of C05 and is asked exactly what the calls say, deleted once, none leaked. The code violates the rest: removeTopic/clear delete a queue in which a thread sleeps (C114_freed_violated), and sendTopicValue/recvTopicValue read the map without the mutex (C114_race_violated). Proved of those clauses: no freed queue is accessed if nobody sends or receives on a topic while its queue is deleted (C114_safe_partial, C114_noremoval_partial); these are the only races (C114_race_partial), and only users access freed queues (C114_only_use). (`C114_freed_violated`, `C114_race_violated`)
* **C115** The threads of a pool know their index and have their CPU and scheduling — Proved for an injective std::hash of thread ids (libstdc++): indices of primary threads exact, the starter's index, CPU binding balanced. The code violates the rest: a secondary thread that gets the id of the ended starter is told -1, and strangers are told -2 (C115_index_violated); RR or FIFO with the default priority 0, and OTHER with another priority, are refused by the system (C115_sched_violated). Proved of those clauses: secondary threads are told -2 while the starter lives; exactly which policy/priority pairs are refused, all others are set. (`C115_index_violated`, `C115_sched_violated`)
* **C116** Binding to a topic is safe while others publish and subscribe — Only bindTopic locks the mutex, so the last clause fails: a publication goes through the set of its topic while a binding inserts into it (C116_race_violated). Proved of it: every race is between a publication or subscription and a binding that holds the mutex. C116_ids needs no further assumption, since bindings exclude each other. C116_reach, C116_each, C116_later and C116_sub hold if every access to a map or set takes effect at once; where such a race happens C++ promises nothing, so for real executions they speak of those without a race. detachConnId, dropTopic and clear are not called. (`C116_race_violated`)
* **C118** The time counter measures the time that passed — reset reads the clock once for the value it returns and again for the new start, so the time between is in no span, however long it is (C118_sum_violated). Proved of that clause: the resets never return more than the time that passed, and what is missing is these times and less than a millisecond for each reset. The cut of a double to an integer is modelled as the exact quotient. (`C118_sum_violated`)

## 6. Axioms

`lean/Verif/Audit.lean` makes the build fail if a theorem named in `MANIFEST.json` depends on anything but `propext`,
`Classical.choice` and `Quot.sound`.  Exactly, by `collectAxioms`:

* none: C02_assign_violated, C02_copy_violated, C09_setup_discards, C10_priority_ignored, C13_wrapped_counter_violated, C13_empty_pool_undefined_violated, C19_not_init
* `propext`: C02_assign_partial, C02_copy_partial, C08_conservation, C08_failure_no_effect, C09_fifo, C09_pop_succeeds, C10_priority_violated, C10_task_lt_reflexive, C13_tid, C16_after_release_violated, C16_long_time_violated, C17_concurrent_create_violated, C20_dropped_violated, C31_serial_empty, C39_ends, C39_violated, C40_violated, C43_history, C43_pop_status, C43_add_pop, C44_passed_test_violated, C44_between_runs_violated, C45_skipped_violated, C47_throw, C49_stale_task_violated, C53_channel, C54_ids_violated, C59_init_fails, C65_parallel_old_error_violated, C68_shape, C77_stop_violated, C77_freed_violated, C78_alone_violated, C78_throw_violated, C78_repeat_violated, C78_fence_violated, C78_fence_throw_violated, C78_race_violated, C81_code_violated, C84_frozen, C90_after_return_violated, C92_frozen, C92_self_program_violated, C92_throw_element_violated, C92_throw_other_violated, C98_function_last, C98_function_refused, C107_race_violated, C108_drained_violated, C108_race_violated, C109_shared_violated, C109_trigger_violated, C109_overlap_violated, C109_rounds_violated, C109_race_violated, C110_bound_violated, C111_freed_violated, C111_race_violated, C112_common_violated, C114_freed_violated, C114_race_violated
* `propext`, `Quot.sound`: C01_first_error_wins, C01_ok_iff_no_error, C01_grouping, C03_capacity_zero_undefined, C04_unique_array, C04_unique_array_stable, C05_push_after_clear_undefined, C07_lockfree_fifo, C07_lockfree_tests_exact, C08_ends, C08_negative_batch, C11_wait_without_signal_violated, C11_wait_after_signal_violated, C11_signals_never_wake, C12_mutual_exclusion, C12_free_lock_is_acquired, C16_served_partial, C17_release, C18_busy_stays, C19_submit, C21_counter_after_failure_violated, C21_mutable_setup_violated, C22_failed_registration_violated, C24_run, C29_failing_run_returns_violated, C30_executing_after_return_violated, C30_starting_after_return_violated, C31_parallel_only_isolated, C37_paths_exact, C44_hold_violated, C45_in_body_partial, C45_without_suspension, C45_lost_wakeup_violated, C49_not_early_partial, C49_returns_without_rest, C49_finished_children_timed_out_violated, C49_second_round_empty_violated, C51_element_get, C52_order, C52_complete, C52_setup, C52_no_reset_violated, C55_drop_violated, C55_detach_violated, C56_launch, C56_leave, C56_release, C57_separated_partial, C57_violated, C58_refused, C58_phase, C58_process, C59_process_partial, C59_exception_violated, C60_sync, C60_once, C60_run, C60_destroy_partial, C60_destroy_shared, C60_ends, C60_destroy_violated, C60_run_destroy_violated, C61_duplicate_violated, C61_remove_violated, C64_foreign_successors_violated, C64_foreign_dependency_rejected, C65_run_after_failure_violated, C65_ok_without_element_violated, C65_parallel_early_violated, C66_bound_elements_hang_violated, C67_analysis_ends_partial, C68_batch_of_one, C73_failed_init_violated, C73_late_param_violated, C73_repeated_destroy_violated, C74_after_failed_destroy_violated, C75_duplicate_violated, C77_stop_ends, C77_delay_violated, C82_shared_violated, C82_race_violated, C82_managers_violated, C82_code_violated, C83_ready, C83_life, C83_cyclic_partial, C83_cyclic_violated, C83_stale_violated, C84_flags_partial, C84_life_partial, C84_thaw_partial, C84_plain_violated, C84_failed_violated, C85_shared_violated, C85_removed_violated, C88_same, C88_some_violated, C90_order, C90_blocked, C90_reported, C90_error, C90_once, C90_stop, C92_self_violated, C94_order_violated, C94_early_return_violated, C94_hang_violated, C94_status_lost_violated, C94_status_spreads_violated, C96_shared_elements_violated, C97_bounded, C97_create_effect, C97_release_effect, C97_self_violated, C99_priority_starve_violated, C100_ring_stale, C107_pool, C112_order, C112_slow_violated, C113_once, C113_use_violated, C113_use_partial, C113_handle_violated, C115_index_violated, C115_sched_violated, C116_race_violated, C118_sum_violated
* `propext`, `Classical.choice`, `Quot.sound`: C03_lru, C04_small_vector, C04_small_vector_answers, C04_small_vector_nodup, C05_channel_refines_fifo, C05_channel_order, C05_channel_lossless, C06_capacity_violated, C06_size_one_violated, C06_capacity_partial, C10_pop_conserves_partial, C11_exact_partial, C13_route_partial, C13_round_robin, C14_steal_targets, C15_at_most_once, C15_can_finish, C15_quiescent, C16_no_secondary_violated, C17_max_threads_partial, C18_retire_exact, C18_idle_retires, C20_queued_partial, C20_idle_destroy, C21_relation_symmetric, C21_counter_partial, C21_mutable_setup, C21_engine_graph, C22_refused_prefix_partial, C23_cycle_detection_exact, C23_all_engines_agree, C24_order, C24_acyclic_run, C25_layers, C25_run_order, C25_error_stops, C25_return, C25_progress, C26_order, C26_exactly_once, C26_ok_means_all, C27_progress, C27_bounded, C28_dependents_not_started, C28_result, C29_stuck_only_by_lost_wakeup_partial, C29_returns_partial, C30_ok_return_quiet_partial, C31_serial_is_chain, C31_chunks, C31_parallel_at_most_once, C31_parallel_result, C31_parallel_returns, C32_trim_keeps_order, C33_trim_complete, C34_max_parallel_exact, C35_separate_exact, C35_never_concurrent, C36_serialisable_is_chain_partial, C36_exact_partial, C36_cycle_accepted_violated, C38_longest_path, C39_success_partial, C39_stop, C39_status, C39_group_stop, C40_run_partial, C40_life_partial, C40_default, C40_group_partial, C40_group_life_partial, C41_hold, C39_success_partial, C39_stop, C42_no_conflict, C42_accept, C43_begin, C43_finish, C44_cancel_partial, C46_cluster, C47_choice, C48_serial, C48_parallel, C50_life, C51_get, C51_identity, C51_create, C51_remove, C51_keys, C53_topics, C54_board_partial, C54_ids, C54_delivery, C54_board_partial, C56_count, C58_init_again, C61_exclusive_partial, C61_partition_partial, C61_refused_partial, C61_held, C61_throw_violated, C62_roundtrip_partial, C62_injective, C62_in_place, C62_empty_class_violated, C63_save, C63_partial, C63_param_violated, C63_config_violated, C63_orphan_violated, C63_resave_violated, C63_loop_violated, C64_foreign_dependency_refused_partial, C65_run_after_quiet_failure_partial, C65_damage_lasts_violated, C65_parallel_returns_partial, C66_serial_run_partial, C67_analysis_diverges_violated, C67_cycle_unnoticed_violated, C68_batch, C69_times, C70_returns_partial, C70_small_pool_violated, C71_backtrace, C71_off, C71_second_create_violated, C72_keys_partial, C72_freed_read, C72_removed_violated, C73_init, C73_destroy, C74_safe_partial, C75_first_partial, C76_violated, C76_trailing_partial, C77_alone, C77_first, C77_gap, C77_stop_partial, C77_freed_partial, C78_held_partial, C78_ok_partial, C78_fence_partial, C78_alone_partial, C78_elem_partial, C78_no_race, C79_order_partial, C79_find_partial, C79_order_violated, C79_find_violated, C80_finite, C80_stuck, C80_partial, C80_violated, C80_range_violated, C81_same_partial, C81_restore_partial, C81_history_partial, C81_failed_violated, C81_leak_violated, C81_added_violated, C82_lives_partial, C82_alternate_partial, C83_structure, C83_outcome, C83_anew, C83_history, C85_once_partial, C85_apart_partial, C85_remove_partial, C85_all_partial, C85_kept_partial, C85_leak_violated, C86_text_partial, C86_distinct, C86_quote_violated, C86_backslash_violated, C86_mutable_violated, C87_order, C87_enclose, C87_once, C87_bodies, C88_answers, C88_sound_partial, C88_complete, C88_exact_partial, C88_ancestor_violated, C88_within, C89_accepts, C89_order_partial, C89_once_partial, C89_exact, C89_binding_violated, C89_timeout_violated, C89_parallel_violated, C90_ok, C90_finite, C90_stuck, C90_progress_partial, C91_order, C91_complete_partial, C91_exact_partial, C91_count, C91_again, C91_unreached, C91_cluster_violated, C92_values_partial, C92_no_leak_partial, C92_private_partial, C93_euclid_partial, C93_metric_partial, C93_cosine_partial, C93_cosine_range_partial, C93_normalize_partial, C93_refused, C93_normalize_refused, C93_batch, C93_short_violated, C93_short_checked_violated, C93_long_violated, C93_zero_violated, C93_normalize_zero_violated, C93_wrap_violated, C93_integral_violated, C94_forest_order_partial, C94_forest_complete_partial, C95_record, C95_visible, C95_returned, C95_runs, C95_tasks, C95_racefree_partial, C95_race_violated, C96_own, C96_once, C96_shared_quiet_partial, C96_shared_elements_partial, C96_shared_engine_violated, C97_returns_partial, C97_create_partial, C97_deadlock_violated, C98_ann_calls, C98_ann_status, C99_own, C99_shared_partial, C99_drained, C99_starve_violated, C100_ring, C100_ring_handover, C100_ring_empty, C100_spin_order, C100_spin_exclusive, C101_racefree, C101_visible, C101_quiet, C102_order, C102_visible, C102_accs, C102_racefree, C102_returns, C103_order, C103_returned, C103_visible, C103_accs, C103_racefree_partial, C103_coherent, C103_returns, C103_exception_violated, C104_order, C104_returns, C104_failing_partial, C104_failing_returns_violated, C105_history, C105_quiet, C105_receive, C105_send, C105_wait, C105_wait_one, C106_order, C106_returns, C106_result, C107_atomic, C107_once, C107_conserved, C107_release, C107_race_partial, C108_atomic, C108_once, C108_awake, C108_closed, C108_release, C108_leaves, C108_timeout, C108_race_partial, C109_pushed, C109_idle, C109_told, C109_conserved, C109_taken, C109_destroyed, C109_trigger_partial, C109_rounds_partial, C109_race_partial, C110_returns, C110_once, C110_result, C110_handover, C110_bound_partial, C111_atomic, C111_found, C111_only_get, C111_freed_once, C111_noleak, C111_safe_partial, C111_noremoval_partial, C111_race_partial, C111_backtrace, C111_release, C112_each, C112_common_partial, C112_returns_nowait, C112_returns_partial, C114_atomic, C114_same, C114_channel, C114_delivered, C114_only_use, C114_freed_once, C114_safe_partial, C114_noremoval_partial, C114_noleak, C114_race_partial, C115_primary, C115_starter, C115_index_partial, C115_cpu, C115_sched_partial, C116_ids, C116_reach, C116_each, C116_later, C116_sub, C116_race_partial, C117_atonce, C117_conserved, C117_batch, C117_nothing, C117_exclusive, C117_waitfree, C117_busy, C118_span, C118_show, C118_sum_partial

## 7. Which code is modelled

Files of `/repo/src` and the modules of `lean/Verif/Model` whose definitions cite them.  A file being cited does not mean that
all of it is modelled; the comments of the definitions give the lines.

* `CBasic/`: `CException.h` (Element, Status); `CFuncType.h` (Adapter, Element, Status); `CStatus.h` (Status); `CStrDefine.h` (Adapter); `CValType.h` (Pool, TimeCnt)
* `DomainCtrl/Ann/`: `DAnnDefine.h` (Adapter); `DAnnNode.cpp` (Adapter); `DAnnNode.h` (Adapter)
* `GraphCtrl/GraphAspect/`: `GAspect.cpp` (Perf); `GAspectManager.cpp` (Element, Memory); `GAspectManager.h` (Element); `GAspectObject.cpp` (Passed); `GAspectObject.h` (Passed); `GAspectObject.inl` (Passed)
* `GraphCtrl/GraphDaemon/`: `GDaemon.cpp` (Passed, Timer); `GDaemonManager.cpp` (Memory, Pipeline); `GDaemonObject.h` (Passed); `GDaemonObject.inl` (Passed)
* `GraphCtrl/GraphElement/`: `GElement.cpp` (Async, Control, Dump, Dynamic, Element, Engines, Frozen, Graph, Group, Level, Memory, Mutable, Passed, Perf, Separate, Serial, Some, StatPool, Storage, Threads, Visible, WeakDyn); `GElement.h` (Adapter, Control, Element, EngPool, Graph, Group, Level, Nest, Passed, Perf, Separate, Serial, Some, StatPool, Storage, Visible, WeakDyn); `GElement.inl` (Element, Frozen, Memory, Passed); `GElementDefine.h` (Dump, Dynamic, Element, Group, NestTrim, Storage); `GElementManager.cpp` (Frozen, Graph, Level, Lifetime, Mutable, NestTrim, Optimizer, Perf, Pipeline, Serial, Singleton); `GElementManager.h` (Level, NestTrim); `GElementRepository.cpp` (Async, Control, Memory, Pipeline, Separate, Some); `GElementRepository.h` (Control); `GElementSorter.h` (Graph, Level)
* `GraphCtrl/GraphElement/GAdapter/GCoordinator/`: `GCoordinator.inl` (Coord, Dump)
* `GraphCtrl/GraphElement/GAdapter/GFence/`: `GFence.cpp` (Async, Dump, Frozen)
* `GraphCtrl/GraphElement/GAdapter/GFunction/`: `GFunction.cpp` (Adapter, Frozen); `GFunction.h` (Adapter)
* `GraphCtrl/GraphElement/GAdapter/GSingleton/`: `GSingleton.h` (Singleton); `GSingleton.inl` (Singleton)
* `GraphCtrl/GraphElement/GGroup/`: `GGroup.cpp` (Dump, Frozen, Graph, Group, Memory, Mutable, Separate, Serial, Storage); `GGroup.h` (Separate); `GGroupDefine.h` (Group)
* `GraphCtrl/GraphElement/GGroup/GCluster/`: `GCluster.cpp` (Dump, Group, Separate, Serial)
* `GraphCtrl/GraphElement/GGroup/GCondition/`: `GCondition.cpp` (Dump, Group, Separate, Serial); `GMultiCondition.inl` (Group, Separate, Serial)
* `GraphCtrl/GraphElement/GGroup/GMutable/`: `GMutable.cpp` (Element, Graph, Mutable, Serial)
* `GraphCtrl/GraphElement/GGroup/GRegion/`: `GRegion.cpp` (Dump, Frozen, Level, Nest, NestTrim, Separate, Serial); `GRegion.h` (NestTrim)
* `GraphCtrl/GraphElement/GGroup/GSome/`: `GSome.cpp` (Dump, Element, Serial, Some, Storage); `GSome.h` (Some)
* `GraphCtrl/GraphElement/GNode/`: `GNode.cpp` (Frozen)
* `GraphCtrl/GraphElement/_GEngine/`: `GEngine.h` (DagType, Dynamic, Engines, Mutable, Nest); `GEngineDefine.h` (DagType)
* `GraphCtrl/GraphElement/_GEngine/GDynamicEngine/`: `GDynamicEngine.cpp` (DagType, Dynamic, EngPool, Engines, Lifetime, Mutable, Nest, NestFail, Overlap, ParPool, Perf, Primary, Serial, Visible, WeakDyn, WeakPar, WsConc); `GDynamicEngine.h` (Mutable, NestFail, Visible, WeakDyn)
* `GraphCtrl/GraphElement/_GEngine/GStaticEngine/`: `GStaticEngine.cpp` (Engines, Perf, StatPool, StaticRun, WeakStatic); `GStaticEngine.h` (WeakStatic)
* `GraphCtrl/GraphElement/_GEngine/GTopoEngine/`: `GTopoEngine.cpp` (Engines, Perf)
* `GraphCtrl/GraphElement/_GOptimizer/`: `GMaxParaOptimizer.h` (Optimizer); `GOptimizer.h` (Level, Optimizer); `GSeparateOptimizer.h` (Optimizer, Separate); `GTrimOptimizer.h` (NestTrim, Optimizer)
* `GraphCtrl/GraphEvent/`: `GEvent.cpp` (Event); `GEvent.h` (Event); `GEventDefine.h` (Event); `GEventManager.cpp` (Event, Pipeline); `GEventManager.inl` (Memory)
* `GraphCtrl/GraphMessage/`: `GMessage.h` (BindConc, Channel, Message, Queues, TopicConc); `GMessageManager.h` (BindConc, Message, PubSub, TopicConc); `GMessageManagerSingleton.h` (Lazy)
* `GraphCtrl/GraphParam/`: `GParam.cpp` (Param, ParamConc); `GParam.h` (Param, ParamConc); `GParamManager.cpp` (Memory, Param, ParamConc, Pipeline); `GParamManager.h` (Param, ParamConc); `GParamManager.inl` (Memory, Param, ParamConc); `GParamManagerWrapper.h` (Param, ParamConc, Pipeline); `GPassedParam.h` (Passed)
* `GraphCtrl/GraphPipeline/`: `GPipeline.cpp` (Async, Control, Dump, Event, Frozen, Lifetime, Memory, NestTrim, Overlap, Perf, Pipeline, Pool, Separate, Serial, Storage); `GPipeline.h` (Pipeline, Storage); `GPipeline.inl` (Level, Memory, Pipeline, Stage); `GPipelineFactory.cpp` (Memory); `GPipelineFactory.h` (Memory); `GPipelineManager.cpp` (PipeMgr); `GPipelineManager.h` (PipeMgr)
* `GraphCtrl/GraphPipeline/_GPerf/`: `GPerf.cpp` (Optimizer, Perf); `GPerfAspect.h` (Perf)
* `GraphCtrl/GraphPipeline/_GSchedule/`: `GSchedule.cpp` (Event, Lifetime, Pipeline)
* `GraphCtrl/GraphPipeline/_GStroage/`: `GStorage.cpp` (Codec, Storage); `GStorageDefine.h` (Storage); `GStorageFactory.cpp` (Storage); `GStorageFactory.h` (Storage)
* `GraphCtrl/GraphStage/`: `GStage.cpp` (Passed, Stage); `GStage.h` (Passed, Stage); `GStage.inl` (Passed); `GStageManager.h` (Memory, Pipeline, Stage); `GStageManagerWrapper.h` (Stage)
* `UtilsCtrl/`: `UtilsDefine.h` (Adapter, Element, ParamConc, Passed, Pipeline, Status, TopicConc)
* `UtilsCtrl/Container/`: `USerialUniqueArray.h` (Containers); `USmallVector.h` (Containers, Graph)
* `UtilsCtrl/Distance/`: `UDistance.inl` (Distance); `UDistanceCalculator.h` (Distance)
* `UtilsCtrl/Distance/Common/`: `UCosineDistance.h` (Distance); `UEuclideanDistance.h` (Distance)
* `UtilsCtrl/Lru/`: `ULru.h` (Containers)
* `UtilsCtrl/Reflection/`: `UReflection.h` (Codec); `UReflectionDefine.h` (Codec); `UReflectionSession.h` (Codec); `UReflectionType.h` (Codec)
* `UtilsCtrl/Singleton/`: `USingleton.h` (Lazy, Singleton)
* `UtilsCtrl/ThreadPool/`: `UThreadPool.cpp` (Coord, EngPool, Nest, ParPool, Pool, PoolRun, Primary, Serial, StatPool, Threads); `UThreadPool.h` (EngPool, Pool, PoolRun, Primary, Threads); `UThreadPool.inl` (EngPool, Nest, Pool, PoolRun, Primary, StatPool); `UThreadPoolConfig.h` (EngPool, Pool, Primary, Storage, Threads); `UThreadPoolDefine.h` (Nest, Pool, Threads)
* `UtilsCtrl/ThreadPool/Lock/`: `USpinLock.h` (Queues, WeakMem)
* `UtilsCtrl/ThreadPool/Queue/`: `UAtomicPriorityQueue.h` (PqConc, Queues); `UAtomicQueue.h` (AqConc, Primary, Queues); `UAtomicRingBufferQueue.h` (Channel, Queues, TopicConc); `ULockFreeRingBufferQueue.h` (Queues, WeakMem); `UQueueDefine.h` (Queues); `UQueueObject.h` (AqConc, PqConc, WsConc); `UWorkStealingQueue.h` (PoolRun, Primary, Queues, WsConc)
* `UtilsCtrl/ThreadPool/Semaphore/`: `USemaphore.h` (Queues)
* `UtilsCtrl/ThreadPool/Task/`: `UTask.h` (Queues)
* `UtilsCtrl/ThreadPool/Thread/`: `UThreadBase.h` (Coord, EngPool, ParPool, Pool, PoolRun, Primary, StatPool, Threads); `UThreadPrimary.h` (EngPool, Nest, ParPool, Pool, PoolRun, Primary, Threads); `UThreadSecondary.h` (Coord, EngPool, ParPool, Pool, PoolRun, Threads)
* `UtilsCtrl/Timer/`: `UTimeCounter.h` (TimeCnt); `UTimer.h` (Timer)

Cited: 123 of 217 files, 13695 of 17072 lines.  Not cited (forwarding headers, defines, and code that no property speaks about): `CGraph.h`, `CAllocator.h`, `CBasicDefine.h`, `CBasicInclude.h`, `CDescInfo.h`, `CObject.h`, `CStdEx.h`, `CStruct.h`, `DomainInclude.h`, `DomainObject.h`, `DAnnInclude.h`, `DAnnObject.h`, `DAnnParam.h`, `GraphDefine.h`, `GraphInclude.h`, `GraphManager.h`, `GraphObject.h`, `GAspect.h`, `GAspectDefine.h`, `GAspectInclude.h`, `GTemplateAspect.h`, `GDaemon.h`, `GDaemonInclude.h`, `GDaemonManager.h`, `GTemplateDaemon.h`, `GElementInclude.h`, `GElementObject.h`, `GElementRelation.h`, `GAdapter.h`, `GAdapterInclude.h`, `GCoordinator.h`, `GFence.h`, `GGroupInclude.h`, `GCluster.h`, `GCondition.h`, `GConditionDefine.h`, `GConditionInclude.h`, `GMultiCondition.h`, `GMutable.h`, `GNode.h`, `GNodeDefine.h`, `GNodeInclude.h`, `GTemplateNode.h`, `GEngineInclude.h`, `GTopoEngine.h`, `GOptimizerInclude.h`, `GEventInclude.h`, `GEventManager.h`, `GEventManagerWrapper.h`, `GEventObject.h`, `GMessageDefine.h`, `GMessageInclude.h`, `GMessageManagerSingleton.cpp`, `GMessageObject.h`, `GMessageUtils.h`, `GMessageParam.h`, `GParamInclude.h`, `GParamObject.h`, `GParamUtils.h`, `GPassedDefaultParam.h`, `GPipelineInclude.h`, `GPipelineObject.h`, `GPerf.h`, `GPerfDefine.h`, `GPerfInclude.h`, `GSchedule.h`, `GScheduleDefine.h`, `GScheduleInclude.h`, `GStorage.h`, `GStorageInclude.h`, `GStageInclude.h`, `GStageObject.h`, `UtilsFunction.h`, `UtilsInclude.h`, `UtilsObject.h`, `UContainerInclude.h`, `UDistance.h`, `UDistanceInclude.h`, `UDistanceObject.h`, `UCommonDistanceInclude.h`, `ULruNode.h`, `URandom.h`, `URandomDefine.h`, `UReflectionInclude.h`, `USingletonDefine.h`, `UThreadObject.h`, `UThreadPoolInclude.h`, `UCvMutex.h`, `ULockInclude.h`, `UQueueInclude.h`, `UTaskGroup.h`, `UTaskInclude.h`, `UThreadInclude.h`, `UTimerInclude.h`.
