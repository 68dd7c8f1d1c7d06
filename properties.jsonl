{"id": "C01", "title": "Status accumulation keeps the first error", "statement": "Accumulating any sequence of statuses with += from a fresh CStatus gives exactly the first error status of the sequence (code and message), and gives the untouched OK status iff the sequence contains no error; grouping of the accumulation does not matter.", "quantifier": "for every finite sequence of statuses with arbitrary integer codes and messages, and every way to split it", "why_tests_cant": "sequences are unbounded and codes range over all ints (including positive, non-error codes)", "anchors": ["src/CBasic/CStatus.h: CStatus::operator+=, isErr, isOK"]}
{"id": "C02", "title": "Copying a status preserves it", "statement": "A status copied or assigned from another one reports the same code and the same message as the source.", "quantifier": "for every source status and every previous value of the destination", "why_tests_cant": "the failure depends on a coincidence between the old and the new code; the pair space is unbounded", "anchors": ["src/CBasic/CStatus.h: CStatus(const CStatus&), operator="]}
{"id": "C03", "title": "LRU cache returns the latest value and evicts the least recently used key", "statement": "For capacity >= 1, after any history of put/get calls, get(k) succeeds exactly when k is among the `capacity` most recently used distinct keys and then returns the last value put for k; the cache never holds more than `capacity` keys.", "quantifier": "for every capacity >= 1 and every finite history of put and get operations", "why_tests_cant": "needs all histories; recency depends on the whole past", "anchors": ["src/UtilsCtrl/Lru/ULru.h: put, get"]}
{"id": "C04", "title": "Small vector and unique array behave like ordered sets", "statement": "The small vector keeps the first insertion of each distinct value in insertion order and remove deletes exactly the given value; contents never depend on the internal capacity growth. The index given to a value by the serial unique array never changes and no two values share one.", "quantifier": "for every history of insert/remove/clear operations and every initial capacity", "why_tests_cant": "capacity growth happens at unbounded sizes and interleaves arbitrarily with removals", "anchors": ["src/UtilsCtrl/Container/USmallVector.h: insert, remove, hasValue", "src/UtilsCtrl/Container/USerialUniqueArray.h"]}
{"id": "C05", "title": "Bounded message channel is a FIFO with the chosen overflow policy", "statement": "A channel of size n>=2 delivers messages in send order, each at most once. With WAIT no accepted message is ever lost; with REPLACE exactly the oldest undelivered message is discarded on overflow; with DROP exactly the new one is discarded. At most n-1 messages are ever pending.", "quantifier": "for every channel size >= 2 and every history of sends (any policy) and receives", "why_tests_cant": "wrap-around positions and mixes of policies give unboundedly many histories", "anchors": ["src/UtilsCtrl/ThreadPool/Queue/UAtomicRingBufferQueue.h: push, waitPopWithTimeout, isFull, isEmpty"]}
{"id": "C06", "title": "A channel of size n can hold n messages", "statement": "A channel created with size n >= 1 accepts n messages with the non-blocking policies without losing any, and a channel of size 1 can pass messages.", "quantifier": "for every size n >= 1", "why_tests_cant": "off-by-one at the boundary for every n", "anchors": ["src/UtilsCtrl/ThreadPool/Queue/UAtomicRingBufferQueue.h: setCapacity, push, isFull"]}
{"id": "C07", "title": "Single-producer single-consumer lock-free ring never loses, duplicates or reorders", "statement": "With one pushing thread and one popping thread, under every interleaving of their individual memory accesses, the popped values are always a prefix of the pushed values and at most CAPACITY-1 values are stored; a pop that reports failure saw an empty queue.", "quantifier": "for every capacity >= 2, every sequence of pushes and every interleaving of the micro-steps of the two threads", "why_tests_cant": "interleavings at memory-access granularity cannot be enumerated by tests", "anchors": ["src/UtilsCtrl/ThreadPool/Queue/ULockFreeRingBufferQueue.h: push, tryPop"]}
{"id": "C08", "title": "Work stealing queue conserves tasks", "statement": "Every task pushed to a work stealing queue is obtained by exactly one pop or steal, or is still queued; the owner takes the oldest, a thief takes the newest, and batch operations take at most the configured number and keep the order.", "quantifier": "for every history of pushes, pops, steals and batch variants with non-negative batch sizes", "why_tests_cant": "the history space is unbounded", "anchors": ["src/UtilsCtrl/ThreadPool/Queue/UWorkStealingQueue.h: push, tryPop, trySteal"]}
{"id": "C09", "title": "Pool task queue is FIFO and try-pop failure loses nothing", "statement": "The shared pool queue hands out tasks in push order, each once; a try-pop that fails because of emptiness or lock contention leaves the contents unchanged.", "quantifier": "for every history of push, tryPop (with an arbitrary lock outcome), batch tryPop, popWithTimeout, reset, setup", "why_tests_cant": "lock contention outcomes are nondeterministic", "anchors": ["src/UtilsCtrl/ThreadPool/Queue/UAtomicQueue.h: tryPop, push, popWithTimeout, setup"]}
{"id": "C10", "title": "Tasks committed with a priority start in priority order", "statement": "Among tasks waiting in the priority queue, the one with the highest priority is taken first.", "quantifier": "for every multiset of waiting tasks and every memory layout of the allocated tasks", "why_tests_cant": "the actual order depends on heap addresses which a test does not control", "anchors": ["src/UtilsCtrl/ThreadPool/Queue/UAtomicPriorityQueue.h: push, tryPop", "src/UtilsCtrl/ThreadPool/Task/UTask.h: operator<, operator>", "src/UtilsCtrl/ThreadPool/UThreadPool.inl: commitWithPriority"]}
{"id": "C11", "title": "Semaphore wait blocks until a signal", "statement": "The number of completed waits never exceeds the number of signals, and a wait with an available signal does not block.", "quantifier": "for every interleaving of signal and wait calls from any number of threads", "why_tests_cant": "needs every interleaving", "anchors": ["src/UtilsCtrl/ThreadPool/Semaphore/USemaphore.h: signal, wait"]}
{"id": "C12", "title": "Spin lock gives mutual exclusion", "statement": "At most one thread is between a successful lock/tryLock and its unlock; if no thread holds the lock, a thread that tries to lock succeeds at its next attempt.", "quantifier": "for every number of threads and every interleaving of lock, tryLock and unlock steps in which only holders unlock", "why_tests_cant": "interleavings are unbounded", "anchors": ["src/UtilsCtrl/ThreadPool/Lock/USpinLock.h: lock, tryLock, unlock"]}
{"id": "C13", "title": "Every task given to the pool is routed to a queue some thread reads", "statement": "For a valid configuration, execute with any index puts the task in exactly one queue: a primary thread's queue when the index denotes a primary thread, the priority queue for the long-time strategy, the shared queue otherwise; default dispatch is round robin over max_thread_size slots.", "quantifier": "for every valid configuration, index, counter value and running state of the threads", "why_tests_cant": "the product of configurations, counters and indices is unbounded", "anchors": ["src/UtilsCtrl/ThreadPool/UThreadPool.cpp: dispatch", "src/UtilsCtrl/ThreadPool/UThreadPool.inl: execute, executeWithTid"]}
{"id": "C14", "title": "Work stealing reaches every other thread and never oneself", "statement": "For default_thread_size n>=1 the steal target list of a primary thread contains distinct valid thread indices, never its own index, and contains every other thread when the steal range is at least n-1.", "quantifier": "for every thread count, steal range and thread index", "why_tests_cant": "all n and ranges", "anchors": ["src/UtilsCtrl/ThreadPool/Thread/UThreadPrimary.h: buildStealTargets", "src/UtilsCtrl/ThreadPool/UThreadPoolConfig.h: calcStealRange"]}
{"id": "C15", "title": "A submitted task runs exactly once while the pool is alive", "statement": "Under every interleaving of submitting threads and workers (pop, steal, shared queue, batches), each submitted task is executed at most once, tasks are never lost before destroy, and in every reachable state with unexecuted tasks some live thread can obtain one, provided long-time tasks have a secondary thread.", "quantifier": "for every number of primary and secondary threads >= 1, every valid configuration and every interleaving", "why_tests_cant": "needs all interleavings of workers", "anchors": ["src/UtilsCtrl/ThreadPool/Thread/UThreadPrimary.h: processTask, processTasks, stealTask", "src/UtilsCtrl/ThreadPool/Thread/UThreadSecondary.h: processTask", "src/UtilsCtrl/ThreadPool/UThreadPool.cpp"]}
{"id": "C16", "title": "A priority or long-time task is eventually served", "statement": "A task committed with commitWithPriority, or with the long-time strategy, is in a queue that some thread of the pool reads.", "quantifier": "for every valid pool configuration", "why_tests_cant": "the starvation appears only for particular configurations (including the default one) and shows as a hang", "anchors": ["src/UtilsCtrl/ThreadPool/UThreadPool.inl: commitWithPriority, execute", "src/UtilsCtrl/ThreadPool/UThreadPool.cpp: createSecondaryThread"]}
{"id": "C17", "title": "The pool never exceeds its maximum thread count", "statement": "After any history of init, secondary thread creation, release and monitor rounds on a pool with a valid configuration, the number of primary plus secondary threads is at most max_thread_size, and release of more secondary threads than exist is refused without effect on live ones.", "quantifier": "for every valid configuration and every history of create/release/monitor events", "why_tests_cant": "unbounded histories", "anchors": ["src/UtilsCtrl/ThreadPool/UThreadPool.cpp: createSecondaryThread, releaseSecondaryThread, monitor", "src/UtilsCtrl/ThreadPool/Thread/UThreadSecondary.h: freeze"]}
{"id": "C18", "title": "Idle secondary threads retire exactly after their ttl", "statement": "A secondary thread is retired by the monitor only if its idle rounds exceed its busy rounds (with saturation at ttl) by its ttl; a thread observed idle for ttl consecutive rounds is retired no later than that; a running thread observed busy in the current round with positive credit is not retired.", "quantifier": "for every ttl >= 1 and every sequence of busy/idle observations", "why_tests_cant": "unbounded observation sequences", "anchors": ["src/UtilsCtrl/ThreadPool/Thread/UThreadSecondary.h: freeze"]}
{"id": "C19", "title": "Task group submission reports success only if all tasks finished in time", "statement": "submit of a task group returns OK if every task of the group finished by the deadline min(group ttl, call ttl), and only if every task had finished when submit returned; the finish callback is invoked exactly once with the returned status; every task of the group is handed to the pool exactly once.", "quantifier": "for every group, ttl and completion time of each task", "why_tests_cant": "completion times are adversarial", "anchors": ["src/UtilsCtrl/ThreadPool/UThreadPool.cpp: submit", "src/UtilsCtrl/ThreadPool/Task/UTaskGroup.h"]}
{"id": "C20", "title": "Destroying the pool does not drop accepted tasks", "statement": "Every task accepted before destroy is executed before destroy returns.", "quantifier": "for every schedule and every set of pending tasks at destroy", "why_tests_cant": "depends on the schedule at the moment of destroy", "anchors": ["src/UtilsCtrl/ThreadPool/UThreadPool.cpp: destroy", "src/UtilsCtrl/ThreadPool/Thread/UThreadBase.h: reset, loopProcess"]}
{"id": "C21", "title": "Registered dependencies stay symmetric and acyclic-checkable", "statement": "After any sequence of registrations, dependency additions, dependency removals and element removals, b is a recorded successor of a iff a is a recorded dependency of b, no element depends on itself, no dependency is recorded twice, and the pending-dependency counter equals the number of dependencies.", "quantifier": "for every history of registration calls, including failing ones", "why_tests_cant": "histories are unbounded and failing calls must leave the relation consistent", "anchors": ["src/GraphCtrl/GraphElement/GElement.cpp: addDependGElements, removeDepend", "src/GraphCtrl/GraphPipeline/GPipeline.cpp: innerRegister"]}
{"id": "C22", "title": "A failed dependency registration has no effect", "statement": "If adding dependencies to an element is refused, the dependency relation is unchanged.", "quantifier": "for every element, every set of dependencies and every state", "why_tests_cant": "depends on the iteration order of the pointers in the dependency set", "anchors": ["src/GraphCtrl/GraphElement/GElement.cpp: addDependGElements"]}
{"id": "C23", "title": "Cycle detection is exact", "statement": "Pipeline init accepts the dependency graph iff no element transitively depends on itself.", "quantifier": "for every finite dependency graph whose dependencies are between elements of the same pipeline (see C64 for the others)", "why_tests_cant": "all graphs of all sizes", "anchors": ["src/GraphCtrl/GraphElement/_GEngine/GEngine.h: getTopo, isDag", "src/GraphCtrl/GraphElement/_GEngine/GDynamicEngine/GDynamicEngine.cpp: setup", "src/GraphCtrl/GraphElement/_GEngine/GStaticEngine/GStaticEngine.cpp: setup", "src/GraphCtrl/GraphElement/_GEngine/GTopoEngine/GTopoEngine.cpp: setup"]}
{"id": "C24", "title": "Topology engine executes a topological order once", "statement": "With the topology engine, a run over an acyclic graph executes each element exactly once, each after all of its dependencies, and stops at the first element that returns an error, returning this error.", "quantifier": "for every finite acyclic graph and every element behaviour", "why_tests_cant": "all graphs", "anchors": ["src/GraphCtrl/GraphElement/_GEngine/GTopoEngine/GTopoEngine.cpp: setup, run", "src/GraphCtrl/GraphElement/_GEngine/GEngine.h: getTopo"]}
{"id": "C25", "title": "Static engine executes layer by layer", "statement": "With the static engine, for an acyclic graph, each element is placed in exactly one layer, every dependency of an element is in a strictly earlier layer, a layer starts only if the earlier layers finished without error; a setup that rejects the graph is one with a cycle.", "quantifier": "for every finite graph and every assignment of statuses", "why_tests_cant": "all graphs", "anchors": ["src/GraphCtrl/GraphElement/_GEngine/GStaticEngine/GStaticEngine.cpp: setup, run"]}
{"id": "C26", "title": "Dynamic engine runs each element exactly once after its dependencies", "statement": "With the dynamic engine, under every interleaving of worker threads, if no element fails then when run returns OK every element has executed exactly once and each started only after all of its dependencies had finished; this holds again for each of any number of consecutive runs.", "quantifier": "for every finite acyclic graph, every number of workers, every interleaving of the atomic steps of the workers and the caller, and every number of consecutive runs", "why_tests_cant": "interleavings of counter decrements, task queueing and inline execution cannot be enumerated", "anchors": ["src/GraphCtrl/GraphElement/_GEngine/GDynamicEngine/GDynamicEngine.cpp: run, commonRunAll, process, innerExec, afterElementRun, fatWait"]}
{"id": "C27", "title": "Dynamic engine run terminates when no element fails", "statement": "With the dynamic engine and at least one worker, if elements terminate without error, no reachable state is stuck before run returns, and the number of steps before it returns is bounded.", "quantifier": "for every finite acyclic graph, every number of workers >= 1 and every interleaving", "why_tests_cant": "deadlocks depend on rare interleavings", "anchors": ["src/GraphCtrl/GraphElement/_GEngine/GDynamicEngine/GDynamicEngine.cpp: fatWait, afterElementRun"]}
{"id": "C28", "title": "Dynamic engine: after a failure no dependent of the failed element starts", "statement": "If an element fails, no element that transitively depends on it executes in that run, no element executes twice, and the status returned by run is an error produced by some element.", "quantifier": "for every finite acyclic graph, every failure pattern and every interleaving", "why_tests_cant": "failure patterns times interleavings", "anchors": ["src/GraphCtrl/GraphElement/_GEngine/GDynamicEngine/GDynamicEngine.cpp: innerExec, afterElementRun, process"]}
{"id": "C29", "title": "Dynamic engine: a failing run always returns", "statement": "If an element fails, run returns to the caller (the waiting caller is always woken).", "quantifier": "for every interleaving of the failing worker and the waiting caller", "why_tests_cant": "a lost wake-up needs a notification exactly between the predicate check and the sleep", "anchors": ["src/GraphCtrl/GraphElement/_GEngine/GDynamicEngine/GDynamicEngine.cpp: innerExec, fatWait"]}
{"id": "C30", "title": "Dynamic engine: nothing of a run is still executing after run returned", "statement": "When run returns, no element of that run is executing or will start later.", "quantifier": "for every graph, failure pattern and interleaving", "why_tests_cant": "needs the interleaving in which the caller returns while others are running", "anchors": ["src/GraphCtrl/GraphElement/_GEngine/GDynamicEngine/GDynamicEngine.cpp: run, fatWait, innerExec"]}
{"id": "C31", "title": "Serial and fully parallel special cases are recognised correctly", "statement": "The dynamic engine selects the serial path only if the elements form one chain, and then executes them in chain order; it selects the fully parallel path only if no element has dependencies or successors, and then partitions all elements into chunks so that each is executed exactly once.", "quantifier": "for every finite acyclic graph and every number of threads", "why_tests_cant": "all graphs and all thread counts, including boundary cases of the chunk computation", "anchors": ["src/GraphCtrl/GraphElement/_GEngine/GDynamicEngine/GDynamicEngine.cpp: analysisDagType, analysisParallelMatrix, serialRunAll, parallelRunAll"]}
{"id": "C32", "title": "Trim keeps the ordering constraints", "statement": "Trimming a pipeline removes dependencies only, and for every pair of elements, one transitively depends on the other after trimming iff it did before; the returned number is the number of removed dependencies.", "quantifier": "for every finite acyclic dependency graph", "why_tests_cant": "all graphs", "anchors": ["src/GraphCtrl/GraphElement/_GOptimizer/GTrimOptimizer.h: trim", "src/GraphCtrl/GraphElement/GElement.cpp: removeDepend"]}
{"id": "C33", "title": "Trim removes every redundant dependency", "statement": "After trimming, no remaining direct dependency is implied by a longer chain of remaining dependencies.", "quantifier": "for every finite acyclic dependency graph", "why_tests_cant": "all graphs", "anchors": ["src/GraphCtrl/GraphElement/_GOptimizer/GTrimOptimizer.h: trim", "src/GraphCtrl/GraphElement/_GOptimizer/GOptimizer.h: collectPaths"]}
{"id": "C34", "title": "Maximum parallelism is exact", "statement": "The reported maximum parallelism equals the size of the largest set of pairwise independent (mutually non-dependent) elements.", "quantifier": "for every finite acyclic dependency graph without groups", "why_tests_cant": "all graphs", "anchors": ["src/GraphCtrl/GraphElement/_GOptimizer/GMaxParaOptimizer.h: getMaxParaSize"]}
{"id": "C35", "title": "Separation check is exact for flat pipelines", "statement": "For two elements of the same level, checkSeparate reports true iff one transitively depends on the other, so that the two are never executed concurrently.", "quantifier": "for every finite acyclic dependency graph and pair of elements", "why_tests_cant": "all graphs and pairs", "anchors": ["src/GraphCtrl/GraphElement/_GOptimizer/GSeparateOptimizer.h: checkSeparate", "src/GraphCtrl/GraphPipeline/GPipeline.cpp: checkSeparate"]}
{"id": "C36", "title": "A serialisable pipeline is a total order", "statement": "If makeSerial accepts a flat pipeline then the dependencies form one chain containing all elements, so that a serial run respects all dependencies.", "quantifier": "for every finite dependency graph accepted by makeSerial", "why_tests_cant": "all graphs", "anchors": ["src/GraphCtrl/GraphElement/GElementManager.cpp: checkSerializable", "src/GraphCtrl/GraphPipeline/GPipeline.cpp: makeSerial"]}
{"id": "C37", "title": "Path enumeration is exact", "statement": "The optimiser's list of full paths contains every path from a start element to an end element, each exactly once, and nothing else.", "quantifier": "for every finite acyclic dependency graph", "why_tests_cant": "all graphs", "anchors": ["src/GraphCtrl/GraphElement/_GOptimizer/GOptimizer.h: collect, collectPaths"]}
{"id": "C38", "title": "Performance report marks a slowest path", "statement": "The path marked as longest by perf is a full start-to-end path whose total time is maximal, and elements outside it are unmarked.", "quantifier": "for every finite acyclic graph and every measured time per element", "why_tests_cant": "all graphs and timings", "anchors": ["src/GraphCtrl/GraphPipeline/_GPerf/GPerf.cpp: markLongestPath, perf"]}
{"id": "C39", "title": "An element runs its body the configured number of times with bracketing aspects", "statement": "Running an element with loop count n, in the normal state and with no failures, calls run exactly n times; each run is preceded by every begin-run aspect in order and followed by every finish-run aspect; the loop stops at the first failing run or begin aspect and this failure is the reported status.", "quantifier": "for every loop count, list of aspects and behaviour of the body and aspects", "why_tests_cant": "unbounded loop counts and behaviours", "anchors": ["src/GraphCtrl/GraphElement/GElement.cpp: fatProcessor, doAspect", "src/GraphCtrl/GraphAspect/GAspectManager.cpp: reflect"]}
{"id": "C40", "title": "An exception thrown by user code never escapes an element", "statement": "If user code of an element throws, the element's crash handler is invoked once and its status is reported; with the default handler it is a crash-coded error with the exception text.", "quantifier": "for every position of the throwing call and every behaviour of the remaining code", "why_tests_cant": "all throw positions", "anchors": ["src/GraphCtrl/GraphElement/GElement.cpp: fatProcessor, crashed"]}
{"id": "C41", "title": "Hold repeats an element until released", "statement": "While isHold returns true and run succeeds, the element is run again within the same loop round; it stops at the first false or the first failure.", "quantifier": "for every behaviour of isHold and run", "why_tests_cant": "unbounded repetition", "anchors": ["src/GraphCtrl/GraphElement/GElement.cpp: fatProcessor, isHold"]}
{"id": "C42", "title": "Loop and timeout settings cannot conflict", "statement": "No history of accepted or refused configuration calls makes an element both repeated (loop > 1) and asynchronous with timeout.", "quantifier": "for every history of setLoop, setTimeout and related calls", "why_tests_cant": "all call orders", "anchors": ["src/GraphCtrl/GraphElement/GElement.cpp: setLoop, setTimeout"]}
{"id": "C43", "title": "Aspects fire in registration order and can be withdrawn", "statement": "Aspects are applied in the order in which they were added; begin aspects stop at the first error, finish aspects are all applied; removing the last one restores the previous list.", "quantifier": "for every list of aspects and outcomes", "why_tests_cant": "unbounded lists", "anchors": ["src/GraphCtrl/GraphAspect/GAspectManager.cpp: reflect, add, popLast"]}
{"id": "C44", "title": "Cancelling a run stops all elements that have not started", "statement": "Once cancel has been accepted during a run, no element starts a new body execution in that run.", "quantifier": "for every moment of the cancel call relative to the run", "why_tests_cant": "needs every crash point / interleaving of the cancel with the run", "anchors": ["src/GraphCtrl/GraphElement/GElementRepository.cpp: pushAllState, setup", "src/GraphCtrl/GraphElement/GElement.cpp: fatProcessor, getCurState", "src/GraphCtrl/GraphPipeline/GPipeline.cpp: cancel, process"]}
{"id": "C45", "title": "Suspend followed by resume does not lose work", "statement": "Suspending a running pipeline and resuming it later leads to the same set of executed elements as running it without suspension.", "quantifier": "for every moment of suspend and resume", "why_tests_cant": "needs every interleaving of suspension with element starts", "anchors": ["src/GraphCtrl/GraphElement/GElement.cpp: fatProcessor, checkSuspend", "src/GraphCtrl/GraphElement/GElementRepository.cpp: pushAllState"]}
{"id": "C46", "title": "Cluster runs its children in order until the first failure", "statement": "A cluster executes its children in insertion order, stops at the first failing child and reports its error; when all succeed every child ran exactly once.", "quantifier": "for every list of children and outcomes", "why_tests_cant": "unbounded lists", "anchors": ["src/GraphCtrl/GraphElement/GGroup/GCluster/GCluster.cpp: run"]}
{"id": "C47", "title": "Condition runs exactly the chosen child", "statement": "A condition executes exactly the child whose index was chosen; the last-index choice runs the last child; an out-of-range choice runs nothing; only the chosen child's status is reported.", "quantifier": "for every child count and choice value", "why_tests_cant": "all integers as choice", "anchors": ["src/GraphCtrl/GraphElement/GGroup/GCondition/GCondition.cpp: run"]}
{"id": "C48", "title": "Multi-condition runs exactly the matching children", "statement": "A serial multi-condition evaluates children in order and executes exactly those whose predicate holds, stopping at the first failure; the parallel variant executes exactly the matching ones and reports the first error in child order.", "quantifier": "for every list of children, predicates and outcomes", "why_tests_cant": "unbounded lists", "anchors": ["src/GraphCtrl/GraphElement/GGroup/GCondition/GMultiCondition.inl: serialRun, parallelRun"]}
{"id": "C49", "title": "Some-group finishes when the required number of children finished", "statement": "A some-group with trigger number k returns once k children finished (or an error occurred), never earlier without error; children that already finished are not affected by the early return.", "quantifier": "for every number of children, every k and every completion order", "why_tests_cant": "completion orders are adversarial", "anchors": ["src/GraphCtrl/GraphElement/GGroup/GSome/GSome.cpp: run, addElementEx"]}
{"id": "C50", "title": "Group life cycle reaches every child once", "statement": "Initialising (destroying) a group calls init (destroy) of every child exactly once, in order, whether or not some of them return errors; the group reports the first error in child order, or success when there is none.", "quantifier": "for every list of children and outcomes", "why_tests_cant": "unbounded lists", "anchors": ["src/GraphCtrl/GraphElement/GGroup/GGroup.cpp: init, destroy"]}
{"id": "C51", "title": "Parameter store behaves as a typed map", "statement": "For any history of create, get and remove calls, get<T>(key) returns the parameter created under the key and not removed since if it has type T and null otherwise; creating an existing key with the same type is a successful no-op and with another type is refused without effect.", "quantifier": "for every history of parameter operations", "why_tests_cant": "unbounded histories", "anchors": ["src/GraphCtrl/GraphParam/GParamManager.inl: create, get", "src/GraphCtrl/GraphParam/GParamManager.cpp: removeByKey, clear"]}
{"id": "C52", "title": "Parameter reset visits every parameter with the run status", "statement": "Each run calls setup on every parameter before the elements and reset on every parameter after them with the status of the run; the setup result is OK iff all setups are.", "quantifier": "for every set of parameters and outcomes", "why_tests_cant": "unbounded sets", "anchors": ["src/GraphCtrl/GraphParam/GParamManager.cpp: setup, resetWithStatus", "src/GraphCtrl/GraphPipeline/GPipeline.cpp: run"]}
{"id": "C53", "title": "Topic messages are isolated and ordered", "statement": "A send/receive topic delivers to receivers the sent values in order; operations on one topic never affect another; creating an existing topic is accepted iff type and size agree and then changes nothing; sends to and receives from unknown topics are refused without effect.", "quantifier": "for every history of topic operations", "why_tests_cant": "unbounded histories over unbounded topic names", "anchors": ["src/GraphCtrl/GraphMessage/GMessageManager.h: createTopic, removeTopic, sendTopicValue, recvTopicValue"]}
{"id": "C54", "title": "Published messages reach exactly the current subscribers", "statement": "A published value is delivered to each connection bound to the topic at that time and to no other; connection ids are never reused.", "quantifier": "for every history of bind, publish, subscribe and drop operations without detach", "why_tests_cant": "unbounded histories", "anchors": ["src/GraphCtrl/GraphMessage/GMessageManager.h: bindTopic, pubTopicValue, subTopicValue, dropTopic"]}
{"id": "C55", "title": "Detaching or dropping leaves no dangling connection", "statement": "After detaching a connection or dropping a topic, later publish, subscribe, drop and clear calls never touch a freed channel.", "quantifier": "for every history of operations", "why_tests_cant": "memory errors depend on the order of calls", "anchors": ["src/GraphCtrl/GraphMessage/GMessageManager.h: detachConnId, dropTopic, pubTopicValue, subTopicValue, clear"]}
{"id": "C56", "title": "Stage barrier releases exactly in groups of the threshold", "statement": "A stage with threshold n used by n threads once releases all of them and only after all arrived; the launch hook runs once per release.", "quantifier": "for every threshold and every interleaving of arrivals", "why_tests_cant": "interleavings", "anchors": ["src/GraphCtrl/GraphStage/GStage.cpp: waiting", "src/GraphCtrl/GraphStage/GStageManager.h: create, waitForReady"]}
{"id": "C57", "title": "Stage barrier can be reused", "statement": "A stage with threshold n used repeatedly by n threads never blocks forever.", "quantifier": "for every number of rounds and interleaving", "why_tests_cant": "deadlock occurs only in rare interleavings", "anchors": ["src/GraphCtrl/GraphStage/GStage.cpp: waiting"]}
{"id": "C58", "title": "Pipeline life cycle is guarded", "statement": "run, cancel, suspend, resume and destroy succeed only on an initialised pipeline, init and all registration calls only on an uninitialised one; after a failed init the pipeline is still uninitialised and after a successful destroy it can be initialised again; refused calls have no effect.", "quantifier": "for every history of life-cycle and registration calls with arbitrary component outcomes", "why_tests_cant": "unbounded histories", "anchors": ["src/GraphCtrl/GraphPipeline/GPipeline.cpp: init, run, destroy, cancel, suspend, resume, registerGNode, registerGGroup"]}
{"id": "C59", "title": "process = init, n runs, destroy", "statement": "process(n) initialises once, runs at most n times stopping at the first failing run or at a cancel, destroys once if init succeeded, and returns the first error of all those steps.", "quantifier": "for every n and every outcome of each step", "why_tests_cant": "unbounded n and outcomes", "anchors": ["src/GraphCtrl/GraphPipeline/GPipeline.cpp: process"]}
{"id": "C60", "title": "Event notification runs every requested execution", "statement": "A synchronous notification runs the event handler once per notification before returning; before pipeline destroy completes, all asynchronous notifications accepted with wait-on-run or wait-on-destroy have been executed.", "quantifier": "for every history of notifications, runs and destroy and every schedule", "why_tests_cant": "schedules", "anchors": ["src/GraphCtrl/GraphEvent/GEvent.cpp: process, asyncProcess, asyncWait", "src/GraphCtrl/GraphEvent/GEventManager.cpp: trigger, reset, destroy", "src/GraphCtrl/GraphPipeline/GPipeline.cpp: destroy"]}
{"id": "C61", "title": "Pipeline manager hands out each pipeline to one caller at a time", "statement": "With pairwise distinct pipelines, under every interleaving of concurrent manager runs, no pipeline is executed by two callers at once; free and busy pipelines always partition the registered ones; a run with no free pipeline is refused.", "quantifier": "for every set of pipelines and every history of add/fetch/release/remove", "why_tests_cant": "interleavings of concurrent callers", "anchors": ["src/GraphCtrl/GraphPipeline/GPipelineManager.cpp: fetch, release, run, add, remove"]}
{"id": "C62", "title": "Save then load restores the values", "statement": "Decoding the bytes produced by the storage codec gives back exactly the stored value, for all fixed-size values, strings, vectors and nested classes thereof.", "quantifier": "for every value of every supported shape", "why_tests_cant": "all values, all nesting depths", "anchors": ["src/UtilsCtrl/Reflection/UReflectionType.h", "src/UtilsCtrl/Reflection/UReflectionSession.h", "src/GraphCtrl/GraphPipeline/_GStroage/GStorage.cpp: saveBuffer, loadBuffer"]}
{"id": "C63", "title": "Any saved pipeline can be loaded again", "statement": "A pipeline whose components are all registered with the storage factory and which was saved successfully can be loaded, and the loaded pipeline has the same elements, attributes, dependences, groups, aspects, parameters, events, daemons, stages and thread pool configuration.", "quantifier": "for every such pipeline", "why_tests_cant": "all pipelines", "anchors": ["src/GraphCtrl/GraphPipeline/_GStroage/GStorageDefine.h: _GParamStorage", "src/GraphCtrl/GraphPipeline/_GStroage/GStorage.cpp: loadParam"]}
{"id": "C64", "title": "A pipeline refuses dependencies that leave it", "statement": "If an element of a pipeline depends on an element that is not part of the same pipeline, or has such a successor, init fails; in particular a graph with a cycle is never accepted because of foreign elements.", "quantifier": "for every set of elements, every dependency relation over them and every subset registered in the pipeline", "why_tests_cant": "all graphs and all splits of the elements into pipelines", "anchors": ["src/GraphCtrl/GraphElement/_GEngine/GEngine.h: getTopo, isDag", "src/GraphCtrl/GraphElement/GElement.cpp: addDependGElements"]}
{"id": "C65", "title": "A run begun after a failed run behaves like a first run", "statement": "A second run of the same initialised pipeline, begun after an earlier run has returned an error, executes each element at most once and each element only after its dependencies have finished in that second run, like a first run.", "quantifier": "for every acyclic graph, every outcome of every element in every run and every interleaving of the pool threads with the caller", "why_tests_cant": "depends on which tasks of the failed run are still queued or executing when the next run begins", "anchors": ["src/GraphCtrl/GraphElement/_GEngine/GDynamicEngine/GDynamicEngine.cpp: run, prepareRun, process, afterElementRun"]}
{"id": "C66", "title": "A pipeline made serial completes its run on the caller's thread", "statement": "After makeSerial returned OK for a pipeline that passes init, run executes every element on the calling thread in dependency order, up to the first failing element, and returns; it needs no pool thread.", "quantifier": "for every pipeline accepted by makeSerial, every binding of its elements and every outcome of the elements", "why_tests_cant": "depends on the combination of dependency shape and binding indices chosen by the user; a test with default bindings always passes", "anchors": ["src/GraphCtrl/GraphPipeline/GPipeline.cpp: makeSerial", "src/GraphCtrl/GraphElement/GElementManager.cpp: checkSerializable", "src/GraphCtrl/GraphElement/_GEngine/GDynamicEngine/GDynamicEngine.cpp: analysisDagType, run"]}
{"id": "C67", "title": "Analysis calls end and do not misreport cyclic pipelines", "statement": "trim, getMaxPara, checkSeparate and the performance report, which may be called before init has checked for cycles, return for every registered dependency relation and never report a cyclic one as if it were valid.", "quantifier": "for every dependency relation the registration API can produce, cyclic ones included", "why_tests_cant": "termination over all graphs; a test can only show that chosen graphs return", "anchors": ["src/GraphCtrl/GraphElement/_GOptimizer/GOptimizer.h: collect, collectPaths", "src/GraphCtrl/GraphElement/_GOptimizer/GMaxParaOptimizer.h: getMaxParaSize", "src/GraphCtrl/GraphElement/_GOptimizer/GSeparateOptimizer.h: checkSeparate", "src/GraphCtrl/GraphPipeline/GPipeline.cpp: trim, getMaxPara, checkSeparate"]}
{"id": "C68", "title": "Batch submission to one thread is atomic", "statement": "The tasks of a batch of at least two given to one primary thread with executeWithTid (locking with the first, unlocking with the last) end up contiguous and in order in that thread's queue, no worker or other submitter gets in between, and the queue is usable afterwards.", "quantifier": "for every batch, every state of the pool and every interleaving of other submitters and workers", "why_tests_cant": "needs every interleaving with thieves and submitters while the lock is held across calls", "anchors": ["src/UtilsCtrl/ThreadPool/Queue/UWorkStealingQueue.h: push", "src/UtilsCtrl/ThreadPool/Thread/UThreadPrimary.h: pushTask", "src/GraphCtrl/GraphElement/_GEngine/GDynamicEngine/GDynamicEngine.cpp: parallelRunAll"]}
{"id": "C69", "title": "Loop counts multiply along nested groups", "statement": "When nothing fails, one run of a tree of clusters, conditions and multi-conditions returns and executes every element exactly as often as the product of the loop counts of the element and the groups around it, where a condition passes on to the chosen child only and a multi-condition to the matching children only.", "quantifier": "for every finite tree of groups, all loop counts, all answers of choose and isMatch, all execution orders of parallel children", "why_tests_cant": "unbounded nesting and loop counts", "anchors": ["src/GraphCtrl/GraphElement/GElement.cpp: fatProcessor", "src/GraphCtrl/GraphElement/GGroup/GCluster/GCluster.cpp: run", "src/GraphCtrl/GraphElement/GGroup/GCondition/GCondition.cpp: run", "src/GraphCtrl/GraphElement/GGroup/GCondition/GMultiCondition.inl: serialRun, parallelRun"]}
{"id": "C70", "title": "A some-group returns whatever the size of the thread pool", "statement": "A run of a some-group whose children's bodies all end returns after finitely many steps, for every pool with at least one worker thread.", "quantifier": "for every number of children and worker threads, every trigger number, every interleaving", "why_tests_cant": "deadlock by exhaustion of the pool shows only for particular pool sizes and interleavings", "anchors": ["src/GraphCtrl/GraphElement/GGroup/GSome/GSome.cpp: run, addElementEx", "src/GraphCtrl/GraphElement/GElement.cpp: asyncRun", "src/UtilsCtrl/ThreadPool/UThreadPoolDefine.h: CGRAPH_MAX_BLOCK_TTL, CGRAPH_DEFAULT_THREAD_SIZE"]}
{"id": "C71", "title": "Parameter access records are exact", "statement": "For a parameter created with backtrace, getBacktrace returns the names of the elements that obtained it since it was created or cleaned, each once, in order of first access; asking for recording in a repeated successful create turns it on.", "quantifier": "for every history of parameter operations", "why_tests_cant": "depends on arbitrary histories of create, get, remove and clean calls", "anchors": ["src/GraphCtrl/GraphParam/GParam.cpp: addBacktrace, getBacktrace, cleanBacktrace", "src/GraphCtrl/GraphParam/GParamManager.inl: create", "src/GraphCtrl/GraphParam/GParamManagerWrapper.h: getGParam", "src/UtilsCtrl/Container/USerialUniqueArray.h: uniqueAdd"]}
{"id": "C72", "title": "The keys of the parameters an element uses can be listed at any time", "statement": "getConcernedGParamKeys of an element returns the keys of exactly the parameters it has obtained, and never touches freed memory.", "quantifier": "for every history of parameter operations by any number of elements", "why_tests_cant": "reading freed memory usually goes unnoticed in a test", "anchors": ["src/GraphCtrl/GraphParam/GParamManagerWrapper.h: getConcernedGParamKeys, getGParam, removeGParam", "src/GraphCtrl/GraphParam/GParamManager.cpp: removeByKey"]}
{"id": "C73", "title": "init and destroy of the parts of a pipeline pair up", "statement": "A successful init initialises every registered parameter, event, element, stage and daemon exactly once, parameters and events before any element; a successful destroy destroys each exactly once, parameters last; a part that was initialised is eventually destroyed when init or destroy fails half way, and no part is destroyed that was not initialised.", "quantifier": "for every set of parts and every outcome of every call", "why_tests_cant": "failures half way through init and destroy in every position", "anchors": ["src/GraphCtrl/GraphPipeline/GPipeline.cpp: init, initEnv, destroy", "src/GraphCtrl/GraphElement/GElementManager.cpp: init, destroy", "src/GraphCtrl/GraphParam/GParamManager.cpp: init, destroy", "src/GraphCtrl/GraphDaemon/GDaemonManager.cpp: init, destroy"]}
{"id": "C74", "title": "A pipeline never runs without its engine or thread pool", "statement": "Whatever life-cycle calls are made in whatever order and whatever fails or throws, the graph is only run by an engine that exists, on a pool that has not been deleted.", "quantifier": "for every history of life-cycle and registration calls with arbitrary component outcomes", "why_tests_cant": "unbounded histories; use of a deleted pool need not show", "anchors": ["src/GraphCtrl/GraphPipeline/GPipeline.cpp: run, destroy", "src/GraphCtrl/GraphPipeline/_GSchedule/GSchedule.cpp: init, destroy", "src/GraphCtrl/GraphElement/GElementManager.cpp: run, destroy"]}
{"id": "C75", "title": "A stage registered twice", "statement": "A stage entered by its key has the threshold asked for when it was registered; registering a key again is refused or takes effect; entering an unknown key is refused.", "quantifier": "for every history of registrations, every key and threshold", "why_tests_cant": "all histories; the second registration reports success", "anchors": ["src/GraphCtrl/GraphStage/GStageManager.h: create, waitForReady", "src/GraphCtrl/GraphPipeline/GPipeline.inl: addGStage"]}
{"id": "C76", "title": "A damaged storage file is reported", "statement": "Loading a file that is shorter than what was saved returns an error and does not read outside of the buffer; bytes after the saved value have no influence.", "quantifier": "for every saved value and every prefix or extension of its bytes", "why_tests_cant": "all files, all cut positions", "anchors": ["src/UtilsCtrl/Reflection/UReflectionSession.h: getValueAndOffset, getStringAndOffset", "src/UtilsCtrl/Reflection/UReflectionType.h: reflRead", "src/GraphCtrl/GraphPipeline/_GStroage/GStorage.cpp: load, loadBuffer"]}
{"id": "C77", "title": "A daemon's task", "statement": "Two executions of a daemon's task never overlap; the first comes no earlier than the interval after init and two that follow each other are at least the interval apart (or the time asked for by modify); destroy returns promptly, and when it has returned no task is being executed and none begins until the next init; no task is executed on an object that is gone.", "quantifier": "for every interval, every duration of the tasks, every value returned by modify, all interleavings of start, stop, deletion and the timer thread, and spurious wake-ups", "why_tests_cant": "timing windows between the test of the flag, the notification and the wait", "anchors": ["src/UtilsCtrl/Timer/UTimer.h: start, stop", "src/GraphCtrl/GraphDaemon/GDaemon.cpp: init, destroy", "src/GraphCtrl/GraphDaemon/GDaemonManager.cpp: ~GDaemonManager, clear"]}
{"id": "C78", "title": "Elements with a timeout, and fences", "statement": "When run of a pipeline returns, no body of an element with the strategy HOLD_BY_PIPELINE is waiting or being executed; if the returned status is not an error, every body begun during this run has ended without error; two bodies of one element never overlap; what the call of an element returns is the outcome of its body or, after a timeout, an error exactly if the strategy is AS_ERROR; a fence returns after the bodies of its elements have ended.", "quantifier": "for every number of elements and fences, every assignment of strategies, every outcome and duration of the bodies, every number of runs, all interleavings", "why_tests_cant": "whether a body is late, when it ends and who fetches its result are decided by timing; the effects reach into the next run", "anchors": ["src/GraphCtrl/GraphElement/GElement.cpp: fatProcessor, asyncRun, getAsyncResult", "src/GraphCtrl/GraphElement/GElementRepository.cpp: setup, reset", "src/GraphCtrl/GraphElement/GAdapter/GFence/GFence.cpp: run", "src/GraphCtrl/GraphPipeline/GPipeline.cpp: run"]}
{"id": "C79", "title": "Levels order init and destroy", "statement": "init and destroy of a pipeline (or region) call every registered element exactly once, elements with a smaller level first, elements of one level in the order of their addresses; find tells exactly which elements are registered, and the row the optimizer uses for a registered element lies inside its matrix.", "quantifier": "for all elements, levels (negative too), orders of setLevel, registration, init, destroy and lookups, and however the balanced tree is arranged", "why_tests_cant": "The order depends on addresses, on when a level is set, and on the shape of a balanced tree; a test sees one allocation order and a few levels.", "anchors": ["src/GraphCtrl/GraphElement/GElementSorter.h: GElementSorter", "src/GraphCtrl/GraphElement/GElementManager.cpp: GElementManager::init, destroy, add, find", "src/GraphCtrl/GraphElement/GElement.cpp: GElement::setLevel", "src/GraphCtrl/GraphElement/_GOptimizer/GOptimizer.h: GOptimizer::buildGraph"]}
{"id": "C80", "title": "Nested regions do not exhaust the pool", "statement": "A run of a pipeline with regions (also regions inside regions) whose elements all return finishes: every execution makes finitely many steps, at every moment before the run has returned some thread can go on, and when it has returned every element has ended.", "quantifier": "for all pipelines as trees of groups with acyclic dependencies, all bindings, pool sizes and steal ranges, and all interleavings of the threads", "why_tests_cant": "Whether the threads of a pool are all blocked inside regions depends on which thread takes which region and when; a test runs a few schedules on one pool size and normally sees the pool get through.", "anchors": ["src/GraphCtrl/GraphElement/GGroup/GRegion/GRegion.cpp: GRegion::run", "src/GraphCtrl/GraphElement/_GEngine/GDynamicEngine/GDynamicEngine.cpp: GDynamicEngine::run, process, afterElementRun, parallelRunAll, fatWait", "src/UtilsCtrl/ThreadPool/UThreadPool.inl: UThreadPool::execute", "src/UtilsCtrl/ThreadPool/Thread/UThreadPrimary.h: UThreadPrimary::stealTask, buildStealTargets"]}
{"id": "C81", "title": "Performance analysis leaves no trace", "statement": "perf() does to user code exactly what process() does (same calls, same answers, same error), and afterwards aspects and records of all elements are what they were: no aspect of the analysis is left, every record is deleted, and no deleted record is ever written.", "quantifier": "for all element trees, user code (depending on everything that happened before, throwing, failing), engines' orders, and all histories of process, perf and addGAspect", "why_tests_cant": "The state to be compared is hidden inside the elements (aspect lists, pointers of aspects to records); what goes wrong after a failing analysis or after an aspect was added during it shows up only in later runs as writes to freed memory.", "anchors": ["src/GraphCtrl/GraphPipeline/_GPerf/GPerf.cpp: GPerf::perf, inject, recover", "src/GraphCtrl/GraphPipeline/_GPerf/GPerfAspect.h: GPerfAspect", "src/GraphCtrl/GraphElement/GElement.cpp: GElement::popLastAspect, fatProcessor", "src/GraphCtrl/GraphAspect/GAspectManager.cpp: GAspectManager::reflect, popLast"]}
{"id": "C82", "title": "A singleton element is initialised once, lives as long as it is used, and is destroyed once", "statement": "All GSingleton<T> elements share one object. It is initialised exactly when it is first needed, is never initialised again before it was destroyed, runs only while it is initialised and with the managers of the pipeline it runs for, and is destroyed only when no pipeline uses it any more.", "quantifier": "for all numbers of pipelines and of singleton elements in them, all return codes, and all interleavings of init, run and destroy of the pipelines", "why_tests_cant": "Depends on how the life cycles of several pipelines interleave, also inside init (the flag is tested and set in two steps); tests use one pipeline.", "anchors": ["src/GraphCtrl/GraphElement/GAdapter/GSingleton/GSingleton.inl: GSingleton::init, run, destroy, addManagers", "src/UtilsCtrl/Singleton/USingleton.h: USingleton", "src/GraphCtrl/GraphElement/GElementManager.cpp: GElementManager::init, destroy"]}
{"id": "C83", "title": "A run of a mutable group executes exactly what this run's reshape describes", "statement": "In every run the children of a GMutable are related exactly by the arrows of this run's reshape, run exactly if this reshape made them visible, and loop as it said last (once otherwise); nothing of earlier runs remains. If reshape fails, throws, or describes a cycle, no child is executed. init and destroy of the group reach every child.", "quantifier": "for all children, all histories of runs with arbitrary calls in reshape (arrows, --, *, setLoop, setVisible, refused ones included), codes, thread numbers and life cycles", "why_tests_cant": "What may remain from earlier runs (edges, counters, shapes, engine arrays, visibility) is hidden state; each test uses one or two fixed reshapes, and a cycle after a good run does not end.", "anchors": ["src/GraphCtrl/GraphElement/GGroup/GMutable/GMutable.cpp: GMutable::init, run, destroy, setup", "src/GraphCtrl/GraphElement/GElement.cpp: GElement::operator--, operator>, operator*, setVisible, setLoop, addDependGElements", "src/GraphCtrl/GraphElement/GElementManager.cpp: GElementManager::process, initEngine", "src/GraphCtrl/GraphElement/_GEngine/GDynamicEngine/GDynamicEngine.cpp: GDynamicEngine::setup, mark, analysisDagType, serialRunAll"]}
{"id": "C84", "title": "Configuration is frozen while the pipeline is initialised", "statement": "From a successful init to the next destroy, the setters of every element of the pipeline (name, loop, visibility, macro, timeout, level, function, ...) are refused and its configuration stays what init saw; before init and after destroy they are accepted. A node can spawn only meanwhile.", "quantifier": "for all nestings of nodes, regions and other groups, all histories of init, destroy and setters, all answers of the elements", "why_tests_cant": "Whether a setter is refused depends on a flag of each element set by whoever initialises it; tests call setters on top-level nodes only, never on nodes inside groups or after a failed init.", "anchors": ["src/GraphCtrl/GraphElement/GElement.cpp: GElement::setName, setLoop, setLevel, setVisible, setMacro, setTimeout", "src/GraphCtrl/GraphElement/GElementManager.cpp: GElementManager::init, destroy", "src/GraphCtrl/GraphElement/GGroup/GGroup.cpp: GGroup::init, destroy", "src/GraphCtrl/GraphElement/GGroup/GRegion/GRegion.cpp: GRegion::init, destroy", "src/GraphCtrl/GraphElement/GNode/GNode.cpp: GNode::spawn"]}
{"id": "C85", "title": "Every object is deleted exactly once", "statement": "Every pipeline, element, aspect, parameter, daemon, event and stage the library allocates is owned by exactly one pipeline, stays alive while that pipeline is not removed (aspects and parameters: until popped, replaced or removed), and is deleted exactly once: by the remove of its pipeline or by clear at the latest.", "quantifier": "for all histories of create, remove, clear, registrations, group creations, init, destroy, aspect and parameter calls over any number of pipelines", "why_tests_cant": "Ownership is spread over a per-pipeline repository, managers and raw pointers; leaks and double deletes depend on histories across pipelines and on failed calls, which tests do not vary and do not observe without instrumentation.", "anchors": ["src/GraphCtrl/GraphPipeline/GPipelineFactory.cpp: GPipelineFactory::create, remove, clear", "src/GraphCtrl/GraphPipeline/GPipeline.cpp: ~GPipeline, registerGNode, innerRegister", "src/GraphCtrl/GraphPipeline/GPipeline.inl: registerGElement, createGNode, createGGroup, addGDaemon, addGEvent, addGStage", "src/GraphCtrl/GraphElement/GElementRepository.cpp: insert, fetchAll, ~GElementRepository", "src/GraphCtrl/GraphElement/GElement.cpp: ~GElement, popLastAspect", "src/GraphCtrl/GraphParam/GParamManager.cpp: removeByKey, clear"]}
{"id": "C86", "title": "The dumped graph shows exactly the pipeline", "statement": "The text GPipeline::dump writes is a valid graphviz (DOT) text and shows exactly the registered pipeline: one node per element with its name, one edge per relation, loop, cluster step and condition choice with the right numbers, one cluster per group containing exactly the elements of the group at any depth, and nothing else.", "quantifier": "for all nestings of elements of all kinds, all names, loop counts, relations and performance records", "why_tests_cant": "Tests only call dump and look at nothing; whether the text parses and what it says depends on every name, nesting and combination of kinds.", "anchors": ["src/GraphCtrl/GraphPipeline/GPipeline.cpp: GPipeline::dump", "src/GraphCtrl/GraphElement/GElement.cpp: GElement::dump, dumpEdge, dumpElement, dumpElementHeader, dumpPerfInfo", "src/GraphCtrl/GraphElement/GGroup/GGroup.cpp: dumpGroupLabelBegin, dumpGroupLabelEnd", "src/GraphCtrl/GraphElement/GGroup/GCluster/GCluster.cpp: GCluster::dump", "src/GraphCtrl/GraphElement/GGroup/GRegion/GRegion.cpp: GRegion::dump", "src/GraphCtrl/GraphElement/GGroup/GCondition/GCondition.cpp: GCondition::dump", "src/GraphCtrl/GraphElement/GGroup/GSome/GSome.cpp: GSome::dump", "src/GraphCtrl/GraphElement/GAdapter/GFence/GFence.cpp: dumpElement"]}
{"id": "C87", "title": "Dependencies and groups order everything nested in them", "statement": "In a run in which no element fails, for groups nested to any depth on one pool: if an element depends, directly or through others, on d, then nothing inside of it is started before everything inside of d has ended; members of a group are executed only while the group is; a group ends only after everything inside of it; every element at every depth is executed exactly once by the time run returns; and never more nodes execute at a time than there are primary threads and the caller.", "quantifier": "for all trees of groups, dependencies, bindings, pool sizes, steal ranges and interleavings of the threads", "why_tests_cant": "An order that is violated only in rare interleavings of several nested engines on one pool does not show in a test.", "anchors": ["src/GraphCtrl/GraphElement/GGroup/GRegion/GRegion.cpp: GRegion::run", "src/GraphCtrl/GraphElement/_GEngine/GDynamicEngine/GDynamicEngine.cpp: run, commonRunAll, afterElementRun, parallelRunAll, serialRunAll, fatWait", "src/UtilsCtrl/ThreadPool/UThreadPool.inl: execute"]}
{"id": "C88", "title": "The separation check looks through groups", "statement": "checkSeparate(x, y) answers for elements at any depth of nested groups.  It always ends with an answer.  If it answers true, then in every execution of the pipeline (failures, any choices of conditions, any numbers of rounds) no execution of x overlaps with one of y; if it answers false for two different elements of the pipeline, there is an execution in which they overlap.", "quantifier": "for all pipelines of groups nested to any depth with acyclic dependencies, all pairs of elements and all timings of executions", "why_tests_cant": "That two elements never overlap is a statement about all timings; a test sees a few of them, and no test distinguishes 'did not overlap' from 'cannot overlap'.", "anchors": ["src/GraphCtrl/GraphPipeline/GPipeline.cpp: GPipeline::checkSeparate", "src/GraphCtrl/GraphElement/_GOptimizer/GSeparateOptimizer.h: getNearestAncestor, getPatch, checkSeparate", "src/GraphCtrl/GraphElement/GElement.cpp: getDeepPath", "src/GraphCtrl/GraphElement/GGroup: isSeparate of GRegion, GCluster, GCondition, GMultiCondition, GGroup"]}
{"id": "C89", "title": "A serial pipeline with groups completes on the caller's thread", "statement": "If makeSerial accepts a pipeline (possibly with clusters, conditions and regions nested to any depth), the following run executes everything on the thread that called run, although the pool has no thread: no node twice, members of clusters in sequence, the chosen members of conditions, dependants after what they depend on, up to the first failure, and it returns.", "quantifier": "for all pipelines of groups nested to any depth that makeSerial accepts, all answers of user code (choose, isMatch, status of bodies)", "why_tests_cant": "A run that waits for a pool without threads does not return; a test would have to try all combinations of group kinds, bindings, timeouts and nesting depths to find those that are accepted and then do not return.", "anchors": ["src/GraphCtrl/GraphPipeline/GPipeline.cpp: GPipeline::makeSerial", "src/GraphCtrl/GraphElement/GElementManager.cpp: checkSerializable", "src/GraphCtrl/GraphElement/GGroup: isSerializable, run of GCluster, GCondition, GMultiCondition, GRegion", "src/GraphCtrl/GraphElement/_GEngine/GDynamicEngine/GDynamicEngine.cpp: run, analysisDagType, serialRunAll, process", "src/GraphCtrl/GraphElement/GElement.cpp: isSerializable, asyncRun"]}
{"id": "C90", "title": "A failure anywhere in nested groups stops what depends on it and reaches the caller", "statement": "When a body fails inside of groups nested to any depth: nothing inside of an element that (directly or through others) depends on a group around it is ever begun; members of its group that have not been handed out are never begun; every group around it and run() return an error, and they do so only when a body inside has failed; no element is executed twice; the run ends after boundedly many steps, and with enough threads it returns. After run() has returned no element begins.", "quantifier": "for all trees of groups with dependencies, all sets of failing bodies, all interleavings of the threads", "why_tests_cant": "Which members are queued, executed or waiting when a failure is seen depends on the schedule; a test sees a few of the interleavings of a few trees.", "anchors": ["src/GraphCtrl/GraphElement/_GEngine/GDynamicEngine/GDynamicEngine.cpp: run, commonRunAll, process, innerExec, afterElementRun, parallelRunAll, parallelRunOne, serialRunAll", "src/GraphCtrl/GraphElement/_GEngine/GDynamicEngine/GDynamicEngine.h: cur_status_", "src/GraphCtrl/GraphElement/GGroup/GRegion/GRegion.cpp: run", "src/GraphCtrl/GraphElement/GElementManager.cpp: run"]}
{"id": "C91", "title": "Trimming reaches nested groups, keeps the order at every depth and removes every redundant dependency", "statement": "GPipeline::trim() on a pipeline with groups nested to any depth ends; it only removes dependencies; in every group at every depth an element has to wait for exactly the same elements as before; the answer is the number of dependencies removed over all levels; a second trim() removes nothing and answers 0; and no dependency that is implied by others remains in any region of the pipeline.", "quantifier": "for all trees of groups, all acyclic dependencies inside of the groups, all numbers of elements and depths", "why_tests_cant": "The order is preserved only if the matrix of one level, the removal during the iteration and the recursion into regions fit together for every graph at every depth; a test checks a few graphs.", "anchors": ["src/GraphCtrl/GraphElement/_GOptimizer/GTrimOptimizer.h: trim", "src/GraphCtrl/GraphElement/GGroup/GRegion/GRegion.cpp: trim", "src/GraphCtrl/GraphElement/GElementManager.cpp: trim", "src/GraphCtrl/GraphPipeline/GPipeline.cpp: trim", "src/GraphCtrl/GraphElement/GElement.cpp: removeDepend"]}
{"id": "C92", "title": "Passed parameters are private copies", "statement": "addEParam, setAParam, setDParam and setSParam keep a copy of their own: what getEParam, getAParam or the callback yields later is what the object handed in contained at that time, whatever the caller does with that object and with other keys or holders; the latest object under a key counts; another type than the stored one yields nullptr; an initialised element refuses new parameters and keeps the old ones; every copy is deleted exactly once and none is leaked, also when clone() throws; and an object obtained from a holder may be handed to any holder.", "quantifier": "for all programs of any length over any number of objects, holders and keys, and all kinds of holders", "why_tests_cant": "Aliasing, deletion and replacement interact over the whole history of a program; a test sees a few histories and reading a deleted object often goes unnoticed.", "anchors": ["src/GraphCtrl/GraphElement/GElement.inl: addEParam, getEParam", "src/GraphCtrl/GraphElement/GElement.cpp: ~GElement", "src/GraphCtrl/GraphAspect/GAspectObject.inl: setAParam, getAParam", "src/GraphCtrl/GraphDaemon/GDaemonObject.inl: setDParam", "src/GraphCtrl/GraphStage/GStage.inl: setSParam", "src/GraphCtrl/GraphParam/GPassedParam.h: GPassedParam"]}
{"id": "C93", "title": "Distances are those of Euclidean space", "statement": "UDistanceCalculator with UEuclideanDistance yields the Euclidean distance of two vectors (its square without needSqrt) and with UCosineDistance the cosine of the angle between them; normalize yields the vector of length 1 in the same direction, and again the same; with several vectors there is one result per vector in order and the status is the first error; vectors of different or zero size are refused when needCheck is set and are never read out of bounds; and a result that is not a number, or a vector that cannot be normalised, is reported.", "quantifier": "for all real vectors of every dimension, with and without the check, and all lists of vectors", "why_tests_cant": "The dimension and the coordinates are unbounded and the laws (triangle inequality, range, idempotence) relate all of them; a test compares a few literals.", "anchors": ["src/UtilsCtrl/Distance/UDistanceCalculator.h: calculate, normalize", "src/UtilsCtrl/Distance/UDistance.inl: check, normalize", "src/UtilsCtrl/Distance/Common/UEuclideanDistance.h: calc, check", "src/UtilsCtrl/Distance/Common/UCosineDistance.h: calc"]}
{"id": "C94", "title": "Overlapping runs of one pipeline do not disturb each other", "statement": "When run or asyncRun of an initialised pipeline is called while another run of it is going on, either the call is refused, or each of the runs executes every element exactly once and after the element's dependencies in that run, returns after its own elements are done, and returns the status of its own elements.", "quantifier": "for all graphs, numbers of overlapping runs, statuses and interleavings of callers and pool threads", "why_tests_cant": "Whether two runs disturb each other depends on when their steps on the shared counters interleave; a test sees the few interleavings the scheduler happens to choose.", "anchors": ["src/GraphCtrl/GraphPipeline/GPipeline.cpp: run, asyncRun", "src/GraphCtrl/GraphElement/GElementManager.cpp: run", "src/GraphCtrl/GraphElement/_GEngine/GDynamicEngine/GDynamicEngine.cpp: run, commonRunAll, innerExec, afterElementRun, fatWait, prepareRun"]}
{"id": "C95", "title": "An element sees everything its dependencies wrote", "statement": "What an element has written in its run, to any memory and without synchronisation of its own, is visible to every element that depends on it, directly or not, to the caller when run has returned, and to all elements in later runs, whatever threads execute them; the engine itself has no data races.", "quantifier": "for all graphs, schedules, failures, thread assignments and sequences of runs", "why_tests_cant": "On one machine and one compiler a missing ordering rarely shows; visibility is a property of all interleavings under the memory model of C++ and cannot be observed by a test that happens to read the right value.", "anchors": ["src/GraphCtrl/GraphElement/_GEngine/GDynamicEngine/GDynamicEngine.cpp: run, commonRunAll, process, innerExec, afterElementRun, fatWait", "src/GraphCtrl/GraphElement/GElement.h: left_depend_", "src/GraphCtrl/GraphElement/GElement.cpp: refresh"]}
{"id": "C96", "title": "destroy waits for the pipeline's own work", "statement": "When destroy of a pipeline is called after run has returned, also with an error, no element is destroyed while its run function is still being executed by a thread of the pool, none is executed after it was destroyed, every element is destroyed once and before the engine is deleted, and no thread of the pool uses the engine after that.", "quantifier": "for all graphs, schedules, failures, numbers of runs before, and both kinds of thread pools (own and shared)", "why_tests_cant": "Use after free shows only if a thread of the pool is delayed between two instructions until the caller has returned from run and destroyed the pipeline; a test cannot arrange every such delay.", "anchors": ["src/GraphCtrl/GraphPipeline/GPipeline.cpp: destroy", "src/GraphCtrl/GraphPipeline/_GSchedule/GSchedule.cpp: destroy", "src/GraphCtrl/GraphElement/GElementManager.cpp: destroy", "src/GraphCtrl/GraphElement/_GEngine/GDynamicEngine/GDynamicEngine.cpp: process, innerExec, afterElementRun"]}
{"id": "C97", "title": "The number of threads can be changed from inside a task", "statement": "createSecondaryThread and releaseSecondaryThread, called directly, by a GCoordinator element or by the monitor, always return and the program goes on, whichever thread executes the task that calls them and whoever else changes the number of threads at that time; an undisturbed GCoordinator<n> adds n threads or as many as the configuration allows, GCoordinator<-n> tells n threads to end, or none and reports an error if there are less.", "quantifier": "for all numbers of callers, sequences of calls, tasks, pool configurations and interleavings", "why_tests_cant": "Whether a task that changes the number of threads runs on a primary or on a secondary thread, and whether that thread is being retired at that moment, depends on the schedule; a test on an idle pool never sees the thread that joins itself or two threads that wait for each other.", "anchors": ["src/UtilsCtrl/ThreadPool/UThreadPool.cpp: createSecondaryThread, releaseSecondaryThread, monitor", "src/UtilsCtrl/ThreadPool/Thread/UThreadBase.h: reset", "src/GraphCtrl/GraphElement/GAdapter/GCoordinator/GCoordinator.inl: run"]}
{"id": "C98", "title": "Elements that pass a call on execute the function that was chosen", "statement": "An ann node executes prepareParam once and first, then exactly the function that the returned value chooses and no other, then refreshParam exactly if that function returned no error; nothing chosen or a function that is not written is reported as an error, the first error is returned unchanged, exceptions and reported crashes leave the node as exceptions. A function element executes in init, run and destroy the function that was given last for that phase, none (and success) if none was given; giving one is refused exactly while the element is initialised or if there is none, and then changes nothing.", "quantifier": "for all user functions with all outcomes and exceptions, all values of prepareParam, and all sequences of setFunction, init, run and destroy", "why_tests_cant": "A table of eight member functions, two status checks and three function slots give more combinations of choice, outcome and order than a test enumerates; a wrong table entry or check shows only for one of them.", "anchors": ["src/DomainCtrl/Ann/DAnnNode.cpp: run", "src/DomainCtrl/Ann/DAnnDefine.h: D_ANN_FUNC_TYPE", "src/GraphCtrl/GraphElement/GAdapter/GFunction/GFunction.cpp: setFunction, init, run, destroy"]}
{"id": "C99", "title": "Every accepted task is executed eventually", "statement": "A task that the running pool has accepted is executed to its end after finitely many steps, provided that the operating system schedules every thread again and again and lets no thread lose the race for a queue's mutex for ever, even while further tasks keep being submitted.", "quantifier": "for all pool configurations, numbers of threads, states reached, tasks, and all infinite fair schedules of callers and workers, with batches and stealing", "why_tests_cant": "Starvation shows only in an infinite run under a particular load: a test submits finitely many tasks and waits, which succeeds for every order in which a worker looks into its queues.", "anchors": ["src/UtilsCtrl/ThreadPool/Thread/UThreadPrimary.h: processTask, processTasks, popTask, stealTask", "src/UtilsCtrl/ThreadPool/Thread/UThreadSecondary.h: processTask, processTasks, waitRunTask", "src/UtilsCtrl/ThreadPool/Thread/UThreadBase.h: popPoolTask, loopProcess", "src/UtilsCtrl/ThreadPool/UThreadPool.inl: execute, commitWithPriority"]}
{"id": "C100", "title": "The lock-free ring and the spin lock are right on weakly ordered memory", "statement": "On every execution that the C++ memory model allows, with loads that return out-of-date values: one producer and one consumer of a ULockFreeRingBufferQueue never race for a slot, values come out complete and in the order in which they went in, all that the producer did before a push happens before the pop of that value, and a tryPop that returns false misses no push that happens before it; and all that threads do while they own a USpinLock is in one happens-before order, with one owner at a time and no data race.", "quantifier": "for all capacities, values, interleavings, choices of the store that every load reads, and messages between any other threads; for the spin lock all numbers of threads and sequences of lock, tryLock, unlock and accesses", "why_tests_cant": "The machines that tests run on order memory more strongly than the standard demands and the compiler may reorder later; a missing acquire or release is not seen on x86 whatever the test.", "anchors": ["src/UtilsCtrl/ThreadPool/Queue/ULockFreeRingBufferQueue.h: push, tryPop, head_, tail_", "src/UtilsCtrl/ThreadPool/Lock/USpinLock.h: lock, unlock, tryLock"]}
{"id": "C101", "title": "A run of independent elements is right on weakly ordered memory", "statement": "When no two elements depend on each other (fully parallel dag type) and no element fails, on every execution that the C++ memory model allows, with loads that return out-of-date values: elements that use their own data and only read shared inputs have no data race with each other, with elements of other runs, or with the caller between runs; all that elements did is visible to the caller when run() returns, and all that the caller did between runs is visible to the elements of the next run; and no old value of the counter of finished elements makes run() return while an element is being executed or is still waiting.", "quantifier": "for all numbers of elements and of threads, numbers of runs, accesses of elements and of the caller, interleavings, and choices of the store that every load reads", "why_tests_cant": "The counter is increased with memory_order_release only and read without a lock in a busy loop; on x86 every such access is ordered anyway, so no test there shows a missing acquire or release or a value left over from an earlier run.", "anchors": ["src/GraphCtrl/GraphElement/_GEngine/GDynamicEngine/GDynamicEngine.cpp: parallelRunAll, parallelRunOne", "src/GraphCtrl/GraphElement/_GEngine/GDynamicEngine/GDynamicEngine.h: parallel_run_num_"]}
{"id": "C102", "title": "A run of dependent elements is right on weakly ordered memory", "statement": "For a pipeline with dependencies run by the dynamic engine, when no element fails, on every execution that the C++ memory model allows, with loads that return out-of-date values: an element starts at most once in a run and after the end of every element it depends on, directly or not; all that those did to memory is visible to it, all that the elements of a run did is visible to the caller when run() returns and to all later runs, and all that the caller did between runs is visible to the elements of later runs; if elements that do not depend on each other only read what both access, there is no data race, among elements, with the caller between runs, or in the engine; and run() returns, with success, after a bounded number of steps in whichever order threads run and whatever old values the caller reads while it waits.", "quantifier": "for all acyclic graphs, bindings, numbers of worker threads, numbers of runs, accesses of elements and of the caller, interleavings, spurious wake-ups, and choices of the store that every load reads", "why_tests_cant": "Threads hand over by a counter of dependencies per element, which each run resets while others use it, by a queue of tasks, and by a counter that the caller reads in a busy loop and again under a mutex; on x86 every such access is ordered anyway, so no test there shows a missing acquire or release, a value left over from an earlier run or a missed wake-up.", "anchors": ["src/GraphCtrl/GraphElement/_GEngine/GDynamicEngine/GDynamicEngine.cpp: run, commonRunAll, process, innerExec, afterElementRun, fatWait", "src/GraphCtrl/GraphElement/_GEngine/GDynamicEngine/GDynamicEngine.h: finished_end_size_, locker_", "src/GraphCtrl/GraphElement/GElement.h: left_depend_"]}
{"id": "C103", "title": "The static engine is right on weakly ordered memory, also when elements fail", "statement": "For a pipeline run by the static engine, also when elements return errors or throw, on every execution that the C++ memory model allows: an element starts at most once in a run and after the end of every element it depends on, directly or not, and sees all that those did to memory; when run() returns, with success or with an error, every element it started has ended, nothing of the run is left in the pool, and all that its elements did is visible to the caller and to later runs; after success every element was executed; if elements that do not depend on each other only read what both access there is no data race; and run() ends after a bounded number of steps in whichever order threads run. An exception of an element must not break this.", "quantifier": "for all acyclic graphs, sets of macro elements, numbers of worker threads, results and exceptions of elements, numbers of runs, accesses of elements and of the caller, and interleavings", "why_tests_cant": "Rows are committed to the pool and awaited through futures one by one, macros run in the caller in between; whether an exception leaves work behind that meets the next run depends on timing, and x86 orders all hand-overs anyway.", "anchors": ["src/GraphCtrl/GraphElement/_GEngine/GStaticEngine/GStaticEngine.cpp: run, setup", "src/GraphCtrl/GraphElement/_GEngine/GStaticEngine/GStaticEngine.h: element_mat_"]}
{"id": "C104", "title": "A run on the pool's real queues and threads returns", "statement": "When the pipeline uses the dynamic engine on its own thread pool: whatever queue a task is routed to and whichever thread pops or steals it, an element starts at most once in a run and only after its dependencies have finished; and if the operating system keeps scheduling every thread and no thread loses the race for a mutex for ever, every call of run() returns, with OK if no element failed, after every element has been executed exactly once. If an element fails run() must return as well.", "quantifier": "for all acyclic graphs, binding indices, pool configurations (numbers of primary and secondary threads, steal ranges, batch sizes), numbers of runs, results of elements, and fair infinite schedules of the caller and all threads, with spurious wake-ups", "why_tests_cant": "Whether a run gets through depends on infinitely long schedules of the caller and all worker threads over several queues; a test sees finitely many short ones and cannot tell a hang from a slow run.", "anchors": ["src/GraphCtrl/GraphElement/_GEngine/GDynamicEngine/GDynamicEngine.cpp: commonRunAll, process, innerExec, afterElementRun, fatWait", "src/UtilsCtrl/ThreadPool/UThreadPool.inl: execute", "src/UtilsCtrl/ThreadPool/UThreadPool.cpp: dispatch", "src/UtilsCtrl/ThreadPool/Thread/UThreadPrimary.h: run, processTask, stealTask"]}
{"id": "C105", "title": "Blocked senders and receivers of a message channel go on", "statement": "When several threads send to and receive from one message channel: calls take effect one at a time as in the channel of C05, and a receive gives up only when no message is waiting; a receiver never stays asleep while a message waits and nobody is on the way to take it, a sender never while there is room, so they never all sleep; while messages wait and receives are in progress, some receive gets a message, while there is room and sends are in progress, some message is stored; and as long as receives keep coming a send with the WAIT strategy does not block for ever (the single sender's call itself is accepted and returns).", "quantifier": "for all numbers of threads, channel sizes of at least two, messages, strategies, fair infinite schedules of the threads with spurious wake-ups and time-outs at any moment, and choices of which sleeper notify_one wakes", "why_tests_cant": "A lost wake-up shows only under particular orders of unlocking, notifying and sleeping of several threads, and that a call never blocks for ever is a statement about infinite schedules.", "anchors": ["src/UtilsCtrl/ThreadPool/Queue/UAtomicRingBufferQueue.h: push, waitPopWithTimeout", "src/GraphCtrl/GraphMessage/GMessage.h: send, recv"]}
{"id": "C106", "title": "A run of the static engine on the pool's real queues and threads returns", "statement": "When the pipeline uses the static engine on its own thread pool: whatever queue a task is routed to and whichever thread pops or steals it, in every run an element starts at most once and only after its dependencies have finished; if the operating system keeps scheduling the caller and every thread, every call of run() returns, whether or not elements fail; when it has returned nothing is executing and nothing is left in the pool, so that the next run may begin at once; and the result is OK exactly if every element was executed without error, otherwise the status of a failed element. (The pool must have a primary thread, and a secondary one if an element is bound to the long-time strategy or there are more than 101 threads.)", "quantifier": "for all acyclic graphs, binding indices, macro marks, results of elements in each run, pool configurations (numbers of primary and secondary threads, steal ranges, batch sizes), numbers of runs, and fair infinite schedules of the caller and all threads", "why_tests_cant": "Whether every future becomes ready depends on infinitely long schedules of the caller and all worker threads over several queues; a test sees finitely many short ones and cannot tell a hang from a slow run.", "anchors": ["src/GraphCtrl/GraphElement/_GEngine/GStaticEngine/GStaticEngine.cpp: setup, run", "src/UtilsCtrl/ThreadPool/UThreadPool.inl: commit, execute", "src/UtilsCtrl/ThreadPool/Thread/UThreadPrimary.h: run, processTask, stealTask", "src/UtilsCtrl/ThreadPool/Thread/UThreadBase.h: runTask"]}
{"id": "C107", "title": "The work stealing queue acts as if each call happened at once", "statement": "However many threads push to, pop from and steal from the queue of a pool thread at the same time: every call takes effect at one moment between its start and its end, once; pushes append (a batch in one piece), pops take the oldest and steals the newest values, up to the given number; a pop or steal that returns nothing although no other thread was inside the queue found it empty; what was pushed is removed once or still there; whoever gets the queue's mutex gives it back after finitely many of its own steps; and the queue's contents are accessed only by the thread that holds the mutex.", "quantifier": "for all numbers of threads, sequences of calls of all methods and interleavings of their single accesses", "why_tests_cant": "The number of interleavings of single memory accesses is unbounded; a test reaches few of them, and an access without the mutex shows up only in rare ones.", "anchors": ["src/UtilsCtrl/ThreadPool/Queue/UWorkStealingQueue.h: push, tryPush, tryPop, trySteal, isEmpty", "src/GraphCtrl/GraphElement/_GEngine/GDynamicEngine/GDynamicEngine.cpp: parallelRunAll"]}
{"id": "C108", "title": "The shared queue of the pool acts as if each call happened at once, and forgets no waiting thread", "statement": "However many threads use the pool's shared task queue at the same time: every call takes effect at one moment between its start and its end, once, first in first out; while the queue is open, a thread waiting for a value does not stay asleep in front of a non-empty queue when all other threads have finished their calls; after reset() nobody sleeps in a wait with timeout, and those that did return with nothing after a few steps of their own, without waiting for the time to pass; values still in the queue are handed out before it is closed; and the contents are accessed only by the thread that holds the mutex.", "quantifier": "for all numbers of threads, sequences of calls of all methods, interleavings of their single accesses, choices of the thread that is notified, spurious wake-ups and time-outs", "why_tests_cant": "Lost wake-ups and accesses without the mutex need particular interleavings of several threads that a test cannot force; the number of interleavings is unbounded.", "anchors": ["src/UtilsCtrl/ThreadPool/Queue/UAtomicQueue.h: push, tryPop, waitPop, popWithTimeout, empty, reset", "src/UtilsCtrl/ThreadPool/UThreadPool.cpp: destroy", "src/UtilsCtrl/ThreadPool/Thread/UThreadSecondary.h: waitRunTask"]}
{"id": "C109", "title": "An idle thread of the pool does not sleep through its tasks", "statement": "A primary thread of the pool that found nothing to do goes to sleep for some time. It never stays asleep while one of its own tasks waits: it sleeps with a task in its own queue only until the pushing call has made its notification; so every task pushed to it (singly or in a batch) is taken by it or by a thief even if the sleeping time were infinite, and destroying the thread returns likewise. A task put into the shared queue, which it reads too, wakes it, at least with the strategy that wakes all threads. It goes to sleep only when the configured number of consecutive rounds found nothing. What it shares with other threads is accessed without data races.", "quantifier": "for all numbers of clients, sequences of pushes, batches, steals, shared tasks, wake-ups and destructions, all interleavings of single accesses, all infinite fair schedules with or without time-outs and spurious wake-ups, all configured numbers of rounds and batch sizes", "why_tests_cant": "A lost wake-up needs a push between the test of the condition and the sleep; the time-out of one second then hides it from every test that does not measure latency. Whether a call returns on every fair schedule cannot be observed by a finite test.", "anchors": ["src/UtilsCtrl/ThreadPool/Thread/UThreadPrimary.h: fatWait, pushTask, processTask, processTasks", "src/UtilsCtrl/ThreadPool/Thread/UThreadBase.h: reset, wakeup, loopProcess", "src/UtilsCtrl/ThreadPool/UThreadPool.cpp: wakeupAllThread", "src/UtilsCtrl/ThreadPool/UThreadPool.inl: execute"]}
{"id": "C110", "title": "Independent elements on the pool's queues and threads: every run returns", "statement": "In a pipeline whose elements do not depend on each other, run() returns on the pool's real queues and threads: under every fair schedule, whatever the elements return and whatever an earlier failed run left behind. Each element is executed at most once per run; a run that returns OK executed each exactly once, an error is one that an element returned. Handing tasks over in batches, which holds the mutex of a queue from one task to the next, neither blocks the caller nor leaves a queue locked. An element bound to a thread is put into the queue of this thread.", "quantifier": "for all sets of elements, binding indices, pool sizes and batch settings, all infinite fair schedules of the caller and the threads of the pool including lost try_locks and spurious wake-ups, all sequences of runs", "why_tests_cant": "A queue left locked or a lost wake-up shows only under particular interleavings of handing over, popping and stealing; that run returns under all fair schedules cannot be observed by a finite test.", "anchors": ["src/GraphCtrl/GraphElement/_GEngine/GDynamicEngine/GDynamicEngine.cpp: parallelRunAll, parallelRunOne, analysisParallelMatrix", "src/UtilsCtrl/ThreadPool/UThreadPool.inl: execute, executeWithTid", "src/UtilsCtrl/ThreadPool/Queue/UWorkStealingQueue.h: push", "src/GraphCtrl/GraphElement/GElement.h: setBindingIndex"]}
{"id": "C111", "title": "Parameters created, fetched and removed by many threads", "statement": "However many threads call createGParam, getGParam, removeGParam, getKeys and clear of one manager at once, the calls take effect one after another on a typed store, each between its begin and its return. What was created is found by every later getGParam of this key and type until it is removed, all threads get the same object, and its backtrace gets every caller's name once. No call accesses a freed object, no object is freed twice or left behind once removed, and there is no data race. The thread in possession of the mutex gives it back.", "quantifier": "for all numbers of threads, sequences of calls per thread, keys, types and names, and all interleavings of single accesses", "why_tests_cant": "Whether a thread reads the map while another modifies it, or an object while another frees it, depends on the interleaving; a test sees the interleavings it happens to run, and a racing read mostly goes well.", "anchors": ["src/GraphCtrl/GraphParam/GParamManager.inl: create, get", "src/GraphCtrl/GraphParam/GParamManager.cpp: removeByKey, getKeys, clear", "src/GraphCtrl/GraphParam/GParam.cpp: addBacktrace", "src/GraphCtrl/GraphParam/GParamManagerWrapper.h: getGParam"]}
{"id": "C112", "title": "Publishing a topic from many threads", "statement": "However many threads publish a topic and receive from its connections at once, each connection behaves as a bounded first-in-first-out queue of its own. Every subscriber is sent the messages of each publisher in the order of publication, each once and none left out, by the time the publication returns; all subscribers are sent the messages of all publishers in one order. A publication returns: with DROP or REPLACE whatever the others do, with WAIT as long as subscribers keep receiving; a subscriber that does not receive does not keep the messages from the others.", "quantifier": "for all numbers of threads, connections and queue sizes, all sequences of publications and receives, and all (for returning: all fair) interleavings of the steps inside the queues", "why_tests_cant": "Which messages overtake each other, and who sleeps when at which queue, depends on the interleaving; a test runs a few of them, and a call that never returns looks like one that is slow.", "anchors": ["src/GraphCtrl/GraphMessage/GMessageManager.h: pubTopicValue, subTopicValue", "src/GraphCtrl/GraphMessage/GMessage.h: send, recv", "src/UtilsCtrl/ThreadPool/Queue/UAtomicRingBufferQueue.h: push, waitPopWithTimeout"]}
{"id": "C113", "title": "The message manager created at the first use", "statement": "However many threads call GMessageManagerSingleton::get() for the first time at once, exactly one manager is made, every call of every thread returns it, and every thread that gets it uses a constructed object: nothing it reads of the object is unordered with the constructor's writes, and the handle is not accessed by two threads at once without synchronisation.", "quantifier": "for all numbers of threads, sequences of calls, interleavings of single accesses, and all reads that the C++ memory model allows", "why_tests_cant": "Double-checked locking goes wrong only on weakly ordered machines or after compiler reordering, in a window of a few instructions at the first call; a test on x86 passes.", "anchors": ["src/UtilsCtrl/Singleton/USingleton.h: get, create", "src/GraphCtrl/GraphMessage/GMessageManagerSingleton.h: get", "src/GraphCtrl/GraphMessage/GMessageManagerSingleton.cpp: singleton_"]}
{"id": "C114", "title": "Topics created, used and removed by many threads", "statement": "When threads create, remove and clear topics and send and receive on them at the same time, the manager behaves as if each call had looked up or changed the directory of topics at one instant between its beginning and its return; creating a topic twice with the same type and size leaves the one queue, and until it is removed everybody who sends or receives on its name gets this queue; each queue delivers its messages as C05 says, exactly what was sent to it, whatever happens to other topics; removed queues are deleted once, no queue is leaked, and no call accesses a deleted queue or the directory while another thread modifies it.", "quantifier": "for all numbers of threads, sequences of calls on all topics, types and sizes, all interleavings of single steps, timeouts and spurious wake-ups", "why_tests_cant": "A receiver that sleeps in a queue while another thread removes the topic, and a lookup in the map while another thread inserts, need an interleaving that a test meets rarely, and the damage is undefined behaviour, which need not show.", "anchors": ["src/GraphCtrl/GraphMessage/GMessageManager.h: createTopic, removeTopic, sendTopicValue, recvTopicValue, clear", "src/GraphCtrl/GraphMessage/GMessage.h: send, recv"]}
{"id": "C115", "title": "The threads of a pool know their index and have their CPU and scheduling", "statement": "An element that asks for the index of its thread is told i on the i-th primary thread of the pool, -1 on the thread that initialised the pool and -2 on a secondary thread, and is not told that it is on a thread of the pool otherwise, however often the pool is destroyed and initialised again and whichever thread ids the operating system reuses. With CPU binding every primary thread is bound to an existing CPU and the CPUs get equally many up to one, secondary threads are not bound. Every thread gets the configured scheduling policy and priority if these are documented values (OTHER, RR or FIFO; 0 to 99).", "quantifier": "for all sequences of init, destroy, setConfig, threads created and ended, ids given by the operating system, numbers of threads and CPUs, and configured values", "why_tests_cant": "Thread ids that come back, strange policies and CPU counts depend on the machine and its privileges; tests run with the default settings.", "anchors": ["src/UtilsCtrl/ThreadPool/UThreadPool.cpp: init, destroy, getThreadIndex, createSecondaryThread", "src/UtilsCtrl/ThreadPool/Thread/UThreadBase.h: setSchedParam, setAffinity, calcPolicy, calcPriority", "src/GraphCtrl/GraphElement/GElement.cpp: getThreadIndex"]}
{"id": "C116", "title": "Binding to a topic is safe while others publish and subscribe", "statement": "However many threads call bindTopic, pubTopicValue and subTopicValue at once, no two bindings get the same connection id and the ids are given without gaps; a message published after bindTopic has returned reaches that connection exactly once and no connection of another topic; each connection gets the messages of one publisher in the order in which they were published; a subscription receives only from the channel of its own connection id; and no two threads access the maps or sets of the manager at the same time unless both read.", "quantifier": "for all numbers of threads, topics, bindings and messages, all interleavings of the single accesses and all addresses that the allocator returns", "why_tests_cant": "The interleavings that matter are a few instructions wide, and a data race on a std::set or std::unordered_map mostly goes unnoticed in a test run.", "anchors": ["src/GraphCtrl/GraphMessage/GMessageManager.h: bindTopic, pubTopicValue, subTopicValue", "src/GraphCtrl/GraphMessage/GMessage.h: GMessage"]}
{"id": "C117", "title": "The priority queue of the pool acts as if each call happened at once", "statement": "However many threads push, take tasks (one or a batch) and ask whether there are any: the results are those of calls made one after the other; no task is lost or handed out twice, and each keeps the priority it was pushed with; a batch has at most the requested size; no two threads use the queue at the same time; a thread that tries to take tasks is back after a number of its own steps that depends on the batch size only; and it comes back with nothing only if the queue was empty or another thread was inside.", "quantifier": "for all numbers of threads, tasks, priorities and batch sizes, all interleavings of the single accesses and all addresses that the allocator returns, including reused ones", "why_tests_cant": "A task moved out of the queue but not yet removed, or a lock missed at one place, shows in an interleaving of a few instructions that a test meets by chance.", "anchors": ["src/UtilsCtrl/ThreadPool/Queue/UAtomicPriorityQueue.h: push, tryPop, empty", "src/UtilsCtrl/ThreadPool/Queue/UQueueObject.h: mutex_"]}
{"id": "C118", "title": "The time counter measures the time that passed", "statement": "getSpan and reset of a time counter return the whole milliseconds since the last reset, or since the counter was made; what successive resets return adds up to the time that passed, but for less than a millisecond each; when the counter goes out of scope it prints exactly if the time since the last reset reaches the given number of milliseconds.", "quantifier": "for all sequences of calls, all times that pass before any reading of the clock, and all thresholds, negative ones included", "why_tests_cant": "How much time passes between two readings of the clock inside one call is up to the scheduler; a test cannot choose it.", "anchors": ["src/UtilsCtrl/Timer/UTimeCounter.h: getSpan, reset, ~UTimeCounter"]}
