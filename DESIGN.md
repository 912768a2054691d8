# Formal model of kpsr-core (Lean 4)

Sources: `/repo` (klepsydra-technologies/kpsr-core, pinned commit), read as text only.
Model and proofs: `/verif/lean/Verif/`. Build: `cd /verif/lean && lake build`.

Abbreviations used in comments:
`CORE` = core/modules/core/include/klepsydra/core, `CORESRC` = core/modules/core/src,
`MEM` = core/modules/mem_mdlw, `ZMQ` = core/modules/zmq_mdlw, `SOCK` = core/modules/socket_mdlw,
`HP` = high_performance/modules/high_performance/include/klepsydra/high_performance,
`D4` = HP/disruptor4cpp, `SM` = state_machine/modules/state_machine,
`SER` = serialization/modules/serialization/include/klepsydra/serialization.

## Layout

* `Verif/Model/*.lean`: the model, function by function, each definition citing file and lines.
* `Verif/Lemmas/*.lean`: invariants and helper lemmas.
* `Verif/Spec/*.lean`: small specifications, independent of the model's internals, used in the statements.
* `Verif/Props/*.lean`: the property theorems (`Cnn_*`), and beside them concrete cases that meet their hypotheses (`example`s and `Cnn_example*`).
  `Cnn_violation_*` and similar are findings: the code does not have the property there. `*_partial`: only a part of the property, the comment says
  what is missing.
* `seeded/LOG.jsonl`: wrong programs tried against the theorems.

## Modelling conventions

* Sequential objects: a state structure and one total function per method; exceptions, refusals and
  undefined behaviour (UB) are distinct constructors of the result, never silently totalised.
* Concurrent objects: a small-step transition system whose steps are the atomic accesses (or the
  mutex-protected sections) of the code; any number of threads, arbitrary interleaving. An execution is a
  list of steps / reflexive-transitive closure; the theorems quantify over all of them.
* Integers are `Nat`/`Int` unless the property is about wrap-around (ABA counter, 32 bit truncation in
  `has_available_capacity`, availability flag), where the C++ width is modelled.
* User callbacks, cloners, mappers and correlation tests are function parameters (arbitrary).

## Trusted base

* Lean 4.33.0 kernel; axioms at most `propext`, `Classical.choice`, `Quot.sound` (checked by `#print axioms`).
  No axioms of our own.
* The reading of the C++: the model is tied to the code only by the citations.
* Memory model: sequentially consistent interleaving of the atomic steps, except for C61 and C62 (and what is listed with them), which
  use the release/acquire memory of `Model/Memory.lean` (stale loads, views, data races as accesses without happens-before).
* External: C++ standard library containers, `std::mutex`, `std::condition_variable`, `std::thread`, cereal,
  spdlog, moodycamel::ConcurrentQueue, ZeroMQ, POSIX sockets, and the `klepsydra/sdk/*` headers (not in the
  repository): their documented behaviour is the parameter of the model.

## Plan per property

See the table; the status after the work is in `MANIFEST.json`.

| id | modelled | proof |
|----|----------|-------|
| C01-C03 | `LockFreeStack` node buffer, two tagged heads, each thread a program counter; every load, link write and CAS a step | inductive invariant (chains of both lists and privately held cells partition the buffer; a non-stale CAS has an accurate link); refinement to a LIFO stack; ABA witness built by induction over 65536 updates |
| C04, C05 | `SmartObjectPool` acquire/release/destroy over a stack of objects | invariant over histories |
| C06 | `ObjectPoolPublisher` modes over the pool, retained handles | invariant over histories |
| C07-C12 | `SafeQueue` as monitor: each operation a critical section or wait step; waiting sets and notifications | refinement to FIFO history; invariants; witnesses for UB and bound 0 |
| C13 | publisher + poller over SafeQueue | conservation invariant |
| C14-C16 | `SafeEventEmitter`, sequential histories; concurrent emission as snapshot/call/remove steps | refinement to registered-listener list; witness for double fire |
| C17-C18 | `UnsafeMultiListenerEventEmitter` vectors and maps | refinement to live-listener list; witnesses |
| C19 | `UnsafeSingleListenerEventEmitter` | refinement to `Option listener` |
| C20 | `EventEmitterSubscriber` name map over emitter | history theorems; witnesses |
| C21-C24, C27 | disruptor sequencers, one atomic access per step; integer arithmetic at C++ width where truncated | inductive invariants; witness at cursor 2^31 |
| C25, C26 | `batch_event_processor::run` as step machine with environment publishing/alerting/throwing | invariant; witness for the lost halt |
| C28, C29 | multiplexer handler and publisher with explicit object heap for the slots | invariant; witness |
| C30, C31 | event loop = multi-producer ring + batch processor + emitter | composition of the above; witness for restart |
| C32-C36 | `StateMachineImpl`, `StateMachineListener` | refinement to automaton run |
| C37 | `ConfigFile` parser over `List Char` | round trip by induction over the lines |
| C38-C41 | property maps, environments, ZMQ peers with message multiset | refinement to finite map; convergence |
| C42 | `CoreContainer` vectors | history theorems; witness for publication stats |
| C43-C45 | `CallbackHandler(+MultiThread)`, `CacheListener(+MultiThread)` | refinement |
| C46 | poller / scheduler worker and controller threads | invariant; witness for lost stop |
| C47 | `ManagedService` dispatch | fold equation |
| C48-C50 | sockets with an oracle for `read`/`write`/`close` | induction over the oracle |
| C51-C53 | ZMQ dispatch, mappers, channels | history theorems |
| C54 | accesses of the lock-free stack's threads to cells and links | ownership invariant of C01; witness for the link field |
| C55 | pool destruction and the deleter of a handle | history theorem; witness |
| C56 | `emitEvent` of the three emitters opened at each listener call | step invariants; witnesses |
| C57 | conflicting enabled accesses of the ring models to slots and flags | from the invariants of C21-C23; witnesses |
| C58 | publication calls that throw in the middle | accounting invariant; witness |
| C59 | all wait strategies as step machines with mutex and condition variable | invariant: whoever sleeps will be woken |
| C60 | bytes of a message against the event it was made from | characterisation; witness |
| C61 | ring on a release/acquire memory with views (`Model/Memory`, `RaRing`, `RaMulti`, and `RaChain`: a pipeline of any number of processors that wait for one another, whose handlers change the events); ordinary variables with race detection | invariant on views and messages, for one producer and for several (with the plain flags of the code and with release/acquire flags); witnesses for the races caused by the plain flags |
| C62 | blocking and lite wait strategies on that memory (`RaWait`) | invariant: what the mutex knows; witness (store buffering) |
| C63 | publisher and poller on the concurrent queue, queue calls as steps that may refuse or appear empty (`ConcurrentQueue`) | invariant; witness for the shared producer token |
| C64 | the maps of `EventLoopMiddlewareProvider` with all objects ever made (`ProviderMaps`) | invariant over histories of calls; witnesses |
| C65 | destructors as lists of actions beside the threads of the object (`Destroy`) | a static check proved sound and complete for all classes; per class by evaluation or induction on the number of subscribers |
| C66 | single producer ring whose processors read the sequences they track one at a time (`Chain`) | invariant over any dependency graph; induction on the path for transitivity; schedule constructed along an ordering for progress |
| C67 | the stack on release/acquire memory with stale loads (`RaStack`), links as relaxed variables, with and without ordering of dependent reads | the newest values form a state of the C01 invariant; views carried by the list heads cover all nodes on the list; witness for the relaxed load |
| C68 | names of the system, listening sockets with their queues, constructors and accept (`Endpoint`) | invariant over histories; the naming function is injective on addresses that fit; witnesses and universally quantified violations |
| C69 | publisher threads, pool, queue with its policy, delivering thread, listeners that keep events, reference counts (`Pipeline`) | reference counts equal the number of holders, by induction over executions; bound on the holders; worst case schedule constructed for every configuration |
| C70 | destructor of the pool step by step against deleters of objects that are out (`PoolEnd`) | invariant over executions; witnesses for the overlap |
| C71 | infinite executions of the chain model of C66 under weak fairness (Spec/Fair, Spec/Live) | rank induction: distance of a processor to the event, along the order of dependencies; the turn of a thread finds it where it was (`next_own`) |
| C72 | infinite executions of the event loop model of C30 under weak fairness, spurious failures of the compare-and-set only finitely often (Spec/LoopLive) | every claimed sequence is published in the end (claimed < 2^31, induction on the cursor for lost compare-and-sets), then the loop passes it (rank induction); a stalled publisher as counterexample to the unfair version |
| C73 | network of synchronous providers with pools, recycled event objects, nested publications, exceptions and kept events (`SyncNet`) | simulation of the recursive specification `trace` (Spec/SyncNet) by induction on the nesting depth, with an invariant on who owns each event object; free objects counted against the publications that are running |
| C74 | the thread of one scheduled task with real time, the system clock as an arbitrary function of it, durations of every part of every round, and 32-bit narrowing of the sleep time (`Period`) | invariant over the rounds relating calls, clock readings and the rounds that made them |
| C75 | the queue, publishers and poller of C07/C08 with the life of the polling thread (an exception ends it), histories of what came into and left the queue, and infinite executions with fairness (`MemPoller`, `SafeQueue`, `BasicMiddleware`) | a measure (events still to leave, state of the poller in the queue) that every turn of the poller makes smaller; for publishers the monitor invariant (who waits has no room or somebody woken before him); counterexamples: a starving publisher, a throwing listener |
| C76 | publisher of C05 with user functions that may throw after writing, the place of each call relative to the `try` blocks, and a log of the calls (`PubThrow`) | invariant of C05 through every exit; each call against a sequential run of the functions (`runAll`); refinement to C05 when nothing throws; counterexample: a cloner throwing std::out_of_range |
| C77 | the publishers and the poller of C63 with the life of the polling thread, and infinite executions with fairness of threads and of the external queue (`CqPoller`, `ConcurrentQueue`) | events leave the queue while it is not empty and polled, by contradiction with honesty of the queue; a blocked publisher is the only one that can enqueue (no token race), so the queue runs empty; explicit infinite runs for a dead poller and for starvation |
| C78 | publishers with a pool on the step-by-step models of the event loop, the in-memory queue and the concurrent queue (`RefPath` over `EventLoop`, `MemPoller`, `CqPoller`); the reference count is the set of holders of `shared_ptr`s | what a middleware may do to the set of events it holds is stated once (`Lawful`) and proved of each model; then one invariant of publisher and pool for all three; explicit runs for the events that a slot keeps after an exception or a restart |
| C79 | the provider's maps, subscribers, scheduler listener and both levels of emitters (all three types) on the step-by-step model of the event loop (`ElDispatch`); undefined behaviour is an event of the history | a specification automaton over histories of registrations, removals, deliveries and calls (Spec/ElDispatch.lean); refinement by one invariant (emitters represent the registry, the listeners still to be called are those of the specification); then theorems about single listeners by induction over histories the automaton allows; with C31 for the order of acceptance; delivery in infinite fair executions (Spec/ElDispatchLive.lean) by projection to the ring and a measure |
| C80 | the step-by-step model of the stack (C01), one atomic access per step; spurious failures chosen by the schedule | a potential: for each thread the steps left if nothing fails, 2(N-1) for each compare-and-swap still to succeed (it makes N-1 loaded values stale), 2 for a stale value; it falls with every step except at a call (pays 4N+4) and a spurious failure (2); from any state, so for every window of every infinite execution. Boundary: a periodic schedule starves one thread, by induction over rounds |
| C81 | the provider with its subscriber and emitter (three types), as a layer over the step-by-step models of the two in-memory middlewares with their pollers (`MemDispatch` over `MemPoller`, `CqPoller`) | the automaton of C79 as specification; one invariant over an interface of a middleware (`Lawful`), which both middlewares meet; with C75/C77 for the order and for delivery in infinite fair executions: such an execution is one of the middleware, and the polling thread comes back to the queue because the listeners still to be called become fewer |
| C82 | infinite executions of the model of C28 (`DataMux`), one step per access to a shared variable | a measure that every turn of the subscriber makes smaller, reset when it looks for a new batch (at most the ring size); a call of the publisher has a measure too; a publisher that is refused for ever meets, in the end, a ring that everybody has read |
| C83 | new model `ZmqEnd`: threads that encode and send two frames on a shared socket, a transport that may lose messages and filters by subscription, the poller of C51 whose functions decode and publish | the completed publications split into gone and pending ones; the frames that arrived are those of the gone ones kept; what the poller is through with is a prefix of them; in the end: a measure of the network and one of the poller |
| C84 | new model `Locks`: every mutex, condition variable and join of the library; for each function the sequence of locks, unlocks, waits and pieces of unknown code; threads with call stacks whose unknown code calls the library again, returns or throws | invariant: what a thread holds is what its stack still has to unlock, and (if calls respect some order of the mutexes) everything a thread waits for is later than what it holds; deadlocks of natural programs are findings |
| C85 | the model `Locks` of C84 with every read and write of the data the mutexes are there for | two threads that hold the same mutex are one thread; invariant: no access without the mutex conflicts with what another thread will still do; the functions that access data without the mutex are listed exactly, and each gives a reachable race (findings) |
| C86 | `ElSched`: the threads of the basic scheduler (`Scheduler`), as publishers of functions, composed with the ring, loop and dispatch of `ElDispatch`; tasks and listeners may start and stop tasks | invariant that accounts for every firing; the calls in a history are the accepted firings taken up, by C79; explicit schedule of the task's own thread for the return of stop; fair infinite executions (Spec/ElSchedLive.lean) by projection to C79; witnesses for calls after stop and for firings that pile up |
| C87 | `MuxDispatch`: a subscriber of the multiplexer (`DataMux`), created in any reachable state, with its emitter and listeners as in `MemDispatch` | the multiplexer is shown to be a lawful middleware in the sense of C81, so that its histories follow the specification of C79; contents by C29; last call is the newest event by C28; fair infinite executions by projection to C82 (Spec/MuxDispatchLive.lean); witnesses for exceptions and for names registered twice |
| C88 | the ring with many producers of C22-C24 (`MultiRing`), with spurious failures of the compare-and-set | a potential function: every step inside `try_next` is paid by a claim or a result (each claim can spoil at most one attempt of every other producer); the infinite form from the bound for windows; `next` alone by a measure; `next` on a full ring by an invariant; a family of schedules of any length in which one producer starves |
| C89 | `GatingVec`: the vector of gating sequences, one memory access per step: three pointers, blocks of the heap, reallocation, erase; any threads | invariant for executions in which additions and removals do not overlap with other calls (contents = registered and not removed, scans read exactly these, no race, no invalid access); this justifies the one-step additions of the ring models; for overlapping calls: reading freed memory from every state with a full vector, witnesses for lost registrations, skipped processors and the race |
| C90 | no new model: `Mux`, `Chain`, `EvLoop`, `MemP`, `CqP`, `MemD`, `MuxD`, `ElD`, `ElS` | in every reachable state (by the invariants of these models) a step of each thread is possible that the users' obligations allow; from that, a scheduler that serves all threads in turn (`Fair.exists_fair`) gives an infinite fair execution from every reachable state; hence the hypotheses of the liveness theorems (C71, C72, C75, C77, C79, C81, C82, C86, C87) are never vacuous |
| C91 | `FsmR`: the state machine and its listeners with an explicit call stack; code of the user (observers, actions) may make any call, return or throw; the vectors have versions, so that a loop that goes on over a changed vector is noticed (`bad`) | the loops are nested loops (`Lemmas/Loops`): every loop that ends has treated its items once; every event of a history has its cause before it and its consequence after it; with rules for the user (`Ok`) no invalid iterator is used and one-off actions are accounted for; without the rules, or with exceptions, witnesses of undefined behaviour, of a one-off action called twice and of observers never told |
| C92 | `HandlerEnd`: the destructor as steps (derived mutex, removal, memory) against any number of delivering threads that copy the listeners, call them, lock the handler's mutex, leave | invariant over all interleavings: deliveries that began after the removal hold nothing; safe if the destruction begins in a quiet moment; from every other reachable state there is a continuation into undefined behaviour (the condition is exact) |
| C93 | `EnvFile`: a text as four optional sections of typed or wrongly typed entries; the four try blocks of `serialize`, the loading of a map, constructor, `loadFile`, `updateConfiguration`, `exportEnvironment`; the archive library is taken to stay inside a section whose value threw | lookup lemma for every map after reading, for every text; composed with the theorems about `copyFrom` (C40); the full statement fails for wrongly typed values, with an exact description of what is read |
| C94 | `Construct`: constructors as lists of steps (parts constructed, the class virtual calls go to, sources of calls opened), against any number of calls on any number of threads | a static check that is sound and complete for every class, by induction on executions and on the constructor; applied to all constructors that register or start something; mutual exclusion by a lock invariant; two classes violate it |
| C95 | `ZmqEnvPoller`: the frames on the socket, the loop with its two `recv`, the destructor; what cereal makes of a content and what the environment does with a text are parameters | invariant: frames received in pairs, environment equal to a separate specification, for any messages; liveness by fairness and a measure for two-part decodable messages; the full statement fails for other messages, shown from every state |

## Findings: theorems that show where the code does not do what a user would expect

* `C02_oversized_capacity_truncated` (LockFreeStack.lean): **C02, oversized stacks (negation of "holds n elements" for n > 65535).** The constructor accepts a capacity above 65535 but only 65535 elements are ever reachable (16 bit links): in every run of pops one after the other, the 65536th pop reports "empty" although `cap ≥ 65536` elements were created and none was taken twice.
* `C03_aba_wrap_breaks` (LockFreeStack.lean): **C03, outside the window (negation witness).** With exactly 65536 updates between the load and the compare-and-swap of one pop, a pool of three objects hands out the same object to two holders although every client follows the rules; the history is not one of an atomic stack.
* `C05_oversized_pool_exhausted` (ObjectPool.lean): **C05, larger pools (negation of the claim for n > 65535).** A pool of more than 65535 objects reports exhaustion when clients hold 65535 of them, although the others were created and nobody holds them.
* `C06_recycled_content_leaks` (ObjectPool.lean): **C06, recycled content (negation witness).** With a cloner that copies only part of the event, the published event depends on earlier events: a recycled object is not initialised again before cloning. Here events are pairs, the cloner copies the first component and adds to the second.
* `C08_violation_assign_exceeds_bound` (SafeQueue.lean): **C08 fails for assignment and swap**: the bound of the target is kept but not applied, so a queue with bound 1 can hold two items.
* `C09_timed_pop_start` (SafeQueue.lean): **C09/C11, start of a timed pop**: `timeout_pop` on a non-empty queue returns the oldest item at once; on an empty queue with timeout 0 it fails at once and changes nothing; on an empty queue with a positive timeout it waits and changes neither content nor bound.
* `C09_try_pop` (SafeQueue.lean): **C09**: `try_pop` fails exactly when the queue is empty, and then changes nothing; otherwise it returns the oldest item and removes it.
* `C09_try_push` (SafeQueue.lean): **C09**: `try_push` fails exactly when the bound is positive and reached, and then changes nothing; otherwise the item is appended.
* `C10_assignment_not_notified` (SafeQueue.lean): **C10 fails in general** (3): assigning an empty queue to a full one on which a producer waits leaves the producer waiting although there is room.
* `C10_raised_bound_not_notified` (SafeQueue.lean): **C10 fails in general** (2): raising the bound does not wake a waiting producer.
* `C10_swallowed_notification` (SafeQueue.lean): **C10 fails in general** (1): a `timeout_pop` that was notified but reports a timeout swallows the notification: the blocking `pop` of thread 1 waits, an item is queued, and no thread has been woken.
* `C10_swap_deadlock` (SafeQueue.lean): **C10 fails in general** (4): `a.swap(b)` and `b.swap(a)` called concurrently can block each other for ever.
* `C10_swap_deadlock_exact` (SafeQueue.lean): **C10**, exactly when two opposite calls of `swap` (or of assignment) block each other: in every reachable situation but the one where each of them holds its first lock, both calls can still come to their end; in that one neither can move.
* `C11_spurious_wakeup_ub` (SafeQueue.lean): **C11 fails in general** (1): a spurious wake-up makes `timeout_pop` read an empty queue.
* `C11_stolen_item_ub` (SafeQueue.lean): **C11 fails in general** (2): without any spurious wake-up, a second consumer that takes the item first makes the notified `timeout_pop` read an empty queue.
* `C12_copy_loses_bound` (SafeQueue.lean): **C12 fails for copies**: ... but the copy of a bounded queue is not bounded for `try_push` and blocks `push` for ever.
* `C16_once_twice_and_throws` (SafeEmitter.lean): **C16 fails under concurrency**: two overlapping emissions of the same name both call the once listener, and the second one ends with `std::invalid_argument` without calling its remaining handlers.
* `C16_removed_during_emission_throws` (SafeEmitter.lean): **C16 fails under re-entrancy** in one thread: if an earlier listener of the same emission removes the once listener, the emission ends with an exception although the once listener was called only by it.
* `C18_stale_stats` (MultiEmitter.lean): **C18 fails in general** (2): after `removeAllListeners`, a new listener registered without container gets the statistics of the old listener with the same id.
* `C18_stats_after_removal` (MultiEmitter.lean): **C18 fails in general** (1): after one of two listeners is removed, asking for the other one gives null, and asking for the removed one throws `std::out_of_range`.
* `C19_stale_stats` (SingleEmitter.lean): **C19**: statistics of a removed listener remain readable and are counted on when it is removed without container.
* `C20_safe_duplicate_name_leaks` (Subscriber.lean): **C20** fails: a name registered twice on a safe emitter is called twice and the first callback stays after the name has been removed.
* `C20_stats_query_redirects_removal` (Subscriber.lean): **C20** fails: asking for the statistics of the unknown name 2 and then removing name 2 removes the listener registered under name 1 of a multi-listener emitter.
* `C20_stats_query_removal_throws` (Subscriber.lean): **C20** fails: with a safe emitter the same query makes the removal throw.
* `C21_late_gating_overrun` (SingleRing.lean): **C21** fails if a processor is added while claims are unpublished: on a ring of two, sequences 0..2 are claimed (2 reusing the slot of 0, there being no processor), processor 7 is added at the cursor -1, 0 is published and then overwritten by the write of 2 before processor 7 handles it.
* `C22_late_gating_blocks` (MultiRing.lean): **C22** fails: if producer 0 finally publishes sequence 0, the flag of 2 is overwritten; event 2 is published but whatever processor 7 does, it never handles it.
* `C22_late_gating_corrupts` (MultiRing.lean): **C22** fails if a gating sequence is added while a claim is unpublished: the late write of producer 0 replaces the unread event 2 and processor 7 handles `'x'` as event 2.
* `C22_ungated_overlap` (MultiRing.lean): **C22** fails while there is no gating processor: producers 0 and 1 own two sequences (0 and 2) of one slot of a ring of two at the same time.
* `C23_ungated_flag_lost` (MultiRing.lean): **C23** fails while there is no gating processor: sequence 2 is published last by the cursor but its flag is lost.
* `C24_accepts_everything_beyond_int` (MultiRing.lean): **C24** fails: once the cursor has reached 2^31 - n, `try_next(n)` always succeeds, however far behind the gating processors are (the cursor is truncated to `int`).
* `C24_full_ring_overrun` (MultiRing.lean): **C24** fails in the running system: from every state with the cursor in that range in which the ring is full, an undisturbed `try_next(1)` claims, and so the cursor overruns the processor.
* `C24_overruns_at_2_pow_31` (MultiRing.lean): **C24** fails, at a concrete state: ring of 8, processor 8 behind (no slot is free), and `try_next(1)` succeeds.
* `C25_foreign_exception_repeats` (Processor.lean): **C25** is violated by exceptions that are not `std::exception`s: `run()` leaves without recording the events of the batch it has handled; the next `run()` handles them again.
* `C26_livelock` (Processor.lean): The situation is reached, with an event waiting: thread 2 publishes event 0; thread 1 calls `halt()` and does its first store; thread 0 calls `run()` up to `clear_alert`; `halt()` goes on and returns; thread 0 goes on. Nothing is handled.
* `C26_livelock_for_ever` (Processor.lean): **C26** is violated when `run()` starts between the two stores of `halt()`: the processor is alerted and running, so it spins in its loop for ever without handling any event, whatever all threads do, until `run()` or `halt()` is called once more.
* `C26_lost_halt` (Processor.lean): The situation is reached: thread 0 calls `run()` and sets `running_`; thread 1 sees `is_running()` and calls `halt()`, which returns; thread 0 clears the alert and waits.
* `C26_lost_halt_for_ever` (Processor.lean): **C26** is violated when `halt()` comes after `running_` became true but before `clear_alert`: the processor then loops for ever, whatever all threads do, unless `halt()` is called once more or the handler throws a foreign exception.
* `C26_two_runners` (Processor.lean): **C26/C25**: after `halt()`, before the loop has ended, another thread may call `run()`; then two threads run the loop of one processor and every event is handled twice.
* `C26_violation_noop_halt` (Processor.lean): **C26** is violated by the no-op processor: its `halt()` does not alert the barrier, so it never ends `run()`, however often it is called and whatever is published; only an alert given to the barrier from outside does.
* `C28_violation_destroyed_subscriber` (DataMux.lean): Finding against **C28**: a destroyed subscriber stays registered in the ring, so from then on at most as many events as the ring has slots can ever be published, whatever the other subscribers do.
* `C29_violation_held_mutated` (DataMux.lean): Finding against **C29**: with two slots, a listener that keeps the event it received sees it change when `publish(shared_ptr)`, `processAndPublish` or a cloner writes the same slot again (third publication).
* `C29_violation_model_event_shared` (DataMux.lean): Finding against **C29**: with a model event all slots share one object: two events published before the subscriber runs; the content of the first one, unread, is already that of the second, and the listener never sees 10.
* `C30_violation_claimed_at_start` (EventLoop.lean): Finding against **C30**: a publisher that has claimed its sequence when the loop is started and publishes afterwards: the call is not counted as discarded and the event is not delivered.
* `C31_accepted_before_start_is_lost` (EventLoop.lean): **C31** fails, in general: an event that was accepted but has not been emitted when the loop is (re)started is never emitted: not before the loop was first started, not while it was stopped, and not left over when it was stopped.
* `C31_violation_before_first_start` (EventLoop.lean): Finding against **C31**: an event published before the loop is started is not delivered when it is started; the one published after is.
* `C31_violation_left_over` (EventLoop.lean): Finding against **C31**: an event accepted while the loop ran but not consumed when it was stopped is lost by the restart.
* `C34_reentrant_observer_stale` (StateMachine.lean): **C34** fails for the later observers if an earlier one calls `enqueueAndUpdate` from inside its notification: on entering B, observer 0 sends "next", which leads to C. Observer 1 is told of C first and of B last, although the machine is in C.
* `C35_reset_keeps_events` (StateMachine.lean): **C35** fails for events accepted before a reset: they are still in the queue and drive the machine after it is started again.
* `C37_violation_blank_lines` (ConfigFile.lean): **C37 violation**: a line with only a tab, or only a carriage return, is not ignored but rejects the file.
* `C37_violation_conversions` (ConfigFile.lean): **C37 violation**: `true` and `false` are not booleans, and a text with `0x` somewhere is silently an integer.
* `C37_violation_first_word` (ConfigFile.lean): **C37 violation**: of any other value only the first word is returned.
* `C37_violation_key_with_blank` (ConfigFile.lean): **C37 violation**: blanks inside a key: the key is cut, and two different keys collide.
* `C38_violation_dynamic` (Env.lean): **C38 violation** (`DynamicConfigurationProperties`): setting an existing property again, with the same type, is refused and the old value stays, for every map, key and pair of values.
* `C38_violation_property_file` (ConfigFile.lean): **C38 violation** (`PropertyFileEnvironment`): the result is `true` even when the default is returned, and setting has no effect.
* `C39_violation_mem_root` (Env.lean): **C39 violation**: `MemEnv` ignores the root, for every key, value and pair of roots.
* `C39_violation_separator` (Env.lean): **C39 violation**: with a `/` in a key, two different (root, key) pairs are one property; one of them may even have no root.
* `C40_violation_short_circuit` (Env.lean): **C40 violation**: one duplicate string, and the integers of the file are not loaded although none of them existed.
* `C41_violation_concurrent` (Env.lean): **C41 violation**: two concurrent writes of different properties: the peers exchange their environments, each loses its own write, and they stay different.
* `C41_violation_load` (Env.lean): **C41 violation**: loading a file with one duplicate changes the loading peer and is not published.
* `C41_violation_same_millisecond` (Env.lean): **C41 violation**: peers with the same source id ignore each other.
* `C42_detach_publication_removes_all` (Container.lean): Finding against **C42**, in general: detaching one publication statistics removes all of them.
* `C42_races` (Container.lean): Finding (locks): calls of the container from several threads are not safe: `start` and `stop` race with every attach and detach, `detach(PublicationStats)` with itself and with attach, and attaching a service with attaching service statistics (they use different mutexes for the same vector); nothing else does.
* `C42_violation_other_service` (Container.lean): Detaching a service that was never attached removes another one of the same name, and its statistics.
* `C42_violation_publications` (Container.lean): … also those that should stay.
* `C42_violation_same_name` (Container.lean): Finding against **C42**: statistics are detached by name: detaching the second of two functions of the same name removes the first.
* `C43_nested_reply_to_earlier_undefined` (CallbackNested.lean): Finding against **C43**, in general: a reply that arrives inside a callback and correlates with a request up to the one being answered: when both callbacks have returned an invalid iterator was used.
* `C43_violation_called_twice` (Callback.lean): Finding against **C43**: a reply delivered from inside a callback (synchronous middleware) that correlates with the same request calls the same callback again, because the request is erased only after the callback; the second erase then uses an invalid iterator.
* `C43_violation_reply_to_earlier` (CallbackNested.lean): Finding: inside the callback of request 1 a reply to request 0 arrives (both were made by the user beforehand).
* `C43_violation_request_in_callback` (Callback.lean): Finding against **C43**: a callback that issues another request: `push_back` reallocates and `erase(it)` uses an invalid iterator.
* `C43_violation_throwing_callback` (Callback.lean): Finding against **C43**: a callback that throws is called again for the next correlated reply.
* `C44_reentrant_call_deadlocks` (Callback.lean): **C44** fails for the handler with a mutex, in general: a thread that comes back to the handler from inside `publish` or a callback (a synchronous reply, or a request in a callback) waits for the mutex it holds itself; neither it nor any other call on the handler ever makes progress again: nothing is added to the history, whatever happens.
* `C44_violation_synchronous_reply` (Callback.lean): Finding against **C44**: the hypotheses of `C44_reentrant_call_deadlocks` are met by a synchronous reply: the thread in `publish` delivers the reply itself.
* `C45_plain_listener_races` (CacheListener.lean): The plain listener has no such protection: a reader and a deliverer collide.
* `C46_violation_destroy_running` (Poller.lean): **C46** fails: a running poller that is destroyed without `stop` may call `takeEventFromQueue` of the destroyed derived object: the base class joins the thread only after the derived class is gone.
* `C46_violation_event_loop_scheduler` (Scheduler.lean): **C46** fails for the event loop scheduler: the task is executed after `stopScheduledTask` has returned.
* `C46_violation_start_twice` (Scheduler.lean): **C46** fails: starting a task under a name that has not been stopped ends the program, whatever the state of the old task (even if it was a single execution that is long over).
* `C46_violation_stop_hangs` (Poller.lean): **C46** fails: if `start` gave up before the new thread ran, `stop` may hang for ever: a state is reachable from which no continuation, unless a listener throws, lets `stop` return.
* `C46_violation_stop_itself` (Scheduler.lean): **C46** fails for the basic scheduler: a function that stops its own task ends the program, or, if it catches the exception it gets, does not take the name out of the scheduler: the thread ends after this execution, but then another task can not be started under that name.
* `C46_violation_task_throws` (Scheduler.lean): **C46** fails for the basic scheduler: a function that throws ends the program.
* `C47_violation_destroyed` (ManagedService.lean): **C47** fails: whatever happened before, once a slave has been destroyed the next event of any kind calls the destroyed object, because the destructor leaves the listener registered.
* `C47_violation_destroyed_multi` (ManagedService.lean): The same with the unsafe multi-listener emitter.
* `C47_violation_same_name` (ManagedService.lean): **C47** fails: of two slaves with the same name on a subscriber with an unsafe multi-listener emitter the second gets no command.
* `C49_violation_descriptor_zero` (SocketScan.lean): Finding against **C49**: a valid connection whose descriptor is 0 (the process has closed its standard input) can send but never receive: whatever the peer sent, `recvMessage` throws an empty message away and reports a moved socket.
* `C49_violation_small_capacity` (Socket.lean): Strings of capacity 1 and 0 (allowed by the standard for an empty string, not found in libstdc++ or libc++): with 1 nothing is ever read, with 0 the size wraps around.
* `C49_violation_truncated` (Socket.lean): **C49** fails: if the connection breaks (`ECONNRESET`) in the middle of a message, `recvMessage` returns normally with the part received; nothing tells the caller.
* `C50_violation_close_steals` (BaseSocket.lean): The consequence: `close()` is called and its exception caught, the rest of the process opens a file and gets the same number, the socket object is destroyed: the file is closed.
* `C50_violation_close_throws` (BaseSocket.lean): **C50** fails: whenever the system closes the descriptor without error, `close()` throws (unless `errno` happens to be left at `EINTR`), and the object still has the number although the descriptor is closed. The test of the result is inverted.
* `C50_violation_eintr` (BaseSocket.lean): Without any explicit `close()`: if `errno` was left at `EINTR` the destructor calls `::close` again after having succeeded; another thread may have been given the number in between.
* `C50_violation_returns_on_failure` (BaseSocket.lean): `close()` returns normally only if the system reported a failure.
* `C51_violation_one_part` (Zmq.lean): **C51** fails: after one message of one part (topic 9) all later messages are taken apart wrongly: the content is taken for the topic. Here function 7, registered for topic 1, gets the *topic* of the next message.
* `C51_violation_reentrant_registration` (Zmq.lean): A function that calls `registerToTopic` or `unregisterFromTopic` of its own poller never returns: from then on no message is dispatched and no registration takes effect, in any continuation.
* `C51_violation_register_again` (Zmq.lean): **C51** fails: whatever happened before, once a topic has been registered, unregistering it and registering it again does not resume delivery.
* `C52_violation_shared_guard` (Mapper.lean): **C52** fails: a program that includes both headers, in any order and together with any others, gets only one of the two mappers, because the headers share an include guard.
* `C52_violation_short_message` (Mapper.lean): **C52** fails: every message shorter than the object makes the decoder read outside the message, and what it returns depends on memory outside: two memories with the same message give different objects.
* `C54_link_field_data_race` (LockFreeStack.lean): **C54 (negation witness).** The link fields are plain integers accessed without synchronisation: there is an execution (two threads popping from a stack of two) in which one thread is about to read the link of a node that the other is about to write. By the C++ memory model this is a data race, hence undefined behaviour; the other theorems assume that such a read returns some current value.
* `C55_finalizer_skipped` (ObjectPool.lean): **C55 (negation witness).** The finalizer function is not run for every object: an object that is out when the pool is destroyed is deleted without being finalized.
* `C56_violation_multi_add` (Reentry.lean): **C56** fails: a listener that registers another listener for the name that is being emitted, in any state.
* `C56_violation_multi_remove_next` (Reentry.lean): **C56** fails: a listener removes another one that is still to be called, and the emission calls a null function.
* `C56_violation_multi_self_removal` (Reentry.lean): **C56** fails: a listener that removes itself, in any state.
* `C56_violation_single_self_removal` (Reentry.lean): **C56** fails: whenever a listener registered with a container removes itself with the container, the wrapper uses the null statistics pointer as soon as the listener returns.
* `C57_violation_flags` (RingRaces.lean): **C57** fails for the flags: whenever a processor has got to a sequence that is claimed and not yet published, its reading of the flag races with the publication.
* `C57_violation_flags_reached` (RingRaces.lean): Such states are reached by every run in which a processor looks at the cursor between claim and publication, for instance this one.
* `C58_violation_failed_call_counted` (DataMux.lean): Finding against **C58**: `processAndPublish` throws half way through the first call (leaving 99 in the object); the next, successful call publishes 7. The subscriber then consumes two events for one successful publication and counts the half written one as discarded.
* `C58_violation_failed_calls_fill_the_ring` (DataMux.lean): Finding against **C58**: once as many calls failed after the last successful one as the ring has slots (and there is a subscriber), nothing is ever published again: every later publication is discarded.
* `C60_violation_stale_bytes` (Channel.lean): **C60** fails for every pair of events: if the second serialization is shorter and the same pooled object is used (always the case with one publishing thread), the second message ends with the last bytes of the first.
* `C61_violation_multi_event_race` (RaMulti.lean): Violation: if the flag is found set, the handler is called and its read of the event is not ordered after the write of the event either: no order of the language guarantees that the handler sees the event.
* `C61_violation_multi_flag_race` (RaMulti.lean): Violation: the read of the availability flag is not ordered after the write of the producer that published the event — a data race (undefined behaviour in C++), in a run with one producer thread and one processor.
* `C61_violation_multi_write_race` (RaMulti.lean): Violation: the write of producer 8 to the slot is not ordered after the write of producer 7 a lap earlier.
* `C62_violation_lite_lost_alert` (RaWait.lean): The same for an alert: a halt is not noticed.
* `C62_violation_lite_lost_wakeup` (RaWait.lean): Violation (lite strategy): the processor stores `signal_needed_` and then reads an old cursor (store buffering: release stores and acquire loads do not forbid it); the producer stored the cursor and exchanged `signal_needed_` before. The processor sleeps although its sequence has been published and nobody is going to wake it.
* `C63_violation_shared_token` (ConcurrentQueue.lean): Violation: two threads publish through the same publisher (there is one publisher and one token per provider) and are in `try_enqueue` with the same producer token at the same time, which the queue does not allow.
* `C64_violation_late_container` (ProviderMaps.lean): Violation: a container set later is not used by the objects that exist, and nothing at all is attached when there is more than the scheduler.
* `C64_violation_parameters` (ProviderMaps.lean): Violation: the parameters of the second request (pool size, cloner, unsafe mode) are ignored.
* `C64_violation_scheduler_destroys_subscriber` (ProviderMaps.lean): Violation: `getScheduler` with the name of a subscriber destroys that subscriber, to which the application has a pointer.
* `C64_violation_scheduler_type` (ProviderMaps.lean): Violation: with a publisher of another type under the name of the scheduler, the scheduler publishes functions through that publisher.
* `C64_violation_subscriber_is_executor` (ProviderMaps.lean): Violation: after `getScheduler`, `getSubscriber` with its name returns the function executor listener, which is no subscriber at all.
* `C64_violation_type` (ProviderMaps.lean): Violation: the second request asks for a publisher of type 2 and gets the publisher of type 1 (static_pointer_cast of `void`, 110-113).
* `C65_check_complete` (Destroy.lean): The static check is necessary, for every class: if it fails, the threads, running when the destructor starts, can make it go wrong.
* `C65_violation_destructor_waits` (Processor.lean): **C65**, finding: the destructor of a data multiplexer subscriber first waits until its processor runs (data_multiplexer_subscriber.h 117-119). If the processor has left `run()` because a listener threw something that is not a `std::exception`, the flag the destructor waits for stays false whatever happens, as nobody calls `run()` again.
* `C65_violation_event_loop_running` (Destroy.lean): Violation: the destructor of a started event loop provider never completes: the process is terminated.
* `C65_violation_event_loop_subscriber` (Destroy.lean): Before the process is terminated, the loop may call a subscriber that is destroyed.
* `C65_violation_from_zmq_running` (Destroy.lean): Violation: a running ZMQ channel with a registered topic is not: its converters are destroyed before the thread that calls them is stopped.
* `C65_violation_in_memory_running` (Destroy.lean): Violation: a running in-memory provider is not: the poller may use the destroyed queue.
* `C65_violation_scheduled_task` (Destroy.lean): Violation: a scheduled task that was started and not stopped terminates the process when the scheduler is destroyed, be it repeated or not, be it finished or not.
* `C65_violation_slow_start` (Destroy.lean): **C65**, finding: a data multiplexer subscriber that is slow to start is not reported by an exception: the constructor throws after the thread was started, the members are destroyed without the destructor, and the process is terminated whether or not the thread gets to run in the meantime.
* `C66_violation_late_chain` (Chain.lean): **C66, finding**: registration after events were published breaks the chain. `add_gating_sequences` moves the last processor to the cursor, ahead of the processor it depends on, so the producer overwrites events that one has not seen: its handler is looking at event 0 while the slot holds event 2.
* `C67_violation_stale_link` (RaStack.lean): **C67** fails for the C++ memory model: the relaxed load of the head (112) does not order the read of the link after the write of the thread that pushed. A pop of thread 1 reads the head of the third update and an older link, its compare-and-swap succeeds (no counter turn is involved), and the next pop returns element 0, which thread 0 has already got: two owners of one pooled object.
* `C68_violation_closed_twice` (Endpoint.lean): The failed constructor closes its descriptor, throws out of `close()` with the number still in the object, and the destructor of the base closes the number again: by then it may belong to another thread.
* `C68_violation_descriptor` (Endpoint.lean): A server with a descriptor beyond 1023 writes outside the `fd_set` in every call of `accept`.
* `C68_violation_long_path` (Endpoint.lean): Two paths that agree in their first 107 bytes are one.
* `C68_violation_port` (Endpoint.lean): Ports are taken modulo 65536: a server for port 70000 is one for port 4464.
* `C68_violation_report` (Endpoint.lean): **C68** fails: whatever the reason for which `bind`, `listen` or `connect` fails, the exception does not report it as such: `close()` throws first.
* `C68_violation_restart` (Endpoint.lean): A server for a path is closed and cannot be created again: its name stays in the file system. This holds for every path.
* `C68_violation_signal` (Endpoint.lean): The result of `select` is not looked at: after a signal `accept` reports an error before the time is over although nothing is wrong.
* `C68_violation_wrong_server` (Endpoint.lean): A client asks for one server and is connected to another one, whose path is the same up to byte 107.
* `C70_violation_lock_after_delete` (PoolEnd.lean): **C70, finding.** Even a release that starts after `delete pool_` succeeds in locking, because the members are destroyed after the body.
* `C70_violation_lock_then_delete` (PoolEnd.lean): **C70, finding.** An object released while the destructor runs can be pushed to a stack that is already deleted: the deleter locks `this_ptr_`, which protects the pointer to the pool and not the pool.
* `C70_violation_not_finalized` (PoolEnd.lean): **C70, finding.** An object that comes back after the last `pop` is deleted without being finalized, although it was returned to a living pool.
* `C70_violation_pool_gone` (PoolEnd.lean): **C70, finding.** A client whose deleter has locked can be overtaken by the whole destructor.
* `C72_publish_returns` (LoopLive.lean): **C72**. Every call of `publish` returns: after every time `i` thread `p` is outside of `publish` again, if the scheduler does not forget its thread: it never waits for the loop or for another publisher. (`PubFair` includes that `compare_exchange_weak` fails spuriously only finitely often.) Whether the loop runs does not matter.
* `C72_stalled_publisher_blocks_all` (LoopLive.lean): **C72, limit**: without fairness to publishers the statement is false, and one thread stopped in the middle of `publish` blocks the events of all others: sequence 1 was accepted at time 10 and published at time 12, the loop thread runs for ever, every other publisher is treated fairly, and nothing is ever passed to a listener.
* `C73_nothing_leaks` (SyncNet.lean): **C73, nothing is lost.** Between publications of the program (also after exceptions) the events that exist are exactly the kept ones, and the pool of every node contains exactly the objects (the first 65535 if there are more) that are not kept, each once.
* `C74_violation_clock_set_back` (Period.lean): **C74 fails when the clock is set back** during a call: the next call comes later by the amount set back, for every amount below `2^31` microseconds (about 35 minutes).
* `C74_violation_clock_set_forward` (Period.lean): **C74 fails when the clock is set forward** during a call: the next call comes at once.
* `C74_violation_long_task` (Period.lean): **C74 fails after a very long call** (the time to sleep is narrowed to 32 bits): after a call that takes between `2^31` and `2^32` microseconds more than the period (about 36 to 71 minutes), with a clock nobody sets, the thread sleeps on instead of calling the task at once.
* `C75_violation_starvation` (MemLive.lean): C75 fails for a single publisher: in a fair execution with a running poller and calm listeners, thread 2 waits in `publish` for ever while thread 1 publishes again and again.
* `C75_violation_throwing_listener` (MemLive.lean): C75 fails after an exception of a listener. The exception ends the polling loop and nobody notices: from then on, whatever happens without a restart of the middleware, no event reaches a listener; and once the queue of a blocking middleware is full it stays as it is, every `publish` that waits goes on waiting.
* `C76_violation_out_of_range` (PubThrow.lean): **C76, violation.** If the cloner throws `std::out_of_range` on a free pooled event, the publisher takes it for an empty pool: the exception is dropped, the event given back, a new event is made although the pool has free ones, and the cloner runs a second time if the initializer does not throw. The outcome is that of a call on a new event.
* `C76_violation_swallowed` (PubThrow.lean): The exception is swallowed if the second call of the cloner succeeds: this cloner refuses an event that still holds old data.
* `C77_violation_blocked_for_ever` (CqLive.lean): C77 fails for publishers too: after an exception of a listener, in an execution that is fair to thread 2 and to a running poller, the blocking `publish(12)` of thread 2 tries for ever: the full queue refuses, and nobody takes from it.
* `C77_violation_starvation` (CqLive.lean): C77 fails for a discarding publisher among others: in a fair execution with a running poller and an honest queue, thread 2 removes one event after the other and is never accepted, while thread 1 publishes again and again.
* `C77_violation_throwing_listener` (CqLive.lean): C77 fails after an exception of a listener: the exception ends the polling loop and nobody notices; from then on, whatever happens without a restart of the middleware, no event reaches a listener.
* `C78_violation_restart_keeps_event` (RefPath.lean): **Finding.** An event accepted while the loop is stopped is skipped by the next start (C30) — and its slot keeps it: the object is missing from the pool until the slot is reused.
* `C78_violation_throw_keeps_event` (RefPath.lean): **Finding.** A listener that throws on an event loop: the handler does not get to `eventData.reset()` (event_loop_event_handler.h 84), so the slot keeps its `shared_ptr` until another event is written over it, a whole turn of the ring later. Here nothing is in use any more, the loop waits for the next event, and the pool is empty; the next `publish` allocates.
* `C79_violation_name_twice` (ElDispatch.lean): Finding against **C79**: a name registered twice: both listeners are called, and after the removal of the name the first one still is; it can not be removed.
* `C79_violation_publisher_of_scheduler` (ElDispatch.lean): Finding against **C79**: a publisher of events obtained for the topic of the scheduler is the publisher of functions.
* `C79_violation_scheduler_takes_topic` (ElDispatch.lean): Finding against **C79**: a scheduler with the name of a topic in use: the subscriber of the topic is destroyed although users have its address, its listeners get nothing any more, and the next event of the topic is taken for a function.
* `C79_violation_single_external` (ElDispatch.lean): Finding against **C79**: with an external emitter of type `UNSAFE_SINGLE` only the first topic that is subscribed to is served; the events of every other topic are taken up and nobody is called.
* `C79_violation_single_external_scheduler` (ElDispatch.lean): Finding against **C79**: the scheduler of a provider with an external emitter of type `UNSAFE_SINGLE` and a subscriber: its functions are never run.
* `C79_violation_single_listener` (ElDispatch.lean): Finding against **C79**: at a subscriber with an emitter of type `UNSAFE_SINGLE` the second listener is ignored.
* `C79_violation_single_listener_removed` (ElDispatch.lean): Finding against **C79**: and removing the ignored listener removes the first one.
* `C80_lock_free` (LockFree.lean): C80, third part: lock-freedom. In every infinite execution of `N` threads in which `compare_exchange_weak` fails spuriously only finitely often, infinitely many calls return: after every instant `n` some call returns, at the latest `(4 N + 4) N + 1` steps after `n` and after the last spurious failure.
* `C81_violation_exception_ends_delivery` (MemDispatch.lean): Finding against **C81**: after an exception of a listener the polling loop has ended; whatever happens, no event is taken up, for any listener, until the user stops and starts the poller.
* `C81_violation_name_twice` (MemDispatch.lean): Finding against **C81**: a name registered twice: both listeners are called, and after the removal of the name the first one still is; it can not be removed.
* `C81_violation_single_listener` (MemDispatch.lean): Finding against **C81**: with an emitter of type `UNSAFE_SINGLE` the second listener is ignored.
* `C82_violation_destroyed_subscriber` (MuxLive.lean): **C82, finding**: after a subscriber is destroyed and not made again, the number of events published from then on is at most the number of slots, for ever, however long the publisher tries and whatever the other subscribers do.
* `C83_violation_concurrent_publishers` (ZmqEnd.lean): **C83** fails when two threads publish at the same time, even on different topics: the two calls of `send` of a publication are not one step on the shared socket, the frames are mixed up as `A B 7` and `9`. Thread 0 publishes 7 on topic `A`, thread 1 publishes 9 on topic `B`, both publications are completed, and the listener of `A` gets an event with the value 66, the name of topic `B`, which nobody has published; 7 and 9 are lost, and a frame is left over.
* `C83_violation_exception_ends_the_poller` (ZmqEnd.lean): **C83** fails: if decoding a message fails or the internal publisher throws, the polling thread ends without a word; from then on nothing is published internally, for any topic, whatever is sent or registered and however often `start` is called, until `stop` has been called.
* `C83_violation_receiver_out_of_step` (ZmqEnd.lean): **C83** fails, for ever: once one frame is left over (as after `C83_violation_concurrent_publishers`), no event is published internally any more, whatever is published from then on, even by one thread at a time, on whatever topic, and also if the poller is stopped and started again or topics are registered anew; as long as no content happens to be the name of a registered topic.
* `C84_deadlock_stays` (Locks.lean): **C84**: a deadlock is for ever: whatever the other threads do, these threads wait.
* `C84_violation_captured_destructor` (Locks.lean): Finding against **C84**: a listener that is removed captures an object whose destructor uses the emitter, for example to remove another listener.
* `C84_violation_poller_function` (Locks.lean): Finding against **C84**: the function of a topic of a ZMQ poller unregisters itself (or registers another).
* `C84_violation_stop_each_other` (Locks.lean): Finding against **C84**: listeners of two pollers (or event loops) stop the other poller.
* `C84_violation_stop_in_callback` (Locks.lean): Finding against **C84**: the callback of a reply of a `MultiThreadCallbackHandler` stops a poller whose listener makes a request to that handler.
* `C84_violation_swap` (Locks.lean): Finding against **C84**: `a.swap(b)` and `b.swap(a)`, or two assignments, in two threads.
* `C84_violation_synchronous_reply` (Locks.lean): Finding against **C84**: one thread: a request to a `MultiThreadCallbackHandler` whose publisher delivers at once, and a server that replies at once.
* `C84_violation_two_handlers` (Locks.lean): Finding against **C84**: two threads, each in a callback of one `MultiThreadCallbackHandler` that makes a request to the other.
* `C84_violation_waits_with_lock` (Locks.lean): Finding against **C84**: a request of a `MultiThreadCallbackHandler` waits for space in the queue of its publisher and keeps the handler's mutex meanwhile, so that the thread that delivers replies waits for it too (and if the server waits for space in the queue of replies, nobody goes on).
* `C85_violation_copying_time` (Races.lean): Finding against **C85**: somebody reads `totalCopyingTime` while an event arrives.
* `C85_violation_detach_publication` (Races.lean): Finding against **C85**: two threads detach and attach publications; detaching takes no lock.
* `C85_violation_early_reply` (Races.lean): Finding against **C85**: a reply that arrives during the construction of a `MultiThreadCallbackHandler` looks through the requests without the lock, while the first request is added under the lock.
* `C85_violation_emit_and_register` (Races.lean): Finding against **C85**: one thread emits (it reads the number of listeners before it locks), another registers a listener.
* `C85_violation_emit_and_remove` (Races.lean): Finding against **C85**: one thread emits, another removes a listener.
* `C85_violation_move` (Races.lean): Finding against **C85**: a queue is moved from while another thread pops.
* `C85_violation_move_assign` (Races.lean): Finding against **C85**: two queues are assigned to each other by moving; each assignment locks only its target.
* `C85_violation_remove_all` (Races.lean): Finding against **C85**: a subscriber is destroyed (all listeners are removed) while another thread emits and holds the mutex.
* `C85_violation_set_bound` (Races.lean): Finding against **C85**: the bound of a queue is changed while another thread pushes.
* `C85_violation_shared_environment_read` (Races.lean): Finding against **C85**: a shared environment (`ZMQEnv`) has a thread of its own, which replaces the properties when a message arrives, and no mutex: a program with a single thread, which does nothing but read a property, races with it.
* `C85_violation_shared_environment_write` (Races.lean): … and so does one that sets a property; the message it publishes may be made of properties that are being replaced.
* `C85_violation_start_container` (Races.lean): Finding against **C85**: the container is started while another thread registers a listener that it attaches.
* `C85_violation_stats_and_register` (Races.lean): Finding against **C85**: the statistics of a listener are asked for while another thread registers one.
* `C85_violation_two_emissions_with_once` (Races.lean): Finding against **C85**: two threads emit, and one of them has called a once listener, which it removes; nobody else registers or removes anything.
* `C85_violation_two_mutexes` (Races.lean): Finding against **C85**: the list of service statistics is changed under two different mutexes: a service and the statistics of another one are attached.
* `C86_violation_called_after_stop` (ElSched.lean): Finding against **C86**: a task is called after `stopScheduledTask` has returned: its firing was still in the ring.
* `C86_violation_pile_up` (ElSched.lean): Finding against **C86**: firings pile up: nothing keeps a task from firing again before it has been called. Before the loop takes up anything a task with a short period fills the ring of two slots; then its own next firing is refused, and so is the event of a user of another topic.
* `C87_violation_exception_hides_event` (MuxDispatch.lean): Finding against **C87**: the first listener throws: the listeners after it do not get the event, and it is not counted as discarded either; the subscriber has read everything. The next event reaches both.
* `C87_violation_name_twice` (MuxDispatch.lean): Finding against **C87**: a name registered twice: both listeners are called, and after the removal of the name the first one still is; it can not be removed.
* `C88_fails_only_if_overtaken` (ClaimFree.lean): **C88**. Without a spurious failure, a compare-and-set of `next` or `try_next` fails only if another producer has claimed the very sequence that was wanted.
* `C89_violation_first_registration` (GatingVec.lean): **C89 violation**: a producer has loaded the begin of the empty vector; the first processor registers; the producer loads the end, and reads memory that belongs to nothing.
* `C89_violation_freed` (GatingVec.lean): **C89 violation**, in general: a producer that is in the middle of `get_minimum_sequence` on a full vector reads freed memory if another thread registers a processor meanwhile. From every state reached without an overlap, for every growth, every number of processors and every point of the scan. (A new subscriber of a data multiplexer registers on its own thread while the publisher publishes; so does an event loop that is started again.)
* `C89_violation_lost_registration` (GatingVec.lean): **C89 violation**: two subscribers register at the same time. Both calls return, no invalid access is made, and one of the processors is not in the list: the producer does not wait for it.
* `C89_violation_race` (GatingVec.lean): **C89 violation**: a registration during a claim is a data race.
* `C89_violation_removal_hides_another` (GatingVec.lean): **C89 violation**: a producer has read the first processor of three, which is then removed: the producer does not look at the second.
* `C90_publisher` (NeverStuck.lean): **C90**: a thread inside `publish` of an event loop can go on, whether the loop runs or not and whatever other publishers do (`publish` does not wait: it fails when there is no room), as long as fewer than 2^31 events have been published (C24).
* `C91_violation_observer_throws` (FsmReentry.lean): **C91** fails: an observer that throws keeps the observers after it from being told, although the machine is in the new state; nothing tells them later.
* `C91_violation_one_off_reenters` (FsmReentry.lean): **C91** fails: a one-off action that makes the machine enter its state again is called a second time from inside itself, and then the loop it was called from uses the vector that has been erased.
* `C91_violation_one_off_throws` (FsmReentry.lean): **C91** fails: a one-off action that throws is not removed (nor are those before it); it is called again at the next entry of the state.
* `C91_violation_register_in_observer` (FsmReentry.lean): **C91** fails: an observer that registers another observer while it is called makes the notification use an invalid iterator (undefined behaviour).
* `C91_violation_remove_in_action` (FsmReentry.lean): **C91** fails: a periodic action that removes the actions of its own listener, as a user does to stop it, destroys the vector the loop is using.
* `C92_needs_quiet` (HandlerEnd.lean): Finding against **C92**, in general: the condition on the moment is needed. Whatever happened so far, if a thread holds the handler when the destruction begins, there is a continuation in which the handler is used after its end or its mutex destroyed while it is locked.
* `C92_violation_destroyed_by_callback` (HandlerEnd.lean): Finding against **C92**: a callback destroys the handler that calls it (thread 0 runs the destructor from inside its own delivery): `erase` runs on a destroyed vector.
* `C92_violation_mutex_destroyed` (HandlerEnd.lean): Finding against **C92**, handler with a mutex: the mutex is destroyed while a thread that delivers a reply holds it; the mutex does not protect the destruction, since it goes first.
* `C92_violation_not_serial` (HandlerEnd.lean): Finding against **C92**, handler with a mutex: between the end of the mutex and the removal of the listener two threads run the handler at the same time.
* `C92_violation_used_after_end` (HandlerEnd.lean): Finding against **C92**, single threaded handler: a thread has collected the listeners, the handler is destroyed, the thread calls it.
* `C93_new_throws` (EnvFile.lean): **C93**, constructor: it throws exactly if the text cannot be read.
* `C93_violation_load_silent` (EnvFile.lean): Finding against **C93**: a value of another type is not reported: `loadFile` gives `true`, and the properties behind it and those of the sections read later are not there.
* `C93_violation_update_loses` (EnvFile.lean): Finding against **C93**: `updateConfiguration` with such a text says `true`, and properties that were there are lost.
* `C94_check_complete` (Construct.lean): A constructor that fails the check is not sound: some interleaving goes wrong.
* `C94_violation_derived_classes` (Construct.lean): Violation: the callback handler with a mutex and the managed service with a subscriber are not.
* `C94_violation_managed_service` (Construct.lean): Violation: a system event that arrives before the constructor of the base class has returned calls a pure virtual function; one that arrives a moment later runs the functions of a service whose members do not exist yet.
* `C94_violation_mutex_not_constructed` (Construct.lean): Violation: a reply arrives when the functions of the derived handler are in place and its mutex is not: the mutex is used before its construction.
* `C94_violation_not_serial` (Construct.lean): Violation: a reply that arrives a moment earlier runs the function of the base class, without the mutex; it is still at the stored requests when the constructor has finished and the program makes its first request, under the mutex: two threads at the same vector, and nothing undefined was needed.
* `C95_violation_any_topic` (ZmqEnvPoller.lean): Finding against **C95**: the topic is not looked at: an update for the key is adopted from any topic the socket receives.
* `C95_violation_destructor_hangs` (ZmqEnvPoller.lean): Finding against **C95**, the same message and the destructor: the thread waits inside `recv` for a second part, the destructor waits for the thread: as long as no further message arrives neither goes on, whatever is scheduled.
* `C95_violation_malformed` (ZmqEnvPoller.lean): Finding against **C95**, malformed content: whatever happened so far, if a content that cannot be decoded is next, the thread terminates the process.
* `C95_violation_one_part` (ZmqEnvPoller.lean): Finding against **C95**, a message of one part: when it has been received as a topic, the next update is taken apart wrongly: its topic is decoded as a content, which terminates the process if it cannot be decoded.

## Which code is modelled

| code | model | not modelled |
|------|-------|--------------|
| core/lock_free_stack.h | LockFreeStack; weak memory: RaStack | |
| core/smart_object_pool.h, object_pool_publisher.h | ObjectPool, PubThrow, Pipeline, RefPath, PoolEnd | the stack inside is its list of elements (C01) |
| core/safe_event_emitter.h, unsafe_multi_listener_event_emitter.h, unsafe_single_listener_event_emitter.h, event_emitter_factory.h | SafeEmitter, MultiEmitter, SingleEmitter, Reentry | time measurements in the statistics |
| core/event_emitter_subscriber.h, event_emitter_publisher.h, event_emitter_middleware_provider.h | Subscriber, Channel, SyncNet | |
| core/callback_handler.h, cache_listener.h, manage_service.h | Callback, HandlerEnd, Construct, CacheListener, ManagedService | exceptions of the constructors |
| core/config_file.h, prop_file_convert.h, prop_file_environment.* | ConfigFile | reading `float` |
| core/configuration_properties.h, configuration_environment.*, property.h; mem_core/mem_env.*; zmq_core/zmq_env.*, zmq_environment_data.h | Env, EnvFile (reading of texts), Locks (shared environment), ZmqEnvPoller (its thread and socket) | JSON text (cereal) |
| core/core_container.* | Container | the thread that prints the statistics |
| core/to_middleware_channel.h, from_middleware_channel.h, event_forwarder.h; zmq_core/*_to_zmq_channel.h, to_zmq_middleware_provider.h | Channel, ZmqEnd | |
| serialization/*_mapper.h | Mapper, Channel | cereal |
| mem_core/safe_queue.h | SafeQueue | |
| mem_core/basic_publisher.h, safe_queue_poller.h, in_memory_queue_poller.*, basic_middleware_provider.h | BasicMiddleware, MemPoller, Poller | |
| mem_core/concurrent_queue_publisher.h, concurrent_queue_poller.h, concurrent_middleware_provider.h | ConcurrentQueue, CqPoller | moodycamel::ConcurrentQueue itself (its calls are single steps) |
| mem_core/basic_scheduler.*, high_performance/event_loop_scheduler.* | Scheduler, Period, ElSched (tasks on an event loop, end to end) | overlapping calls of start and stop (the map is not synchronised) |
| socket_core/*: data_socket, protocol_simple, string_resizer, base_socket, server_socket, connect_socket | Socket, SocketScan, BaseSocket, Endpoint | utility.h (text of messages), hosts other than the local one |
| zmq_core/zmq_poller.h, *_zmq_poller.h, from_zmq_middleware_provider.h | Zmq, ZmqEnd | ZeroMQ itself |
| disruptor4cpp: sequencers, ring_buffer, sequence, util | Sequencer, MultiRing, SingleRing; weak memory: RaRing, RaMulti, RaChain; the vector of gating sequences: GatingVec | — |
| disruptor4cpp: fixed_sequence_group, barriers on other processors, no_op_event_processor | Chain | |
| disruptor4cpp: batch_event_processor, sequence_barrier, wait_strategies | Processor; weak memory: RaRing, RaChain (processors that wait for one another), RaWait | |
| high_performance/data_multiplexer_*.h | DataMux (liveness: MuxLive), MuxDispatch (listeners of a subscriber) | |
| high_performance/event_loop*.h, eventloop_data_type.h | EventLoop | |
| high_performance/event_loop_middleware_provider.h (name maps, setContainer) | ProviderMaps | |
| high_performance/event_loop_middleware_provider.h, event_loop_subscriber.h, event_loop_function_exec_listener.h (dispatch of events to listeners) | ElDispatch | event types reduced to two (events, functions); emitters that are not synchronised are not changed while they emit (C56) |
| destructors of providers, pollers, schedulers, channels, ZMQEnv | Destroy | the non-virtual destructor of ZMQPoller (deleting through it is undefined by the language) |
| state_machine/*.cpp, *.h | StateMachine, FsmReentry | the JSON loader (cereal) |
| all mutexes, condition variables and joins of the library, and the data they protect | Locks | what the functions compute (in the other models), the statistics objects of the SDK |
| not modelled at all | | sensor.h, system_event.h, version.*, non_copying_stream_buffer.h, json_conf/*, group_definitions.h, cache_line_storage.h, tests, examples, benchmarks |

## Axioms per theorem

From `#print axioms` on every theorem of MANIFEST.json.

* no axioms (31 theorems): C10_swap_deadlock, C12_copy_content_partial, C19_example_stats, C19_stale_stats, C20_safe_duplicate_name_leaks, C20_safe_duplicate_never_removed, C20_stats_query_removal_throws, C38_dynamic_other_type, C40_memory_loads_nothing, C41_ignores_foreign, C42_races, C43_example, C43_violation_request_in_callback, C46_poller_example, C46_scheduler_example, C46_stop_itself_example, C46_thrown_example, C46_violation_destroy_running, C46_violation_event_loop_scheduler, C52_identity_round_trip, C56_single_example, C63_one_publisher_no_race, C68_example, C68_example_restart, C68_violation_descriptor, C68_violation_port, C68_violation_wrong_server, C73_example, C76_example_reported, C76_violation_example, C93_update_unreadable
* `propext` (157 theorems): C14_emission_is_snapshot, C15_running_emission_calls_removed, C16_once_twice_and_throws, C16_removed_during_emission_throws, C19_removed_released, C20_stats_query_redirects_removal, C24_overruns_at_2_pow_31, C25_example_restart, C25_foreign_exception_repeats, C26_example_noop_halt, C26_example_phased, C26_halt_before_run, C26_livelock, C26_lost_halt, C26_two_runners, C32_example_reset, C34_reentrant_observer_stale, C34_stopped_is_silent, C35_reset_keeps_events, C35_stopped_accepts_nothing, C36_actions_run, C36_one_off_once, C36_remove_keeps_entry_actions, C37_string_value, C37_string_value_blank, C37_string_value_hex_total, C37_violation_first_word, C38_dynamic_first_write_partial, C38_violation_dynamic, C38_violation_property_file, C39_violation_mem_root, C39_violation_separator, C40_unreadable_unchanged, C41_heals_example, C41_one_writer_example, C41_violation_concurrent, C41_violation_load, C41_violation_same_millisecond, C42_violation_other_service, C42_violation_publications, C42_violation_same_name, C43_threads_example, C43_violation_called_twice, C43_violation_reply_to_earlier, C43_violation_throwing_callback, C44_reentrant_call_deadlocks, C44_violation_synchronous_reply, C45_plain_listener_races, C46_poller_destroy_partial, C46_poller_stop_returns_partial, C46_poller_stopped, C46_terminated_only_by, C46_thrown_dead, C46_violation_stop_hangs, C47_violation_same_name, C48_example, C48_permanent_errors, C48_temporary_errors, C49_example, C49_receive_on, C49_scan_example, C49_scan_passes_over, C49_violation_small_capacity, C49_violation_truncated, C50_close_invalid, C50_construct, C50_destructor_partial, C50_example, C50_move, C50_no_leak, C50_ownership_partial, C50_violation_close_steals, C50_violation_eintr, C50_violation_returns_on_failure, C51_call_returns, C51_channel_example, C51_example, C51_reentrant_example, C51_violation_one_part, C52_example, C53_from_middleware, C56_safe, C56_safe_example, C56_safe_never_throws, C56_safe_no_deadlock, C56_violation_single_self_removal, C59_example_lite, C62_example, C62_notify_wakes, C62_violation_lite_lost_alert, C62_violation_lite_lost_wakeup, C63_example, C63_publish_accepts, C63_violation_shared_token, C64_example, C64_violation_late_container, C64_violation_parameters, C64_violation_scheduler_type, C64_violation_subscriber_is_executor, C64_violation_type, C65_all_told, C65_example_destructor_waits, C65_example_order_matters, C65_example_queue_used_after_destruction, C65_example_token_used_after_destruction, C65_example_zmq_env_order, C65_runs_until_told, C65_unjoined_never_completes, C65_violation_slow_start, C66_example_ordered, C67_data_owned, C67_example, C67_example_retry, C67_example_stale_empty, C67_example_stale_refused, C67_example_sync, C67_known, C67_violation_stale_link, C68_backlog, C68_violation_closed_twice, C68_violation_long_path, C68_violation_report, C69_discards_only_when_full, C69_example, C69_example_fates, C69_example_recycled, C74_example, C74_example_long, C74_example_stop, C74_round, C77_violation_throwing_listener, C80_example, C80_example_long, C83_example, C83_exception_example, C83_out_of_step_example, C83_violation_concurrent_publishers, C90_publisher, C92_violation_destroyed_by_callback, C92_violation_mutex_destroyed, C92_violation_not_serial, C92_violation_used_after_end, C93_example, C93_load_unreadable, C93_missing_section_keeps, C93_new_throws, C93_violation_load_silent, C93_violation_update_loses, C94_example, C94_locked_overlap_example, C94_unlocked_overlap_example, C94_violation_managed_service, C94_violation_mutex_not_constructed, C94_violation_not_serial, C95_example, C95_hang_example, C95_violation_destructor_hangs
* `Quot.sound` (2 theorems): C41_no_echo, C46_violation_start_twice
* `Quot.sound`, `propext` (311 theorems): C01_obstruction_free, C06_publish_value_partial, C06_recycled_content_leaks, C07_fifo, C07_force_push, C08_bound, C08_lowered_bound_exceeded, C08_violation_assign_exceeds_bound, C09_expire_exact, C09_nonblocking_total, C09_timed_pop_start, C09_try_pop, C09_try_push, C10_assign_wakes_consumers, C10_assignment_not_notified, C10_no_stuck_partial, C10_raised_bound_not_notified, C10_swallowed_notification, C10_swap_deadlock_exact, C10_swap_exchanges, C10_wakeups_partial, C10_woken_consumer_progresses, C11_no_empty_front_partial, C11_spurious_wakeup_ub, C11_stolen_item_ub, C11_timed_pop_result, C12_bound0_push_never_returns, C12_bound0_try_force_partial, C12_copy_loses_bound, C13_blocking_no_loss, C13_bound0_blocking_delivers_nothing, C13_discard_accounting, C13_discard_order, C13_example_waiting, C13_publish_never_blocks, C15_id_reused_after_wrap, C17_name_shared_between_events, C18_stale_stats, C18_stats_after_removal, C19_refines_single, C19_stats, C20_spec_remove, C21_late_gating_overrun, C21_next_returns, C22_late_gating_corrupts, C22_ungated_overlap, C23_ungated_flag_lost, C24_try_next_function, C25_single_delivers_all, C27_example_size, C27_shift, C28_example, C28_violation_destroyed_example, C29_violation_held_mutated, C29_violation_model_event_shared, C30_example, C30_violation_claimed_at_start, C31_violation_before_first_start, C31_violation_left_over, C32_drained, C32_follows_table, C32_since_reset, C33_one_transition, C33_otherwise_nothing, C34_observers, C34_start_notifies, C34_update_notifies, C35_always_declared, C35_reset_partial, C35_undeclared_state_is_stuck, C36_names_agree, C37_comment_ignored, C37_int_plus, C37_int_value, C38_mem_reads_last_write_partial, C40_violation_short_circuit, C41_adopts, C41_converges_partial, C41_heals_partial, C41_kept, C41_nothing_invented_example, C41_one_writer_partial, C42_detach_publication_removes_all, C42_holds_publications_partial, C42_not_started_before_start, C42_started_after_start, C42_started_while_running, C43_nested_example, C43_nested_reply_to_earlier_undefined, C43_nested_request_moves_undefined, C44_no_deadlock_without_reentrance_partial, C45_counter, C45_example, C45_last_is_newest, C45_no_race, C45_single_thread, C46_poller_fair_example, C46_scheduler_fair_example, C46_violation_stop_itself, C46_violation_task_throws, C47_example, C49_get_message, C49_receive_exact, C49_receive_partial, C49_scan_finds_shortest, C49_scan_never, C49_violation_descriptor_zero, C50_violation_close_throws, C51_arrival_order_partial, C51_channel_partial, C51_dispatch, C51_frames_in_pairs, C51_no_deadlock, C51_running_is_registered, C51_violation_reentrant_registration, C51_violation_register_again, C52_decodes_prefix_partial, C52_violation_shared_guard, C52_violation_short_message, C53_binary, C53_example, C53_forwarder, C53_identity, C53_json, C53_round_trip, C53_to_middleware, C53_to_middleware_exact, C53_to_middleware_failures, C53_void_caster, C54_link_field_data_race, C55_example, C55_finalizer_skipped, C56_multi_allowed, C56_multi_example, C56_multi_remove_all, C56_single_on_ignored, C56_single_partial, C56_violation_multi_add, C56_violation_multi_remove_next, C56_violation_multi_self_removal, C57_accesses_are_steps, C57_example, C57_violation_flags, C57_violation_flags_reached, C57_violation_no_gating, C58_failed_call_invisible_partial, C58_violation_example, C58_violation_failed_call_counted, C59_available_is_handled, C59_timed_wait_ends, C60_binary_messages_partial, C60_example, C60_json_messages, C60_violation_stale_bytes, C60_void_caster_messages, C61_chain_example, C61_chain_example_handed_on, C61_chain_example_stale, C61_chain_example_two, C61_example, C61_example_multi, C61_example_multi_stale, C61_example_stale, C61_violation_multi_event_race, C61_violation_multi_flag_race, C61_violation_multi_write_race, C62_returns_for_a_reason, C64_set_container, C64_violation_scheduler_destroys_subscriber, C65_check_sound, C65_completes, C65_data_multiplexer_running, C65_event_loop_stopped_partial, C65_from_zmq_stopped_partial, C65_in_memory_stopped_partial, C65_threads_during_destruction, C65_violation_event_loop_running, C65_violation_scheduled_task, C65_zmq_env_running, C66_example_held_back, C66_example_through, C66_example_upstream, C66_registered, C66_violation_late_chain, C67_known_grows, C68_accept_in_order, C68_accept_own, C68_accept_returns, C68_names_differ, C68_one_server_partial, C68_port_available_partial, C68_right_server_partial, C68_violation_restart, C68_violation_signal, C69_fifo, C69_fifo_discarding, C69_one_fate, C70_example, C70_no_overlap_partial, C70_violation_lock_after_delete, C70_violation_lock_then_delete, C70_violation_not_finalized, C70_violation_pool_gone, C74_one_call_after_stop, C74_one_shot, C74_period_exact_partial, C74_stop_delay_partial, C74_violation_long_task, C75_example, C75_example_throw, C75_violation_starvation, C76_example_history, C76_process_outcome, C76_publish_calls_once_partial, C76_publish_outcome_partial, C76_violation_out_of_range, C76_violation_swallowed, C76_without_exceptions, C77_example_blocking, C77_example_discarding, C77_violation_blocked_for_ever, C78_example_concurrent_queue, C78_example_memory, C80_some_call_returns, C80_starvation_possible, C80_steps_paid_by_calls, C80_steps_paid_by_results, C82_violation_example, C83_delivered_example, C83_mappers_carry, C83_to_the_registered_publisher, C83_violation_exception_ends_the_poller, C84_violation_captured_destructor, C84_violation_poller_function, C84_violation_stop_each_other, C84_violation_stop_in_callback, C84_violation_swap, C84_violation_synchronous_reply, C84_violation_two_handlers, C84_violation_waits_with_lock, C85_example, C85_example_environment, C85_example_queue, C85_example_shared_environment, C85_violation_copying_time, C85_violation_detach_publication, C85_violation_early_reply, C85_violation_emit_and_register, C85_violation_emit_and_remove, C85_violation_move, C85_violation_move_assign, C85_violation_remove_all, C85_violation_set_bound, C85_violation_shared_environment_read, C85_violation_shared_environment_write, C85_violation_start_container, C85_violation_stats_and_register, C85_violation_two_emissions_with_once, C85_violation_two_mutexes, C88_starvation_possible, C89_example, C89_starts_at_cursor, C89_violation_first_registration, C89_violation_lost_registration, C89_violation_race, C89_violation_removal_hides_another, C90_example, C90_example, C90_example, C90_loop, C90_poller, C90_processor, C90_producer, C90_publisher, C90_subscriber, C91_call_notifies, C91_example_nested, C91_follows_table, C91_listener_phases, C91_never_undefined_partial, C91_notified_only_by_calls, C91_one_off_once_partial, C91_phases_only_then, C91_violation_observer_throws, C91_violation_one_off_reenters, C91_violation_one_off_throws, C91_violation_register_in_observer, C91_violation_remove_in_action, C92_at_most_once, C92_destructor_does_not_wait, C92_example, C92_needs_no_delivery, C92_needs_quiet, C92_no_call_after_removal, C92_quiet_destruction_partial, C92_serial_while_alive, C93_later_sections_ignored, C93_read_exact, C93_round_trip, C93_update_partial, C94_check_sound, C94_example_fixed, C94_serial, C94_sound_classes, C94_undisturbed_partial, C95_adopts_partial, C95_frames_in_pairs, C95_run_example, C95_violation_any_topic, C95_violation_malformed, C95_violation_one_part
* `Classical.choice`, `propext` (1 theorems): C80_example_executions
* `Classical.choice`, `Quot.sound`, `propext` (432 theorems): C01_sequential_lifo, C01_stack_linearizable, C02_elements_conserved, C02_give_back_never_refused, C02_oversized_capacity_truncated, C03_aba_wrap_breaks, C03_no_double_handout, C04_handles_distinct, C04_one_holder, C05_acquire_fails_iff, C05_acquire_fails_iff_all_out, C05_all_available_again, C05_each_object_freed_once, C05_oversized_pool_exhausted, C06_allocations_exact, C06_no_allocation_when_pool_suffices, C06_process_exact_content, C06_publish_exact_content, C06_retained_events_untouched, C08_full_empty, C10_call_waits_or_ends, C14_discard_counts, C14_emit, C14_refines_registry, C14_snapshot_is_live, C15_ids_unique, C15_remove_exact, C15_removed_never_called, C16_once_at_most_once_partial, C16_once_called_by_emission, C17_live_ids_distinct, C17_never_crashes, C17_refines_registry, C17_remove_unknown, C18_discard_counts, C18_remove_unknown_keeps_stats, C18_removed_stats_gone, C18_stats_partial, C20_multi_subscriber_partial, C20_safe_subscriber_partial, C21_claimed_slot_is_free, C21_handler_sees_published, C21_no_overrun, C21_published_once, C21_try_next_exact, C21_unread_event_unchanged, C22_claims_tile, C22_handler_sees_published, C22_late_gating_blocks, C22_next_returns, C22_no_overrun, C22_published_once, C22_slot_exclusive, C22_unread_event_unchanged, C23_batch_published, C23_highest_published, C23_is_available, C24_accepts_everything_beyond_int, C24_full_ring_overrun, C24_try_next_exact_partial, C25_delivers_published_prefix, C25_in_order_exactly_once, C25_restart_in_order_partial, C25_single_in_order_exactly_once, C26_halt_stops_partial, C26_livelock_for_ever, C26_lost_halt_for_ever, C26_violation_noop_halt, C27_flag_distinguishes, C27_flag_wraps, C27_index, C27_same_slot, C27_size_check, C28_accounting, C28_batch_ends_with_newest, C28_discarded_iff_full, C28_reader_gets_newest, C28_subsequence_in_order, C28_violation_destroyed_subscriber, C29_content_once, C29_held_for_ever_partial, C29_held_until_wrap_partial, C29_unread_for_ever_partial, C29_unread_unchanged_partial, C30_all_delivered, C30_claims_numbered, C30_delivery_in_claim_order_partial, C30_delivery_per_topic, C30_discarded_iff_full_partial, C30_every_call_accounted, C30_own_topic_only, C31_accepted_before_start_is_lost, C31_drained_restart_partial, C36_empty_id_never_matches, C36_names_distinct, C37_bad_format_rejected, C37_bool_value, C37_duplicate_rejected, C37_grammar, C37_hex_value, C37_no_separator_rejected, C37_read_back_partial, C37_round_trip_partial, C37_space_iff, C37_string_value_blank_example, C37_violation_blank_lines, C37_violation_conversions, C37_violation_key_with_blank, C38_last_write_partial, C38_never_written, C38_reads_last_write_partial, C39_names_distinct_partial, C39_no_overwrite, C40_adds_missing_partial, C40_keeps_existing, C40_load_result, C40_nothing_else, C40_result, C40_success_adds_all, C41_nothing_invented, C42_example, C42_holds_attached_partial, C42_holds_services_partial, C43_keeps_waiting_requests, C43_nested_callbacks_partial, C43_nested_keeps_requests, C43_nested_return_removes_own, C43_plain_is_careful, C43_replies_matched_partial, C43_replies_matched_threads_partial, C43_unmatched_reply_changes_nothing, C44_synchronous_reply_partial, C45_pair_belongs_together, C46_event_loop_scheduler_partial, C46_poller_destructor_returns_fair_partial, C46_poller_start_ends, C46_poller_stop_returns_fair_partial, C46_scheduler_stop_returns, C46_scheduler_stop_returns_fair, C46_scheduler_stopped, C47_commands_multi_partial, C47_commands_safe_partial, C47_violation_destroyed, C47_violation_destroyed_multi, C48_put_message, C49_send_then_receive, C52_includes_partial, C52_reads_inside_iff, C52_round_trip, C54_data_cells_race_free_partial, C55_all_finalized_if_all_returned_partial, C55_finalized_exactly_partial, C56_multi_partial, C56_multi_returns_partial, C57_flag_writes_partial, C57_single_producer, C57_slots_partial, C58_delivered_only_successful, C58_extra_events_bounded_partial, C58_violation_failed_calls_fill_the_ring, C59_no_deadlock, C59_no_lost_wakeup, C59_quiescent, C61_chain_accesses_ordered_partial, C61_chain_exclusive_partial, C61_chain_first_reads_partial, C61_chain_handed_on_partial, C61_chain_no_race_partial, C61_chain_order_partial, C61_chain_right_value_partial, C61_example_multi_fixed, C61_multi_claims_partial, C61_multi_fixed_no_race_partial, C61_multi_fixed_right_value_partial, C61_multi_write_after_reads_partial, C61_single_accesses_ordered_partial, C61_single_no_race_partial, C61_single_right_value_partial, C62_blocking_excl, C62_blocking_fresh_partial, C62_blocking_no_lost_wakeup_partial, C62_blocking_quiescent_partial, C62_excl, C63_blocking_complete_partial, C63_conservation_partial, C63_discards_oldest_partial, C63_in_order_partial, C63_statistics_partial, C64_new_objects_attached, C64_one_scheduler, C64_publisher_as_requested_partial, C64_publisher_identity, C64_publisher_made_by_first_request, C64_scheduler_typed_partial, C64_set_container_scheduler, C64_subscriber_as_requested_partial, C64_subscriber_partial, C65_check_complete, C65_violation_destructor_waits, C65_violation_event_loop_subscriber, C65_violation_from_zmq_running, C65_violation_in_memory_running, C66_after_dependencies, C66_claim_after_all, C66_cycle_never_starts, C66_each_once_in_order, C66_leaf_gating_suffices, C66_next_exact, C66_progress, C66_try_next_exact, C67_elements_ordered_partial, C67_one_owner_partial, C67_own_update_known, C67_refused_partial, C67_results_partial, C67_updates_are_a_stack_partial, C69_all_returned, C69_example_pool_of_queue_size, C69_in_pool_iff_unheld, C69_kept_value, C69_no_allocation, C69_pool_size_exact, C69_queue_bounded, C69_received_is_published, C69_received_value, C69_smaller_pool_allocates, C69_writer_exclusive, C70_all_freed, C70_finalized_or_out_partial, C70_freed_at_most_once, C71_every_event_handled, C71_example, C71_next_returns_partial, C71_violation_oversized_never_returns, C72_accepted_is_delivered, C72_accepted_while_running, C72_example, C72_publish_returns, C72_stalled_publisher_blocks_all, C73_acyclic, C73_endless, C73_kept_untouched, C73_nothing_leaks, C73_pool_restored, C73_synchronous, C74_never_early_partial, C74_on_time_partial, C74_violation_clock_set_back, C74_violation_clock_set_forward, C75_blocking_delivered, C75_delivered, C75_flow, C75_publish_returns_partial, C75_some_publication_accepted, C75_violation_throwing_listener, C76_pool_intact, C76_process_isolated, C76_publish_isolated, C77_blocking_delivered, C77_delivered, C77_discarding_returns_partial, C77_flow, C77_publish_returns, C77_violation_starvation, C78_concurrent_queue_all_back, C78_concurrent_queue_no_allocation, C78_concurrent_queue_partial, C78_event_loop, C78_event_loop_all_back_partial, C78_event_loop_no_allocation, C78_example_event_loop, C78_memory, C78_memory_all_back, C78_memory_no_allocation, C78_violation_restart_keeps_event, C78_violation_throw_keeps_event, C79_all_taken_up, C79_delivered, C79_delivery_completes, C79_dispatch_partial, C79_end_to_end, C79_example, C79_example_throw, C79_live_example, C79_named_listener_gets_all, C79_once_listener_called_once, C79_own_topic_in_order, C79_removed_not_called, C79_scheduled_functions_run, C79_taken_up_in_order, C79_violation_name_twice, C79_violation_publisher_of_scheduler, C79_violation_scheduler_takes_topic, C79_violation_single_external, C79_violation_single_external_scheduler, C79_violation_single_listener, C79_violation_single_listener_removed, C80_lock_free, C81_blocking_delivered, C81_delivered, C81_delivery_completes, C81_dispatch_partial, C81_end_to_end, C81_example_basic, C81_example_concurrent, C81_example_delivered_basic, C81_example_delivered_concurrent, C81_example_throw, C81_in_order, C81_named_listener_gets_all, C81_once_listener_called_once, C81_removed_not_called, C81_taken_up_in_order, C81_violation_exception_ends_delivery, C81_violation_exception_example, C81_violation_name_twice, C81_violation_single_listener, C82_example_delivered, C82_example_publisher, C82_kept_up_to_date, C82_last_event_delivered, C82_publish_returns, C82_publisher_not_refused_for_ever_partial, C82_violation_destroyed_subscriber, C83_delivered_in_the_end_partial, C83_nothing_lost_partial, C83_received_was_published_partial, C83_violation_receiver_out_of_step, C84_deadlock_stays, C84_example, C84_example_listeners, C84_example_plain, C84_listeners_run_unlocked, C84_no_deadlock_partial, C84_no_deadlock_plain_partial, C84_nothing_kept, C84_progress_partial, C84_waiting_unlocked, C85_always_protected, C85_exclusive_changes_partial, C85_no_race_partial, C85_protected_functions_partial, C85_queue_items_partial, C85_shared_environment_partial, C85_table_exact, C86_accepted_called, C86_called_once_in_order, C86_drained, C86_example, C86_example_stops_itself, C86_fired_called_or_refused, C86_firings_accounted, C86_in_a_delivery, C86_live_example, C86_loop_waits_for_stop, C86_not_more_calls_than_firings, C86_one_at_a_time, C86_refusals_counted, C86_stop_returns, C86_stopped_partial, C86_violation_called_after_stop, C86_violation_pile_up, C87_accounting, C87_delivery_completes, C87_dispatch_partial, C87_every_listener_up_to_date, C87_example, C87_example_delivery, C87_example_up_to_date, C87_exception_costs_one_event, C87_in_order, C87_kept_up_to_date, C87_last_event_reaches_listener, C87_listener_reads_what_was_published_partial, C87_live_example, C87_named_listener_gets_all, C87_once_listener_called_once, C87_removed_not_called, C87_taken_up, C87_taken_up_in_the_end, C87_violation_exception_hides_event, C87_violation_name_twice, C88_fails_only_if_overtaken, C88_lists, C88_next_returns_alone, C88_next_returns_only_with_room, C88_next_waits_for_processors, C88_some_call_ends, C88_steps_paid_by_results, C88_try_next_lock_free, C89_minimum_is_lower_bound_partial, C89_minimum_over_registered_partial, C89_no_invalid_access_partial, C89_no_race_partial, C89_remove_reports_partial, C89_violation_freed, C90_example, C90_example, C90_example, C90_example, C90_example, C90_example, C90_fair_execution, C90_fair_execution, C90_fair_execution, C90_fair_execution, C90_fair_execution, C90_fair_execution, C90_fair_execution, C90_fair_execution, C90_fair_execution, C90_loop, C90_loop, C90_poller, C90_poller, C90_publisher, C90_publisher, C90_publisher, C90_publisher, C90_subscriber, C90_task_thread, C91_actions_changed_in_loop, C91_every_action_once, C91_every_observer_once, C91_observers_changed_in_notification, C93_export_new, C93_load_partial, C93_new_environment_partial, C94_check_complete, C94_violation_derived_classes, C95_destructor_returns_partial, C95_received_in_the_end_partial
