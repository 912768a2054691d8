{"id": "C01", "title": "Lock-free stack linearizes to a LIFO stack", "statement": "When any number of threads call push and pop on one LockFreeStack, the values taken out and put in, read in the order in which the calls take effect, form the history of one sequential LIFO stack: no element is lost, duplicated or invented, and a pop that reports 'empty' took effect when the stack was empty.", "quantifier": "every capacity from 1 to 65535, every number of threads, every program of push/pop calls and every interleaving of their atomic steps in which no call is overtaken by 65536 or more successful updates of the same list between its load and its compare-and-swap", "why_tests_cant": "the failures need particular interleavings of several threads; stress tests sample only a few schedules", "anchors": ["core/modules/core/include/klepsydra/core/lock_free_stack.h: LockFreeStack::push, pop, _push, _pop"]}
{"id": "C02", "title": "Stack capacity is exact and a push is refused only when no cell is free", "statement": "A LockFreeStack created with capacity n holds n elements from the start; whenever push returns false, all n cells were at that moment either stored elements or held by another call in progress; in particular giving back an element that was popped earlier never fails when nothing but popped elements is pushed.", "quantifier": "every capacity from 1 to 65535, every number of threads and every interleaving in which no call is overtaken by 65536 or more updates between its load and its compare-and-swap", "why_tests_cant": "a leaked or doubly used cell appears only after a rare interleaving and only shows up much later as a refused push", "anchors": ["core/modules/core/include/klepsydra/core/lock_free_stack.h: LockFreeStack::LockFreeStack, push, pop"]}
{"id": "C03", "title": "ABA protection window of the stack", "statement": "The 16 bit counter stored beside the list head makes a stale compare-and-swap fail as long as fewer than 65536 updates of that list happened since the load; with exactly 65536 updates in between a stale compare-and-swap can succeed and the same cell is handed out twice.", "quantifier": "every number of intervening updates", "why_tests_cant": "65536 exactly interleaved updates inside one preemption are not reachable in a unit test", "anchors": ["core/modules/core/include/klepsydra/core/lock_free_stack.h: head_t, _pop, _push"]}
{"id": "C04", "title": "A pooled object has at most one holder", "statement": "Between the acquire that hands out an object of a SmartObjectPool and the release of that handle, no other acquire hands out the same object.", "quantifier": "every pool size from 1 to 65535, every sequence of acquire and release by any number of clients, every interleaving within the window of C03", "why_tests_cant": "double hand-out depends on long histories and schedules", "anchors": ["core/modules/core/include/klepsydra/core/smart_object_pool.h: SmartObjectPool::acquire, ExternalDeleter", "core/modules/core/include/klepsydra/core/lock_free_stack.h"]}
{"id": "C05", "title": "Pool conservation and exhaustion reporting", "statement": "An acquire throws out_of_range exactly when all objects of the pool are held by clients, every such failure increments objectPoolFails by one, and when all handles are released all poolSize objects can be acquired again; objects released after the pool is destroyed are freed once.", "quantifier": "every pool size from 1 to 65535 and every history of acquire, release and pool destruction", "why_tests_cant": "must hold for every history length and release order", "anchors": ["core/modules/core/include/klepsydra/core/smart_object_pool.h: SmartObjectPool::acquire, add, ~SmartObjectPool, ExternalDeleter"]}
{"id": "C06", "title": "ObjectPoolPublisher publishes the right value and counts allocations exactly", "statement": "publish(e) hands to the underlying publisher an event equal to what the cloner produces from e, processAndPublish(f) an event produced by f from an initialised event; an event object is reused only if no subscriber still holds it; totalEventAllocations equals the initial pool size plus the number of events created outside the pool.", "quantifier": "every pool size, every sequence of publish/processAndPublish and every pattern of subscribers retaining or dropping events", "why_tests_cant": "depends on the retention pattern over unbounded histories", "anchors": ["core/modules/core/include/klepsydra/core/object_pool_publisher.h: ObjectPoolPublisher::ObjectPoolPublisher, internalPublish, processAndPublish"]}
{"id": "C07", "title": "SafeQueue is FIFO without loss or duplication", "statement": "The items returned by the pop family, in the order the pops take effect, together with the items still queued are exactly the pushed items in push order minus those that force_move_push discarded; force_move_push discards only the oldest queued items.", "quantifier": "every bound, every item type, every interleaving of push/move_push/try_push/try_move_push/force_move_push/pop/move_pop/try_pop/try_move_pop/timeout_pop/timeout_move_pop by any number of threads, and every change of the bound", "why_tests_cant": "order and loss bugs depend on histories and schedules", "anchors": ["core/modules/mem_mdlw/include/klepsydra/mem_core/safe_queue.h: SafeQueue"]}
{"id": "C08", "title": "SafeQueue never exceeds its bound", "statement": "A SafeQueue created with bound m>0 never holds more than m items, full() is true exactly when it holds m and empty() exactly when it holds none.", "quantifier": "every m>0, every interleaving of the push, pop, try, force and timeout operations of any number of threads (assignment and swap, and lowering the bound, take items over without looking at the bound)", "why_tests_cant": "must hold at every instant of every schedule", "anchors": ["core/modules/mem_mdlw/include/klepsydra/mem_core/safe_queue.h: push, try_push, force_move_push, full, empty"]}
{"id": "C09", "title": "Non-blocking queue operations fail exactly when they must", "statement": "try_push/try_move_push fail exactly when the queue has a positive bound and is at it, try_pop/try_move_pop fail exactly when it is empty, and a failed call changes nothing.", "quantifier": "every queue content and bound", "why_tests_cant": "over all contents and bounds", "anchors": ["core/modules/mem_mdlw/include/klepsydra/mem_core/safe_queue.h: try_push, try_move_push, try_pop, try_move_pop"]}
{"id": "C10", "title": "No lost wake-up in the blocking queue operations", "statement": "If a pop is blocked then either the queue is empty or a thread that will make progress has been notified, and if a push is blocked then either the queue is full or a thread that will make progress has been notified; hence no execution gets stuck with an item available to a blocked consumer or room available to a blocked producer.", "quantifier": "every bound m>0, any number of producer and consumer threads, every interleaving including spurious wake-ups", "why_tests_cant": "a lost wake-up is a schedule-dependent hang", "anchors": ["core/modules/mem_mdlw/include/klepsydra/mem_core/safe_queue.h: push, move_push, pop, move_pop, condition variables"]}
{"id": "C11", "title": "timeout_pop never reads an empty queue", "statement": "timeout_pop returns true with the oldest item or false without one; it never reads the front of an empty queue.", "quantifier": "every interleaving, including spurious wake-ups and another consumer taking the item first", "why_tests_cant": "needs a spurious wake-up or a stolen item at one precise point", "anchors": ["core/modules/mem_mdlw/include/klepsydra/mem_core/safe_queue.h: timeout_pop, timeout_move_pop"]}
{"id": "C12", "title": "Bound 0 means unbounded, and copies keep the bound", "statement": "With the documented bound 0 no push blocks or fails, and a copied or moved queue keeps the bound and content of its source.", "quantifier": "every queue and content", "why_tests_cant": "ranges over all queue states", "anchors": ["core/modules/mem_mdlw/include/klepsydra/mem_core/safe_queue.h: SafeQueue(size_t), SafeQueue(SafeQueue&&), SafeQueue(const SafeQueue&), operator="]}
{"id": "C13", "title": "Event accounting of the in-memory publisher", "statement": "With discardItemsWhenFull, publish never blocks, and at any time the number of published events equals delivered plus queued plus totalDiscardedEvents; without it nothing is ever discarded. Events reach the emitter in publish order.", "quantifier": "every bound, every interleaving of publishers and the polling thread", "why_tests_cant": "the equation must hold for every schedule", "anchors": ["core/modules/mem_mdlw/include/klepsydra/mem_core/basic_publisher.h: internalPublish", "core/modules/mem_mdlw/include/klepsydra/mem_core/safe_queue_poller.h: SafeQueuePoller::poll"]}
{"id": "C14", "title": "Every registered listener gets every event of its name exactly once, in registration order", "statement": "After any history of on/once/removeListener/removeAllListeners/emitEvent, emitEvent(name,e) calls exactly the listeners registered for that name and not removed, once each, in registration order, with e; listeners of other names are not called.", "quantifier": "every history of emitter operations with fewer than 2^32 registrations and every event name", "why_tests_cant": "over all registration histories", "anchors": ["core/modules/core/include/klepsydra/core/safe_event_emitter.h: on, once, emitEvent, addListener"]}
{"id": "C15", "title": "Listener ids are unique and removal is precise", "statement": "Ids returned by on and once are never reused; removeListener(id) removes exactly that listener, which is never called again, and throws invalid_argument leaving everything unchanged when the id is not registered.", "quantifier": "every history of emitter operations with fewer than 2^32 registrations", "why_tests_cant": "over all histories", "anchors": ["core/modules/core/include/klepsydra/core/safe_event_emitter.h: removeListener, addListener"]}
{"id": "C16", "title": "A once listener fires at most once", "statement": "A listener registered with once is called by the first emission of its name and by no later one.", "quantifier": "every history of operations and every interleaving of concurrent emissions", "why_tests_cant": "two emissions must overlap between snapshot and removal", "anchors": ["core/modules/core/include/klepsydra/core/safe_event_emitter.h: once, emitEvent, removeListener"]}
{"id": "C17", "title": "Multi-listener unsafe emitter delivers to live listeners in registration order", "statement": "After any history of on/removeListener/removeAllListeners, emitEvent(name,e) calls exactly the live listeners of that name once each in registration order; registering an already used listener name returns the id of the existing listener and changes nothing; ids of live listeners are distinct.", "quantifier": "every history of operations", "why_tests_cant": "over all histories", "anchors": ["core/modules/core/include/klepsydra/core/unsafe_multi_listener_event_emitter.h: on, removeListener, emitEvent, removeAllListeners"]}
{"id": "C18", "title": "Listener statistics belong to the listener asked for", "statement": "getListenerStats(id) of the multi-listener unsafe emitter returns the statistics of the live listener id and null for an id that is not live, without throwing.", "quantifier": "every history of operations with or without a container", "why_tests_cant": "depends on removal patterns", "anchors": ["core/modules/core/include/klepsydra/core/unsafe_multi_listener_event_emitter.h: getListenerStats, removeListener, removeAllListeners"]}
{"id": "C19", "title": "Single-listener emitter keeps the first listener", "statement": "At any time at most one listener is registered; emitEvent calls it once per event; on while one is registered is ignored; after removeListener(0) nothing is called until the next on; removing any other id changes nothing.", "quantifier": "every history of operations", "why_tests_cant": "over all histories", "anchors": ["core/modules/core/include/klepsydra/core/unsafe_single_listener_event_emitter.h: on, removeListener, emitEvent"]}
{"id": "C20", "title": "Subscriber names identify listeners", "statement": "registerListener(name) followed by removeListener(name) leaves the emitter as before, removing a name never affects a listener registered under another name, and asking for the statistics of a name has no effect on any listener.", "quantifier": "every history of subscriber operations", "why_tests_cant": "the failing cases need particular sequences of names", "anchors": ["core/modules/core/include/klepsydra/core/event_emitter_subscriber.h: registerListener, removeListener, getSubscriptionStats"]}
{"id": "C21", "title": "Single-producer ring never overwrites an unread event", "statement": "A claim made through next/try_next of the single producer sequencer returns only sequences whose slot has been passed by every gating consumer; so an event is read by each gating consumer with the value that was published.", "quantifier": "every power-of-two size up to 2^30, every number of gating consumers (added while no claim is unpublished), every claim size up to the ring size, every interleaving of the producer with the consumers", "why_tests_cant": "wrap-around relative to a slow consumer is schedule dependent", "anchors": ["high_performance/modules/high_performance/include/klepsydra/high_performance/disruptor4cpp/single_producer_sequencer.h: next, try_next, has_available_capacity, publish"]}
{"id": "C22", "title": "Multi-producer claims are disjoint, gap-free and never overrun a consumer", "statement": "Sequences handed out by next/try_next to different producers are pairwise disjoint and together form an initial segment of the sequence numbers; none is more than the ring size ahead of the slowest gating consumer.", "quantifier": "any number of producers and of gating consumers (at least one, added while no claim is unpublished), every ring size up to 2^30, every claim size and every interleaving of the atomic steps, for cursors below 2^31-1 minus the ring size for try_next", "why_tests_cant": "races between load and compare-and-swap of the cursor", "anchors": ["high_performance/modules/high_performance/include/klepsydra/high_performance/disruptor4cpp/multi_producer_sequencer.h: next, try_next, has_available_capacity"]}
{"id": "C23", "title": "Consumers never pass an unpublished slot", "statement": "get_highest_published_sequence(lo,hi) returns the largest s<=hi such that all of lo..s are published (lo-1 if lo is not), and is_available(s) is true exactly if s has been published and not yet overwritten.", "quantifier": "every publication order by any number of producers, with at least one gating consumer added while no claim is unpublished", "why_tests_cant": "out-of-order publication among several producers, over all wraps of the ring", "anchors": ["high_performance/modules/high_performance/include/klepsydra/high_performance/disruptor4cpp/multi_producer_sequencer.h: publish, is_available, get_highest_published_sequence, calculate_index, calculate_availability_flag"]}
{"id": "C24", "title": "try_next reports a full ring exactly", "statement": "try_next(n) of the multi-producer sequencer fails exactly when fewer than n slots are free and never claims a slot that still holds an unread event, at every cursor value.", "quantifier": "every 64-bit cursor value and consumer position", "why_tests_cant": "the cursor must exceed 2^31 before the error appears", "anchors": ["high_performance/modules/high_performance/include/klepsydra/high_performance/disruptor4cpp/multi_producer_sequencer.h: has_available_capacity(int,int), try_next"]}
{"id": "C25", "title": "Batch processor delivers every published event once, in order", "statement": "From the moment its sequence is added as gating sequence, a batch event processor calls its handler for each published sequence exactly once in increasing order, flagging end of batch exactly on the last available one; a handler exception is reported for that sequence and does not skip or repeat any event; its public sequence never exceeds the last handled event.", "quantifier": "every publication schedule, every batch split, every pattern of handler exceptions, alerts and timeouts", "why_tests_cant": "depends on the interleaving and on batch boundaries", "anchors": ["high_performance/modules/high_performance/include/klepsydra/high_performance/disruptor4cpp/batch_event_processor.h: run", "high_performance/modules/high_performance/include/klepsydra/high_performance/disruptor4cpp/sequence_barrier.h: wait_for", "high_performance/modules/high_performance/include/klepsydra/high_performance/disruptor4cpp/wait_strategies"]}
{"id": "C26", "title": "halt stops the processor", "statement": "After halt() has been called on a started processor, run() returns.", "quantifier": "every interleaving of halt with the start of run", "why_tests_cant": "the race window is a few instructions", "anchors": ["high_performance/modules/high_performance/include/klepsydra/high_performance/disruptor4cpp/batch_event_processor.h: halt, run"]}
{"id": "C27", "title": "Ring indexing", "statement": "Two sequences map to the same slot exactly when they differ by a multiple of the ring size, and the availability flag distinguishes every two sequences of one slot that are less than 2^32 rounds apart.", "quantifier": "all 64-bit non-negative sequences and all power-of-two sizes up to 2^30", "why_tests_cant": "2^64 inputs", "anchors": ["high_performance/modules/high_performance/include/klepsydra/high_performance/disruptor4cpp/ring_buffer.h: operator[]", "high_performance/modules/high_performance/include/klepsydra/high_performance/disruptor4cpp/multi_producer_sequencer.h: calculate_index, calculate_availability_flag"]}
{"id": "C28", "title": "Data multiplexer delivers the newest event of each batch and accounts for the rest", "statement": "For each listener the events delivered are a subsequence of the published ones in order, each batch ends with a delivery of its newest event, and delivered plus discarded events of a listener plus those not yet consumed equals the events published since it subscribed.", "quantifier": "every schedule of publisher and listener threads and every batch split", "why_tests_cant": "schedule dependent", "anchors": ["high_performance/modules/high_performance/include/klepsydra/high_performance/data_multiplexer_event_handler.h: on_event", "high_performance/modules/high_performance/include/klepsydra/high_performance/data_multiplexer_publisher.h", "high_performance/modules/high_performance/include/klepsydra/high_performance/data_multiplexer_subscriber.h"]}
{"id": "C29", "title": "Events in the multiplexer ring are isolated from each other", "statement": "Publishing an event never changes the content of another event that is unread or still held by a listener.", "quantifier": "every sequence of publications through publish(const T&), publish(shared_ptr), processAndPublish and every constructor of the provider", "why_tests_cant": "aliasing only shows when a listener lags or retains an event", "anchors": ["high_performance/modules/high_performance/include/klepsydra/high_performance/data_multiplexer_publisher.h: internalPublish, processAndPublish", "high_performance/modules/high_performance/include/klepsydra/high_performance/data_multiplexer_middleware_provider.h", "high_performance/modules/high_performance/include/klepsydra/high_performance/disruptor4cpp/ring_buffer.h: ring_buffer(T*)"]}
{"id": "C30", "title": "Event loop delivers in publication order, exactly once, and accounts for discards", "statement": "While the loop runs, events of all publishers are delivered one at a time in claim order, each to the listeners of its own topic only; each publish call either leads to exactly one delivery or increments the discarded counter of its publisher, exactly when the ring had no free slot.", "quantifier": "any number of publishers and topics and every interleaving", "why_tests_cant": "schedule dependent", "anchors": ["high_performance/modules/high_performance/include/klepsydra/high_performance/event_loop.h", "high_performance/modules/high_performance/include/klepsydra/high_performance/event_loop_publisher.h: internalPublish", "high_performance/modules/high_performance/include/klepsydra/high_performance/event_loop_event_handler.h: on_event"]}
{"id": "C31", "title": "Stopping and restarting the event loop", "statement": "Events accepted by publish are delivered even if the loop is stopped and started again.", "quantifier": "every sequence of start, stop and publish", "why_tests_cant": "depends on the exact order of stop, publish and start", "anchors": ["high_performance/modules/high_performance/include/klepsydra/high_performance/event_loop.h: start, stop"]}
{"id": "C32", "title": "State machine follows its transition table", "statement": "After any history of start, stop, reset, enqueueEvent and update, the current state is the one obtained by feeding the accepted events in order to the automaton given by the configuration, where an event not matched in the current state is dropped and the first matching transition in declaration order wins.", "quantifier": "every configuration and every history of calls", "why_tests_cant": "all configurations and histories", "anchors": ["state_machine/modules/state_machine/src/state_machine_impl.cpp: StateMachineImpl::update, enqueueEvent, start, stop, reset"]}
{"id": "C33", "title": "At most one transition per update, unconsumed events are kept", "statement": "One update call changes state at most once, consumes exactly the events up to and including the first one that matches, and keeps the rest in order for the next update.", "quantifier": "every configuration, state and event queue", "why_tests_cant": "all queues and configurations", "anchors": ["state_machine/modules/state_machine/src/state_machine_impl.cpp: update"]}
{"id": "C34", "title": "Observers see each update once with the right flag", "statement": "Every effective update notifies every registered observer exactly once with the resulting state, and the change flag is true exactly if that update took a transition; no notification happens while the machine is stopped.", "quantifier": "every configuration, history and set of observers that do not call back into the machine", "why_tests_cant": "all histories", "anchors": ["state_machine/modules/state_machine/src/state_machine_impl.cpp: updateObservers, update, registerObserver, removeObserver"]}
{"id": "C35", "title": "A stopped state machine accepts nothing", "statement": "Events enqueued while the machine is not started have no effect ever; reset returns to the initial state; a state machine only ever is in a state of its configuration provided all transition targets are declared.", "quantifier": "every history and configuration", "why_tests_cant": "all histories", "anchors": ["state_machine/modules/state_machine/src/state_machine_impl.cpp: enqueueEvent, reset, start, stop"]}
{"id": "C36", "title": "State machine listener runs the right actions", "statement": "On a state change notification all one-off actions of the entered state run once and are forgotten, and all recurrent entry actions run once; on every notification all periodic actions of the current state run once; actions of other states never run.", "quantifier": "every set of registered actions and every notification history of machines with a non-empty id", "why_tests_cant": "all histories", "anchors": ["state_machine/modules/state_machine/src/state_machine_listener.cpp: updateCurrentState, add*, removeActions"]}
{"id": "C37", "title": "Configuration file parsing", "statement": "For every sequence of distinct keys and values free of the separator characters, parsing the written file returns each key's value; comments and blank lines are ignored, a duplicate key or a line without '=' is rejected.", "quantifier": "every file content", "why_tests_cant": "all file contents", "anchors": ["core/modules/core/include/klepsydra/core/config_file.h: ConfigFile::extractKeys, parseLine, extractContents, validLine, removeComment"]}
{"id": "C38", "title": "Environment reads return the last write", "statement": "After setProperty(key,v,root), getProperty(key,default,root) gives v and true until the same typed key is set again; a key never set gives the default and false; properties of different types do not interfere.", "quantifier": "every history of set, get and copy operations", "why_tests_cant": "all histories", "anchors": ["core/modules/core/src/configuration_environment.cpp", "core/modules/core/include/klepsydra/core/configuration_properties.h", "core/modules/mem_mdlw/src/mem_env.cpp"]}
{"id": "C39", "title": "Root node and key identify a property", "statement": "Two properties with different (root, key) pairs do not overwrite each other.", "quantifier": "every pair of roots and keys", "why_tests_cant": "all strings", "anchors": ["core/modules/core/include/klepsydra/core/configuration_properties.h: getFullKey", "core/modules/mem_mdlw/src/mem_env.cpp"]}
{"id": "C40", "title": "Copying environments never changes existing values", "statement": "copyFrom adds every property of the source that is missing in the target, keeps existing target values, and reports false exactly if some property existed already.", "quantifier": "every pair of environments", "why_tests_cant": "all pairs of maps", "anchors": ["core/modules/core/src/configuration_environment.cpp: copyFrom", "core/modules/core/include/klepsydra/core/configuration_properties.h: copyFrom"]}
{"id": "C41", "title": "Shared environment over ZMQ converges", "statement": "After all messages are delivered every peer with the same key holds the properties last written; a received update is not sent again; messages of other keys and one's own messages are ignored.", "quantifier": "every number of peers, every order of writes and deliveries", "why_tests_cant": "message interleavings", "anchors": ["core/modules/zmq_mdlw/src/zmq_env.cpp: publishConfiguration, poll, setProperty*"]}
{"id": "C42", "title": "Container attach/detach", "statement": "After any history of attach and detach calls the container holds exactly the services and statistics attached and not detached; detaching one removes only that one; statistics attached while running are started.", "quantifier": "every history of attach, detach, start and stop", "why_tests_cant": "all histories", "anchors": ["core/modules/core/src/core_container.cpp: CoreContainer::attach, detach, start, stop"]}
{"id": "C43", "title": "Replies are matched to requests", "statement": "Each reply is given to the oldest pending request whose correlation test accepts it and to no other; each request callback is called at most once, and a reply without a matching request changes nothing.", "quantifier": "every history of requests and replies and every correlation relation", "why_tests_cant": "all histories and interleavings", "anchors": ["core/modules/core/include/klepsydra/core/callback_handler.h: CallbackHandler::requestAndReply, onReplyReceived"]}
{"id": "C44", "title": "Synchronous replies and the multi-threaded handler", "statement": "A reply delivered from inside the publish call of requestAndReply is matched like any other and requestAndReply returns.", "quantifier": "every schedule including synchronous middleware", "why_tests_cant": "needs a synchronous transport", "anchors": ["core/modules/core/include/klepsydra/core/callback_handler.h: CallbackHandlerMultiThread"]}
{"id": "C45", "title": "Cache listener returns the newest event with its counter", "statement": "getLastReceivedEvent returns the most recently received event, the counter equals the number of events received (as long as it fits an int), and the pair returned by the multi-thread variant belongs together.", "quantifier": "every history and every interleaving of receivers and readers", "why_tests_cant": "all interleavings", "anchors": ["core/modules/core/include/klepsydra/core/cache_listener.h: CacheListener, CacheListenerMultiThread"]}
{"id": "C46", "title": "Stopping a poller or a scheduled task", "statement": "When stop (stopScheduledTask) returns, the function is not called any more, and stop returns.", "quantifier": "every interleaving of the worker with start and stop", "why_tests_cant": "race between thread start and stop", "anchors": ["core/modules/mem_mdlw/src/in_memory_queue_poller.cpp: start, stop, pollingLoop", "core/modules/mem_mdlw/src/basic_scheduler.cpp: ScheduledThread::start, stop"]}
{"id": "C47", "title": "Managed service follows commands", "statement": "startup is called for each Start command and shutdown for each Stop command, in the order received, and Idle does nothing.", "quantifier": "every command sequence", "why_tests_cant": "all sequences", "anchors": ["core/modules/core/include/klepsydra/core/manage_service.h: ManagedService"]}
{"id": "C48", "title": "Message send writes every byte in order", "statement": "putMessageData returns normally exactly if all bytes were accepted by the socket, in order and without repetition, whatever partial writes and temporary errors occur.", "quantifier": "every message and every behaviour of write", "why_tests_cant": "all partial write patterns", "anchors": ["core/modules/socket_mdlw/src/data_socket.cpp: DataSocket::putMessageData"]}
{"id": "C49", "title": "Message receive returns exactly the bytes sent", "statement": "recvMessage gives exactly the bytes sent up to the close of the connection, whatever the read sizes, temporary errors and initial string capacity (at least 2).", "quantifier": "every message, every chunking and every capacity growth of the string", "why_tests_cant": "all chunkings", "anchors": ["core/modules/socket_mdlw/src/protocol_simple.cpp: ProtocolSimple::recvMessage", "core/modules/socket_mdlw/include/klepsydra/socket_core/data_socket.tpp: getMessageData", "core/modules/socket_mdlw/include/klepsydra/socket_core/string_resizer.h"]}
{"id": "C50", "title": "A socket is closed exactly once", "statement": "close() releases the descriptor once and marks the object closed, moving transfers ownership, and the destructor closes nothing that is not owned.", "quantifier": "every history of construction, move, swap, close and destruction", "why_tests_cant": "descriptor reuse races", "anchors": ["core/modules/socket_mdlw/src/base_socket.cpp: close, swap, operator=, ~BaseSocket"]}
{"id": "C51", "title": "ZMQ poller dispatches by topic", "statement": "A received message goes to the function registered for its topic and to no other, in arrival order; after unregistering nothing is delivered, and registering again resumes delivery.", "quantifier": "every history of register, unregister and message arrivals", "why_tests_cant": "all histories", "anchors": ["core/modules/zmq_mdlw/include/klepsydra/zmq_core/zmq_poller.h", "core/modules/zmq_mdlw/include/klepsydra/zmq_core/from_zmq_middleware_provider.h"]}
{"id": "C52", "title": "Memory-image mapper round trip", "statement": "Decoding what the void caster mapper encoded gives back the object, and decoding never reads outside the message.", "quantifier": "every object and every received message", "why_tests_cant": "all byte strings", "anchors": ["serialization/modules/serialization/include/klepsydra/serialization/void_caster_mapper.h", "serialization/modules/serialization/include/klepsydra/serialization/identity_mapper.h"]}
{"id": "C53", "title": "Middleware channels forward every event once", "statement": "An event published to a to-middleware channel is mapped and passed on exactly once and in order; a from-middleware channel passes every received message mapped back exactly once; composing both with an inverse mapper is the identity on event sequences.", "quantifier": "every event sequence and mapper", "why_tests_cant": "all sequences", "anchors": ["core/modules/core/include/klepsydra/core/to_middleware_channel.h", "core/modules/core/include/klepsydra/core/from_middleware_channel.h", "core/modules/core/include/klepsydra/core/event_forwarder.h"]}
{"id": "C54", "title": "No unsynchronised concurrent access inside the lock-free stack", "statement": "No two threads access the same ordinary (non-atomic) memory location of the stack at the same time with one of them writing.", "quantifier": "every interleaving of push and pop by any number of threads", "why_tests_cant": "race detectors only see executed schedules", "anchors": ["core/modules/core/include/klepsydra/core/lock_free_stack.h: _pop (index_next read), _push (index_next write), push, pop"]}
{"id": "C55", "title": "The finalizer runs for every pooled object", "statement": "When the pool is gone and all handles are released, the finalizer function was run exactly once for each object of the pool.", "quantifier": "every history of acquire, release and pool destruction", "why_tests_cant": "depends on the order of destruction and release", "anchors": ["core/modules/core/include/klepsydra/core/smart_object_pool.h: ~SmartObjectPool, ReturnToPool_Deleter"]}
{"id": "C56", "title": "Listeners may change the registrations while they are called", "statement": "A listener may register or remove listeners (itself included) on the emitter that is calling it; the emission in progress calls only listeners that were registered when it began and stays well defined.", "quantifier": "every emitter content and every change made from inside a callback", "why_tests_cant": "depends on container iterators during mutation, for all contents and positions", "anchors": ["core/modules/core/include/klepsydra/core/safe_event_emitter.h", "core/modules/core/include/klepsydra/core/unsafe_multi_listener_event_emitter.h", "core/modules/core/include/klepsydra/core/unsafe_single_listener_event_emitter.h"]}
{"id": "C57", "title": "No unsynchronised concurrent access to the memory of the ring", "statement": "Event slots and availability flags of the ring are never accessed by two threads at the same time, one of them writing, unless the access is atomic.", "quantifier": "every interleaving of producers and processors", "why_tests_cant": "race detectors only see executed schedules", "anchors": ["high_performance/modules/high_performance/include/klepsydra/high_performance/disruptor4cpp/multi_producer_sequencer.h: set_available, is_available", "high_performance/modules/high_performance/include/klepsydra/high_performance/disruptor4cpp/ring_buffer.h"]}
{"id": "C58", "title": "A failed publication leaves no trace", "statement": "If publishing fails with an exception raised by a cloner or process function, no listener ever receives an event for that call and later publications are delivered as usual.", "quantifier": "every history of successful and failing publications", "why_tests_cant": "all histories and failure points", "anchors": ["high_performance/modules/high_performance/include/klepsydra/high_performance/data_multiplexer_publisher.h", "high_performance/modules/high_performance/include/klepsydra/high_performance/event_loop_publisher.h"]}
{"id": "C59", "title": "Waiting processors miss no wake-up", "statement": "A processor blocked in the wait strategy of the ring is woken by every publication that reaches its sequence and by every alert; publishers, halting threads and processors never deadlock.", "quantifier": "every interleaving of publications, alerts, waits, spurious wake-ups and time-outs", "why_tests_cant": "lost wake-ups need one particular interleaving", "anchors": ["high_performance/modules/high_performance/include/klepsydra/high_performance/disruptor4cpp/wait_strategies/blocking_wait_strategy.h", "high_performance/modules/high_performance/include/klepsydra/high_performance/disruptor4cpp/wait_strategies/lite_blocking_wait_strategy.h", "high_performance/modules/high_performance/include/klepsydra/high_performance/disruptor4cpp/wait_strategies/timeout_blocking_wait_strategy.h", "high_performance/modules/high_performance/include/klepsydra/high_performance/disruptor4cpp/sequence_barrier.h"]}
{"id": "C60", "title": "A message carries only its own event", "statement": "The bytes a to-middleware channel sends for an event are the serialization of that event and contain nothing of events published before.", "quantifier": "every sequence of events and every reuse of pooled message objects", "why_tests_cant": "depends on the sizes of earlier events and on which pooled object is reused", "anchors": ["core/modules/zmq_mdlw/include/klepsydra/zmq_core/binary_to_zmq_channel.h", "core/modules/zmq_mdlw/include/klepsydra/zmq_core/to_zmq_middleware_provider.h", "core/modules/core/include/klepsydra/core/object_pool_publisher.h: _processEventCreatorWrapper"]}
{"id": "C61", "title": "The ring is data race free under the C++ memory model", "statement": "For all values that the atomic loads may return under acquire/release ordering, every access of producer and handlers to an event slot is ordered after all conflicting accesses, and a handler reads exactly the event published under its sequence.", "quantifier": "every interleaving and every choice of visible values (stale ones included)", "why_tests_cant": "tests run on one processor architecture and see few of the allowed reorderings", "anchors": ["high_performance/modules/high_performance/include/klepsydra/high_performance/disruptor4cpp/sequence.h: get, set", "high_performance/modules/high_performance/include/klepsydra/high_performance/disruptor4cpp/single_producer_sequencer.h", "high_performance/modules/high_performance/include/klepsydra/high_performance/disruptor4cpp/multi_producer_sequencer.h: set_available, is_available", "high_performance/modules/high_performance/include/klepsydra/high_performance/disruptor4cpp/batch_event_processor.h"]}
{"id": "C62", "title": "Wake-ups are not lost through weak memory ordering", "statement": "Also when atomic loads may return stale values, a processor sleeping in the wait strategy will be notified of a publication that reaches its sequence and of an alert, and a notified processor sees the publication.", "quantifier": "every interleaving and every choice of visible values", "why_tests_cant": "store buffering is rare and depends on the processor architecture", "anchors": ["high_performance/modules/high_performance/include/klepsydra/high_performance/disruptor4cpp/wait_strategies/blocking_wait_strategy.h", "high_performance/modules/high_performance/include/klepsydra/high_performance/disruptor4cpp/wait_strategies/lite_blocking_wait_strategy.h", "high_performance/modules/high_performance/include/klepsydra/high_performance/disruptor4cpp/sequence_barrier.h: alert, check_alert"]}
{"id": "C63", "title": "Concurrent queue middleware delivers in order, once, and counts discards", "statement": "Events published through the concurrent queue middleware reach the listeners in the order accepted, each at most once; in blocking mode none is lost; in discarding mode only the oldest are dropped and the statistics count exactly the dropped ones; publish returns only when its event was accepted.", "quantifier": "every interleaving of publishing threads and poller, every point where the queue is full or appears empty", "why_tests_cant": "the queue fills and appears empty at arbitrary moments; discards depend on the interleaving", "anchors": ["core/modules/mem_mdlw/include/klepsydra/mem_core/concurrent_queue_publisher.h", "core/modules/mem_mdlw/include/klepsydra/mem_core/concurrent_queue_poller.h", "core/modules/mem_mdlw/include/klepsydra/mem_core/concurrent_middleware_provider.h"]}
{"id": "C64", "title": "Names identify the objects of a middleware provider", "statement": "Asking a provider twice for a publisher or subscriber of one name gives the same object, different names give different objects, the object is of the type and has the parameters asked for, works on that topic and lives as long as the provider; there is one scheduler, and its tasks reach its executor; setContainer attaches the objects made afterwards.", "quantifier": "every sequence of getPublisher, getSubscriber, getScheduler, setContainer, start and stop, with any names, types and parameters", "why_tests_cant": "clashes depend on the history of names and types used before", "anchors": ["high_performance/modules/high_performance/include/klepsydra/high_performance/event_loop_middleware_provider.h: getPublisher, getSubscriber, getScheduler, setContainer", "high_performance/modules/high_performance/include/klepsydra/high_performance/data_multiplexer_middleware_provider.h: getSubscriber", "core/modules/zmq_mdlw/include/klepsydra/zmq_core/to_zmq_middleware_provider.h"]}
{"id": "C65", "title": "Middleware objects can be destroyed while they run", "statement": "Destroying a provider, scheduler, channel or environment ends its threads before anything they use is destroyed, does not terminate the process and does not hang.", "quantifier": "every interleaving of the destructor with the threads of the object, any number of subscribers, topics and tasks", "why_tests_cant": "use after destruction depends on the exact point at which the thread is", "anchors": ["core/modules/mem_mdlw/include/klepsydra/mem_core/in_memory_middleware_provider.h", "core/modules/mem_mdlw/include/klepsydra/mem_core/basic_middleware_provider.h", "high_performance/modules/high_performance/include/klepsydra/high_performance/event_loop_middleware_provider.h", "high_performance/modules/high_performance/include/klepsydra/high_performance/event_loop.h", "high_performance/modules/high_performance/include/klepsydra/high_performance/data_multiplexer_subscriber.h", "core/modules/zmq_mdlw/include/klepsydra/zmq_core/from_zmq_middleware_provider.h", "core/modules/zmq_mdlw/src/zmq_env.cpp"]}
{"id": "C66", "title": "Dependent processors follow the ones they track", "statement": "A processor whose barrier tracks other processors is called for an event only after every one of them, directly or through others, has come to an end with it; every processor gets every published event once and in order; if the last processors of a chain gate the producer, no slot is overwritten before the whole chain is done with it; a chain without cycles does not block. This holds for processors registered before the first claim.", "quantifier": "every dependency graph, any mixture of batch and no-op processors, every interleaving of producer and processors, handlers that throw, processors halted and run again", "why_tests_cant": "overruns and overtaking depend on which sequence a barrier has read at the moment another one moves", "anchors": ["high_performance/modules/high_performance/include/klepsydra/high_performance/disruptor4cpp/sequence_barrier.h: wait_for", "high_performance/modules/high_performance/include/klepsydra/high_performance/disruptor4cpp/fixed_sequence_group.h: get", "high_performance/modules/high_performance/include/klepsydra/high_performance/disruptor4cpp/utils/util.h: get_minimum_sequence", "high_performance/modules/high_performance/include/klepsydra/high_performance/disruptor4cpp/single_producer_sequencer.h: new_barrier, add_gating_sequences", "high_performance/modules/high_performance/include/klepsydra/high_performance/disruptor4cpp/batch_event_processor.h: run", "high_performance/modules/high_performance/include/klepsydra/high_performance/disruptor4cpp/no_op_event_processor.h: run"]}
{"id": "C67", "title": "The lock-free stack is correct with the memory orders it uses", "statement": "On processors and compilers that reorder memory accesses as the C++ memory model allows, successful pushes and pops of the lock-free stack still take effect one at a time on one plain stack, each pop returns the element it removed, no element has two owners, accesses to elements are ordered, and a call is refused only if the list it needs was empty after all the updates that happen before the call.", "quantifier": "every number of threads, every interleaving, every stale value a load may return, every spurious failure of a compare-and-swap, any synchronisation between threads outside", "why_tests_cant": "reorderings depend on the processor and the compiler and are too rare to be met by tests", "anchors": ["core/modules/core/include/klepsydra/core/lock_free_stack.h: LockFreeStack, push, pop, _pop, _push"]}
{"id": "C68", "title": "A client reaches the server with its address", "statement": "A client connecting to a path or port is connected to a server created for exactly that path or port; a server can be created for every address no existing server has; accept returns the connections of its server, each once and in order, never blocks beyond its timeout and reports a timeout only when it is over and no connection waits; a constructor that fails closes its descriptor once and reports why.", "quantifier": "every path and port, every history of servers and clients created and destroyed, every outcome of select, every error of the system", "why_tests_cant": "depends on long paths, out of range ports, restarts and signals", "anchors": ["core/modules/socket_mdlw/src/server_socket.cpp: ServerSocket, accept", "core/modules/socket_mdlw/src/connect_socket.cpp: ConnectSocket", "core/modules/socket_mdlw/src/base_socket.cpp: close"]}
{"id": "C69", "title": "An event keeps its value from publish to the last holder, and the pool size needed is known", "statement": "What a listener reads of an event, when it is called or later through a shared_ptr it kept, is the value written for that publication (the published value, with the default cloner), although event objects are recycled: a publisher writes into an object only while nobody else holds it, and an object returns to the pool exactly when its last holder drops it. Every publication has exactly one fate at a time: with its thread, queued, delivered once or counted as discarded; deliveries come in the order in which events were queued, the discarded ones left out. With a queue of at least one place the publisher never allocates after construction, whatever the schedule, exactly if its pool has an object for every place of the queue, for the event being delivered (unless the middleware is the event loop, where it still occupies its slot), for every publishing thread and for every event listeners keep.", "quantifier": "every pool size up to 65535 (larger pools count as 65535), queue size, policy for a full queue, number of publishing threads, number of kept events, initializer, cloner and every interleaving of publishers, delivering thread and listeners", "why_tests_cant": "reuse of an object under a reader and exhaustion of the pool need particular interleavings of several threads and long histories", "anchors": ["core/modules/core/include/klepsydra/core/object_pool_publisher.h: ObjectPoolPublisher::publish, processAndPublish", "core/modules/core/include/klepsydra/core/smart_object_pool.h: SmartObjectPool::acquire, ReturnToPool_Deleter", "core/modules/mem_mdlw/include/klepsydra/mem_core/basic_publisher.h: BasicPublisher::internalPublish", "core/modules/mem_mdlw/include/klepsydra/mem_core/safe_queue_poller.h: SafeQueuePoller::takeEventFromQueue", "high_performance/modules/high_performance/include/klepsydra/high_performance/event_loop_publisher.h: EventLoopPublisher::internalPublish", "high_performance/modules/high_performance/include/klepsydra/high_performance/event_loop_event_handler.h: EventLoopEventHandler::on_event", "core/modules/core/include/klepsydra/core/event_emitter_subscriber.h: EventEmitterSubscriber::registerSharedPtrListener"]}
{"id": "C70", "title": "Pooled objects may be released while their pool is destroyed", "statement": "Objects acquired from a SmartObjectPool may be released by any thread at any time, before, during or after the destruction of the pool: every object is deleted exactly once, objects returned to the pool are finalized, and no release touches freed memory.", "quantifier": "every pool size, every set of objects that are out, every interleaving of releases with the destructor", "why_tests_cant": "the window is a few instructions wide and needs a destructor in one thread and a release in another", "anchors": ["core/modules/core/include/klepsydra/core/smart_object_pool.h: SmartObjectPool::~SmartObjectPool, ReturnToPool_Deleter::operator(), add, this_ptr_"]}
{"id": "C71", "title": "Processors get every event and a waiting producer gets its slot in the end", "statement": "With processors that are not halted and a scheduler that forgets no thread for ever, every published event is handled by every processor of the chain in the end, even if handlers throw; next(n) called by a producer that has published what it claimed returns in the end, whatever n.", "quantifier": "every infinite fair schedule, every dependency graph without cycles, every number of slots asked for", "why_tests_cant": "only infinite executions can refute it: no finite test shows that something never happens", "anchors": ["high_performance/modules/high_performance/include/klepsydra/high_performance/disruptor4cpp/batch_event_processor.h: run", "high_performance/modules/high_performance/include/klepsydra/high_performance/disruptor4cpp/no_op_event_processor.h: run", "high_performance/modules/high_performance/include/klepsydra/high_performance/disruptor4cpp/sequence_barrier.h: wait_for", "high_performance/modules/high_performance/include/klepsydra/high_performance/disruptor4cpp/single_producer_sequencer.h: next"]}
{"id": "C72", "title": "publish on an event loop returns, and what it accepted is delivered in the end", "statement": "publish on a topic of an event loop always returns: it waits neither for the loop nor for another publisher. While the loop runs and no thread is forgotten for ever, every event accepted since the loop was started is passed to the listeners of its topic with its data in the end, even if listeners throw.", "quantifier": "every infinite fair schedule of any number of publishing threads and the loop thread in which compare_exchange_weak fails spuriously only finitely often, every ring size, loops started while no publisher is in the middle of publish, fewer than 2^31 events", "why_tests_cant": "only infinite executions can refute it, and it depends on other publishers in the middle of publish", "anchors": ["high_performance/modules/high_performance/include/klepsydra/high_performance/event_loop_publisher.h: EventLoopPublisher::internalPublish", "high_performance/modules/high_performance/include/klepsydra/high_performance/event_loop.h: EventLoop::start", "high_performance/modules/high_performance/include/klepsydra/high_performance/event_loop_event_handler.h: on_event", "high_performance/modules/high_performance/include/klepsydra/high_performance/disruptor4cpp/multi_producer_sequencer.h: try_next, publish, get_highest_published_sequence", "high_performance/modules/high_performance/include/klepsydra/high_performance/disruptor4cpp/batch_event_processor.h: run"]}
{"id": "C73", "title": "Synchronous providers call every listener once, with the right value, before publish returns, and give every event back", "statement": "In a network of event emitter providers whose listeners publish again (at the same or other providers, directly or through process forwarders), publish returns exactly when the cascade of listener calls is finite; by then every listener of every node has been called exactly once per publication, in registration order, depth first, with the published or transformed value, unless a listener threw, which ends the cascade there and reaches the caller. Afterwards every pool holds exactly the events no listener kept, kept events never change, and memory is allocated only for publications nested deeper at one node than its pool had free events; without cycles one pooled event per node is enough.", "quantifier": "every network of providers, every set of listeners and what they publish, throw or keep, every pool size up to 65535, cloners and transformations that write the whole event, every history of publications", "why_tests_cant": "nesting depth, recycling of events during nested publications and exceptions combine without bound", "anchors": ["core/modules/core/include/klepsydra/core/event_emitter_middleware_provider.h: EventEmitterMiddlewareProvider, getProcessForwarder", "core/modules/core/include/klepsydra/core/event_emitter_publisher.h: EventEmitterPublisher::internalPublish", "core/modules/core/include/klepsydra/core/object_pool_publisher.h: ObjectPoolPublisher::internalPublish, processAndPublish", "core/modules/core/include/klepsydra/core/safe_event_emitter.h: SafeEventEmitter::emitEvent", "core/modules/core/include/klepsydra/core/event_emitter_subscriber.h: EventEmitterSubscriber::registerListener, registerSharedPtrListener"]}
{"id": "C74", "title": "Scheduled tasks are called when they are due", "statement": "A repeated task with period p is called for the n-th time not before n periods have passed since its start, calls never overlap, and the next call is due when a period since the last one is over, or at once if the last call took longer; a task that is not repeated is called once, not before its time. stopScheduledTask takes effect after at most one more call, and returns at most a period, a call and the delays of one round later.", "quantifier": "every period, every duration of every call, every delay by the operating system, every behaviour of the system clock, every moment of stop", "why_tests_cant": "it depends on durations of hours, on changes of the system clock and on the moment of stop relative to sleeping", "anchors": ["core/modules/mem_mdlw/src/basic_scheduler.cpp: BasicScheduler::ScheduledThread::start, stop"]}
{"id": "C75", "title": "In-memory middleware: what is accepted is delivered in the end, and publish returns", "statement": "While the middleware runs and its thread is not forgotten for ever, every event its queue accepted is given to the listeners in the end, in the order of acceptance, unless publish on a full discarding queue dropped it, which is counted; with a blocking queue nothing is dropped. A publish that waits for room in a blocking middleware returns in the end. A listener that throws does not end the delivery of the other events.", "quantifier": "every infinite fair schedule of any number of publishing threads and the polling thread, every queue bound, every waiting time of the poller, every spurious wake-up, every set of throwing listeners", "why_tests_cant": "only infinite executions can refute it; lost wake-ups, starvation and a dead polling thread look like slowness to a test", "anchors": ["core/modules/mem_mdlw/src/in_memory_queue_poller.cpp: InMemoryQueuePoller::start, stop, pollingLoop", "core/modules/mem_mdlw/include/klepsydra/mem_core/safe_queue_poller.h: SafeQueuePoller::takeEventFromQueue", "core/modules/mem_mdlw/include/klepsydra/mem_core/basic_publisher.h: BasicPublisher::internalPublish", "core/modules/mem_mdlw/include/klepsydra/mem_core/safe_queue.h: move_push, force_move_push, timeout_move_pop"]}
{"id": "C76", "title": "Exceptions of the user's cloner, initializer and process function leave a publisher intact and reach the caller", "statement": "publish and processAndPublish of a publisher with or without an object pool run the user's functions on one event. If one throws, exactly that exception reaches the caller, nothing is published, the event goes back to the pool and nobody else notices the call; if none throws, one event that nobody held before is published with the content they left. Every function runs at most once per call, and memory is allocated only when the pool has no free event. Pooled events are never lost or handed out twice, whatever was thrown before.", "quantifier": "every cloner, initializer and process function, whatever it throws on whatever event and whatever it has written before, every pool size, every history of publications, exceptions and releases", "why_tests_cant": "the outcome depends on which exception is thrown at which event in which state of the pool", "anchors": ["core/modules/core/include/klepsydra/core/object_pool_publisher.h: ObjectPoolPublisher::ObjectPoolPublisher, internalPublish, processAndPublish", "core/modules/core/include/klepsydra/core/smart_object_pool.h: SmartObjectPool::acquire, ReturnToPool_Deleter"]}
{"id": "C77", "title": "Concurrent-queue middleware: what is accepted is delivered in the end, and publish returns", "statement": "While the middleware on the concurrent queue runs and its thread is not forgotten for ever, every event its queue accepted leaves it in the end: it is given to the listeners, in the order of acceptance, unless a publisher on a full discarding queue removed it; with a blocking queue nothing is removed. A publish returns in the end: in a blocking middleware because the poller makes room, in a discarding one because the publisher itself does, even if the poller stands still. A listener that throws does not end the delivery of the other events.", "quantifier": "every infinite fair schedule of any number of publishing threads, no two of them enqueueing at the same time, and the polling thread, every refusal and every misleading answer of the queue that does not last for ever, every set of throwing listeners", "why_tests_cant": "only infinite executions can refute it; a dead polling thread and starvation look like slowness to a test", "anchors": ["core/modules/mem_mdlw/src/in_memory_queue_poller.cpp: InMemoryQueuePoller::pollingLoop", "core/modules/mem_mdlw/include/klepsydra/mem_core/concurrent_queue_poller.h: ConcurrentQueuePoller::takeEventFromQueue", "core/modules/mem_mdlw/include/klepsydra/mem_core/concurrent_queue_publisher.h: ConcurrentQueuePublisher, internalPublish", "core/modules/mem_mdlw/include/klepsydra/mem_core/concurrent_middleware_provider.h"]}
{"id": "C78", "title": "Pooled events on the real middleware: values, exclusive writers, return to the pool, no allocation", "statement": "Whatever middleware a publisher with an object pool sends its events through (event loop, blocking or discarding in-memory queue, concurrent queue, shared with other publishers), a listener reads, when it is called or later through a shared_ptr it kept, the value written for that publication; an object is written only while nobody else holds it; it is in the pool exactly when the middleware, publishers and listeners hold no shared_ptr to it. When nothing is in flight all objects are back in the pool, also after listeners threw or the middleware was restarted; a pool with an object for every place of the middleware, every publishing thread and every kept event never allocates.", "quantifier": "every pool size, ring size and queue bound, number of publishing threads, initializer, cloner and process function, every interleaving of publishers, other publishers on the same middleware, delivering thread, listeners that keep events or throw, stops and restarts", "why_tests_cant": "an object reused under a reader, or kept by a slot that is never visited again, needs particular interleavings and long histories", "anchors": ["core/modules/core/include/klepsydra/core/object_pool_publisher.h: ObjectPoolPublisher::publish, processAndPublish", "core/modules/core/include/klepsydra/core/smart_object_pool.h: SmartObjectPool::acquire, ReturnToPool_Deleter", "high_performance/modules/high_performance/include/klepsydra/high_performance/event_loop_publisher.h: EventLoopPublisher::internalPublish", "high_performance/modules/high_performance/include/klepsydra/high_performance/event_loop_event_handler.h: on_event", "core/modules/mem_mdlw/include/klepsydra/mem_core/basic_publisher.h: BasicPublisher::internalPublish", "core/modules/mem_mdlw/include/klepsydra/mem_core/safe_queue_poller.h: SafeQueuePoller::takeEventFromQueue", "core/modules/mem_mdlw/include/klepsydra/mem_core/concurrent_queue_publisher.h: ConcurrentQueuePublisher, internalPublish", "core/modules/mem_mdlw/include/klepsydra/mem_core/concurrent_queue_poller.h: ConcurrentQueuePoller::takeEventFromQueue"]}
{"id": "C79", "title": "Event loop provider: every event reaches exactly the listeners registered on its topic", "statement": "For every event an event loop provider takes up, exactly the listeners registered at the subscriber of its topic are called, each once, in the order of registration, with the published data, before the next event is taken up; functions given to the scheduler are run by the scheduler's listener only. So a named listener gets exactly the accepted events of its topic from its registration to its removal, in the order of acceptance; a once listener gets the first event and nothing more; an exception ends the delivery of that one event; nothing destroyed is used and no event is taken for one of another type.", "quantifier": "every type of the external emitter and of the emitters of the subscribers, with or without container, any number of topics, listeners and publishing threads, every interleaving of publications, registrations, removals, deliveries, exceptions, stops and restarts", "why_tests_cant": "it combines two levels of emitters, name maps and the ring under every interleaving and history", "anchors": ["high_performance/modules/high_performance/include/klepsydra/high_performance/event_loop_middleware_provider.h: EventLoopMiddlewareProvider::getPublisher, getSubscriber, getScheduler", "high_performance/modules/high_performance/include/klepsydra/high_performance/event_loop_subscriber.h: EventLoopSubscriber", "high_performance/modules/high_performance/include/klepsydra/high_performance/event_loop_function_exec_listener.h: EventLoopFunctionExecutorListener", "high_performance/modules/high_performance/include/klepsydra/high_performance/event_loop_event_handler.h: on_event", "core/modules/core/include/klepsydra/core/event_emitter_subscriber.h: EventEmitterSubscriber::registerListener, registerListenerOnce, removeListener", "core/modules/core/include/klepsydra/core/event_emitter_factory.h: EventEmitterFactory::createEventEmitter"]}
{"id": "C80", "title": "The lock-free stack is lock-free", "statement": "However the threads that use the stack (or the object pool built on it) are scheduled, and wherever some of them are stopped for ever inside a call, the others make progress: any N threads that take more than (4N+4)N atomic steps return from some call, spurious failures of the compare-and-swap aside, so infinitely many calls return in every infinite execution; the steps are bounded by a constant times the calls. Single calls have no such guarantee: one pop can retry for ever while another thread pops and pushes.", "quantifier": "every number of threads, capacity, sequence of pushes and pops and scheduling, finite or infinite, from every state, every spurious failure", "why_tests_cant": "livelock needs schedules that keep making every compare-and-swap fail; only a proof excludes all of them", "anchors": ["core/modules/core/include/klepsydra/core/lock_free_stack.h: LockFreeStack::push, pop, _push, _pop"]}
{"id": "C81", "title": "In-memory providers: every event reaches exactly the listeners registered", "statement": "For every event the poller of an in-memory middleware takes up, exactly the listeners registered at its subscriber at that time are called, each once, in the order of registration, with that event, before the next event is taken up. So a named listener gets exactly the accepted events that no publisher discarded, from the first one taken up after its registration until its removal, in the order of acceptance, and in the end it gets them all while the poller runs; a once listener gets the first event and nothing more; after its removal a listener is called at most once more, for the delivery under way; an exception ends the delivery of that one event only.", "quantifier": "both in-memory middlewares, blocking or discarding, every queue bound, every type of emitter, with or without container, any number of listeners and publishing threads, every interleaving of publications, registrations, removals, deliveries, exceptions and restarts, finite or infinite", "why_tests_cant": "it combines emitter, name map, queue and polling thread under every interleaving and history; that everything arrives is a claim about infinite executions", "anchors": ["core/modules/mem_mdlw/include/klepsydra/mem_core/in_memory_middleware_provider.h: InMemoryMiddlewareProvider", "core/modules/mem_mdlw/include/klepsydra/mem_core/basic_middleware_provider.h", "core/modules/mem_mdlw/include/klepsydra/mem_core/concurrent_middleware_provider.h", "core/modules/mem_mdlw/include/klepsydra/mem_core/safe_queue_poller.h: SafeQueuePoller::takeEventFromQueue", "core/modules/mem_mdlw/include/klepsydra/mem_core/concurrent_queue_poller.h: ConcurrentQueuePoller::takeEventFromQueue", "core/modules/mem_mdlw/src/in_memory_queue_poller.cpp: InMemoryQueuePoller::pollingLoop", "core/modules/core/include/klepsydra/core/event_emitter_subscriber.h: EventEmitterSubscriber::registerListener, registerListenerOnce, removeListener"]}
{"id": "C82", "title": "Data multiplexer: subscribers are kept up to date and the publisher never waits", "statement": "While a subscriber of the data multiplexer exists and its thread is not forgotten for ever, for every event published since it subscribed its listeners get that event or a newer one, in the end, with the content a successful call gave it, also when listeners throw; when the publisher stops publishing, the last event is the last one they get. A call of the publisher returns whatever the subscribers do; as long as no subscriber is destroyed and no cloner throws, a publisher that goes on calling is not refused for ever.", "quantifier": "every infinite fair schedule of the publishing thread and any number of subscribers, created at any time with nothing in flight, every ring size, every way of publishing, every exception of listeners", "why_tests_cant": "only infinite executions can refute it; a subscriber that never catches up or a ring that stays full looks like slowness to a test", "anchors": ["high_performance/modules/high_performance/include/klepsydra/high_performance/data_multiplexer_publisher.h: DataMultiplexerPublisher::internalPublish, processAndPublish", "high_performance/modules/high_performance/include/klepsydra/high_performance/data_multiplexer_event_handler.h: on_event", "high_performance/modules/high_performance/include/klepsydra/high_performance/data_multiplexer_subscriber.h: DataMultiplexerSubscriber, registerListener", "high_performance/modules/high_performance/include/klepsydra/high_performance/disruptor4cpp/batch_event_processor.h: run", "high_performance/modules/high_performance/include/klepsydra/high_performance/disruptor4cpp/single_producer_sequencer.h: try_next, has_available_capacity"]}
{"id": "C83", "title": "ZeroMQ path: what a listener receives is what was published, in order", "statement": "Events published on topics of a ToZMQMiddlewareProvider arrive at the publishers registered at the FromZmqChannel of the other side: what is published internally is, topic and event, a subsequence of what was published (the right topic, the same value, in order, at most once, nothing else), always at the publisher registered for the topic at that moment. If ZeroMQ loses nothing and no function throws, the events of a subscribed and registered topic are all received, in order, and every one of them in the end when network and polling thread go on.", "quantifier": "every mapper that can decode what it encodes, any old content of pooled objects, any number of publishing threads, topics and registrations, every interleaving of publications, transport, polling, registrations, stops and starts, messages lost by ZeroMQ, exceptions of decoders and publishers, finite or infinite", "why_tests_cant": "it combines mapper, shared socket, transport and polling thread under every interleaving; frames mixed up by two publishing threads, or a poller that has died, need particular schedules", "anchors": ["core/modules/zmq_mdlw/include/klepsydra/zmq_core/to_zmq_middleware_provider.h: ToZMQMiddlewareProvider", "core/modules/zmq_mdlw/include/klepsydra/zmq_core/json_to_zmq_channel.h: internalPublish", "core/modules/zmq_mdlw/include/klepsydra/zmq_core/binary_to_zmq_channel.h: internalPublish", "core/modules/zmq_mdlw/include/klepsydra/zmq_core/void_caster_to_zmq_channel.h: internalPublish", "core/modules/zmq_mdlw/include/klepsydra/zmq_core/zmq_poller.h: ZMQPoller::start, stop, executeFunction, pollingLoop", "core/modules/zmq_mdlw/include/klepsydra/zmq_core/from_zmq_middleware_provider.h: FromZmqChannel::registerToTopic", "core/modules/core/include/klepsydra/core/from_middleware_channel.h: onMiddlewareMessage"]}
{"id": "C84", "title": "No deadlock between the mutexes of the library", "statement": "However threads mix calls of emitters, containers, queues, environments, cache listeners, callback handlers, ZeroMQ pollers, wait strategies and the stopping of worker threads, and whatever listeners, callbacks and destructors of events called by the library call in turn or throw, there are never threads that wait for mutexes (or for the end of a worker thread) held by each other; a thread that has returned from all its calls holds no mutex; listeners are called, and threads parked on a condition variable wait, without the mutex of the object that calls them.", "quantifier": "any number of threads, objects and nested calls, every interleaving, every reaction of user code (further calls, return, exception), spurious wake-ups", "why_tests_cant": "a deadlock needs two threads at particular points of two functions; the tests would have to try every pair of calls and every callback", "anchors": ["core/modules/core/include/klepsydra/core/safe_event_emitter.h: on, once, removeListener, emitEvent, discardEvent", "core/modules/core/include/klepsydra/core/core_container.h: CoreContainer", "core/modules/core/include/klepsydra/core/callback_handler.h: MultiThreadCallbackHandler::requestAndReply, onReplyReceived", "core/modules/core/include/klepsydra/core/cache_listener.h: MultiThreadCacheListener", "core/modules/mem_mdlw/include/klepsydra/mem_core/safe_queue.h: SafeQueue::swap, operator=, push, pop", "core/modules/mem_mdlw/include/klepsydra/mem_core/mem_env.h: MemEnv", "core/modules/zmq_mdlw/include/klepsydra/zmq_core/zmq_poller.h: registerToTopic, unregisterFromTopic, executeFunction", "high_performance/modules/high_performance/include/klepsydra/high_performance/disruptor4cpp/wait_strategies/blocking_wait_strategy.h: wait_for, signal_all_when_blocking"]}
{"id": "C85", "title": "The mutexes protect the shared data of the library", "statement": "Two threads never access the same data of an emitter, container, queue, environment, cache listener, callback handler or ZeroMQ poller at the same time, one of them writing, without the mutex of that object ordering the accesses (no data race, which would be undefined behaviour), however threads mix the public functions of these thread-safe classes and whatever the code called back does.", "quantifier": "any number of threads and objects, every mix of calls, every interleaving, nested calls from listeners and callbacks, exceptions, waits and spurious wake-ups", "why_tests_cant": "a data race is a pair of accesses that may happen at the same time in some schedule; a test that does not hit the window, or hits it without visible effect, shows nothing", "anchors": ["core/modules/core/include/klepsydra/core/safe_event_emitter.h: emitEvent, discardEvent, getListenerStats, removeAllListeners, addListener, removeListener", "core/modules/core/include/klepsydra/core/core_container.h: CoreContainer", "core/modules/core/src/core_container.cpp: attach, detach, start, stop", "core/modules/mem_mdlw/include/klepsydra/mem_core/safe_queue.h: SafeQueue", "core/modules/mem_mdlw/src/mem_env.cpp: MemEnv", "core/modules/core/include/klepsydra/core/cache_listener.h: MultiThreadCacheListener", "core/modules/core/include/klepsydra/core/callback_handler.h: MultiThreadCallbackHandler", "core/modules/zmq_mdlw/include/klepsydra/zmq_core/zmq_poller.h: registerToTopic, unregisterFromTopic, executeFunction"]}
{"id": "C86", "title": "Tasks of an event loop's scheduler run on the loop, once per firing", "statement": "Every firing of a task given to the scheduler of an event loop is either called exactly once on the thread of the loop, one at a time with the listeners and in the order in which the ring accepted it, or counted as discarded by the scheduler's publisher; stopScheduledTask always returns, without help of the loop (so that a task, or a listener, may stop a task, even itself), and when it has returned the task is not called any more.", "quantifier": "any number of tasks, periods and names, other publishers and topics, every interleaving of the tasks' threads, of the loop and of start and stop, exceptions in tasks and listeners, every type of emitter", "why_tests_cant": "whether a firing is lost, doubled or called after the stop depends on how the threads of the tasks, the ring and the loop interleave, and on how long the backlog is when the task is stopped", "anchors": ["high_performance/modules/high_performance/src/event_loop_scheduler.cpp: EventLoopScheduler::startScheduledTask, stopScheduledTask", "high_performance/modules/high_performance/include/klepsydra/high_performance/event_loop_publisher.h: EventLoopPublisher::internalPublish", "high_performance/modules/high_performance/include/klepsydra/high_performance/event_loop_function_exec_listener.h: EventLoopFunctionExecutorListener", "core/modules/mem_mdlw/src/basic_scheduler.cpp: BasicScheduler, ScheduledThread::start, stop"]}
{"id": "C87", "title": "Data multiplexer: every listener of a subscriber gets the newest event of each batch, with the content published", "statement": "Every event the thread of a subscriber takes up (the newest of each batch) is given to exactly the listeners registered at that time, each once and in the order of registration, and what each of them reads is what was published; no listener is called with an older event after a newer one; when the publisher pauses every listener has been called with the newest event; events not given to the listeners are counted as discarded; an exception of a listener costs that event only.", "quantifier": "any ring size, any publications by any of the ways to publish, any number of subscribers and listeners, registrations and removals at any time, also by listeners, exceptions in listeners, every interleaving of the publisher and of the threads of the subscribers", "why_tests_cant": "which events are the newest of their batch, and whether the publisher reuses a slot while a slow listener reads it, depends on how the threads interleave", "anchors": ["high_performance/modules/high_performance/include/klepsydra/high_performance/data_multiplexer_subscriber.h: DataMultiplexerSubscriber", "high_performance/modules/high_performance/include/klepsydra/high_performance/data_multiplexer_event_handler.h: DataMultiplexerEventHandler::on_event, on_event_exception", "high_performance/modules/high_performance/include/klepsydra/high_performance/disruptor4cpp/batch_event_processor.h: batch_event_processor::run", "core/modules/core/include/klepsydra/core/event_emitter_subscriber.h: EventEmitterSubscriber", "core/modules/core/include/klepsydra/core/safe_event_emitter.h: SafeEventEmitter::emitEvent"]}
{"id": "C88", "title": "Multi-producer ring: try_next is lock-free, next waits only for the processors", "statement": "However the producers and processors are scheduled, and wherever a thread is stopped, producers that go on executing try_next bring calls to an end: the number of steps inside try_next in any stretch of any execution is bounded by the number of calls that come to an end in it (and of spurious failures of the compare-and-set). An attempt that does not fail spuriously is repeated only because another producer has got the wanted sequence. A producer in next that runs alone while there is room returns after a number of steps that depends on the number of registered processors only; while there is no room it does not return, and it never returns without room. (A single producer can starve: try_next is not wait-free.)", "quantifier": "any number of producers and processors, any ring size, any starting state, every stretch of every schedule, spurious failures of compare_exchange_weak, threads stopped anywhere; infinite executions", "why_tests_cant": "a livelock of producers that make each other fail needs a particular infinite schedule; a test sees finitely many finite ones", "anchors": ["high_performance/modules/high_performance/include/klepsydra/high_performance/disruptor4cpp/multi_producer_sequencer.h: multi_producer_sequencer::next, try_next, has_available_capacity", "high_performance/modules/high_performance/include/klepsydra/high_performance/disruptor4cpp/sequence.h: sequence::compare_and_set"]}
{"id": "C89", "title": "Processors can be registered and removed while the ring is used", "statement": "Registering a processor (a new subscriber, a started event loop), removing one and claiming sequences at the same time is safe: no memory is used that does not belong to the list of processors, no two threads access it at the same time with one writing, no registration is lost, and every claim takes all processors registered and not removed into account and nothing else.", "quantifier": "every interleaving of registrations, removals and claims by any number of threads at the level of single memory accesses, any number of processors, any growth of the vector", "why_tests_cant": "the overlap of a registration with the few instructions in which a producer looks at the list is a matter of nanoseconds; reading freed memory mostly goes unnoticed", "anchors": ["high_performance/modules/high_performance/include/klepsydra/high_performance/disruptor4cpp/single_producer_sequencer.h: single_producer_sequencer::add_gating_sequences, remove_gating_sequence, has_available_capacity, next", "high_performance/modules/high_performance/include/klepsydra/high_performance/disruptor4cpp/multi_producer_sequencer.h: multi_producer_sequencer::add_gating_sequences, remove_gating_sequence, has_available_capacity, next", "high_performance/modules/high_performance/include/klepsydra/high_performance/disruptor4cpp/utils/util.h: util::get_minimum_sequence", "high_performance/modules/high_performance/include/klepsydra/high_performance/data_multiplexer_subscriber.h: DataMultiplexerSubscriber", "high_performance/modules/high_performance/include/klepsydra/high_performance/event_loop.h: EventLoop::start"]}
{"id": "C90", "title": "No thread of the library is ever stuck", "statement": "Whatever has happened before, a thread that delivers events (the thread of a subscriber, a processor, the thread of an event loop, a poller) and a publisher that does not wait for somebody else can go on; and there is always a continuation in which all of them do for ever: the assumptions under which delivery is promised can be met from every state.", "quantifier": "every reachable state of the data multiplexer, of processor graphs, of the event loop with or without listeners and scheduler, of the in-memory middlewares, with any number of threads, events and listeners", "why_tests_cant": "a deadlock shows up in some of all interleavings only; a promise whose assumptions cannot be met is worth nothing, and no test sees that", "anchors": ["high_performance/modules/high_performance/include/klepsydra/high_performance/data_multiplexer_publisher.h: DataMultiplexerPublisher::internalPublish", "high_performance/modules/high_performance/include/klepsydra/high_performance/data_multiplexer_subscriber.h: DataMultiplexerSubscriber", "high_performance/modules/high_performance/include/klepsydra/high_performance/event_loop.h: EventLoop::start, EventLoop::onEvent", "high_performance/modules/high_performance/include/klepsydra/high_performance/event_loop_publisher.h: EventLoopPublisher::internalPublish", "high_performance/modules/high_performance/include/klepsydra/high_performance/disruptor4cpp/batch_event_processor.h: batch_event_processor::run", "core/modules/mem_mdlw/include/klepsydra/mem_core/in_memory_queue_poller.h: InMemoryQueuePoller::poll", "core/modules/mem_mdlw/include/klepsydra/mem_core/safe_queue.h: SafeQueue::push, SafeQueue::pop"]}
{"id": "C91", "title": "Observers and actions of the state machine may call back", "statement": "Observers and the actions of listeners may use the machine while they are called, start further notifications, and throw: the machine still follows its table; a notification calls the observers that were registered when it began, each once, in order, with its own arguments; a listener runs the actions due in a state, each once, in order; one-off actions are run once; and no call makes the library use memory it must not use.", "quantifier": "every configuration, every sequence of calls, nested to any depth, of the machine and of any number of listeners, made from the main program, from observers and from actions, with exceptions anywhere", "why_tests_cant": "re-entrant calls, nested notifications and exceptions combine without bound; an invalid iterator usually goes unnoticed in a test", "anchors": ["state_machine/modules/state_machine/src/state_machine_impl.cpp: StateMachineImpl::update, StateMachineImpl::updateObservers, StateMachineImpl::registerObserver, StateMachineImpl::unregisterObservers", "state_machine/modules/state_machine/src/state_machine_listener.cpp: StateMachineListener::updateCurrentState, StateMachineListener::addOneOffAction, StateMachineListener::removeActions"]}
{"id": "C92", "title": "A callback handler can be destroyed while replies arrive", "statement": "Destroying a callback handler removes its reply listener: a delivery of a reply that begins after the removal never runs the handler, every delivery runs it at most once, and the destruction is safe whatever other threads are delivering: no delivery uses the handler after its end, and the mutex of the multi-threaded handler is not destroyed while it is in use.", "quantifier": "every interleaving of the steps of the destructor with any number of threads that deliver any number of replies", "why_tests_cant": "the window between copying the listeners and calling them is a few instructions wide; a use after free usually goes unnoticed", "anchors": ["core/modules/core/include/klepsydra/core/callback_handler.h: CallbackHandler::~CallbackHandler, MultiThreadCallbackHandler", "core/modules/core/include/klepsydra/core/safe_event_emitter.h: SafeEventEmitter::emitEvent, SafeEventEmitter::removeListener"]}
{"id": "C93", "title": "A configuration text is read completely or reported", "statement": "Making an environment from a file gives exactly the properties of the file under the root; loadFile gives true only if every property of the file can be read afterwards, keeps what was there, and gives false exactly if the file is not readable or a property existed already; updateConfiguration replaces the properties by those of the text; an environment updated with the exported text of another one reads like that one.", "quantifier": "every environment, every root and every text, with any sections, keys, repeated keys and values of any type", "why_tests_cant": "the texts differ in which sections they have, where a wrong value is, and what the environment held before; tests load a few well-formed files", "anchors": ["core/modules/core/include/klepsydra/core/configuration_environment.h: serialize", "core/modules/core/include/klepsydra/core/property.h: cereal::load, cereal::save", "core/modules/core/src/configuration_environment.cpp: ConfigurationEnvironment, loadFile, updateConfiguration, exportEnvironment"]}
{"id": "C94", "title": "Objects that hand themselves to other threads in their constructor are finished", "statement": "A constructor that registers a callback on the new object or starts a thread on it does so only when everything the callback or the thread uses has been constructed: a call that arrives while the constructor runs uses no unfinished part and does what a call after the construction does, in particular it runs under the mutex of the object if later calls do, so that calls of a multi-threaded callback handler exclude each other from the first one on.", "quantifier": "every constructor of the library that registers or starts something, every interleaving of its steps with any number of calls on any number of threads", "why_tests_cant": "the window is a few instructions of a constructor wide, and tests construct their objects before anything is published", "anchors": ["core/modules/core/include/klepsydra/core/callback_handler.h: CallbackHandler, MultiThreadCallbackHandler", "core/modules/core/include/klepsydra/core/manage_service.h: ManagedService", "high_performance/modules/high_performance/include/klepsydra/high_performance/event_loop_subscriber.h: EventLoopSubscriber", "high_performance/modules/high_performance/include/klepsydra/high_performance/data_multiplexer_subscriber.h: DataMultiplexerSubscriber", "core/modules/zmq_mdlw/src/zmq_env.cpp: ZMQEnv"]}
{"id": "C95", "title": "A shared environment receives every update and can be destroyed", "statement": "The thread of a ZeroMQ environment receives the messages on its socket completely, each once and in order; the environment is at any time the result of adopting, in turn, the updates for its key that other environments have sent among those received; whatever arrives, the process goes on; every update that has arrived is adopted in the end while the environment lives; and the destructor returns, with the thread ended.", "quantifier": "every sequence of messages (any number of parts, any content), every key and id, every schedule of the thread, the network and the program", "why_tests_cant": "which messages arrive, when, and where the thread is when the destructor begins varies; tests exchange one or two well-formed updates", "anchors": ["core/modules/zmq_mdlw/src/zmq_env.cpp: ZMQConfigurationPoller::start, ZMQConfigurationPoller::stop, ZMQConfigurationPoller::poll, ZMQEnv::~ZMQEnv", "core/modules/zmq_mdlw/include/klepsydra/zmq_core/zmq_env.h: ZMQConfigurationPoller"]}
