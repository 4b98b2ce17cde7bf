{"id": "C01", "title": "Event queue is a bounded double-ended queue", "statement": "For every capacity and every sequence of FIFO puts, LIFO puts, gets, depletes and reads, each get returns exactly the element a mathematical sequence would return (FIFO puts append at the back, LIFO puts prepend at the front, gets remove the front); nothing is lost, duplicated or reordered.", "quantifier": "all queue capacities, all element values, all finite histories of API calls on a queue initialised with rkh_queue_init", "why_tests_cant": "The ring buffer has wrap-around on both ends; the interesting states depend on the whole call history and on the capacity, an infinite set.", "anchors": ["source/queue/src/rkhqueue.c:rkh_queue_init", "source/queue/src/rkhqueue.c:rkh_queue_put_fifo", "source/queue/src/rkhqueue.c:rkh_queue_put_lifo", "source/queue/src/rkhqueue.c:rkh_queue_get", "source/queue/src/rkhqueue.c:rkh_queue_deplete"]}
{"id": "C02", "title": "Queue never holds more than its capacity and a put into a full queue is rejected", "statement": "The number of stored elements never exceeds the capacity given at initialisation. A put into a full queue raises the assertion when assertions are compiled in; when they are compiled out the put leaves the stored elements unchanged and only increments the full-counter. A put into a non-full queue always succeeds and never touches storage outside the supplied array.", "quantifier": "all histories, all capacities, both assertion configurations", "why_tests_cant": "Overflow appears only for particular fill levels reached through particular histories.", "anchors": ["source/queue/src/rkhqueue.c:rkh_queue_put_fifo", "source/queue/src/rkhqueue.c:rkh_queue_put_lifo", "source/queue/src/rkhqueue.c:rkh_queue_is_full"]}
{"id": "C03", "title": "Queue observers and low watermark are exact", "statement": "At every point of every history rkh_queue_get_num returns the number of stored elements, rkh_queue_is_full is true iff that equals the capacity, and rkh_queue_get_lwm returns the smallest number of free places that existed at any moment since initialisation.", "quantifier": "all histories, all capacities", "why_tests_cant": "The watermark is a minimum over the entire history.", "anchors": ["source/queue/src/rkhqueue.c:rkh_queue_get_num", "source/queue/src/rkhqueue.c:rkh_queue_is_full", "source/queue/src/rkhqueue.c:rkh_queue_get_lwm"]}
{"id": "C04", "title": "Reading a queue element without removing it", "statement": "rkh_queue_read returns RKH_QUE_OK iff the queue is non-empty, never changes the stored elements, and stores the front element into the caller's buffer. (The last part is violated by the code: the element is assigned to the by-value parameter and never reaches the caller.)", "quantifier": "all queue states reachable by any history, all caller buffers", "why_tests_cant": "A universally quantified negative (the caller's memory is never written) is not testable; the documented delivery must hold for all states.", "anchors": ["source/queue/src/rkhqueue.c:rkh_queue_read"]}
{"id": "C05", "title": "Queue performance counters count modulo 2^16", "statement": "After any history since the last clear, the counters nputs, ngets, nreads, nempty and nfull equal the number of successful puts, successful gets, successful reads, empty retrievals and rejected puts modulo 65536.", "quantifier": "all histories", "why_tests_cant": "Equality must hold after arbitrarily long histories, including wrap-around.", "anchors": ["source/queue/src/rkhqueue.c:rkh_queue_put_fifo", "source/queue/src/rkhqueue.c:rkh_queue_get", "source/queue/src/rkhqueue.c:rkh_queue_read", "source/queue/src/rkhqueue.c:rkh_queue_clear_info", "source/queue/src/rkhqueue.c:rkh_queue_get_info"]}
{"id": "C06", "title": "Memory pool initialisation partitions the storage", "statement": "For every storage address and size and every block size accepted by rkh_memPool_init, the effective block size is the smallest multiple of the pointer size that is at least the requested size, the number of blocks is the storage size divided by the effective block size, the blocks are pairwise disjoint, and all lie inside the supplied storage.", "quantifier": "all storage addresses, sizes and block sizes representable in the configured types that pass the precondition checks", "why_tests_cant": "Rounding and division must be right for every size combination, not for sampled ones.", "anchors": ["source/mempool/src/rkhmempool.c:rkh_memPool_init"]}
{"id": "C07", "title": "Memory pool never hands out a block twice", "statement": "In every history of gets, puts of currently allocated blocks, and arbitrary client writes into allocated blocks, a block returned by get is inside the pool, block aligned, and different from (hence disjoint with) every block that is currently allocated, even though the free list lives inside the free blocks.", "quantifier": "all histories including arbitrary client writes to allocated memory, all pool geometries", "why_tests_cant": "Needs an invariant over an in-memory linked list under arbitrary interleaving of client writes.", "anchors": ["source/mempool/src/rkhmempool.c:rkh_memPool_get", "source/mempool/src/rkhmempool.c:rkh_memPool_put"]}
{"id": "C08", "title": "Memory pool conserves blocks", "statement": "At every point nfree plus the number of allocated blocks equals the number of blocks; get returns NULL iff every block is allocated; after putting everything back the full capacity is available again.", "quantifier": "all histories, all pool geometries", "why_tests_cant": "Leaks and premature exhaustion depend on the history.", "anchors": ["source/mempool/src/rkhmempool.c:rkh_memPool_get", "source/mempool/src/rkhmempool.c:rkh_memPool_put", "source/mempool/src/rkhmempool.c:rkh_memPool_get_nfree"]}
{"id": "C09", "title": "Memory pool low watermark is the historical minimum of free blocks", "statement": "rkh_memPool_get_low_wmark equals the minimum over the whole history of the number of free blocks.", "quantifier": "all histories, all pool geometries", "why_tests_cant": "It is a minimum over the entire history.", "anchors": ["source/mempool/src/rkhmempool.c:rkh_memPool_get", "source/mempool/src/rkhmempool.c:rkh_memPool_get_low_wmark"]}
{"id": "C10", "title": "Memory pool rejects invalid returns", "statement": "Returning a block outside the pool range, or any block when nothing is allocated, raises an assertion and never corrupts the pool. (Interior mis-aligned pointers and double frees while another block is outstanding are NOT detected by the code and corrupt it.)", "quantifier": "all pool states reachable by any history, all addresses", "why_tests_cant": "Quantifies over all addresses and states.", "anchors": ["source/mempool/src/rkhmempool.c:rkh_memPool_put"]}
{"id": "C11", "title": "Bit lookup tables are correct for every byte", "statement": "For every non-zero byte rkh_bittbl_getLeastBitSetPos returns the index of its least significant set bit, and for every position below 8 rkh_bittbl_getBitMask returns the byte with exactly that bit set.", "quantifier": "all 256 byte values, all positions", "why_tests_cant": "A whole-table claim; sampled rows leave the others open.", "anchors": ["source/fwk/src/rkhfwk_bittbl.c:rkh_bittbl_getBitMask", "source/fwk/src/rkhfwk_bittbl.c:rkh_bittbl_getLeastBitSetPos"]}
{"id": "C12", "title": "Ready group behaves as a set of priorities", "statement": "After any history of setReady/setUnready calls with priorities below the configured maximum, a priority is a member iff its last call was setReady; the group is reported ready iff the set is non-empty; operations on one priority never affect another.", "quantifier": "all configured maxima up to 64, all priorities, all histories", "why_tests_cant": "Two-level bitmap: errors appear only for particular combinations of rows and columns over histories.", "anchors": ["source/fwk/src/rkhfwk_rdygrp.c:rkh_rdygrp_init", "source/fwk/src/rkhfwk_rdygrp.c:rkh_rdygrp_setReady", "source/fwk/src/rkhfwk_rdygrp.c:rkh_rdygrp_setUnready", "source/fwk/src/rkhfwk_rdygrp.c:rkh_rdygrp_isReady"]}
{"id": "C13", "title": "findHighest returns the smallest ready priority", "statement": "Whenever the ready group is non-empty, rkh_rdygrp_findHighest returns the numerically smallest member.", "quantifier": "all reachable ready groups (2^64 sets)", "why_tests_cant": "2^64 sets.", "anchors": ["source/fwk/src/rkhfwk_rdygrp.c:rkh_rdygrp_findHighest"]}
{"id": "C14", "title": "traverse visits every member exactly once in ascending priority", "statement": "rkh_rdygrp_traverse invokes the callback exactly once for each member, in strictly ascending priority order, for no other priority, and returns the number of members.", "quantifier": "all reachable ready groups", "why_tests_cant": "2^64 sets.", "anchors": ["source/fwk/src/rkhfwk_rdygrp.c:rkh_rdygrp_traverse"]}
{"id": "C15", "title": "Ready set equals the set of active objects with pending events", "statement": "Under every interleaving of posts (FIFO and LIFO, from tasks or ISRs), gets, defers, recalls and publishes, an active object is marked ready iff its event queue is non-empty.", "quantifier": "all numbers of active objects up to the maximum, all queue sizes, all interleavings of critical sections", "why_tests_cant": "Concurrency invariant over unbounded schedules.", "anchors": ["source/queue/src/rkhqueue.c:rkh_queue_put_fifo", "source/queue/src/rkhqueue.c:rkh_queue_get", "source/sma/src/rkhsma_sync.c:rkh_sma_setReady", "source/sma/src/rkhsma_sync.c:rkh_sma_setUnready", "source/sma/src/rkhsma_sync.c:rkh_sma_block"]}
{"id": "C16", "title": "Scheduler always serves the highest-priority pending active object and idles only when nothing is pending", "statement": "Each scheduler iteration either takes the front event of the lowest-numbered active object that has a pending event at that time, or calls the idle hook, the latter exactly when no active object has a pending event. The event fetch that follows the selection can never find the queue empty, whatever ISRs do in between.", "quantifier": "all system states reachable under all interleavings with ISRs", "why_tests_cant": "Unbounded schedules and states.", "anchors": ["source/fwk/src/rkhfwk_sched.c:rkh_fwk_enter", "source/sma/src/rkhsma.c:rkh_sma_get"]}
{"id": "C17", "title": "Active-object registry holds one object per priority", "statement": "Registering succeeds only for a free in-range priority; after any history of register/unregister the table maps each priority to the object registered last and not yet unregistered; unregistering an object that is not registered asserts. (unregister's range check admits priority == RKH_CFG_FWK_MAX_SMA, one past the table: undefined behaviour.)", "quantifier": "all histories, all priorities", "why_tests_cant": "History property; the out-of-range read needs the boundary priority.", "anchors": ["source/sma/src/rkhsma.c:rkh_sma_register", "source/sma/src/rkhsma.c:rkh_sma_unregister", "source/sma/src/rkhsma.c:rkh_sma_terminate"]}
{"id": "C18", "title": "Reference count equals the number of outstanding references", "statement": "For every dynamic event in use, under every interleaving of post FIFO/LIFO, dispatch completion, defer, recall, reserve, garbage-collect and publish, and as long as no event ever has more than 255 simultaneous references, the stored reference count equals the number of places that hold it (queue slots, deferred slots, the event being dispatched, reservations).", "quantifier": "all histories and interleavings, all numbers of queues/pools", "why_tests_cant": "Counting invariant over unbounded histories.", "anchors": ["source/fwk/src/rkhfwk_dynevt.c:rkh_fwk_gc", "source/fwk/src/rkhfwk_dynevt.c:rkh_fwk_reserve", "source/sma/src/rkhsma.c:rkh_sma_post_fifo", "source/sma/src/rkhsma.c:rkh_sma_post_lifo", "source/sma/src/rkhsma.c:rkh_sma_defer", "source/sma/src/rkhsma.c:rkh_sma_recall"]}
{"id": "C19", "title": "No use after recycle", "statement": "No event that is still referenced from any queue, deferred queue, reservation or the running dispatch is ever returned to its pool or handed out again by an allocation, and no block is returned twice.", "quantifier": "all histories and interleavings under the 255-reference bound", "why_tests_cant": "Safety over unbounded histories.", "anchors": ["source/fwk/src/rkhfwk_dynevt.c:rkh_fwk_gc", "source/fwk/src/rkhfwk_dynevt.c:rkh_fwk_ae", "source/fwk/src/rkhfwk_evtpool.c:rkh_evtPool_put", "source/fwk/src/rkhfwk_evtpool.c:rkh_evtPool_get"]}
{"id": "C20", "title": "No leak: an event is recycled exactly when its last reference is dropped", "statement": "Dropping the last reference returns the block to the pool it came from, so that whenever no references and no un-posted allocations remain, every pool is back to full capacity.", "quantifier": "all histories and interleavings under the 255-reference bound", "why_tests_cant": "Leaks only show over long histories.", "anchors": ["source/fwk/src/rkhfwk_dynevt.c:rkh_fwk_gc"]}
{"id": "C21", "title": "Static events are never counted or recycled", "statement": "Posting, deferring, recalling, publishing, reserving or collecting a static event never modifies it and never returns anything to a pool.", "quantifier": "all histories", "why_tests_cant": "Negative universal claim.", "anchors": ["source/fwk/inc/rkhevt.h:RKH_INC_REF", "source/fwk/src/rkhfwk_dynevt.c:rkh_fwk_gc"]}
{"id": "C22", "title": "Reference counter must not wrap", "statement": "The reference counting guarantees hold for any number of simultaneous references. (False in the code: the counter is 8 bits, so 256 simultaneous references make a live event look unreferenced and the event is never recycled, or recycled while 256 references remain.)", "quantifier": "all reference multiplicities", "why_tests_cant": "Boundary at 256 references reached only by specific histories.", "anchors": ["source/fwk/inc/rkhevt.h:RKH_INC_REF"]}
{"id": "C23", "title": "Event allocation is first fit and large enough", "statement": "rkh_fwk_ae allocates from the first registered pool (in registration order) whose reported block size is at least the requested size; the returned block is at least as large as requested, its signal is the requested one and its reference count is zero; it asserts iff no registered pool is large enough or the selected pool is exhausted.", "quantifier": "all sets of registered pools, all sizes, all pool states", "why_tests_cant": "Quantifies over all pool tables and fill states.", "anchors": ["source/fwk/src/rkhfwk_dynevt.c:rkh_fwk_ae", "source/fwk/src/rkhfwk_dynevt.c:rkh_fwk_registerEvtPool", "source/fwk/src/rkhfwk_evtpool.c:rkh_evtPool_getBlockSize", "source/fwk/src/rkhfwk_evtpool.c:rkh_evtPool_getPool"]}
{"id": "C24", "title": "Deferred events are recalled in order, at the front, with balanced references", "statement": "Deferred events are recalled in the order they were deferred; each recall moves exactly one event to the front of the active object's queue and leaves its reference count unchanged; recall on an empty deferred queue returns NULL and changes nothing.", "quantifier": "all histories of defer/recall/post/get", "why_tests_cant": "History property.", "anchors": ["source/sma/src/rkhsma.c:rkh_sma_defer", "source/sma/src/rkhsma.c:rkh_sma_recall"]}
{"id": "C25", "title": "Publish delivers exactly once to every other subscriber in priority order", "statement": "A publish appends the event exactly once to the queue of every active object subscribed to that channel, except the sender, in ascending priority order; no other queue changes; it returns the number of subscribers including the sender.", "quantifier": "all subscription sets, all channels, all senders, all queue contents with room", "why_tests_cant": "2^64 subscription sets and unbounded queue contents.", "anchors": ["source/fwk/src/rkhfwk_pubsub.c:rkh_pubsub_publish", "source/fwk/src/rkhfwk_pubsub.c:publish"]}
{"id": "C26", "title": "Subscriptions follow the last subscribe/unsubscribe call", "statement": "After any history of subscribe, unsubscribe and unsubscribeAll, an active object is subscribed to a channel iff its last relevant call on that channel was subscribe; channels are independent.", "quantifier": "all histories, channels, priorities", "why_tests_cant": "History property.", "anchors": ["source/fwk/src/rkhfwk_pubsub.c:rkh_pubsub_init", "source/fwk/src/rkhfwk_pubsub.c:rkh_pubsub_subscribe", "source/fwk/src/rkhfwk_pubsub.c:rkh_pubsub_unsubscribe", "source/fwk/src/rkhfwk_pubsub.c:rkh_pubsub_unsubscribeAll"]}
{"id": "C27", "title": "Publishing never leaks or prematurely recycles the event", "statement": "A dynamic event published with k receiving subscribers ends with exactly k references more than before; with none and no other reference it is recycled by the publish call itself.", "quantifier": "all subscription sets and prior reference counts below the wrap bound", "why_tests_cant": "Quantifies over all subscriber sets.", "anchors": ["source/fwk/src/rkhfwk_pubsub.c:rkh_pubsub_publish"]}
{"id": "C28", "title": "One-shot timer fires exactly once, exactly on time", "statement": "A timer started with itick = n and period 0 posts its event to its active object at the n-th tick after the start and never again, provided it is not stopped or restarted meanwhile, irrespective of what happens to all other timers.", "quantifier": "all n > 0, all sets of other timers, all histories of operations on other timers", "why_tests_cant": "Unbounded tick counts and other-timer histories.", "anchors": ["source/tmr/src/rkhtmr.c:rkh_tmr_start", "source/tmr/src/rkhtmr.c:rkh_tmr_tick"]}
{"id": "C29", "title": "Periodic timer fires at itick and then every period ticks", "statement": "A timer started with itick = n and period p > 0 posts its event exactly at ticks n, n+p, n+2p, ... after the start and at no other tick while it is not stopped or restarted.", "quantifier": "all n, p > 0, unbounded tick counts, all histories of other timers", "why_tests_cant": "Unbounded time.", "anchors": ["source/tmr/src/rkhtmr.c:rkh_tmr_start", "source/tmr/src/rkhtmr.c:rkh_tmr_tick"]}
{"id": "C30", "title": "Stopping a timer", "statement": "After rkh_tmr_stop a timer posts nothing until it is started again; the call returns true iff the timer was running (started and neither expired one-shot nor stopped) and affects no other timer.", "quantifier": "all timer histories", "why_tests_cant": "Quantifies over all future ticks and all histories.", "anchors": ["source/tmr/src/rkhtmr.c:rkh_tmr_stop"]}
{"id": "C31", "title": "Restarting and re-initialising a running timer", "statement": "Starting a running timer only replaces its schedule (no double registration: it still fires once per expiry); re-initialising a running timer disarms it; neither affects other timers.", "quantifier": "all timer histories", "why_tests_cant": "List corruption needs specific histories.", "anchors": ["source/tmr/src/rkhtmr.c:rkh_tmr_start", "source/tmr/src/rkhtmr.c:rkh_tmr_init_"]}
{"id": "C32", "title": "Timer list integrity", "statement": "After any history of init/start/stop/tick on any set of timers, the internal list is finite, acyclic, duplicate free and contains exactly the running timers; hence a tick always terminates and decrements each running timer exactly once.", "quantifier": "all histories", "why_tests_cant": "Pointer-structure invariant over unbounded histories.", "anchors": ["source/tmr/src/rkhtmr.c:rkh_tmr_tick", "source/tmr/src/rkhtmr.c:rem_from_list", "source/tmr/src/rkhtmr.c:rkh_tmr_searchAndRemove"]}
{"id": "C33", "title": "Same-tick expiry order", "statement": "Timers that expire on the same tick post in the order in which they were started (documented: timers execute in the order in which they become active). (False in the code: the most recently activated timer is served first.)", "quantifier": "all sets of timers expiring at the same tick", "why_tests_cant": "Order over all histories.", "anchors": ["source/tmr/src/rkhtmr.c:rkh_tmr_tick", "source/tmr/src/rkhtmr.c:rkh_tmr_start", "source/tmr/inc/rkhtmr.h:RKH_TMR_T"]}
{"id": "C34", "title": "Transition selection: innermost active state first, table order, first enabled", "statement": "A dispatched event takes the first transition in table order with a matching trigger and a true (or absent) guard in the innermost active state that has one; outer states are consulted only if no inner state has an enabled transition; if there is none the dispatch returns RKH_EVT_NFOUND, executes no action and changes neither the state nor any history.", "quantifier": "all state machines, all active states, all events, all guard behaviours", "why_tests_cant": "Quantifies over all state machine models.", "anchors": ["source/sm/src/rkhsm.c:rkh_sm_dispatch", "source/sm/src/rkhsm.c:FIND_TRN"]}
{"id": "C35", "title": "Internal transitions never exit, enter or change state", "statement": "Taking an internal transition executes exactly its effect action and returns RKH_EVT_PROC; no exit, entry or initial action runs, and the current state and all histories are unchanged.", "quantifier": "all state machines, states, events", "why_tests_cant": "Quantifies over all state machine models.", "anchors": ["source/sm/src/rkhsm.c:rkh_sm_dispatch", "source/sm/src/rkhsm.c:IS_INTERNAL_TRANSITION"]}
{"id": "C36", "title": "External transition order: exits inner-to-outer, effects in path order, entries outer-to-inner", "statement": "For a transition whose path has no choice pseudostate, all exit actions run before all effect actions, which run before all entry actions; exit actions run from the innermost active state outwards, effects in the order in which they lie on the path, entries from outermost to innermost.", "quantifier": "all well-formed state machines, states, events", "why_tests_cant": "Quantifies over all state machine models.", "anchors": ["source/sm/src/rkhsm.c:rkh_sm_dispatch", "source/sm/src/rkhsm.c:RKH_EXEC_EXIT_ACTION", "source/sm/src/rkhsm.c:RKH_EXEC_TRANSITION", "source/sm/src/rkhsm.c:RKH_EXEC_ENTRY_ACTION"]}
{"id": "C37", "title": "Exited and entered states are exactly those below the least common ancestor", "statement": "The exited states are exactly the active states that are not ancestors of the target, plus the current state itself for a self-transition; the entered states are exactly the target and its ancestors that were not active, plus the current state itself for a self-transition, followed by the default-entry chain.", "quantifier": "all state hierarchies, all pairs of current and target states", "why_tests_cant": "Quantifies over all trees.", "anchors": ["source/sm/src/rkhsm.c:RKH_EXEC_EXIT_ACTION", "source/sm/src/rkhsm.c:addTargetSt"]}
{"id": "C38", "title": "Entry and exit actions are balanced over every history", "statement": "From creation on, after any sequence of successfully processed events, the states that have been entered and not yet exited are exactly the current state and all its ancestors; no state is ever entered while active or exited while inactive.", "quantifier": "all well-formed state machines, all event sequences, all guard behaviours", "why_tests_cant": "Unbounded histories over all models.", "anchors": ["source/sm/src/rkhsm.c:rkh_sm_init", "source/sm/src/rkhsm.c:rkh_sm_dispatch"]}
{"id": "C39", "title": "A stable configuration is always a basic or final state", "statement": "After creation and after every processed event the current state is a basic or a final state, never a composite or a pseudostate, and it is reached by following default transitions from the target.", "quantifier": "all well-formed state machines, all histories", "why_tests_cant": "Unbounded histories over all models.", "anchors": ["source/sm/src/rkhsm.c:rkh_sm_dispatch"]}
{"id": "C40", "title": "A rejected event leaves the current state unchanged", "statement": "Whenever the compound transition that handles an event cannot be completed (no transition, no branch, false history guard, too many segments, too deep hierarchy, unknown vertex) the current state is unchanged. No exit, entry or effect action has run if the failure is 'not found'.", "quantifier": "all state machines, all events, all guard behaviours", "why_tests_cant": "Error branches over all models.", "anchors": ["source/sm/src/rkhsm.c:rkh_sm_dispatch"]}
{"id": "C41", "title": "Shallow history restores the last active direct child", "statement": "A transition to a shallow history pseudostate enters the direct child of the composite that was active when the composite was last exited (then its default descendants); the default transition, or default entry, is taken if it was never exited or the history was cleared.", "quantifier": "all well-formed state machines, all histories", "why_tests_cant": "History property over all models.", "anchors": ["source/sm/src/rkhsm.c:RKH_UPDATE_SHALLOW_HIST", "source/sm/src/rkhsm.c:rkh_sm_clear_history"]}
{"id": "C42", "title": "Deep history restores the last active leaf", "statement": "A transition to a deep history pseudostate re-enters the leaf state that was active when the composite was last active, entering every level in between.", "quantifier": "all well-formed state machines, all histories", "why_tests_cant": "History property over all models.", "anchors": ["source/sm/src/rkhsm.c:rkh_update_deep_hist"]}
{"id": "C43", "title": "Branch selection at choice and conditional pseudostates", "statement": "At a choice or conditional pseudostate the first branch in table order whose guard is true is taken; an ELSE branch is always taken if reached; if no guard is true the dispatch returns RKH_CND_NFOUND. For a choice, the guards are evaluated after the effects of the preceding segments; for a conditional before them.", "quantifier": "all branch tables, all guard behaviours", "why_tests_cant": "Quantifies over all branch tables and guard behaviours.", "anchors": ["source/sm/src/rkhsm.c:FIND_BRANCH", "source/sm/src/rkhsm.c:rkh_sm_else", "source/sm/src/rkhsm.c:rkh_sm_dispatch"]}
{"id": "C44", "title": "Transition sequence for choice points", "statement": "The documented order 'exit actions of the source state, then transition actions' holds for every transition. (False in the code for paths through a choice pseudostate: the effects before the choice run before the source state is exited.)", "quantifier": "all state machines with choice pseudostates", "why_tests_cant": "Order over all models.", "anchors": ["source/sm/src/rkhsm.c:rkh_sm_dispatch"]}
{"id": "C45", "title": "Completion events", "statement": "After a transition that enters a basic state with completion transitions or a nested final state, the completion event is dispatched before any other event, within the same dispatch call; and a completion event is generated for a composite only when its region has reached its final state. (The latter is false in the code: a disabled completion transition of a simple state lets an enclosing composite's completion transition fire.)", "quantifier": "all state machines", "why_tests_cant": "Quantifies over all models.", "anchors": ["source/sm/src/rkhsm.c:isCompletionTrn", "source/sm/src/rkhsm.c:findCompletionTrn", "source/sm/src/rkhsm.c:rkh_sm_dispatch"]}
{"id": "C46", "title": "Dispatch result code reports whether the event was handled", "statement": "rkh_sm_dispatch returns RKH_EVT_PROC iff the dispatched event was successfully processed. (False in the code: a processed event followed by a completion event with no enabled completion transition returns RKH_EVT_NFOUND.)", "quantifier": "all state machines, events", "why_tests_cant": "Quantifies over all models.", "anchors": ["source/sm/src/rkhsm.c:rkh_sm_dispatch"]}
{"id": "C47", "title": "State machine creation enters the default configuration outer-to-inner", "statement": "Activation runs the initial action first and then enters every ancestor of the initial state from the root down to it, followed by its default-entry chain, exactly once each.", "quantifier": "all well-formed state machines", "why_tests_cant": "Quantifies over all trees.", "anchors": ["source/sm/src/rkhsm.c:rkh_sm_init", "source/sm/src/rkhsm.c:addTargetSt"]}
{"id": "C48", "title": "Segment and nesting limits", "statement": "A compound transition never stores more than RKH_CFG_SMA_MAX_TRC_SEGS actions nor more than RKH_CFG_SMA_MAX_HCAL_DEPTH entered states in the engine's fixed arrays; exceeding them is reported with RKH_EX_TSEG / RKH_EX_HLEVEL. (The nesting limit is not checked on creation and default entry: buffer overflow.)", "quantifier": "all state machines", "why_tests_cant": "Quantifies over all models.", "anchors": ["source/sm/src/rkhsm.c:rkh_add_tr_action", "source/sm/src/rkhsm.c:RKH_EXEC_EXIT_ACTION", "source/sm/src/rkhsm.c:addTargetSt"]}
{"id": "C49", "title": "Trace framing round-trips", "statement": "For every sequence of trace records with arbitrary field bytes, un-escaping the stream between flag bytes yields exactly the records written, in order; the flag byte never occurs inside a record.", "quantifier": "all record payloads (arbitrary byte strings), all numbers of records", "why_tests_cant": "All byte strings.", "anchors": ["source/trc/src/rkhtrc_record.c:rkh_trc_u8", "source/trc/src/rkhtrc_record.c:rkh_trc_begin", "source/trc/src/rkhtrc_record.c:rkh_trc_end"]}
{"id": "C50", "title": "Trace checksum", "statement": "For every record the 8-bit sum of all un-escaped bytes of the record including the checksum byte is zero; consequently any single-byte corruption of the un-escaped record is detected.", "quantifier": "all record payloads", "why_tests_cant": "All byte strings.", "anchors": ["source/trc/src/rkhtrc_record.c:rkh_trc_u8", "source/trc/src/rkhtrc_record.c:rkh_trc_end"]}
{"id": "C51", "title": "Multi-byte trace fields round-trip", "statement": "16-bit and 32-bit fields and strings are emitted little-endian / zero-terminated such that the decoded bytes reconstruct the value for every value.", "quantifier": "all 16/32-bit values, all strings", "why_tests_cant": "2^32 values, all strings.", "anchors": ["source/trc/src/rkhtrc_record.c:rkh_trc_u16", "source/trc/src/rkhtrc_record.c:rkh_trc_u32", "source/trc/src/rkhtrc_record.c:rkh_trc_str"]}
{"id": "C52", "title": "Trace stream keeps the newest bytes in order", "statement": "The trace stream is a ring: after any history of puts and gets, the readable bytes are exactly the newest unread bytes, at most the stream size, oldest first; single get, block get and whole-block get return prefixes of that sequence and remove exactly what they return.", "quantifier": "all stream sizes, all histories of put/get/get_block", "why_tests_cant": "Wrap-around and overwrite depend on the history.", "anchors": ["source/trc/src/rkhtrc_stream.c:rkh_trc_put", "source/trc/src/rkhtrc_stream.c:rkh_trc_get", "source/trc/src/rkhtrc_stream.c:rkh_trc_get_block", "source/trc/src/rkhtrc_stream.c:rkh_trc_getWholeBlock"]}
{"id": "C53", "title": "Trace filters", "statement": "A trace event is emitted iff both its group and its event are enabled (and, for symbol filters, its signal / active object is enabled); each filter operation changes only the filters it names, for every identifier, except the identifiers, slots and table sizes listed in C54, C58, C59 and C60.", "quantifier": "all event ids, groups, slots, all histories of filter operations", "why_tests_cant": "All ids and histories.", "anchors": ["source/trc/src/rkhtrc_filter.c:rkh_trc_filter_group_", "source/trc/src/rkhtrc_filter.c:rkh_trc_filter_event_", "source/trc/src/rkhtrc_filter.c:rkh_trc_isoff_", "source/trc/src/rkhtrc_filter.c:rkh_trc_symFil", "source/trc/src/rkhtrc_filter.c:rkh_trc_symFil_isoff"]}
{"id": "C54", "title": "Symbol filter slot range check", "statement": "Symbol filter operations reject every slot outside the filter table. (False in the code: slot == 8*size passes the check and indexes one byte past the table.)", "quantifier": "all slots", "why_tests_cant": "Boundary slot.", "anchors": ["source/trc/src/rkhtrc_filter.c:rkh_trc_symFil", "source/trc/src/rkhtrc_filter.c:rkh_trc_symFil_isoff"]}
{"id": "C55", "title": "Events of one active object are processed in posting order, exactly once", "statement": "In every execution of the scheduler in which only FIFO posts are used, each active object dispatches exactly the sequence of events posted to it, in posting order, each once, none skipped while the scheduler keeps running.", "quantifier": "all numbers of active objects and all interleavings of posts and scheduler steps", "why_tests_cant": "Unbounded schedules.", "anchors": ["source/fwk/src/rkhfwk_sched.c:rkh_fwk_enter", "source/sma/src/rkhsma.c:rkh_sma_post_fifo", "source/sma/src/rkhsma.c:rkh_sma_get"]}
{"id": "C56", "title": "Pool initialisation accepts only representable pools", "statement": "Whenever rkh_memPool_init returns, the number of blocks that fit in the storage is the number of blocks the pool reports and can deliver. (False in the code: the block count has type RKH_MPNB_T, 8 bits by default, and wraps silently; 1024 bytes of 4-byte blocks give a pool of 0 blocks.)", "quantifier": "all storage sizes and block sizes", "why_tests_cant": "the wrap only happens for particular size combinations and configuration widths", "anchors": ["source/mempool/src/rkhmempool.c:rkh_memPool_init"]}
{"id": "C57", "title": "A time-out hook may restart its timer", "statement": "A tick advances every running timer by exactly one, also when the hook function of an expiring timer starts or stops timers. (False in the code: a hook that restarts its own one-shot timer re-links it at the list head and the tick walks the list again, so other timers advance twice and fire early.)", "quantifier": "all timers, hook functions and schedules", "why_tests_cant": "needs a hook restarting its own timer and another timer positioned in the list so that the second walk is visible", "anchors": ["source/tmr/src/rkhtmr.c:rkh_tmr_tick", "source/tmr/src/rkhtmr.c:rkh_tmr_start"]}
{"id": "C58", "title": "Each trace event can be filtered on its own", "statement": "Suppressing or enabling one trace event by its identifier affects only that event (and, when enabling, its group), for every event identifier in use. (False in the code: RKH_TE_UT_SUCCESS has the value of RKH_TRC_ALL_EVENTS, so filtering it filters everything, and RKH_TE_UT_FAIL fails the range assertion.)", "quantifier": "all event identifiers and filter states", "why_tests_cant": "only two identifiers at the end of the numbering are affected", "anchors": ["source/trc/src/rkhtrc_filter.c:rkh_trc_filter_event_"]}
{"id": "C59", "title": "Each signal can be filtered on its own", "statement": "Enabling or suppressing one signal in the signal filter affects only trace points naming this signal, for every signal below the configured maximum. (False in the code from signal 256 on: the lookup truncates the signal to 8 bits.)", "quantifier": "all signals and filter states", "why_tests_cant": "needs a configuration with more than 256 signals", "anchors": ["source/trc/src/rkhtrc_filter.c:rkh_trc_symFil", "source/trc/src/rkhtrc_filter.c:rkh_trc_symFil_isoff"]}
{"id": "C60", "title": "Setting all symbol filters stays inside the table", "statement": "Enabling or suppressing all signals writes only the signal filter table, for every configured number of signals. (False in the code above 2040 signals: the 8-bit loop counter wraps and the loop runs past the table.)", "quantifier": "all configurations and filter states", "why_tests_cant": "needs a very large signal count", "anchors": ["source/trc/src/rkhtrc_filter.c:rkh_trc_symFil"]}
{"id": "C61", "title": "Trace sequence numbers", "statement": "The records written with a full header carry consecutive sequence numbers modulo 256, starting at zero, whatever records with default headers are interleaved.", "quantifier": "all sequences of records", "why_tests_cant": "wrap-around after 256 records and interleaving with default headers", "anchors": ["source/trc/src/rkhtrc_record.c:rkh_trc_begin"]}
{"id": "C62", "title": "Correct use of the framework never leads to undefined behaviour", "statement": "Every history of framework calls that respects the documented contract (registered receivers, events that are static, freshly allocated or still referenced, at most 255 references, no scheduler step inside a recall), under every interleaving of the critical sections, returns exactly what the reference model (sequences, sets, counted holders) returns, stops with an assertion exactly when the reference model does, and never executes undefined behaviour.", "quantifier": "all histories and all interleavings", "why_tests_cant": "unbounded histories and schedules", "anchors": ["source/sma/src/rkhsma.c:rkh_sma_activate", "source/sma/src/rkhsma.c:rkh_sma_post_fifo", "source/sma/src/rkhsma.c:rkh_sma_post_lifo", "source/sma/src/rkhsma.c:rkh_sma_defer", "source/sma/src/rkhsma.c:rkh_sma_recall", "source/fwk/src/rkhfwk_dynevt.c:rkh_fwk_ae", "source/fwk/src/rkhfwk_dynevt.c:rkh_fwk_gc", "source/fwk/src/rkhfwk_pubsub.c:rkh_pubsub_publish", "source/fwk/src/rkhfwk_sched.c:rkh_fwk_enter"]}
{"id": "C63", "title": "An allocated event that is never sent can be given back", "statement": "Collecting an event that was allocated but never posted, deferred, published or reserved returns it to its pool. (False in the code: its reference count is zero and rkh_fwk_gc ignores it, so the block is lost.)", "quantifier": "all reachable states and fresh events", "why_tests_cant": "needs every reachable state", "anchors": ["source/fwk/src/rkhfwk_dynevt.c:rkh_fwk_gc", "source/fwk/src/rkhfwk_dynevt.c:rkh_fwk_ae"]}
{"id": "C64", "title": "A rejected post leaves the reference count correct", "statement": "When a post is rejected because the queue is full, the reference count of the event is as before. (False in the code when assertions are compiled out: the counter is incremented before the queue rejects the event.)", "quantifier": "all states with a full queue, both post functions", "why_tests_cant": "configuration without assertions, all states", "anchors": ["source/sma/src/rkhsma.c:rkh_sma_post_fifo", "source/sma/src/rkhsma.c:rkh_sma_post_lifo"]}
{"id": "C65", "title": "Terminating an active object with pending events is safe", "statement": "After an active object is terminated the scheduler never selects it again. (False in the code: it stays in the ready set while events are queued, and the scheduler then dereferences the empty table entry.)", "quantifier": "all reachable states", "why_tests_cant": "all reachable states", "anchors": ["source/sma/src/rkhsma.c:rkh_sma_terminate", "source/sma/src/rkhsma.c:rkh_sma_unregister", "source/fwk/src/rkhfwk_sched.c:rkh_fwk_enter"]}
{"id": "C66", "title": "Publishing checks its channel", "statement": "A publish to a channel number out of range is rejected by an assertion, like a subscription. (False in the code: only subscribe and unsubscribe check.)", "quantifier": "all reachable states and channel numbers", "why_tests_cant": "all states and numbers", "anchors": ["source/fwk/src/rkhfwk_pubsub.c:rkh_pubsub_publish", "source/fwk/src/rkhfwk_pubsub.c:rkh_pubsub_subscribe"]}
{"id": "C67", "title": "Recall is safe against preemption", "statement": "A recall completes without assertion failure also when the receiving active object runs between its critical sections. (False in the code: if the receiver consumes the recalled event first, the recalling function finds a single reference left and asserts.)", "quantifier": "all reachable states where the deferred queue holds the only reference", "why_tests_cant": "needs a schedule that interleaves the receiver with the recall", "anchors": ["source/sma/src/rkhsma.c:rkh_sma_recall"]}
{"id": "C68", "title": "A dispatch returns, or completion events trigger each other for ever", "statement": "rkh_sm_dispatch returns for every event in every reachable situation of a machine whose pseudostates do not lead back to themselves, unless completion transitions trigger each other for ever; in that case it never returns. Whenever the reference semantics (exits, effects, entries, completion events) gives an outcome, the engine reaches exactly this outcome.", "quantifier": "all machines, events, guard functions and reachable situations", "why_tests_cant": "termination and completeness quantify over all machines and unbounded executions", "anchors": ["source/sm/src/rkhsm.c:rkh_sm_dispatch", "source/sm/src/rkhsm.c:findCompletionTrn", "source/sm/src/rkhsm.c:isCompletionTrn"]}
{"id": "C69", "title": "A transition to an enclosing state does not leave it", "statement": "A transition from a nested state to one of its proper ancestors (including a self-transition of a composite state) neither exits nor enters that ancestor; a self-transition of a basic state does both.", "quantifier": "all machines, nesting depths and transitions", "why_tests_cant": "all hierarchies and source/target pairs", "anchors": ["source/sm/src/rkhsm.c:rkh_sm_dispatch", "source/sm/src/rkhsm.c:RKH_EXEC_EXIT_ACTION"]}
{"id": "C70", "title": "A branch without guard is never taken", "statement": "A branch of a choice or conditional pseudostate is taken only if it has a guard; a branch without guard is skipped (contrary to rkhsm.h, which calls the guard optional), so that such a pseudostate may report RKH_CND_NFOUND.", "quantifier": "all machines, branch tables and guard functions", "why_tests_cant": "all tables and guard outcomes", "anchors": ["source/sm/src/rkhsm.c:rkh_sm_dispatch", "source/sm/src/rkhsm.c:FIND_BRANCH"]}
{"id": "C71", "title": "A transition to a vertex of unknown type is reported", "statement": "If the selected transition leads to a vertex that is neither state nor pseudostate (e.g. the history of a composite state created with RKH_NO_HISTORY), RKH_UNKNOWN_STATE is reported; no state is left or entered, no action is called, and current state and histories are unchanged.", "quantifier": "all machines, situations, events and guard functions", "why_tests_cant": "all machines and situations", "anchors": ["source/sm/src/rkhsm.c:rkh_sm_dispatch"]}
{"id": "C72", "title": "Critical sections are protected and leave the interrupt status as it was", "statement": "On the STM32, uC/OS-III and S08 ports every statement inside a critical section runs with interrupts masked, for every nesting of sections (up to 2^32-1, unlimited and 8 deep) and whatever interrupt handlers, with critical sections of their own, are requested at any instruction of entering, leaving or between; and when the call returns the interrupt status is the one at the call, enabled or disabled. A ninth nested section on the S08 writes outside the saved-status array.", "quantifier": "all programs of nested critical sections, all interrupt arrivals at instruction granularity, all initial interrupt statuses", "why_tests_cant": "interrupts can arrive between any two instructions and can themselves be interrupted", "anchors": ["source/portable/arm-cortex/rkhs/arm_cm4f/stm32/rkhport.h:RKH_ENTER_CRITICAL", "source/portable/arm-cortex/rkhs/arm_cm4f/stm32/rkhport.h:RKH_EXIT_CRITICAL", "source/portable/ucos/v3.03.01/rkhport.h:RKH_ENTER_CRITICAL", "source/portable/s08/rkhs/cw6_3/rkhport.c:rkhport_enter_critical", "source/portable/s08/rkhs/cw6_3/rkhport.c:rkhport_exit_critical"]}
{"id": "C73", "title": "RKH services preserve the interrupt status on the Cortex-M ports with a nesting counter", "statement": "On the Cortex-M0/M3/M4F ports of CodeWarrior, Code Red and CIAA, critical sections are protected against all interrupts, and an RKH service called with interrupts disabled returns with interrupts disabled, as documented in rkhitl.h. (The second part is false in the code: leaving the outermost section always enables interrupts.)", "quantifier": "all programs of nested critical sections, all interrupt arrivals, all initial interrupt statuses", "why_tests_cant": "needs all instruction-level interleavings and calls from protected application code", "anchors": ["source/portable/arm-cortex/rkhs/arm_cm3/codered/rkhport.c:rkhport_enter_critical", "source/portable/arm-cortex/rkhs/arm_cm3/codered/rkhport.c:rkhport_exit_critical"]}
{"id": "C74", "title": "Critical sections are protected on ColdFire V1", "statement": "On the ColdFire V1 port every statement inside a critical section, of the program and of interrupt handlers, runs with interrupts masked. (False in the code: the nesting counter is incremented before the mask is set; a handler that arrives in between takes its own sections for nested ones and does not mask.)", "quantifier": "all programs of nested critical sections and all interrupt arrivals", "why_tests_cant": "the window is a few instructions wide", "anchors": ["source/portable/cfv1/rkhs/cw6_3/rkhport.c:rkhport_enter_critical", "source/portable/cfv1/rkhs/cw6_3/rkhport.c:rkhport_exit_critical"]}
{"id": "C75", "title": "No wake-up is lost", "statement": "On the Linux and Windows ports a thread that serves active objects never sleeps with an event queued and its signal clear; every posted event is processed exactly once after finitely many further steps of the thread; events processed plus events queued equals events posted.", "quantifier": "all interleavings of posts from any thread with the steps of the serving thread, counting semaphore and auto-reset event", "why_tests_cant": "the race between testing the queue and going to sleep", "anchors": ["source/portable/80x86/linux_st/gnu/rkhport.c:rkh_fwk_enter", "source/portable/80x86/linux_st/gnu/rkhport.c:rkh_sma_setReady", "source/portable/80x86/linux_st/gnu/rkhport.c:rkhport_wait_for_events", "source/portable/80x86/win32_st/vc/rkhport.c:rkh_fwk_enter", "source/portable/80x86/win32_mt/vc/rkhport.c:rkh_sma_block", "source/portable/80x86/win32_mt/vc/rkhport.c:rkh_sma_setReady"]}
{"id": "C76", "title": "An idle thread goes to sleep", "statement": "On the Linux and Windows ports the serving thread, with no event queued and no further posts, sleeps after finitely many steps (two for each signal left over, plus one).", "quantifier": "all states of queue and signal", "why_tests_cant": "left-over signals depend on the history of posts", "anchors": ["source/portable/80x86/linux_st/gnu/rkhport.c:rkh_fwk_enter", "source/portable/80x86/linux_st/gnu/rkhport.c:rkhport_wait_for_events"]}
{"id": "C77", "title": "An activated object processes events until it is terminated", "statement": "On the ports with one thread per active object, after rkh_sma_activate the thread of the object keeps processing events as long as nobody terminates the object. (False in the code: the variable the thread tests is assigned after the thread was created; a thread that runs first ends, and later events stay queued for ever.)", "quantifier": "all interleavings of the activating code, the new thread, posts and terminations", "why_tests_cant": "needs the new thread to run before the creating call returns", "anchors": ["source/portable/80x86/win32_mt/vc/rkhport.c:rkh_sma_activate", "source/portable/80x86/win32_mt/vc/rkhport.c:thread_function", "source/portable/ucos/v3.03.01/rkhport.c:rkh_sma_activate", "source/portable/ucos/v3.03.01/rkhport.c:thread_function"]}
{"id": "C78", "title": "A terminated object ends", "statement": "On the ports with one thread per active object, after rkh_sma_terminate the thread ends with the event it is processing and the object is unregistered. (False in the code for an object that is waiting: on Windows it stays registered and waits until another event arrives, which it still processes; on uC/OS-III its thread stops with an assertion failure.)", "quantifier": "all states of the thread and schedules", "why_tests_cant": "depends on where the thread is when it is terminated", "anchors": ["source/portable/80x86/win32_mt/vc/rkhport.c:rkh_sma_terminate", "source/portable/80x86/win32_mt/vc/rkhport.c:thread_function", "source/portable/ucos/v3.03.01/rkhport.c:rkh_sma_terminate", "source/portable/ucos/v3.03.01/rkhport.c:rkh_sma_get"]}
{"id": "C79", "title": "An active object behaves in the system as it does alone", "statement": "Whatever other active objects, timers and calls there are, and however they interleave, the data, state and history of actions of an active object are those of its state machine run alone on the sequence of signals dispatched to it: rkh_sm_init once, then rkh_sm_dispatch for each signal.", "quantifier": "all systems of active objects and timers, all histories", "why_tests_cant": "interference between objects through the shared framework depends on the interleaving", "anchors": ["source/fwk/src/rkhfwk_sched.c:rkh_fwk_enter", "source/sma/src/rkhsma.c:rkh_sma_activate", "source/sma/src/rkhsma.c:rkh_sma_get", "source/sm/src/rkhsm.c:rkh_sm_init", "source/sm/src/rkhsm.c:rkh_sm_dispatch"]}
{"id": "C80", "title": "Signals reach a state machine in the order they were sent", "statement": "For an active object that receives no LIFO posts and recalls nothing, the signals of the events sent to it by rkh_sma_post_fifo, by publications and by timers are, in order, the signals its state machine has been given followed by those still in its queue; the signal is the one the event had when it was sent, also for dynamic events whose block is reused later.", "quantifier": "all systems and histories", "why_tests_cant": "a recycled event block or a lost, doubled or overtaken event needs particular histories across queue, pool and scheduler", "anchors": ["source/sma/src/rkhsma.c:rkh_sma_post_fifo", "source/sma/src/rkhsma.c:rkh_sma_get", "source/fwk/src/rkhfwk_pubsub.c:rkh_pubsub_publish", "source/tmr/src/rkhtmr.c:rkh_tmr_tick", "source/fwk/src/rkhfwk_sched.c:rkh_fwk_enter"]}
{"id": "C81", "title": "Behaviour depends on the events received only", "statement": "Two active objects with the same state machine and guard functions that were given the same sequence of signals are in the same state, with the same sequence of actions executed, even in different systems with different schedules, configurations and other objects.", "quantifier": "all pairs of systems and histories", "why_tests_cant": "quantifies over pairs of whole-system executions", "anchors": ["source/fwk/src/rkhfwk_sched.c:rkh_fwk_enter", "source/sm/src/rkhsm.c:rkh_sm_dispatch"]}
{"id": "C82", "title": "A tick delivers the events of exactly the timers that are due", "statement": "rkh_tmr_tick appends to the queue of each active object the events of exactly those of its timers that are due at this tick (started n ticks ago, or n plus a multiple of the period), and changes neither other queues nor any state machine; a timer that was stopped, or not started since its initialisation, delivers nothing.", "quantifier": "all systems, histories and numbers of timers", "why_tests_cant": "timer list, queue contents and schedule are arbitrary", "anchors": ["source/tmr/src/rkhtmr.c:rkh_tmr_tick", "source/tmr/src/rkhtmr.c:rkh_tmr_start", "source/tmr/src/rkhtmr.c:rkh_tmr_stop", "source/sma/src/rkhsma.c:rkh_sma_post_fifo"]}
{"id": "C83", "title": "The scheduler works off what is waiting, in priority order, then idles", "statement": "From any reachable situation between two scheduler rounds, if nothing else happens, the scheduler dispatches exactly the waiting events, highest priority first and in queue order for each object, then finds nothing ready; all queues are then empty.", "quantifier": "all reachable situations, all numbers of objects and events", "why_tests_cant": "all reachable situations", "anchors": ["source/fwk/src/rkhfwk_sched.c:rkh_fwk_enter", "source/sma/src/rkhsma.c:rkh_sma_get"]}
{"id": "C84", "title": "The system comes to rest", "statement": "From any reachable situation of the whole system between two scheduler rounds, if every dispatch of the state machines returns and nothing else happens, after as many rounds as there are waiting events the scheduler idles, and every state machine has handled exactly the signals that were waiting for it, in order.", "quantifier": "all reachable situations and all terminating state machines", "why_tests_cant": "liveness over all reachable situations", "anchors": ["source/fwk/src/rkhfwk_sched.c:rkh_fwk_enter", "source/sma/src/rkhsma.c:rkh_sma_get", "source/sm/src/rkhsm.c:rkh_sm_dispatch"]}
{"id": "C85", "title": "A machine without nesting behaves the same with hierarchy disabled", "statement": "A state machine of basic states that are not nested, without completion transitions, gives the same result codes, goes through the same states and executes the same actions in the same order whether RKH_CFG_SMA_HCAL_EN is enabled or not, apart from entry and exit actions; without hierarchy a dispatch never calls guards or actions for another event than the one dispatched, so completion transitions are never taken.", "quantifier": "all machines, guards and event sequences", "why_tests_cant": "compares two builds of the engine on all machines and event sequences", "anchors": ["source/sm/src/rkhsm.c:rkh_sm_dispatch"]}
{"id": "C86", "title": "Hooks do not disturb other timers", "statement": "If time-out hooks restart running timers only, or, for periodic timers, start any timer or stop another one, then a timer that no hook starts or stops posts the same events at the same ticks, and calls about it return the same, as if the hooks did nothing; in particular it expires exactly when due.", "quantifier": "all histories of timer calls and ticks, all hook functions making such calls", "why_tests_cant": "hooks change the list while the tick walks it; the damage depends on list positions and on which timers expire together", "anchors": ["source/tmr/src/rkhtmr.c:rkh_tmr_tick", "source/tmr/src/rkhtmr.c:rkh_tmr_start", "source/tmr/src/rkhtmr.c:rkh_tmr_stop"]}
{"id": "C87", "title": "A timer started in a hook expires after the given number of ticks", "statement": "A timer started with n ticks by a time-out hook expires at the n-th tick after the one in which the hook ran, then every period. (False in the code for a running timer that was activated before the timer whose hook restarts it: the current tick already counts, so it expires one tick early.)", "quantifier": "all histories, timers, hooks, positions in the order of activation", "why_tests_cant": "depends on the order of activation of two timers", "anchors": ["source/tmr/src/rkhtmr.c:rkh_tmr_tick", "source/tmr/src/rkhtmr.c:rkh_tmr_start"]}
{"id": "C88", "title": "The trace stream describes itself", "statement": "A host that reads the configuration record sent at start decodes every later record, with nothing but that announcement, to the trace point that was executed and the arguments it was given, in order; trace points that are compiled out or filtered leave no record. (False in the code for configurations where function and data addresses differ in size, since only one size is announced, for 8-byte addresses, and where the number of event pools spoils the announced size of block sizes.)", "quantifier": "all configurations, all sequences of trace points with all arguments, filter calls and reads", "why_tests_cant": "encoder and decoder must agree on every field of every record in every configuration", "anchors": ["source/trc/inc/rkhtrc_record.h:RKH_TR_FWK_TCFG", "source/trc/inc/rkhtrc_record.h:RKH_TR_SM_TRN", "source/trc/inc/rkhtrc_record.h:RKH_TR_SMA_FIFO", "source/trc/inc/rkhtrc_record.h:RKH_TR_MP_INIT", "source/trc/inc/rkhtrc_record.h:RKH_TRC_SYM", "source/trc/inc/rkhtrc_record.h:RKH_TRC_FUN", "source/trc/src/rkhtrc_record.c:rkh_trc_begin", "source/trc/src/rkhtrc_record.c:rkh_trc_end", "source/trc/src/rkhtrc_record.c:rkh_trc_u32", "source/fwk/src/rkhfwk_sched.c:rkh_fwk_enter"]}
{"id": "C89", "title": "The counts in trace records are the true ones", "statement": "The records of registering an event pool, allocating an event, recycling an event, activating an active object and posting to it report the number of blocks, blocks in use, elements and low-water marks there really are. (False in the code for pools and queues of 256 or more: counts are truncated to 8 bits on the way, even where the configuration provides for 16 or 32.)", "quantifier": "all pools, queues and configurations", "why_tests_cant": "only large pools and queues show it", "anchors": ["source/fwk/src/rkhfwk_evtpool.c:rkh_evtPool_getNumUsed", "source/fwk/src/rkhfwk_evtpool.c:rkh_evtPool_getNumMin", "source/fwk/src/rkhfwk_evtpool.c:rkh_evtPool_getNumBlock", "source/trc/inc/rkhtrc_record.h:RKH_TR_FWK_EPREG", "source/trc/inc/rkhtrc_record.h:RKH_TR_FWK_AE", "source/trc/inc/rkhtrc_record.h:RKH_TR_FWK_GCR", "source/trc/inc/rkhtrc_record.h:RKH_TR_SMA_ACT"]}
{"id": "C90", "title": "All trace records name an event pool by the same number", "statement": "The records about an event (allocation, posting, releasing, recycling) name its pool by the number under which it was registered. (False in the code: allocation and recycling report one less.)", "quantifier": "all pools and configurations", "why_tests_cant": "the records come from different functions and are compared only on the host", "anchors": ["source/trc/inc/rkhtrc_record.h:RKH_TR_FWK_AE", "source/trc/inc/rkhtrc_record.h:RKH_TR_FWK_GC", "source/trc/inc/rkhtrc_record.h:RKH_TR_FWK_GCR", "source/trc/inc/rkhtrc_record.h:RKH_TR_FWK_EPREG", "source/trc/inc/rkhtrc_record.h:RKH_TR_SMA_FIFO"]}
{"id": "C91", "title": "Which trace configurations are self-describing", "statement": "A host that has read the configuration record decodes every record to the arguments the program passed if and only if addresses are configured with 16 or 32 bits, function addresses are transmitted with the size of data addresses, and the number of event pools leaves the announced size of block sizes intact; whatever the configuration, version, tick rate, all option switches and all sizes except those two are read correctly from the record.", "quantifier": "all configurations and records", "why_tests_cant": "a statement about all configurations, in both directions", "anchors": ["source/trc/inc/rkhtrc_record.h:RKH_TR_FWK_TCFG"]}
{"id": "C92", "title": "The trace of a state machine tells its behaviour", "statement": "A host that reads the trace records of a state machine in the order they are sent, knowing the transition tables and which states have entry and exit actions, obtains exactly the sequence of effects, with the events they were executed for, of states left and entered, and of current states, over the whole life of the machine; the records never contradict each other (the dispatching state is the current one, a reported transition is one the machine has for the event, an effect is reported for the current state, the counts of states entered and left agree with the states reported, the new current state is the target of the last transition segment).", "quantifier": "all machines, guard functions and sequences of calls of rkh_sm_init, rkh_sm_dispatch and rkh_sm_clear_history", "why_tests_cant": "needs all machines and all execution paths, including failing calls", "anchors": ["source/sm/src/rkhsm.c:rkh_sm_init", "source/sm/src/rkhsm.c:rkh_sm_dispatch", "source/sm/src/rkhsm.c:RKH_EXEC_EXIT_ACTION", "source/sm/src/rkhsm.c:RKH_EXEC_ENTRY_ACTION", "source/fwk/inc/rkhitl.h:RKH_EXEC_ENTRY", "source/fwk/inc/rkhitl.h:RKH_EXEC_EXIT", "source/fwk/inc/rkhitl.h:RKH_EXEC_EFF", "source/trc/inc/rkhtrc_record.h:RKH_TR_SM_DCH", "source/trc/inc/rkhtrc_record.h:RKH_TR_SM_EXE_ACT", "source/trc/inc/rkhtrc_record.h:RKH_TR_SM_STATE"]}
{"id": "C93", "title": "The trace of a state machine tells its active states", "statement": "After calls that all succeeded, a host that has read the trace knows the current state and, by replaying the entries and exits it has read, exactly the active states: the current state, which is a leaf, and its ancestors.", "quantifier": "all well-formed machines and sequences of successful calls", "why_tests_cant": "all machines and histories", "anchors": ["source/sm/src/rkhsm.c:rkh_sm_init", "source/sm/src/rkhsm.c:rkh_sm_dispatch"]}
{"id": "C94", "title": "The last record of a dispatch announces its result", "statement": "The last trace record of rkh_sm_dispatch is the one that belongs to the code the call returns (processed, event not found, guard false, condition not found, unknown state, too many levels, too many segments).", "quantifier": "all machines, states, events and guard functions", "why_tests_cant": "every path out of the dispatch must write its record last", "anchors": ["source/sm/src/rkhsm.c:rkh_sm_dispatch", "source/sm/src/rkhsm.c:FIND_TRN", "source/trc/inc/rkhtrc_record.h:RKH_TR_SM_EVT_PROC", "source/trc/inc/rkhtrc_record.h:RKH_TR_SM_EVT_NFOUND", "source/trc/inc/rkhtrc_record.h:RKH_TR_SM_GRD_FALSE"]}
{"id": "C95", "title": "The first record of a dispatch names its event", "statement": "The first trace record of rkh_sm_dispatch names the event dispatched and the current state, so that all records up to the next such record belong to this event. (False in the code: the records of guards that are false while the transition is sought come before it.)", "quantifier": "all machines, states, events and guard functions", "why_tests_cant": "needs a transition table with several candidates for one event", "anchors": ["source/sm/src/rkhsm.c:rkh_sm_dispatch", "source/sm/src/rkhsm.c:FIND_TRN", "source/trc/inc/rkhtrc_record.h:RKH_TR_SM_DCH", "source/trc/inc/rkhtrc_record.h:RKH_TR_SM_GRD_FALSE"]}
{"id": "C96", "title": "Tracing changes nothing", "statement": "With trace calls compiled in, rkh_sm_init, rkh_sm_dispatch and rkh_sm_clear_history return the same codes, call the same guards and actions in the same order and leave the same state and histories as without.", "quantifier": "all machines, guard functions and sequences of calls", "why_tests_cant": "compares two builds on all machines and histories", "anchors": ["source/sm/src/rkhsm.c:rkh_sm_init", "source/sm/src/rkhsm.c:rkh_sm_dispatch", "source/sm/src/rkhsm.c:rkh_sm_clear_history"]}
{"id": "C97", "title": "A state machine initialised again starts as a new one", "statement": "rkh_sm_init called for an object that was in use (e.g. a terminated active object that is activated again) makes it behave from then on as a new object: same results, actions and states for the same events. (False in the code: the histories are kept.)", "quantifier": "all machines, guard functions, situations the object was left in and sequences of later calls", "why_tests_cant": "compares two whole histories, from every situation the object can be left in", "anchors": ["source/sm/src/rkhsm.c:rkh_sm_init", "source/sma/src/rkhsma.c:rkh_sma_activate"]}
{"id": "C98", "title": "Nothing but the histories survives an initialisation", "statement": "An object initialised again behaves from then on as a new object whose histories were already set as the old one left them, whatever state it was left in, even by a failed dispatch; what rkh_sm_init itself does and returns does not depend on that state.", "quantifier": "all machines, guard functions, situations the object was left in and sequences of later calls", "why_tests_cant": "compares two whole histories, from every situation the object can be left in", "anchors": ["source/sm/src/rkhsm.c:rkh_sm_init", "source/sm/src/rkhsm.c:rkh_sm_dispatch"]}
{"id": "C99", "title": "What a pool with more blocks than it can count delivers", "statement": "rkh_memPool_init accepts storage for any number of blocks; the pool reports this number modulo the range of RKH_MPNB_T; right after initialisation exactly so many calls of rkh_memPool_get succeed, handing out the blocks in address order; the next call returns NULL if the number of blocks is in range, and otherwise stops with an assertion.", "quantifier": "all storage and block sizes accepted by the checks, all counter widths, all storage contents", "why_tests_cant": "the counter wraps only for particular sizes and widths", "anchors": ["source/mempool/src/rkhmempool.c:rkh_memPool_init", "source/mempool/src/rkhmempool.c:rkh_memPool_get"]}
{"id": "C100", "title": "Queue calls are atomic for interrupt handlers", "statement": "When interrupt handlers and the program use the same queue, every put of the program acts at one instant: the put and the handlers' calls return what they return when they are made one after the other in some order. (False in the code for puts made with interrupts enabled, because the critical sections of rkh_queue_put_fifo and rkh_queue_put_lifo are commented out: a get between the load and the store of the element count makes the queue deliver one element too many. True when the caller masks interrupts, as the framework's posts do.)", "quantifier": "all reachable queues, both puts, all interrupt arrivals between two memory accesses, all calls made by handlers", "why_tests_cant": "the window is one load and one store wide", "anchors": ["source/queue/src/rkhqueue.c:rkh_queue_put_fifo", "source/queue/src/rkhqueue.c:rkh_queue_put_lifo", "source/queue/src/rkhqueue.c:rkh_queue_get"]}
{"id": "C101", "title": "The trace tells what is waiting in every queue", "statement": "A host that reads the trace records of registrations, posts, publications, recalls and fetches, using the number of waiting events each record shows, is never contradicted and knows, for every active object, the signals waiting in its queue in order and who is registered at each priority, although interrupt handlers may post between a fetch and its record; only while the record of a fetch is still to be written it may not yet know that the front event was taken. Tracing does not change what the framework does.", "quantifier": "all legal histories of framework calls, all interleavings of interrupts with functions that have not yet written their record", "why_tests_cant": "the records come in another order than the events in some interleavings", "anchors": ["source/sma/src/rkhsma.c:rkh_sma_post_fifo", "source/sma/src/rkhsma.c:rkh_sma_post_lifo", "source/sma/src/rkhsma.c:rkh_sma_get", "source/sma/src/rkhsma.c:rkh_sma_register", "source/sma/src/rkhsma.c:rkh_sma_unregister", "source/fwk/src/rkhfwk_pubsub.c:rkh_pubsub_publish", "source/trc/inc/rkhtrc_record.h:RKH_TR_SMA_FIFO", "source/trc/inc/rkhtrc_record.h:RKH_TR_SMA_LIFO", "source/trc/inc/rkhtrc_record.h:RKH_TR_SMA_GET"]}
{"id": "C102", "title": "Counting trace records gives the number of events in use", "statement": "The number of allocation records minus the number of recycling records of an event pool is the number of its blocks in use, except for allocations whose record is still to be written and blocks about to be put back.", "quantifier": "all legal histories and interleavings", "why_tests_cant": "every path of allocation and recycling must write exactly one record", "anchors": ["source/fwk/src/rkhfwk_dynevt.c:rkh_fwk_ae", "source/fwk/src/rkhfwk_dynevt.c:rkh_fwk_gc", "source/trc/inc/rkhtrc_record.h:RKH_TR_FWK_AE", "source/trc/inc/rkhtrc_record.h:RKH_TR_FWK_GCR"]}
{"id": "C103", "title": "The latest record of a pool shows its use", "statement": "Whenever no call is in progress, the number of used blocks shown by the latest allocation or recycling record of an event pool is the number of its blocks in use. (False in the code: the number is computed outside the critical section that changes it, so with an interrupt in between it stays wrong.)", "quantifier": "all legal histories and interleavings", "why_tests_cant": "needs an interrupt in a window of a few instructions", "anchors": ["source/fwk/src/rkhfwk_dynevt.c:rkh_fwk_ae", "source/fwk/src/rkhfwk_dynevt.c:rkh_fwk_gc", "source/trc/inc/rkhtrc_record.h:RKH_TR_FWK_AE", "source/trc/inc/rkhtrc_record.h:RKH_TR_FWK_GCR"]}
{"id": "C104", "title": "Queue and collector records show the truth of their moment", "statement": "The record of a post, publication, fetch or collection shows the signal the event was allocated with, its pool number, the number of references to it that exist and the number of events waiting for the object, as they are when the record is written; a publication writes one record per receiver, highest priority first, with references counted up one by one.", "quantifier": "all legal histories and interleavings", "why_tests_cant": "reference counts depend on the whole history", "anchors": ["source/sma/src/rkhsma.c:rkh_sma_post_fifo", "source/sma/src/rkhsma.c:rkh_sma_post_lifo", "source/sma/src/rkhsma.c:rkh_sma_get", "source/fwk/src/rkhfwk_pubsub.c:rkh_pubsub_publish", "source/fwk/src/rkhfwk_dynevt.c:rkh_fwk_gc"]}
{"id": "C105", "title": "The trace tells which timers run", "statement": "A host that reads the trace records of the timers is never contradicted and knows at any time which timers are running, for which active object, and with which period. The record of a stop shows the ticks that were left, 0 exactly if the timer was not running; a tick writes one record for each timer that expires, in the order in which their events are posted, with the signal and the receiver of the event posted. Tracing does not change what the timers do.", "quantifier": "all legal histories of timer calls and ticks with hooks that make no timer calls, any number of timers, any contents of uninitialised timer structures", "why_tests_cant": "every path that takes a timer out of the list must write its record, in every list position", "anchors": ["source/tmr/src/rkhtmr.c:rkh_tmr_init_", "source/tmr/src/rkhtmr.c:rkh_tmr_start", "source/tmr/src/rkhtmr.c:rkh_tmr_stop", "source/tmr/src/rkhtmr.c:rkh_tmr_tick", "source/trc/inc/rkhtrc_record.h:RKH_TR_TMR_START", "source/trc/inc/rkhtrc_record.h:RKH_TR_TMR_STOP", "source/trc/inc/rkhtrc_record.h:RKH_TR_TMR_TOUT", "source/trc/inc/rkhtrc_record.h:RKH_TR_TMR_REM"]}
{"id": "C106", "title": "The trace tells how full every event queue is", "statement": "A host that reads the trace records of the event queues is never contradicted, even if the program stops with an assertion, and knows for every queue its capacity, the number of elements in it and its low watermark, as rkh_queue_get_num and rkh_queue_get_lwm would return them; a get from an empty queue leaves no record. Tracing does not change what the queues do.", "quantifier": "any number of queues, all histories of queue calls (each made with interrupts masked)", "why_tests_cant": "every path through put and get must write its record with the values after the change", "anchors": ["source/queue/src/rkhqueue.c:rkh_queue_init", "source/queue/src/rkhqueue.c:rkh_queue_get", "source/queue/src/rkhqueue.c:rkh_queue_put_fifo", "source/queue/src/rkhqueue.c:rkh_queue_put_lifo", "source/queue/src/rkhqueue.c:rkh_queue_deplete", "source/trc/inc/rkhtrc_record.h:RKH_TR_QUE_FIFO", "source/trc/inc/rkhtrc_record.h:RKH_TR_QUE_GET", "source/trc/inc/rkhtrc_record.h:RKH_TR_QUE_GET_LAST"]}
{"id": "C107", "title": "The trace tells how full every memory pool is", "statement": "A host that reads the trace records of the memory pools is never contradicted and knows for every pool the number and size of its blocks, the number of free blocks, the low watermark, and how many requests found no block: a request record that shows 0 free blocks when there were none before. Tracing does not change what the pools do.", "quantifier": "any number of pools, all histories of requests, returns of held blocks and client writes", "why_tests_cant": "the number of free blocks depends on the whole history", "anchors": ["source/mempool/src/rkhmempool.c:rkh_memPool_init", "source/mempool/src/rkhmempool.c:rkh_memPool_get", "source/mempool/src/rkhmempool.c:rkh_memPool_put", "source/trc/inc/rkhtrc_record.h:RKH_TR_MP_INIT", "source/trc/inc/rkhtrc_record.h:RKH_TR_MP_GET", "source/trc/inc/rkhtrc_record.h:RKH_TR_MP_PUT"]}
{"id": "C108", "title": "From the bytes on the trace channel to the state of the program", "statement": "A host that has the linker's addresses and nothing but the bytes fetched from the trace buffer of a program that traces all its modules at once, in any order, learns exactly the records each module wrote, and so knows which timers run, how full each queue and pool is, which events wait for which active object and which state each state machine is in, provided the records of the module are not filtered out, the fetches keep up, the record arguments fit the configured sizes and low watermarks are enabled.", "quantifier": "all configurations, all interleavings of the trace points of all modules with fetches and filter changes, all histories of the modules", "why_tests_cant": "the records of all modules share one buffer, one sequence number and one byte stream", "anchors": ["source/trc/src/rkhtrc_record.c:rkh_trc_get", "source/trc/src/rkhtrc_record.c:rkh_trc_getWholeBlock", "source/trc/inc/rkhtrc_record.h:RKH_TR_TMR_START", "source/trc/inc/rkhtrc_record.h:RKH_TR_SMA_FIFO", "source/trc/inc/rkhtrc_record.h:RKH_TR_SM_STATE", "source/trc/inc/rkhtrc_record.h:RKH_TR_MP_GET", "source/trc/inc/rkhtrc_record.h:RKH_TR_QUE_FIFO"]}
{"id": "C109", "title": "A complete design never fails", "statement": "If every choice and conditional pseudostate of a state machine has an else branch, default transitions of histories are unguarded, and no path collects more effects than configured, then every dispatch that returns, and the initialisation, returns with the event processed or without a matching transition, never half-way through a transition, for all guards and all event sequences.", "quantifier": "all well-formed machines satisfying the rules, all guards (depending on everything executed so far), all event sequences, histories and cleared histories", "why_tests_cant": "a failing combination of guards, histories and nested default transitions need not occur in any tested run", "anchors": ["source/sm/src/rkhsm.c:rkh_sm_dispatch", "source/sm/src/rkhsm.c:rkh_sm_init"]}
{"id": "C110", "title": "A design without circles always returns", "statement": "If segments between pseudostates form no circle and completion transitions form no circle (judging by the tables alone), every dispatch and the initialisation of the state machine return, after a number of steps that does not depend on anything but machine, guards, situation and event.", "quantifier": "all well-formed machines satisfying the rules, all guards, all reachable situations, all events", "why_tests_cant": "termination for all guards, histories and situations", "anchors": ["source/sm/src/rkhsm.c:rkh_sm_dispatch", "source/sm/src/rkhsm.c:rkh_sm_init"]}
{"id": "C111", "title": "A system of sound designs never fails and always comes to rest", "statement": "If the state machines of all active objects follow the two sets of design rules, then in every history of the system no dispatch fails, and whenever the system is left alone it is idle, with all queues empty, after exactly as many rounds of the scheduler as events were waiting, each object having been given exactly its waiting signals in order.", "quantifier": "all systems of active objects with such machines, all histories of posts, publications, deferrals, timers and ticks", "why_tests_cant": "absence of failures and termination over all histories and all machines", "anchors": ["source/fwk/src/rkhfwk_sched.c:rkh_fwk_enter", "source/sm/src/rkhsm.c:rkh_sm_dispatch", "source/sma/src/rkhsma.c:rkh_sma_post_fifo"]}
{"id": "C112", "title": "A timer started with a time expires after that time", "statement": "A timer started with RKH_TIME_MS, RKH_TIME_SEC or RKH_TIME_MIN expires when that time has passed, counted in ticks of the configured rate. (False in the code: the tick length is rounded to whole milliseconds, so with tick rates that do not divide 1000 the time is too long; above 1000 Hz the macros divide by zero; long times wrap around.)", "quantifier": "all tick rates, integer widths and times", "why_tests_cant": "needs all rates and times", "anchors": ["source/fwk/inc/rkhitl.h:RKH_TICK_RATE_MS", "source/fwk/inc/rkhitl.h:RKH_TIME_MS", "source/fwk/inc/rkhitl.h:RKH_TIME_SEC", "source/fwk/inc/rkhitl.h:RKH_TIME_MIN", "source/tmr/src/rkhtmr.c:rkh_tmr_start", "source/tmr/src/rkhtmr.c:rkh_tmr_tick"]}
{"id": "C113", "title": "How far times are off", "statement": "Without overflow the number of ticks for a time is the time in milliseconds divided by the tick length in whole milliseconds, rounded down; with a tick rate dividing 1000 it is short of the time by less than one tick; for other rates the deviation is bounded by the rounding of the tick length.", "quantifier": "all tick rates up to 1000, all times", "why_tests_cant": "needs all rates and times", "anchors": ["source/fwk/inc/rkhitl.h:RKH_TICK_RATE_MS", "source/fwk/inc/rkhitl.h:RKH_TIME_MS", "source/fwk/inc/rkhitl.h:RKH_TIME_SEC", "source/fwk/inc/rkhitl.h:RKH_TIME_MIN"]}
{"id": "C114", "title": "A priority belongs to one object", "statement": "However the activations and terminations of active objects in several contexts interleave, a priority is given to an object only while no object has it, and taken only from the object that has it; other calls stop with an assertion. (False in the code: the tests are made before the critical section, so two contexts can both pass them; the second object silently takes the place of the first, or a second termination removes an object registered in between.)", "quantifier": "all histories of registrations and removals, all interleavings of contexts between test and store", "why_tests_cant": "the window is a few instructions", "anchors": ["source/sma/src/rkhsma.c:rkh_sma_register", "source/sma/src/rkhsma.c:rkh_sma_unregister", "source/sma/src/rkhsma.c:rkh_sma_activate", "source/sma/src/rkhsma.c:rkh_sma_terminate"]}
{"id": "C115", "title": "All storage given to an event pool is used", "statement": "An event pool registered with storage of any accepted size provides as many events as blocks fit the storage. (False in the code: the size is cut to 16 bits, so of storage of 64 KiB or more only the size modulo 64 KiB is used, silently.)", "quantifier": "all configurations, storage addresses and sizes, block sizes, previously registered smaller pools", "why_tests_cant": "sizes around and above 64 KiB are not tested, and every allocation must be followed to the end of the storage", "anchors": ["source/fwk/src/rkhfwk_dynevt.c:rkh_fwk_registerEvtPool", "source/fwk/src/rkhfwk_dynevt.c:rkh_fwk_ae", "source/mempool/src/rkhmempool.c:rkh_memPool_init"]}
{"id": "C116", "title": "What a registered event pool provides exactly", "statement": "A registered event pool provides exactly the number of blocks that fit the size modulo 64 KiB, modulo the range of the block counter, in the order of their addresses; the next allocation stops with an assertion.", "quantifier": "all configurations, storage addresses and sizes, block sizes, previously registered smaller pools", "why_tests_cant": "the exact number must hold for all sizes and counter widths", "anchors": ["source/fwk/src/rkhfwk_dynevt.c:rkh_fwk_registerEvtPool", "source/fwk/src/rkhfwk_dynevt.c:rkh_fwk_ae", "source/mempool/src/rkhmempool.c:rkh_memPool_init", "source/mempool/src/rkhmempool.c:rkh_memPool_get"]}
{"id": "C117", "title": "Threads of active objects use the framework correctly", "statement": "On the ports with one thread per active object, whatever the interleaving of the threads, interrupts and activations: each object processes one event at a time, the events sent to it are dispatched by its thread in the order they were sent, none lost, duplicated or invented, and everything that holds of correct histories of framework calls (reference counting, delivery of publications, pools) holds of the critical sections of the threads.", "quantifier": "all histories and interleavings of any number of threads, interrupts, activations and terminations whose clients respect the contract", "why_tests_cant": "all interleavings of any number of threads", "anchors": ["source/portable/80x86/win32_mt/vc/rkhport.c:thread_function", "source/portable/80x86/win32_mt/vc/rkhport.c:rkh_sma_block", "source/portable/80x86/win32_mt/vc/rkhport.c:rkh_sma_setReady", "source/sma/src/rkhsma.c:rkh_sma_get", "source/sma/src/rkhsma.c:rkh_sma_post_fifo"]}
{"id": "C118", "title": "A waiting event is processed within three steps of the thread", "statement": "On the ports with one thread per active object a thread never sleeps with an event queued and no signal, and as long as nobody terminates the object, an event waiting in the queue is followed by a dispatch of that object within three steps of its thread (two if it sleeps, one if it is about to look), whatever other threads and interrupts do in between; with nothing queued the thread sleeps after at most three steps and goes on sleeping.", "quantifier": "all histories and all continuations", "why_tests_cant": "a lost wake-up needs one particular interleaving", "anchors": ["source/portable/80x86/win32_mt/vc/rkhport.c:thread_function", "source/portable/80x86/win32_mt/vc/rkhport.c:rkh_sma_block", "source/portable/80x86/win32_mt/vc/rkhport.c:rkh_sma_setReady", "source/queue/src/rkhqueue.c:rkh_queue_get", "source/queue/src/rkhqueue.c:rkh_queue_put_fifo"]}
{"id": "C119", "title": "When the thread of an object ends without being told", "statement": "Once rkh_sma_activate is complete with the thread alive, the thread lives and the object stays registered until rkh_sma_terminate is called; a thread that ends without that call has tested its flag between its creation and the assignment of its handle; an object whose thread has ended is not registered and never handles an event again.", "quantifier": "all histories and all continuations, both kinds of port", "why_tests_cant": "the window is between two instructions of the activating context", "anchors": ["source/portable/80x86/win32_mt/vc/rkhport.c:thread_function", "source/portable/80x86/win32_mt/vc/rkhport.c:rkh_sma_activate", "source/portable/ucos/v3.03.01/rkhport.c:thread_function", "source/portable/ucos/v3.03.01/rkhport.c:rkh_sma_activate"]}
{"id": "C120", "title": "What an object still does after it was terminated", "statement": "After rkh_sma_terminate an object begins at most one more event, and none if it is processing one; in that case its thread ends and the object is unregistered within two further steps of the thread; a sleeping object stays registered until something is posted to it, however long.", "quantifier": "all histories and all continuations", "why_tests_cant": "all interleavings of the terminating context with the thread", "anchors": ["source/portable/80x86/win32_mt/vc/rkhport.c:rkh_sma_terminate", "source/portable/80x86/win32_mt/vc/rkhport.c:thread_function"]}
{"id": "C121", "title": "A memory pool stays inside its storage", "statement": "rkh_memPool_init, rkh_memPool_get and rkh_memPool_put read and write links only inside the storage handed to rkh_memPool_init: in every history of gets, returns of held blocks and writes of clients to blocks they hold, no access leaves the storage and every byte outside keeps its value.", "quantifier": "all storage addresses, sizes, block sizes, contents and histories", "why_tests_cant": "needs all sizes and histories", "anchors": ["source/mempool/src/rkhmempool.c:rkh_memPool_init", "source/mempool/src/rkhmempool.c:rkh_memPool_get", "source/mempool/src/rkhmempool.c:rkh_memPool_put"]}
{"id": "C122", "title": "A state machine survives any calls in any order", "statement": "Whatever calls are made on a state machine object (events of any signal, the creation event again, events before the initialisation or after a transition that failed half-way, clearing of histories), each call that returns returns one of the documented codes (never undefined behaviour, never a failed assertion), a state of the machine is current afterwards, a leaf once an initialisation succeeded, and its histories are those its past tells.", "quantifier": "all well-formed machines within the configured limits, all guards, all lists of calls", "why_tests_cant": "all orders of calls, including those no test would make, and all points at which a transition can fail", "anchors": ["source/sm/src/rkhsm.c:rkh_sm_init", "source/sm/src/rkhsm.c:rkh_sm_dispatch", "source/sm/src/rkhsm.c:rkh_sm_clear_history"]}
{"id": "C123", "title": "State machines in one thread do not disturb each other", "statement": "State machines that are given events in turn by one thread behave each as if it were alone, although the working variables of rkh_sm_dispatch are shared between them (static arrays, pointers and 8-bit counters) and contain anything at first.", "quantifier": "any number of well-formed machines, all guards, all sequences of dispatches, all initial contents of the working variables", "why_tests_cant": "every path through the engine must set each variable before it reads it", "anchors": ["source/sm/src/rkhsm.c:rkh_sm_dispatch", "source/sm/src/rkhsm.c:RKH_RAM"]}
{"id": "C124", "title": "An action may dispatch to other machines", "statement": "If actions, entry and exit actions or guards dispatch events to (or start) other state machines, each machine behaves as if it were alone, and these dispatches take place one after the other during the processing of the event whose action makes them. (False in the code unless RKH_CFGPORT_REENTRANT_EN is enabled: the working variables of rkh_sm_dispatch are static, so the program is undefined or the machine ends in a state of the other machine.)", "quantifier": "any number of well-formed machines, all guards, all dispatches made by actions to machines lower in some order, all sequences of events", "why_tests_cant": "the damage depends on which kind of action makes the call and on the shape of both machines", "anchors": ["source/sm/src/rkhsm.c:rkh_sm_dispatch", "source/sm/src/rkhsm.c:RKH_RAM", "source/sma/src/rkhsma.c:rkh_sma_activate"]}
{"id": "C125", "title": "An event sent to an object that has been terminated does no harm", "statement": "Posting or publishing to an active object that has been terminated is rejected by an assertion or has no effect. (False in the code for posts: the event is stored in the queue of the terminated object and its priority made ready, so the scheduler dereferences a null pointer, or, if another object has got the priority, stops with an assertion for that object. A publication that would reach an unregistered priority is detected.)", "quantifier": "all legal histories, all events, objects and priorities", "why_tests_cant": "needs a post that comes after the termination and before anything else happens", "anchors": ["source/sma/src/rkhsma.c:rkh_sma_terminate", "source/sma/src/rkhsma.c:rkh_sma_unregister", "source/sma/src/rkhsma.c:rkh_sma_post_fifo", "source/sma/src/rkhsma.c:rkh_sma_get", "source/fwk/src/rkhfwk_sched.c:rkh_fwk_enter", "source/fwk/src/rkhfwk_pubsub.c:rkh_pubsub_publish"]}
{"id": "C126", "title": "A terminated object can be activated again", "statement": "After the termination of an active object its priority can be given to an object again, which starts with an empty queue and is scheduled when events are posted to it. (False in the code if events were waiting at the termination: the priority stays ready, and the scheduler stops with an assertion on the empty queue of the new object.)", "quantifier": "all legal histories, all objects, priorities and queue sizes", "why_tests_cant": "depends on what is queued at the moment of termination", "anchors": ["source/sma/src/rkhsma.c:rkh_sma_terminate", "source/sma/src/rkhsma.c:rkh_sma_activate", "source/sma/src/rkhsma.c:rkh_sma_unregister", "source/sma/src/rkhsma.c:rkh_sma_get", "source/fwk/src/rkhfwk_sched.c:rkh_fwk_enter"]}
{"id": "C127", "title": "An object receives the publications it subscribed to itself", "statement": "A publication reaches exactly the registered objects whose own last call about the channel was a subscription, except the sender. (False in the code: subscriptions belong to the priority and survive the object, so an object activated at the priority of a terminated one receives what that one subscribed to, and unsubscribing the terminated object unsubscribes the new one.)", "quantifier": "all legal histories with any number of activations, terminations, subscriptions and publications", "why_tests_cant": "needs histories in which a priority changes hands", "anchors": ["source/fwk/src/rkhfwk_pubsub.c:rkh_pubsub_subscribe", "source/fwk/src/rkhfwk_pubsub.c:rkh_pubsub_unsubscribe", "source/fwk/src/rkhfwk_pubsub.c:rkh_pubsub_unsubscribeAll", "source/fwk/src/rkhfwk_pubsub.c:rkh_pubsub_publish", "source/sma/src/rkhsma.c:rkh_sma_terminate"]}
{"id": "C128", "title": "An urgent object waits for at most one less urgent step", "statement": "Under the cooperative scheduler, from the moment an event waits for an active object until the object is dispatched, at most one event is dispatched to objects of lower priority, however many are posted to them; none at all unless a lower object had been selected but not dispatched when the event arrived. So the most urgent object waits for at most the run-to-completion step in progress, or one more.", "quantifier": "all legal histories, all continuations, all objects and priorities", "why_tests_cant": "needs all histories and the arrival of the event at every point of the scheduler loop", "anchors": ["source/fwk/src/rkhfwk_sched.c:rkh_fwk_enter", "source/fwk/src/rkhfwk_rdygrp.c:rkh_rdygrp_findHighest", "source/sma/src/rkhsma.c:rkh_sma_post_fifo", "source/sma/src/rkhsma.c:rkh_sma_post_lifo", "source/sma/src/rkhsma.c:rkh_sma_get"]}
{"id": "C129", "title": "Every event sent is dispatched exactly once, whichever way it is sent", "statement": "Whatever mixture of FIFO posts, LIFO posts, publications and recalls is used, the events sent to an active object are, with multiplicity, exactly those dispatched to it, those in its queue and those a recall in progress holds between its critical sections; when the queue is empty and no recall is in progress, everything sent has been dispatched.", "quantifier": "all legal histories and interleavings, all objects", "why_tests_cant": "a lost or doubled event may need one particular interleaving of a long history", "anchors": ["source/sma/src/rkhsma.c:rkh_sma_post_fifo", "source/sma/src/rkhsma.c:rkh_sma_post_lifo", "source/sma/src/rkhsma.c:rkh_sma_defer", "source/sma/src/rkhsma.c:rkh_sma_recall", "source/sma/src/rkhsma.c:rkh_sma_get", "source/fwk/src/rkhfwk_pubsub.c:rkh_pubsub_publish", "source/fwk/src/rkhfwk_sched.c:rkh_fwk_enter"]}
{"id": "C130", "title": "Waiting events keep their order", "statement": "The events waiting for an active object are dispatched in the order in which they wait: over any continuation they are a subsequence of what is dispatched followed by what then waits. Posts of any kind, publications, recalls and all other calls neither reorder nor drop them.", "quantifier": "all legal histories, all continuations, all objects", "why_tests_cant": "needs all mixtures of FIFO and LIFO posts at all fill levels", "anchors": ["source/sma/src/rkhsma.c:rkh_sma_post_fifo", "source/sma/src/rkhsma.c:rkh_sma_post_lifo", "source/sma/src/rkhsma.c:rkh_sma_recall", "source/sma/src/rkhsma.c:rkh_sma_get", "source/queue/src/rkhqueue.c:rkh_queue_put_fifo", "source/queue/src/rkhqueue.c:rkh_queue_put_lifo", "source/queue/src/rkhqueue.c:rkh_queue_get"]}
{"id": "C131", "title": "Guards that cover all cases are as good as an else branch", "statement": "If, in every choice, every conditional and every guarded default transition of a history, some guard is true whatever values the variables read by the guards can have, no event ever leaves the state machine half-way between two states: each dispatch that returns reports that the event was processed or that no transition was enabled.", "quantifier": "all well-formed machines within the configured limits, all guards with that property, all sequences of events", "why_tests_cant": "whether the guards cover everything depends on the values the variables can take over all histories", "anchors": ["source/sm/src/rkhsm.c:rkh_sm_dispatch", "source/sm/src/rkhsm.c:rkh_sm_init"]}
{"id": "C132", "title": "The future of a state machine depends on its present situation only", "statement": "Two state machine objects of the same machine with the same current state, the same histories and variables that the guards cannot tell apart answer any further sequence of calls alike: same results, same actions and guards called in the same order with the same events, same states entered and left.", "quantifier": "all machines (well-formed or not), all guards, all pairs of histories that lead to the same situation, all continuations", "why_tests_cant": "hidden state in the engine would show up only for particular pairs of histories", "anchors": ["source/sm/src/rkhsm.c:rkh_sm_dispatch", "source/sm/src/rkhsm.c:rkh_sm_init", "source/sm/src/rkhsm.c:rkh_sm_clear_history"]}
{"id": "C133", "title": "The hierarchical example application does what its chart says", "statement": "The state machine of demo/80x86/ahsm (three levels, shallow and deep history, two conditionals without and with else branch, a choice that reads a variable set by the effect of the transition leading to it) answers every event of every sequence as its chart prescribes, is always in the state and with the variables and histories of the chart, and never fails.", "quantifier": "all sequences of events with any signals", "why_tests_cant": "the sequences are unbounded, and histories and variables make the answer depend on the past", "anchors": ["demo/80x86/ahsm/my.c:my", "demo/80x86/ahsm/my.c:S1", "demo/80x86/ahsm/my.c:S11", "demo/80x86/ahsm/my.c:S112", "demo/80x86/ahsm/my.c:C1", "demo/80x86/ahsm/my.c:C2", "demo/80x86/ahsm/my.c:CH", "demo/80x86/ahsm/my.c:H", "demo/80x86/ahsm/my.c:DH", "demo/80x86/ahsm/my.c:set_x1", "demo/80x86/ahsm/my.c:y_0", "source/sm/src/rkhsm.c:rkh_sm_dispatch"]}
{"id": "C134", "title": "In the shared-resource example one client at a time uses the resource", "statement": "At any moment at most one client of demo/cross/shared has been told to use the resource and has not finished, and while one does the server is busy. (False in the code when the application is paused: PAUSE pressed twice leads the server from busy over paused to idle although a client still uses the resource, so that it grants the resource to a second client. True of all runs without PAUSE.)", "quantifier": "any number of clients, all schedules (cooperative or with threads), all times at which timers expire", "why_tests_cant": "needs all interleavings of any number of clients with the server and the timers", "anchors": ["demo/cross/shared/server.c:server_idle", "demo/cross/shared/server.c:server_busy", "demo/cross/shared/server.c:server_paused", "demo/cross/shared/server.c:server_start", "demo/cross/shared/server.c:server_end", "demo/cross/shared/server.c:server_defer", "demo/cross/shared/server.c:server_resume", "demo/cross/shared/client.c:client_idle", "demo/cross/shared/client.c:client_waiting", "demo/cross/shared/client.c:client_using", "demo/cross/shared/client.c:client_paused", "demo/cross/shared/client.c:client_req", "demo/cross/shared/client.c:client_start", "demo/cross/shared/client.c:client_end"]}
{"id": "C135", "title": "In the shared-resource example no request is lost, doubled or overtaken", "statement": "The resource is granted in the order in which it was requested, each request once: what was asked for and not yet granted is exactly what waits in the server's queue or was deferred. A waiting client has exactly one request or permission under way, any other client none. The state machines never fail. With or without PAUSE.", "quantifier": "any number of clients, all schedules, all times of timers and keys", "why_tests_cant": "a deferred request could be overtaken or lost only for particular interleavings", "anchors": ["demo/cross/shared/server.c:server_start", "demo/cross/shared/server.c:server_end", "demo/cross/shared/server.c:server_defer", "demo/cross/shared/server.c:server_resume", "demo/cross/shared/client.c:client_req", "demo/cross/shared/client.c:client_start", "source/sma/src/rkhsma.c:rkh_sma_defer", "source/sma/src/rkhsma.c:rkh_sma_recall"]}
{"id": "C136", "title": "The queues of the shared-resource example are large enough", "statement": "No event is ever posted to a full queue. (False in the code: with one thread per active object five events can wait for the server, whose queue has room for four. True under a scheduler that respects the priorities; in general, without PAUSE, n + 1 places are enough for the server and one for a client, and the queue of deferred requests never holds more than one request per client.)", "quantifier": "any number of clients, all schedules, all times of timers", "why_tests_cant": "the longest queue appears only if the server is delayed for as long as a client needs for a whole cycle", "anchors": ["demo/cross/shared/main.c:QSTO_SIZE", "demo/cross/shared/main.c:main", "demo/cross/shared/server.c:MAX_SIZEOF_QREQ", "demo/cross/shared/server.c:server_defer", "demo/cross/shared/client.c:client_req", "demo/cross/shared/client.c:client_end"]}
{"id": "C137", "title": "In the shared-resource example every request is granted", "statement": "Without PAUSE the application never stops, and a request that has been posted is granted within 16 n steps of the application (n clients), whatever the scheduler and the timers do; fewer than n other requests are granted before it.", "quantifier": "any number of clients, all schedules, all times of timers", "why_tests_cant": "starvation and deadlock are properties of unbounded runs", "anchors": ["demo/cross/shared/server.c:server_start", "demo/cross/shared/server.c:server_end", "demo/cross/shared/server.c:server_defer", "demo/cross/shared/client.c:client_req", "demo/cross/shared/client.c:client_start", "demo/cross/shared/client.c:client_end", "demo/cross/shared/client.c:client_delay_req"]}
{"id": "C138", "title": "The performance counters of timers and memory pools count", "statement": "With performance counters enabled, rkh_tmr_get_info and rkh_memPool_get_info report how often the timer was started, stopped and expired, and how often blocks were requested, refused and given back, since the counters were cleared. (False in the code: nothing ever updates these counters.)", "quantifier": "all histories of calls, all timers and pools", "why_tests_cant": "the numbers must be right after every history", "anchors": ["source/tmr/src/rkhtmr.c:rkh_tmr_get_info", "source/tmr/src/rkhtmr.c:rkh_tmr_clear_info", "source/tmr/src/rkhtmr.c:rkh_tmr_tick", "source/tmr/src/rkhtmr.c:rkh_tmr_start", "source/tmr/src/rkhtmr.c:rkh_tmr_stop", "source/mempool/src/rkhmempool.c:rkh_memPool_get_info", "source/mempool/src/rkhmempool.c:rkh_memPool_clear_info", "source/mempool/src/rkhmempool.c:rkh_memPool_get", "source/mempool/src/rkhmempool.c:rkh_memPool_put"]}
{"id": "C139", "title": "What the performance counters of timers and memory pools report", "statement": "The counters report the previous contents of the structure until they are cleared and zeros from then on, whatever happens; reading and clearing them changes nothing in the behaviour of timers and pools, and never fails.", "quantifier": "all histories of calls, all timers and pools, all previous contents", "why_tests_cant": "must hold after every history", "anchors": ["source/tmr/src/rkhtmr.c:rkh_tmr_get_info", "source/tmr/src/rkhtmr.c:rkh_tmr_clear_info", "source/mempool/src/rkhmempool.c:rkh_memPool_get_info", "source/mempool/src/rkhmempool.c:rkh_memPool_clear_info"]}
{"id": "C140", "title": "The dynamic events can be started over", "statement": "After rkh_dynEvt_init the framework supports its full number of event pools again, whatever was registered before. (False in the code: the slots of the pools registered before stay in use until rkh_evtPool_init is called, so a later registration stops with an assertion. With both calls it is true, but events in use at that moment cannot be given back, or are handed out twice.)", "quantifier": "all numbers, sizes and storages of the pools registered before and after", "why_tests_cant": "needs all numbers of pools registered before and after", "anchors": ["source/fwk/src/rkhfwk_dynevt.c:rkh_dynEvt_init", "source/fwk/src/rkhfwk_dynevt.c:rkh_fwk_registerEvtPool", "source/fwk/src/rkhfwk_dynevt.c:rkh_fwk_gc", "source/fwk/src/rkhfwk_evtpool.c:rkh_evtPool_init", "source/fwk/src/rkhfwk_evtpool.c:rkh_evtPool_getPool"]}
{"id": "C141", "title": "A timer can carry a dynamic event", "statement": "The event a timer was initialised with reaches the object each time the timer expires, with the signal it was created with, also if it was allocated dynamically. (False in the code unless the event is reserved: it is recycled after the first dispatch, and the second expiry of a periodic timer delivers a recycled block. With a reservation, the ticks respect the contract of the framework and the event survives.)", "quantifier": "all legal histories of the whole system, all timers and events", "why_tests_cant": "the failure needs the recycling between two expirations; safety must hold for all histories", "anchors": ["source/tmr/src/rkhtmr.c:rkh_tmr_tick", "source/tmr/src/rkhtmr.c:rkh_tmr_init_", "source/fwk/src/rkhfwk_dynevt.c:rkh_fwk_gc", "source/fwk/src/rkhfwk_dynevt.c:rkh_fwk_reserve", "source/sma/src/rkhsma.c:rkh_sma_post_fifo"]}
{"id": "C142", "title": "A flushed trace block is sent as it was written", "statement": "rkh_trc_flush takes a block of the trace stream in a critical section and sends it afterwards. Every byte written is sent once, in the order of writing, as long as the stream does not overflow; after an overflow the newest bytes are sent. (False in the code: the block is a pointer into the stream, so records written while it is being sent overwrite bytes that were already taken; and two contexts that flush interleave their blocks.)", "quantifier": "all histories of writing bytes, taking blocks of any size and sending single bytes, all stream sizes up to 2048, any number of flushing contexts", "why_tests_cant": "the failure depends on the moment of each write relative to the sending of each byte", "anchors": ["source/trc/src/rkhtrc_stream.c:rkh_trc_get_block", "source/trc/src/rkhtrc_stream.c:rkh_trc_put", "source/trc/src/rkhtrc_stream.c:rkh_trcStream_init", "demo/libbsp/platform/80x86/win/trace_io.c:rkh_trc_flush"]}
{"id": "C143", "title": "What a flush sends, exactly", "statement": "The byte sent for a place of a taken block is the newest byte written to this place: the byte that was taken if fewer than a whole stream of bytes was written in between, else the newer byte of the same place.", "quantifier": "all histories of writing, taking and sending, any number of flushing contexts, all stream sizes up to 2048", "why_tests_cant": "needs all interleavings of writing and sending", "anchors": ["source/trc/src/rkhtrc_stream.c:rkh_trc_get_block", "source/trc/src/rkhtrc_stream.c:rkh_trc_put", "demo/libbsp/platform/80x86/win/trace_io.c:rkh_trc_flush"]}
{"id": "C144", "title": "The flush of the Linux package may run beside writers", "statement": "rkh_trc_flush of the Linux board support package reads the trace stream byte by byte without a critical section while other threads write records. It never accesses memory outside the stream, and it sends what a stream with atomic reads and writes hands over. (The second part is false in the code: an update of the number of unread bytes can be lost, after which bytes never written are sent or written bytes are held back.)", "quantifier": "all interleavings of the single memory accesses of a reading and a writing thread, all stream sizes up to 2048", "why_tests_cant": "needs all interleavings of memory accesses", "anchors": ["demo/libbsp/platform/80x86/linux/trace_io.c:rkh_trc_flush", "demo/libbsp/platform/80x86/linux/hook.c:rkh_hook_idle", "source/trc/src/rkhtrc_stream.c:rkh_trc_get", "source/trc/src/rkhtrc_stream.c:rkh_trc_put"]}
{"id": "C145", "title": "The blinky example blinks, whatever the interrupts do", "statement": "However the hardware ticks are interleaved with the program of demo/80x86/blinky (between any two framework calls of an action, between the critical sections of the scheduler), no assertion fails, one slot in the event queue suffices, the LED is switched on and off alternately beginning with on, no switch comes before the durations of the phases before it have passed, and the application goes on as long as ticks and program steps go on.", "quantifier": "all interleavings of ticks and pieces of the program, all durations that fit the tick counters, all queue sizes, all contents of uninitialised memory", "why_tests_cant": "needs all interleavings of unbounded length", "anchors": ["demo/80x86/blinky/src/blinky.c:init", "demo/80x86/blinky/src/blinky.c:nLedOn", "demo/80x86/blinky/src/blinky.c:nLedOff", "demo/80x86/blinky/src/blinky.c:ledOn", "demo/80x86/blinky/src/blinky.c:ledOff", "demo/80x86/blinky/src/main.c:main", "source/tmr/src/rkhtmr.c:rkh_tmr_tick", "source/tmr/src/rkhtmr.c:rkh_tmr_start", "source/fwk/src/rkhfwk_sched.c:rkh_fwk_enter"]}
{"id": "C146", "title": "The blinky example blinks on time", "statement": "On a processor that executes at least six pieces of the program between two ticks, every LED switch is made exactly at the tick at which it is due, with no drift, and after n ticks the LED is on exactly when n mod (LedOnTime + LedOffTime) < LedOnTime.", "quantifier": "all numbers of ticks, all durations, any number (at least six) of program pieces after each tick", "why_tests_cant": "drift would show only after arbitrarily long runs", "anchors": ["demo/80x86/blinky/src/blinky.c:nLedOn", "demo/80x86/blinky/src/blinky.c:nLedOff", "demo/80x86/blinky/src/blinky.c:LedOnTime", "demo/80x86/blinky/src/blinky.c:LedOffTime", "source/tmr/src/rkhtmr.c:rkh_tmr_tick", "source/tmr/src/rkhtmr.c:rkh_tmr_start", "source/fwk/src/rkhfwk_sched.c:rkh_fwk_enter"]}
{"id": "C147", "title": "The receiver of the unit-test link gets every record", "statement": "Fed with what the trace facility writes for any list of records with checksums, the receiver of the unit-test tool hands on exactly these records in order and reports no error. (False in the code: the 8-bit counter of the receiver loses records of 256 bytes, cuts longer ones and lets records of more than 512 bytes overwrite memory; a failure text of 16 or more characters overflows its buffer. True for shorter records.)", "quantifier": "all lists of records, all contents including flag and escape bytes", "why_tests_cant": "needs all contents and lengths of records", "anchors": ["third-party/unitrazer/tzparse.c:trazer_parse", "third-party/unitrazer/tzparse.c:parser_collect", "third-party/unitrazer/tzparse.c:assemble_str", "source/trc/src/rkhtrc_record.c:rkh_trc_begin", "source/trc/src/rkhtrc_record.c:rkh_trc_end"]}
{"id": "C148", "title": "What the receiver makes of a frame, exactly", "statement": "More than 512 bytes between two flags overflow the receiver's buffer; otherwise it looks at the first bytes (their number modulo 256): none, and the frame is ignored; with a sum other than zero, and a checksum error is reported; else they are handed on. A correct record that is neither a success nor a failure leaves the result of the test unchanged.", "quantifier": "all byte sequences sent as one frame", "why_tests_cant": "needs all lengths and contents", "anchors": ["third-party/unitrazer/tzparse.c:trazer_parse", "third-party/unitrazer/tzparse.c:parser_collect", "third-party/unitrazer/tzparse.c:parser_chk", "third-party/unitrazer/tzparse.c:parser_init", "third-party/unitrazer/tzparse.c:parser"]}
{"id": "C149", "title": "The receiver recovers from disturbances", "statement": "Whatever bytes came before (if they did not overflow its buffers), from the next flag on the receiver gets all records of at most 255 bytes; a record of which one byte has changed is reported as an error and not handed on.", "quantifier": "all preceding byte sequences, all lists of records, all positions and values of the changed byte", "why_tests_cant": "needs all disturbances", "anchors": ["third-party/unitrazer/tzparse.c:trazer_parse", "third-party/unitrazer/tzparse.c:parser_init", "third-party/unitrazer/tzparse.c:parser_chk", "third-party/unitrazer/tzparse.c:utProcFail"]}
{"id": "C150", "title": "Responses of the unit-test host arrive in step", "statement": "If the host answers every trace event with one response (success, or failure with a line number below 2^31 and a text of at most 15 characters), the i-th call of ut_process tells the program the i-th response, with its line and text, and reads nothing of the next one; if the connection is closed in the middle of a response, a failure is told.", "quantifier": "all lists of responses, all lines and texts", "why_tests_cant": "needs all sequences and contents", "anchors": ["third-party/utrazer/platform/80x86/vc/bsp.c:ut_process", "third-party/utrazer/platform/80x86/vc/bsp.c:utrz_recv", "third-party/unitrazer/tzparse.c:trazer_parse", "third-party/unitrazer/tzparse.c:utSuccess", "third-party/unitrazer/tzparse.c:utFail"]}
{"id": "C151", "title": "State machine objects of the same type do not influence each other", "statement": "Several state machine objects can be created from the same state machine definition. However the calls for them are interleaved, each does what it would do if it were alone: the same results, the same actions and guards, the same states.", "quantifier": "all machines, all numbers of objects, all interleavings of calls", "why_tests_cant": "needs all interleavings and histories of the other objects", "anchors": ["source/sm/src/rkhsm.c:rkh_sm_dispatch", "source/sm/src/rkhsm.c:rkh_sm_clear_history", "source/sm/src/rkhsm.c:rkh_sm_init", "source/sm/inc/rkhsm.h:RKH_CREATE_HISTORY_STORAGE", "source/sm/inc/rkhsm.h:RKH_GET_HISTORY_STORAGE"]}
{"id": "C152", "title": "A submachine state stands for the insertion of the submachine", "statement": "A machine with submachine states behaves like the machine in which every submachine state is replaced by a composite state with its own copy of the submachine, entry and exit points being connections: the same actions, guards, entries and exits in the same order, the same results and the same states. (False in the code for a transition from the inside of one submachine state to another submachine state of the same submachine, for default states that are submachine states, and for the place of the initial action of the submachine; true otherwise.)", "quantifier": "all machines with submachines (nested, used several times), all guards, all sequences of events", "why_tests_cant": "needs all machines and histories: how a submachine is left depends on how it was entered", "anchors": ["source/sm/src/rkhsm.c:rkh_sm_dispatch", "source/sm/src/rkhsm.c:addTargetSt", "source/sm/src/rkhsm.c:UPDATE_PARENT", "source/sm/inc/rkhsm.h:RKH_CREATE_SUBMACHINE_STATE", "source/sm/inc/rkhsm.h:RKH_CREATE_REF_SUBMACHINE", "source/sm/inc/rkhsm.h:RKH_SSBM_T", "source/sm/inc/rkhsm.h:RKH_RSM_T"]}
{"id": "C153", "title": "The submachine example follows its chart", "statement": "For every sequence of events the example program demo/80x86/subm executes exactly the actions, exits and entries of its state chart, in which the submachine SB is used twice, and ends in the state the chart says.", "quantifier": "all sequences of events of any length", "why_tests_cant": "needs all histories", "anchors": ["demo/80x86/subm/my.c:S1", "demo/80x86/subm/my.c:S11", "demo/80x86/subm/my.c:S12", "demo/80x86/subm/my.c:S13", "demo/80x86/subm/my.c:S2", "demo/80x86/subm/my.c:S3", "demo/80x86/subm/my.c:SB", "demo/80x86/subm/my.c:SB1", "demo/80x86/subm/my.c:SB2", "demo/80x86/subm/my.c:SB3", "source/sm/src/rkhsm.c:rkh_sm_dispatch"]}
{"id": "C154", "title": "Effects of the transitions joined by an entry or exit point", "statement": "A transition that passes an exit (or entry) point of a submachine state executes the effect of the first part, then the exit (entry) action of the submachine state, then the effect of the second part. (False in the code: all states are left before both effects and entered after both; true is that both effects are executed, once and in order.)", "quantifier": "all machines, all states, all transitions through entry and exit points", "why_tests_cant": "needs all machines and configurations", "anchors": ["source/sm/src/rkhsm.c:rkh_sm_dispatch", "source/sm/inc/rkhsm.h:RKH_ENPOINT", "source/sm/inc/rkhsm.h:RKH_EXPOINT", "source/sm/inc/rkhsm.h:RKH_EXPCN_T", "source/sm/inc/rkhsm.h:RKH_SENP_T", "source/sm/inc/rkhsm.h:RKH_SEXP_T"]}
{"id": "C155", "title": "Objects of the same type with submachines do not influence each other", "statement": "Several state machine objects of a type with submachines: however the calls for them are interleaved, each does what it would do alone. (False in the code if a submachine is used by several submachine states; true if each is used once.)", "quantifier": "all machines with submachines, all numbers of objects, all interleavings", "why_tests_cant": "needs all interleavings", "anchors": ["source/sm/src/rkhsm.c:rkh_sm_dispatch", "source/sm/inc/rkhsm.h:RKH_CREATE_REF_SUBMACHINE"]}
{"id": "C156", "title": "The clock runs as long as the framework", "statement": "From the start of the framework on, the thread of the system clock makes ticks until the framework is stopped: one for every round it gets. (False in the code: on Windows the clock thread may start before the framework is marked as running and then ends at once, and no tick ever takes place; on Linux no tick is compiled unless the trace of the timer module is enabled. True otherwise.)", "quantifier": "all schedules of the main, clock and keyboard threads, all posts", "why_tests_cant": "needs all schedules", "anchors": ["source/portable/80x86/linux_st/gnu/rkhport.c:rkh_fwk_enter", "source/portable/80x86/win32_st/vc/rkhport.c:rkh_fwk_enter", "demo/libbsp/platform/80x86/linux/hook.c:isr_tmrThread", "demo/libbsp/platform/80x86/linux/hook.c:rkh_hook_start", "demo/libbsp/platform/80x86/win/hook.c:isr_tmrThread", "demo/libbsp/platform/80x86/win/hook.c:rkh_hook_start"]}
{"id": "C157", "title": "Stopping the framework makes rkh_fwk_enter return", "statement": "After rkhport_fwk_stop or rkh_fwk_exit, rkh_fwk_enter returns after a bounded number of steps of the main thread. (False in the code: a main thread that waits for an event is not woken, also if the key that stopped the framework posted an event that was processed before; on Linux rkh_fwk_exit does not stop the framework. True if the main thread is not about to wait.)", "quantifier": "all schedules, all posts, all moments of stopping", "why_tests_cant": "needs all schedules", "anchors": ["source/portable/80x86/linux_st/gnu/rkhport.c:rkh_fwk_enter", "source/portable/80x86/linux_st/gnu/rkhport.c:rkh_fwk_exit", "source/portable/80x86/linux_st/gnu/rkhport.c:rkhport_fwk_stop", "source/portable/80x86/linux_st/gnu/rkhport.c:rkhport_wait_for_events", "source/portable/80x86/win32_st/vc/rkhport.c:rkh_fwk_enter", "source/portable/80x86/win32_st/vc/rkhport.c:rkh_fwk_exit", "source/portable/80x86/win32_st/vc/rkhport.c:rkhport_fwk_stop", "source/portable/80x86/win32_st/vc/rkhport.c:rkhport_wait_for_events", "demo/libbsp/platform/80x86/linux/bsp_blinky.c:bsp_keyParser"]}
{"id": "C158", "title": "Nothing destroyed is used at the end", "statement": "No thread uses the critical section or the signal after rkh_fwk_enter has destroyed them. (False in the code: a tick under way when the framework ends, or a key pressed later, uses them. True before rkh_fwk_enter returns, and afterwards if neither thread was at work at that moment.)", "quantifier": "all schedules", "why_tests_cant": "needs all schedules", "anchors": ["source/portable/80x86/linux_st/gnu/rkhport.c:rkh_fwk_enter", "source/portable/80x86/linux_st/gnu/rkhport.c:rkhport_enter_critical", "source/portable/80x86/win32_st/vc/rkhport.c:rkh_fwk_enter", "source/portable/80x86/win32_st/vc/rkhport.c:rkhport_enter_critical", "demo/libbsp/platform/80x86/linux/hook.c:isr_tmrThread", "demo/libbsp/platform/80x86/linux/hook.c:isr_kbdThread", "demo/libbsp/platform/80x86/win/hook.c:isr_tmrThread", "demo/libbsp/platform/80x86/win/hook.c:isr_kbdThread"]}
{"id": "C159", "title": "The exit hook is called once, just before returning", "statement": "rkh_hook_exit is called exactly once, just before the framework returns to the operating system. (False in the code: rkh_fwk_exit calls it too, so it is called twice on Windows and, on Linux, although the framework goes on. True if no action calls rkh_fwk_exit; in general once per call of rkh_fwk_exit and once at the end.)", "quantifier": "all schedules, all actions", "why_tests_cant": "needs all schedules and histories", "anchors": ["source/portable/80x86/linux_st/gnu/rkhport.c:rkh_fwk_enter", "source/portable/80x86/linux_st/gnu/rkhport.c:rkh_fwk_exit", "source/portable/80x86/win32_st/vc/rkhport.c:rkh_fwk_enter", "source/portable/80x86/win32_st/vc/rkhport.c:rkh_fwk_exit", "source/fwk/inc/rkhfwk_hook.h:rkh_hook_exit"]}
{"id": "C160", "title": "The result code of a dispatch is that of its last step, exactly", "statement": "rkh_sm_dispatch runs the event and then the completion events that its transitions raise. The result code and the final state are those of the last of these steps: RKH_EVT_PROC if it was an internal transition or reached a state that raises no completion event, else its error code, in which case the state is the one before that step.", "quantifier": "all machines, guards, states and events", "why_tests_cant": "needs all machines and histories", "anchors": ["source/sm/src/rkhsm.c:rkh_sm_dispatch", "source/sm/src/rkhsm.c:isCompletionTrn", "source/sm/src/rkhsm.c:findCompletionTrn"]}
{"id": "C161", "title": "With unconditional completion transitions the result code tells whether the event was handled", "statement": "If every state that raises completion events has a completion transition without guard (or with an else branch) and the choice points are exhaustive, rkh_sm_dispatch returns RKH_EVT_PROC exactly when some transition for the event was enabled; otherwise it returns RKH_EVT_NFOUND and nothing has changed; and the machine initialises successfully.", "quantifier": "all such machines, all guards, all reachable states, all events", "why_tests_cant": "needs all machines and histories", "anchors": ["source/sm/src/rkhsm.c:rkh_sm_dispatch", "source/sm/src/rkhsm.c:isCompletionTrn", "source/sm/src/rkhsm.c:findCompletionTrn"]}
{"id": "C162", "title": "With unconditional completion transitions composite states complete in their final state only", "statement": "Under the same design rule a transition that is taken for a completion event is the current state's own, or the current state is the final state of the composite state that owns the transition.", "quantifier": "all such machines, all guards, all reachable states, all events", "why_tests_cant": "needs all machines and histories", "anchors": ["source/sm/src/rkhsm.c:rkh_sm_dispatch", "source/sm/src/rkhsm.c:isCompletionTrn", "source/sm/src/rkhsm.c:findCompletionTrn"]}
{"id": "C163", "title": "A host that falls behind receives only records that were written", "statement": "However trace points and reads of the stream are interleaved, also if the stream runs over: every record a host accepts is one that was written, in order. (False in the code: after an overflow in the middle of reading a record, the host receives the beginning of one record joined to the end of another; the sum check may accept it. True is that for each time the stream runs over there is at most one such message, and all others are records that were written, in order.)", "quantifier": "all legal interleavings of filter calls, trace points and reads, all stream sizes up to 2048", "why_tests_cant": "needs all moments of overflow relative to all moments of reading", "anchors": ["source/trc/src/rkhtrc_stream.c:rkh_trc_put", "source/trc/src/rkhtrc_stream.c:rkh_trc_get", "source/trc/src/rkhtrc_stream.c:rkh_trc_get_block", "source/trc/src/rkhtrc_stream.c:rkh_trc_getWholeBlock", "source/trc/src/rkhtrc_record.c:rkh_trc_begin", "source/trc/src/rkhtrc_record.c:rkh_trc_end"]}
{"id": "C164", "title": "A host notices the loss of records", "statement": "With sequence numbers enabled a host can tell from the records it receives how many were lost between them. (False in the code if 256 or more are lost: the sequence number has eight bits; true modulo 256.)", "quantifier": "all histories, all positions of the two records", "why_tests_cant": "depends on the number of lost records", "anchors": ["source/trc/src/rkhtrc_record.c:rkh_trc_begin", "source/trc/src/rkhtrc_record.c:rkh_trc_end", "source/trc/src/rkhtrc_stream.c:rkh_trc_put"]}
{"id": "C165", "title": "Time-outs an active object receives, exactly", "statement": "A timer is started for an active object and its event is sent in no other way. As long as the timer is not started, stopped or initialised again, the time-outs the object has received since plus those still waiting in its queue are as many as were waiting when the timer was started plus one for every tick at which it had to expire.", "quantifier": "all histories of all objects, timers, posts and scheduler steps, all initial values and periods", "why_tests_cant": "needs all histories and moments of expiry relative to the scheduling of the object", "anchors": ["source/tmr/src/rkhtmr.c:rkh_tmr_start", "source/tmr/src/rkhtmr.c:rkh_tmr_tick", "source/sma/src/rkhsma.c:rkh_sma_post_fifo", "source/sma/src/rkhsma.c:rkh_sma_get"]}
{"id": "C166", "title": "A stopped timer sends no time-out", "statement": "After rkh_tmr_stop the active object receives no time-out of this timer until it is started again. (False in the code: a time-out already in the queue is not removed and is dispatched later. True is that the object receives exactly those that were waiting when the timer was stopped.)", "quantifier": "all histories, all moments of stopping", "why_tests_cant": "depends on whether the timer expired between the last scheduling of the object and the stop", "anchors": ["source/tmr/src/rkhtmr.c:rkh_tmr_stop", "source/tmr/src/rkhtmr.c:rkh_tmr_tick", "source/sma/src/rkhsma.c:rkh_sma_post_fifo", "source/sma/src/rkhsma.c:rkh_sma_get"]}
{"id": "C167", "title": "The result of rkh_tmr_stop tells whether the time-out comes", "statement": "A one-shot timer is started when no time-out of it is waiting, and stopped later. If rkh_tmr_stop returns true, the object never receives the time-out; if it returns false, exactly one time-out has been received or is waiting.", "quantifier": "all histories, all moments of stopping, all initial values", "why_tests_cant": "needs all histories", "anchors": ["source/tmr/src/rkhtmr.c:rkh_tmr_start", "source/tmr/src/rkhtmr.c:rkh_tmr_stop", "source/tmr/src/rkhtmr.c:rkh_tmr_tick", "source/sma/src/rkhsma.c:rkh_sma_post_fifo", "source/sma/src/rkhsma.c:rkh_sma_get"]}
{"id": "C168", "title": "No time-out comes early", "statement": "After rkh_tmr_start with n ticks the object receives no time-out before n ticks have passed. (False in the code: if the timer had expired before and the time-out still waits in the queue when the timer is started again, it is received before the first tick. True if none is waiting at the start.)", "quantifier": "all histories, all initial values and periods", "why_tests_cant": "depends on what waits in the queue when the timer is started", "anchors": ["source/tmr/src/rkhtmr.c:rkh_tmr_start", "source/tmr/src/rkhtmr.c:rkh_tmr_tick", "source/sma/src/rkhsma.c:rkh_sma_post_fifo", "source/sma/src/rkhsma.c:rkh_sma_get"]}
{"id": "C169", "title": "Depleting a queue gives back the events it held", "statement": "After rkh_queue_deplete the dynamic events that were in the queue and nowhere else are returned to their pools. (False in the code: the references are dropped without being counted down; the block is never free again unless somebody asks the collector by hand to take the event.)", "quantifier": "all histories, all queues and contents, all later histories", "why_tests_cant": "a leak shows only after enough depletions to empty the pool", "anchors": ["source/queue/src/rkhqueue.c:rkh_queue_deplete", "source/fwk/src/rkhfwk_dynevt.c:rkh_fwk_gc", "source/fwk/src/rkhfwk_dynevt.c:rkh_fwk_ae"]}
{"id": "C170", "title": "What depleting a queue does, exactly", "statement": "In histories in which queues of active objects and deferred queues are depleted among all other operations, every operation does what the specification says: a depleted queue is empty and can be used again, its object is not ready, every other queue, subscription and event is untouched, and the reference counter of each event in use is the number of places that hold it plus the references reserved or thrown away by depletions minus the collections asked for.", "quantifier": "all histories of posts, publications, deferrals, recalls, scheduler steps and depletions in any interleaving", "why_tests_cant": "needs all histories", "anchors": ["source/queue/src/rkhqueue.c:rkh_queue_deplete", "source/sma/src/rkhsma.c:rkh_sma_setUnready"]}
{"id": "C171", "title": "A queue may be depleted at any moment", "statement": "rkh_queue_deplete protects itself with a critical section, so it may be called for the queue of any registered active object at any moment, from an interrupt too. (False in the code: between the choice of the object by the scheduler and the fetching of its event a depletion makes the assertion in the queue fail; with assertions compiled out a stale event is dispatched and the queue then reports 255 (or its counter's largest value) elements.)", "quantifier": "all reachable states, all objects, with assertions enabled and disabled", "why_tests_cant": "the window is a few instructions wide", "anchors": ["source/queue/src/rkhqueue.c:rkh_queue_deplete", "source/queue/src/rkhqueue.c:rkh_queue_get", "source/sma/src/rkhsma.c:rkh_sma_get", "source/fwk/src/rkhfwk_sched.c:rkh_fwk_enter"]}
{"id": "C172", "title": "The behaviour of a state machine depends on its chart only", "statement": "Two state machines with the same chart behave alike: if the signals, states, actions and guard functions of one are those of the other under other numbers and addresses (the three signals reserved by the framework kept, guards answering alike), every sequence of calls gives the same results, the same current states and histories and the same sequence of actions, up to the renaming. No behaviour depends on the numeric value of an ordinary signal or on where the linker places a state.", "quantifier": "all pairs of machines with the same chart, all guard functions, all sequences of calls of rkh_sm_init, rkh_sm_dispatch and rkh_sm_clear_history", "why_tests_cant": "needs all machines and all renamings; a test uses one numbering", "anchors": ["source/sm/src/rkhsm.c:rkh_sm_init", "source/sm/src/rkhsm.c:rkh_sm_dispatch", "source/sm/src/rkhsm.c:rkh_sm_clear_history"]}
{"id": "C173", "title": "Every signal the configuration admits is an ordinary signal", "statement": "RKH_CFG_FWK_MAX_SIGNALS may be as large as the configuration check admits, and every signal below it can be used like any other. (False in the code: with 16-bit signals the check admits 65536 signals, but 65535 is RKH_ANY and is never handled, its row ending the transition table; 65534 is the completion event, so its transitions are taken without the signal being sent; 65533 is the creation event, so dispatching it starts the machine again and enters its states twice.)", "quantifier": "all signals admitted by the check, all machines and sequences of calls", "why_tests_cant": "needs all signals; tests use small ones", "anchors": ["source/fwk/inc/rkhitl.h:RKH_CFG_FWK_MAX_SIGNALS", "source/fwk/inc/rkhitl.h:RKH_ANY", "source/fwk/inc/rkhitl.h:RKH_COMPLETION_EVENT", "source/fwk/inc/rkhitl.h:RKH_SM_CREATION_EVENT", "source/sm/src/rkhsm.c:rkh_sm_dispatch"]}
{"id": "C174", "title": "Overriding the post functions of an active object", "statement": "With polymorphic active objects, whose post functions forward an event to the queues of any registered objects (at front or back, several times) or discard it: a publication is exactly a reservation of the event, the calls these functions make for the registered subscribers other than the sender, in priority order, and a collection; the time-outs of a tick are exactly the calls they make. Reference counts, readiness and pools stay right through all of it. With nothing overridden the calls are those of the framework without virtual functions.", "quantifier": "all histories, all assignments of overriding functions to objects, all events, channels and sets of expired timers", "why_tests_cant": "needs all overriding functions and all states they may be called in", "anchors": ["source/sma/src/rkhsma.c:rkh_sma_ctor", "source/sma/src/rkhsma.c:rkhSmaVtbl", "source/sma/inc/rkhsma.h:RKH_SMA_POST_FIFO", "source/fwk/src/rkhfwk_pubsub.c:rkh_pubsub_publish", "source/tmr/src/rkhtmr.c:rkh_tmr_tick"]}
{"id": "C175", "title": "Recalling works whatever the overriding post function does", "statement": "rkh_sma_recall posts the recalled event through the virtual table, so an object may override the LIFO post function to filter what it is sent. (False in the code: if the function discards the event and nobody else refers to it, the recall ends in an assertion failure; true if it sends the event to some queue with room, or the event is static.)", "quantifier": "all reachable states, all objects and events", "why_tests_cant": "depends on what the overriding function does and on who else refers to the event", "anchors": ["source/sma/src/rkhsma.c:rkh_sma_recall", "source/sma/inc/rkhsma.h:RKH_SMA_POST_LIFO"]}
{"id": "C176", "title": "An overriding post function may discard a dynamic event", "statement": "If an overriding post function discards the event, collecting it as one does with an event that is not needed, its memory returns to the pool. (False in the code for an event posted right after its allocation: the collector ignores an event that was never referenced, and the block is lost; true for a published event, which the publication itself reserves and collects.)", "quantifier": "all reachable states, all new events", "why_tests_cant": "depends on the history of the event", "anchors": ["source/fwk/src/rkhfwk_dynevt.c:rkh_fwk_gc", "source/fwk/src/rkhfwk_dynevt.c:rkh_fwk_ae", "source/fwk/src/rkhfwk_pubsub.c:rkh_pubsub_publish", "source/sma/inc/rkhsma.h:RKH_SMA_POST_FIFO"]}
{"id": "C177", "title": "A debounced switch", "statement": "The first switch of the FRDM-K64F board is reported pressed exactly if at some time it was read closed at eight consecutive ticks and since then has not been read open at eight consecutive ticks; at each tick at which it becomes pressed, and at no other, one PAUSE event is published.", "quantifier": "all histories of pin readings", "why_tests_cant": "needs all bounce patterns", "anchors": ["demo/libbsp/platform/arm-cortex/arm_cm4f/frdm-k64f/switch/switch.c:switch_tick", "demo/libbsp/platform/arm-cortex/arm_cm4f/frdm-k64f/switch/switch.c:get_switch_state"]}
{"id": "C178", "title": "Bouncing contacts publish no spurious events", "statement": "A PAUSE event is published only when the switch was read closed eight times in succession, a switch held for eight ticks is recognised, and two PAUSE events are at least sixteen ticks apart.", "quantifier": "all histories of pin readings", "why_tests_cant": "needs all bounce patterns", "anchors": ["demo/libbsp/platform/arm-cortex/arm_cm4f/frdm-k64f/switch/switch.c:switch_tick"]}
{"id": "C179", "title": "Every switch is sampled at every tick", "statement": "switch_tick reads all switches, so each is debounced over all ticks. (False in the code: when the first switch becomes released the function returns before reading the second. True over the ticks at which the first does not become released.)", "quantifier": "all histories of pin readings of both switches", "why_tests_cant": "depends on the coincidence of the two switches", "anchors": ["demo/libbsp/platform/arm-cortex/arm_cm4f/frdm-k64f/switch/switch.c:switch_tick", "demo/libbsp/platform/arm-cortex/arm_cm4f/frdm-k64f/switch/switch.c:SWITCH_EVT"]}
{"id": "C180", "title": "The random times of the demo clients are in range", "statement": "Whatever the random number, a client's request timer is started for exactly 2 to 6 seconds and its usage timer for exactly 1 to 5 seconds, never with zero ticks.", "quantifier": "all random numbers, all tick rates and timer widths that can express six seconds", "why_tests_cant": "needs all random numbers", "anchors": ["demo/cross/shared/client.c:CLI_REQ_TIME", "demo/cross/shared/client.c:CLI_USING_TIME", "demo/libbsp/platform/80x86/linux/bsp_shared.c:bsp_rand"]}
{"id": "C181", "title": "The random numbers never stand still", "statement": "bsp_rand does not return the same number for ever. (False in the code for seeds that are multiples of 2^30, 0 among them; for all other seeds no three successive numbers are equal.)", "quantifier": "all seeds, all positions in the sequence", "why_tests_cant": "needs all seeds and the whole period", "anchors": ["demo/libbsp/platform/80x86/linux/bsp_shared.c:bsp_rand", "demo/libbsp/platform/80x86/linux/bsp_shared.c:bsp_srand"]}
{"id": "C182", "title": "A backlog is worked off at a known rate", "statement": "On the ports with one thread per active object: if n events wait in the queue of an object whose thread runs, then as long as nobody terminates the object the thread has begun n dispatches by the time it has made 3n of its own steps, whatever other threads and interrupts do; if nobody posts at the front of its queue, the events that were waiting are the first it dispatches, in their order.", "quantifier": "all histories, all continuations, all lengths of the backlog", "why_tests_cant": "needs all interleavings with the other threads and interrupts", "anchors": ["source/portable/80x86/win32_mt/vc/rkhport.c:thread_function", "source/portable/80x86/win32_mt/vc/rkhport.c:rkh_sma_block", "source/portable/80x86/win32_mt/vc/rkhport.c:rkh_sma_setReady", "source/queue/src/rkhqueue.c:rkh_queue_get", "source/queue/src/rkhqueue.c:rkh_queue_put_fifo"]}
{"id": "C183", "title": "Changing the subscriptions during a publication, exactly", "statement": "With polymorphic active objects a post function may subscribe and unsubscribe objects while an event is being published. For every set of subscribers and every such function: in each group of eight priorities (0-7, 8-15, \u2026) the publication serves exactly the objects that are subscribed when it comes to that group, in order of priority; it returns the number served, and the channel is left as all the calls leave it. If the functions only forward or discard events, the publication is that of C174.", "quantifier": "all histories of a channel, all functions called during the traverse, all numbers of objects up to 64", "why_tests_cant": "needs all subscriber sets and all changes during the traverse", "anchors": ["source/fwk/src/rkhfwk_rdygrp.c:rkh_rdygrp_traverse", "source/fwk/src/rkhfwk_rdygrp.c:rkh_rdygrp_setReady", "source/fwk/src/rkhfwk_rdygrp.c:rkh_rdygrp_setUnready", "source/fwk/src/rkhfwk_pubsub.c:rkh_pubsub_publish", "source/fwk/src/rkhfwk_pubsub.c:publish"]}
{"id": "C184", "title": "An object unsubscribed during a publication is not served any more", "statement": "An object that is unsubscribed while an event is published, before its turn has come, does not receive the event, and an object subscribed before its turn receives it. (False in the code: within a group of eight priorities the subscriptions are read once, so the object is served nevertheless; if it was also terminated the assertion in the publication fails. True if the calls concern the object just served, those already served or other groups of eight.)", "quantifier": "all histories of a channel, all functions called during the traverse", "why_tests_cant": "depends on the positions of the two priorities relative to multiples of eight", "anchors": ["source/fwk/src/rkhfwk_rdygrp.c:rkh_rdygrp_traverse", "source/fwk/src/rkhfwk_pubsub.c:rkh_pubsub_publish", "source/fwk/src/rkhfwk_pubsub.c:publish", "source/fwk/src/rkhfwk_pubsub.c:rkh_pubsub_unsubscribe", "source/fwk/src/rkhfwk_pubsub.c:rkh_pubsub_unsubscribeAll"]}
{"id": "C185", "title": "The framework ticks at the configured rate (uC/OS-III, KSDK)", "statement": "With the port for KSDK and uC/OS-III, rkh_tmr_tick is called RKH_CFG_FWK_TICK_RATE_HZ times per second. (False in the code: the quotient of the rates is rounded down and cut to 16 bits, so if the rate does not divide that of the operating system timers run too fast, and if it is higher no tick ever takes place; the check in front of the port compares other quantities and accepts both. True if it divides it and the quotient fits.)", "quantifier": "all pairs of rates, all times", "why_tests_cant": "needs all rates and unbounded running time", "anchors": ["source/portable/arm-cortex/ksdk_os/ucosiii/kds/rkhport.c:rkh_isr_tick", "source/portable/arm-cortex/ksdk_os/ucosiii/kds/rkhport.c:RKH_TICKS_RATE", "source/portable/arm-cortex/ksdk_os/ucosiii/kds/rkhport.c:rkh_fwk_init"]}
{"id": "C186", "title": "Event queues kept by the operating system (uC/OS-III, KSDK)", "statement": "With the port for KSDK and uC/OS-III, in which events wait in a message queue of the operating system: for every history of posts at both ends and gets the results are those of a list of at most qsize messages. A post is refused exactly if qsize messages wait or the operating system's own pool of messages is empty, every message got is one that was put, unaltered and in order, and no memory block of the queue is ever lost.", "quantifier": "all queue sizes, message sizes, initial contents of the storage and histories", "why_tests_cant": "needs all histories", "anchors": ["source/portable/arm-cortex/ksdk_os/ucosiii/kds/rkhport.c:OSA_MsgQPutLifo", "source/portable/arm-cortex/ksdk_os/ucosiii/kds/rkhport.c:rkh_sma_activate", "source/portable/arm-cortex/ksdk_os/ucosiii/kds/rkhport.c:rkh_sma_get"]}
{"id": "C187", "title": "A refused post leaves the event as it was (uC/OS-III)", "statement": "With the ports for uC/OS-III, a post to a full queue, or to an object that was terminated, leaves queue and event unchanged. (False in the code: the reference is counted before the operating system is asked and never taken back; with assertions the system halts, without them the event is dropped and its memory never returned. With room in the queue the post does what it should.)", "quantifier": "all reachable queues, all events, with assertions enabled and disabled", "why_tests_cant": "depends on the filling of the queue", "anchors": ["source/portable/arm-cortex/ksdk_os/ucosiii/kds/rkhport.c:rkh_sma_post_fifo", "source/portable/arm-cortex/ksdk_os/ucosiii/kds/rkhport.c:rkh_sma_post_lifo", "source/portable/ucos/v3.03.01/rkhport.c:rkh_sma_post_fifo", "source/portable/ucos/v3.03.01/rkhport.c:rkh_sma_post_lifo", "source/portable/ucos/v3.03.01/rkhport.c:rkh_sma_terminate"]}
{"id": "C188", "title": "Records of posts show the state of the queue (uC/OS-III)", "statement": "With the ports for uC/OS-III, the record of a post shows the event's pool and reference count and the number of events waiting. (False in the code for the number waiting and the least free space: an address and a difference of addresses are recorded, the same whatever is in the queue. True of pool and reference count.)", "quantifier": "all reachable queues, all events, all addresses", "why_tests_cant": "a test would have to compare the record with the queue in all states", "anchors": ["source/portable/arm-cortex/ksdk_os/ucosiii/kds/rkhport.c:rkh_sma_post_fifo", "source/portable/arm-cortex/ksdk_os/ucosiii/kds/rkhport.c:rkh_sma_post_lifo", "source/portable/ucos/v3.03.01/rkhport.c:rkh_sma_post_fifo", "source/portable/ucos/v3.03.01/rkhport.c:rkh_sma_post_lifo", "source/portable/ucos/v3.03.01/rkhport.c:rkh_sma_get"]}
{"id": "C189", "title": "Priorities that belong to the operating system are rejected (uC/OS-III)", "statement": "With the port for uC/OS-III 3.03.01 the tasks of the active objects have operating-system priorities in the order of their RKH priorities, and an object whose task would have a reserved priority is rejected. (False in the code for the rejection: the check tests an error code known to be zero, so it never fails.)", "quantifier": "all priorities, all numbers of operating-system priorities", "why_tests_cant": "needs all priorities", "anchors": ["source/portable/ucos/v3.03.01/rkhport.c:rkh_sma_activate"]}
{"id": "C190", "title": "The serial line carries the trace stream unaltered", "statement": "On the LPC17xx board, however calls of UARTPutnc, transmission and interrupts interleave, the bytes on the serial line are a prefix of the bytes given, in order; none is lost, repeated or overwritten.", "quantifier": "all interleavings of the sending loop, the UART, its interrupt and interrupt masking; all bytes", "why_tests_cant": "needs all moments of the interrupt", "anchors": ["demo/libbsp/platform/arm-cortex/arm_cm3/lpc17xx/uart.c:UARTPutc", "demo/libbsp/platform/arm-cortex/arm_cm3/lpc17xx/uart.c:UARTPutnc", "demo/libbsp/platform/arm-cortex/arm_cm3/lpc17xx/uart.c:UART0_IRQHandler"]}
{"id": "C191", "title": "Sending the trace stream ends", "statement": "On the LPC17xx board UARTPutnc sends all bytes and returns. (False in the code: if the transmit interrupt is served between the write to THR and the clearing of UART0TxEmpty, the flag is lost, the function never returns and the system stops. True if it is never served there: then all bytes leave after a bounded number of steps.)", "quantifier": "all interleavings, all bytes", "why_tests_cant": "the window is one instruction wide", "anchors": ["demo/libbsp/platform/arm-cortex/arm_cm3/lpc17xx/uart.c:UARTPutc", "demo/libbsp/platform/arm-cortex/arm_cm3/lpc17xx/uart.c:UARTPutnc", "demo/libbsp/platform/arm-cortex/arm_cm3/lpc17xx/uart.c:UART0_IRQHandler"]}
{"id": "C192", "title": "A failed assertion resets the board", "statement": "On the LPC17xx board rkh_assert records the assertion, sends the trace stream and resets the board. (False in the code: it disables interrupts first, and sending needs them; with two or more bytes in the stream it never returns. True with no byte, or with one and an idle UART.)", "quantifier": "all histories, all contents of the stream, all interleavings", "why_tests_cant": "depends on the contents of the trace stream", "anchors": ["demo/libbsp/platform/arm-cortex/arm_cm3/lpc17xx/bsp_blinky.c:rkh_assert", "demo/libbsp/platform/arm-cortex/arm_cm3/lpc17xx/bsp_blinky.c:rkh_hook_exit", "demo/libbsp/platform/arm-cortex/arm_cm3/lpc17xx/bsp_blinky.c:rkh_trc_flush", "demo/libbsp/platform/arm-cortex/arm_cm3/lpc17xx/uart.c:UARTPutc", "source/portable/arm-cortex/rkhs/arm_cm3/codered/rkhport.c:rkhport_enter_critical", "source/portable/arm-cortex/rkhs/arm_cm3/codered/rkhport.c:rkhport_exit_critical"]}
{"id": "C193", "title": "Stopping the framework makes rkh_fwk_enter return (one thread per object)", "statement": "On the Windows port with one thread per active object: after rkhport_fwk_stop or rkh_fwk_exit the framework runs no longer, at most one more tick takes place, and rkh_fwk_enter returns after a number of steps of the main thread bounded by the trace blocks waiting or recorded meanwhile, whatever other threads do. (False in the code for a stop that comes before rkh_fwk_enter has marked the framework as running, which objects activated before may well make: it is lost.)", "quantifier": "all interleavings of the main, idle and object threads, all numbers of threads, all moments of the stop", "why_tests_cant": "needs all schedules", "anchors": ["source/portable/80x86/win32_mt/vc/rkhport.c:rkh_fwk_enter", "source/portable/80x86/win32_mt/vc/rkhport.c:rkh_fwk_exit", "source/portable/80x86/win32_mt/vc/rkhport.c:rkhport_fwk_stop", "demo/libbsp/platform/80x86/win/trace_io.c:rkh_trc_flush", "demo/libbsp/platform/80x86/win/hook.c:rkh_hook_exit"]}
{"id": "C194", "title": "One tick per round of the main loop (one thread per object)", "statement": "On the Windows port with one thread per active object the main thread makes exactly one tick per round of its loop while the framework runs, whatever the other threads do; and it runs from the start until somebody stops it.", "quantifier": "all interleavings, all lengths", "why_tests_cant": "needs all schedules", "anchors": ["source/portable/80x86/win32_mt/vc/rkhport.c:rkh_fwk_enter"]}
{"id": "C195", "title": "Nothing closed or deleted is used (one thread per object)", "statement": "On the Windows port with one thread per active object no thread uses the critical section after it was deleted or the trace after it was closed. (False in the code: the threads of the objects are not ended, so their next call of the framework uses the deleted critical section, and the idle thread may be in the middle of a flush. True up to the return of rkh_fwk_enter, and afterwards if the idle thread was not flushing and the objects do nothing any more.)", "quantifier": "all interleavings, all numbers of threads", "why_tests_cant": "needs all schedules", "anchors": ["source/portable/80x86/win32_mt/vc/rkhport.c:rkh_fwk_enter", "source/portable/80x86/win32_mt/vc/rkhport.c:idle_thread_function", "source/portable/80x86/win32_mt/vc/rkhport.c:thread_function", "demo/libbsp/platform/80x86/win/trace_io.c:rkh_trc_flush", "demo/libbsp/platform/80x86/win/trace_io.c:rkh_trc_close"]}
{"id": "C196", "title": "The trace arrives in order (one thread per object)", "statement": "On the Windows port with one thread per active object the blocks of the trace arrive in the order in which they were recorded, without gaps, and at the end everything recorded has arrived. (False in the code: taking a block is protected, sending it is not, and the exit hook flushes in the main thread, or in that of the object that calls rkh_fwk_exit, while the idle thread may be flushing. True as long as only the idle thread flushes, and to the end if it is not flushing at some moment between the stop and the exit hook.)", "quantifier": "all interleavings, all numbers of blocks", "why_tests_cant": "needs the overlap of two flushes", "anchors": ["source/portable/80x86/win32_mt/vc/rkhport.c:rkh_fwk_enter", "source/portable/80x86/win32_mt/vc/rkhport.c:rkh_fwk_exit", "source/portable/80x86/win32_mt/vc/rkhport.c:idle_thread_function", "demo/libbsp/platform/80x86/win/trace_io.c:rkh_trc_flush", "demo/libbsp/platform/80x86/win/hook.c:rkh_hook_exit"]}
{"id": "C197", "title": "The exit hook is called once (one thread per object)", "statement": "On the Windows port with one thread per active object rkh_hook_exit is called exactly once, when the framework ends. (False in the code: every call of rkh_fwk_exit calls it once more. True if no object calls rkh_fwk_exit.)", "quantifier": "all interleavings", "why_tests_cant": "needs all ways of ending", "anchors": ["source/portable/80x86/win32_mt/vc/rkhport.c:rkh_fwk_enter", "source/portable/80x86/win32_mt/vc/rkhport.c:rkh_fwk_exit"]}
{"id": "C198", "title": "A higher priority gives a thread of higher priority (Windows)", "statement": "On the Windows port with one thread per active object, of two objects that of higher priority gets the thread of higher priority. (False in the code: all objects but the two highest and the three lowest get the same priority, and with four priorities or fewer the port does not compile. True for all other pairs; and the order is never reversed.)", "quantifier": "all numbers of priorities, all pairs", "why_tests_cant": "needs all configurations", "anchors": ["source/portable/80x86/win32_mt/vc/rkhport.c:rkh_sma_activate"]}
{"id": "C199", "title": "Time stamps measure time at the announced rate", "statement": "On the ColdFire V1 and S08 boards the time stamp of a trace record is the time since the start, in units of the rate the board announces to the host, modulo the width of a stamp. (False in the code: the timer advances once per 128 announced units, its overflow interrupt is not enabled, and after the first overflow stamps repeat every 65536 counts. True, but for the unit, until the first overflow; afterwards the exact value is proved.)", "quantifier": "all interleavings of the bus clock, the overflow interrupt and the two reads of a stamp; all times", "why_tests_cant": "needs executions longer than the timer's period, and the moment between two reads", "anchors": ["demo/libbsp/platform/cfv1/DEMOQUE128/mcu/mcu.c:mcu_init", "demo/libbsp/platform/cfv1/DEMOQUE128/mcu/mcu.c:isrVtpm1ovf", "demo/libbsp/platform/cfv1/DEMOQUE128/mcu/mcu.c:get_ts", "demo/libbsp/platform/s08/DEMOQE128/mcu/mcu.c:mcu_init", "demo/libbsp/platform/s08/DEMOQE128/mcu/mcu.c:isrVtpm1ovf", "demo/libbsp/platform/s08/DEMOQE128/mcu/mcu.c:get_ts", "demo/libbsp/platform/cfv1/DEMOQUE128/trace_io.c:rkh_trc_getts", "demo/libbsp/platform/cfv1/DEMOQUE128/trace_io.c:BSP_TS_RATE_HZ"]}
{"id": "C200", "title": "Time stamps do not go back", "statement": "On the ColdFire V1 and S08 boards a later time stamp is not smaller than an earlier one, up to the wrap of a 32-bit stamp. (False in the code: at the end of every period but the first the stamps fall by 65535, and a stamp during which the timer overflows for the first time is ahead by 65535. True until the first overflow, and within every period.)", "quantifier": "all interleavings, all pairs of stamps", "why_tests_cant": "needs executions longer than the timer's period, and the moment between two reads", "anchors": ["demo/libbsp/platform/cfv1/DEMOQUE128/mcu/mcu.c:mcu_init", "demo/libbsp/platform/cfv1/DEMOQUE128/mcu/mcu.c:isrVtpm1ovf", "demo/libbsp/platform/cfv1/DEMOQUE128/mcu/mcu.c:get_ts", "demo/libbsp/platform/s08/DEMOQE128/mcu/mcu.c:mcu_init", "demo/libbsp/platform/s08/DEMOQE128/mcu/mcu.c:isrVtpm1ovf", "demo/libbsp/platform/s08/DEMOQE128/mcu/mcu.c:get_ts"]}
{"id": "C201", "title": "Ticks come at the configured rate (ColdFire V1, S08)", "statement": "On the ColdFire V1 and S08 boards there are, after every number of milliseconds, as many ticks as RKH_CFG_FWK_TICK_RATE_HZ demands. (False in the code for other rates than those that divide 1000 and are at least 4 Hz: the period is rounded to milliseconds and reduced to eight bits, and above 1 kHz the board ticks every 256 ms.)", "quantifier": "all tick rates, all widths of timers, all times", "why_tests_cant": "needs all configurations", "anchors": ["demo/libbsp/platform/cfv1/DEMOQUE128/mcu/mcu.c:mcu_init", "demo/libbsp/platform/cfv1/DEMOQUE128/mcu/mcu.c:rti_handler", "demo/libbsp/platform/s08/DEMOQE128/mcu/mcu.c:mcu_init", "demo/libbsp/platform/s08/DEMOQE128/mcu/mcu.c:rti_handler", "source/fwk/inc/rkhitl.h:RKH_TICK_RATE_MS"]}
{"id": "C202", "title": "Ticks come at the configured rate (K60, KL25Z)", "statement": "On the TWR-K60 and FRDM-KL25Z boards the tick interrupt comes RKH_CFG_FWK_TICK_RATE_HZ times per second of the core clock. (False in the code: the reload value is one too large, so that in every second at least one tick is missing; and if a tick should last 2^24 clocks or more it is too short, or there is none. The deviation is proved to be at most one clock per tick for shorter ticks.)", "quantifier": "all core clocks, all tick rates, all times", "why_tests_cant": "needs all configurations and unbounded times", "anchors": ["demo/libbsp/platform/arm-cortex/arm_cm4f/twr_k60/cm4f/cpu.c:systick_init", "demo/libbsp/platform/arm-cortex/arm_cm4f/twr_k60/cm4f/cpu.c:isr_systick", "demo/libbsp/platform/arm-cortex/arm_cm0/frdm-kl25z/cm0/cpu.c:systick_init", "demo/libbsp/platform/arm-cortex/arm_cm0/frdm-kl25z/cm0/cpu.c:isr_systick"]}
