# Formal model of RKH in Lean 4: design

Subject: vortexmakes/RKH (C, event-driven state machine framework), sources in `/repo/source`.
Everything below is about that C text; nothing was compiled or run.

## 1. Trusted base

* Lean 4.33.0's kernel (`lake build` elaborates, the kernel checks).
* Axioms: every theorem depends on a subset of `propext`, `Classical.choice`, `Quot.sound`
  (Lean's own three). No axiom is declared, no `sorry`/`admit`, no `native_decide`/`bv_decide`,
  no `unsafe`/`implemented_by`.
* The faithfulness of the hand-written model to the C text. Each definition cites file and lines,
  and says where it simplifies. The rest of this file lists the simplifications globally.

## 2. Modelling conventions

* `Res α` = `ok a | assert | ub` (`Verif/Basic.lean`). `assert` = `RKH_ASSERT/REQUIRE/ENSURE/ERROR`
  reached with a false condition: the documented behaviour of `rkh_assert` is to stop the system, so
  it ends the run. `ub` = undefined behaviour in C (out-of-range index, bad pointer). Nothing is totalised with a
  default value: a wrong index is `ub`, and the theorems prove that `ub` is unreachable (or exhibit it).
* Machine integers are modelled with their wrap-around wherever the width can matter
  (`nref` 8 bit, bitmap bytes, trace bytes and sequence numbers, 16-bit counters, `RKH_QUENE_T` etc.).
* Pointers to objects are indices into a store; the memory pool is modelled on byte memory with
  real addresses because there the free list is threaded through client memory.
* In the framework model a critical section is one atomic step. ISR activity is an operation that may occur between any two
  atomic steps. That critical sections nest and exclude interrupts (`rkh_pubsub_publish` calls `rkh_sma_post_fifo` inside its
  own section) is an assumption there; `Verif/Port` proves it of the STM32, uC/OS-III and S08 ports, and shows where the
  other ports break it.
* User code (actions, guards, timer hooks, idle hook) is arbitrary: guards are oracles which may depend on
  everything executed so far, actions are observed events in a log; in the framework model the body
  of a dispatch is an arbitrary sequence of API calls.

## 3. Modules

| module | models |
|---|---|
| `Verif/Basic` | outcome monad |
| `Verif/Queue/*` | `source/queue/src/rkhqueue.c` |
| `Verif/MemPool/*` | `source/mempool/src/rkhmempool.c` |
| `Verif/RdyGrp/*` | `source/fwk/src/rkhfwk_bittbl.c`, `rkhfwk_rdygrp.c`, `source/sma/src/rkhsma_prio.c` |
| `Verif/Timer/*` | `source/tmr/src/rkhtmr.c` |
| `Verif/Trc/*` | `source/trc/src/rkhtrc_stream.c`, `rkhtrc_record.c`, `rkhtrc_filter.c`; the trace points of `source/trc/inc/rkhtrc_record.h` (`Points*`) |
| `Verif/Fwk/*` | `source/sma/src/rkhsma.c`, `rkhsma_sync.c`, `source/fwk/src/rkhfwk_dynevt.c`, `rkhfwk_evtpool.c`, `rkhfwk_pubsub.c`, `rkhfwk_sched.c` |
| `Verif/SM/*` | `source/sm/src/rkhsm.c` (hierarchical configuration) |
| `Verif/Subm/*` | `source/sm/src/rkhsm.c` with submachines (hierarchy, choice, conditional; no histories); example `demo/80x86/subm` |
| `Verif/Port/*` | critical sections of all ports under `source/portable`, waiting and waking of the Linux and Windows ports, threads of active objects on Windows and uC/OS-III |
| `Verif/Sys/*` | the components together: scheduler, active objects with their state machines, software timers |
| `Verif/Thread/*` | the ports with one thread per active object (`win32_mt/vc`, `ucos/v3.03.01`, `ksdk_os/ucosiii/kds`) on top of the framework |
| `Verif/Nest/*` | `source/sm/src/rkhsm.c:389-760` once more, over its working variables as they are stored (arrays, pointers, 8-bit counters, `static` or automatic), several machines in one thread |
| `Verif/App/*` | example applications under `demo` |
| `Verif/Host/*` | the receiver of the unit-test link, `third-party/unitrazer/tzparse.c`, `third-party/utrazer/platform/80x86/vc/bsp.c:186-215` |
| `Verif/Life/*` | start and end of the framework: `source/portable/80x86/{linux_st,win32_st}` (`rkh_fwk_enter`, `rkh_fwk_exit`, `rkhport_fwk_stop`) with the clock and keyboard threads of `demo/libbsp/platform/80x86/{linux,win}/hook.c`; `Life/Multi*`: the same for `win32_mt`, with idle thread, any number of object threads and the flushing of `demo/libbsp/platform/80x86/win/trace_io.c`, and the thread priorities |
| `Verif/Bsp/*` | board support of the examples: switch handler of the FRDM-K64F board, `bsp_rand`, serial output of the LPC17xx board, time stamps and tick timers |
| `Verif/Link/*` | trace bytes and the module records they stand for |

In each directory: `Model` (the code), `Spec` (small independent specification), `Lemmas` (proof
machinery), `Props` (the property theorems with their non-vacuity examples).

In the state machine directory: `Model` (engine, with a step budget), `Spec` (reference semantics as an inductive relation over
current state and log), `Stages`/`Engine`/`Refine` (engine refines reference), `Det` (the reference is deterministic), `Fuel` and
`Total` (the step budget is irrelevant; when a dispatch returns), `Props*` (properties), `Check` (decision procedure for
well-formedness), `Demo` and `Findings` (concrete machines, also those showing defects).

### Exactly what is modelled

| file in `/repo/source` | modelled | left out |
|---|---|---|
| `queue/src/rkhqueue.c` | all functions, including performance counters; trace calls in `Queue/Trace.lean` | |
| `mempool/src/rkhmempool.c` | all functions; performance counters in `MemPool/Info.lean`; trace calls in `MemPool/Trace.lean` | block pointers are addresses in a byte memory, little endian |
| `fwk/inc/rkhitl.h` | RKH_TICK_RATE_MS, RKH_TIME_MS, RKH_TIME_SEC, RKH_TIME_MIN (`Timer/Time.lean`) | negative arguments; the other macros are modelled where they are used |
| `tmr/src/rkhtmr.c` | all functions; performance counters in `Timer/Info.lean`; trace calls in `Timer/Trace.lean` | hooks that initialise timers |
| `fwk/src/rkhfwk_bittbl.c`, `fwk/src/rkhfwk_rdygrp.c`, `sma/src/rkhsma_prio.c` | all functions; a callback that changes the group being traversed in `RdyGrp/Live.lean` | nothing |
| `fwk/src/rkhfwk_dynevt.c` | `rkh_fwk_ae`, `rkh_fwk_gc`, `rkh_fwk_reserve`, registration of pools; trace calls in `Fwk/Trace.lean` | `rkh_dynEvt_init` is in `Fwk/Reinit.lean` only; the other theorems assume the initial state |
| `fwk/src/rkhfwk_evtpool.c` | all functions | - |
| `fwk/src/rkhfwk_pubsub.c` | subscribe, unsubscribe, unsubscribe all, publish | - |
| `fwk/src/rkhfwk_sched.c` | the scheduler loop, one iteration as select / get / dispatch / collect | start and exit hooks (in `Life`) |
| `sma/src/rkhsma.c`, `rkhsma_sync.c` | all functions except `get_info`, `clear_info`; trace calls in `Fwk/Trace.lean` (without sender and time stamp); calls through the virtual table in `Fwk/Virtual.lean` | performance counters |
| `sm/src/rkhsm.c` | `rkh_sm_init`, `rkh_sm_dispatch`, `rkh_sm_clear_history`, constructor; composite, basic, final states, choice, conditional, shallow and deep history, completion events; also the configuration without hierarchy (`SM/Flat.lean`); the trace calls and the trace calls inside the execution macros of `rkhitl.h` (`SM/Trace*.lean`). The 8-bit counters `ix_x`, `ix_n`, `nn` are naturals (nesting below 256) | submachines together with histories (submachines: `Subm/Model.lean`; `RKH_CFG_SMA_SUBMACHINE_EN` does not compile together with `HCAL`, as `UPDATE_IN_PARENT` has two statements in the header of a `for`; modelled as it is meant), event preprocessing (`RKH_CFG_SMA_PPRO_EN`: its macro does not compile), pseudostates in flat machines (`RKH_CFG_SMA_HCAL_EN` = 0 with choice or conditional does not compile), an action that calls `rkh_sm_dispatch` of its own machine |
| `trc/src/rkhtrc_stream.c`, `rkhtrc_record.c`, `rkhtrc_filter.c` | all functions; `trc/inc/rkhtrc_record.h`: all trace points `RKH_TR_*` with their fields in every configuration, the configuration record, user records | unit-test records `RKH_TR_UT_*`; time stamps are an input |
| `demo/libbsp/platform/*`: `rkh_trc_flush` | the block loop (win, cfv1, arm-cortex) byte by byte, the `rkh_trc_get` loop (Linux) access by access | the channel itself (socket, serial line, file) |
| `../demo/80x86/subm/my.c` | state machine with its submachine | printing |
| `../demo/80x86/ahsm/my.c` | state machine, actions, guards | printing |
| `../demo/80x86/blinky/src/blinky.c`, `main.c` | state machine, actions, activation, on the whole system model (framework, timers, engine) with ticks at any moment | trace calls, `cnt`, the ESC key |
| `../demo/cross/shared/server.c`, `client.c`, `main.c` | state machines, actions, posts, deferring, timers on and off | queues are unbounded lists and timers expire at any time (the real ones are other modules); counters, printing, TERM |
| `../demo/libbsp/platform/arm-cortex/arm_cm4f/frdm-k64f/switch/switch.c`, `bsp_rand` | all functions (`Bsp`) | publishing is counted only |
| `../demo/libbsp/platform/{cfv1,s08}/*/mcu/mcu.c`, `arm_cm4f/twr_k60/cm4f/cpu.c`, `arm_cm0/frdm-kl25z/cm0/cpu.c` | time stamps, tick timers (`Bsp/Tstamp`) | other peripherals; the timers are modelled after the reference manuals |
| `../demo/libbsp/platform/arm-cortex/arm_cm3/lpc17xx/uart.c`, `bsp_blinky.c` (`rkh_assert`, `rkh_trc_flush`) | sending, the transmit branch of the handler (`Bsp/Uart`) | reception, baud rate, FIFO deeper than one byte |
| `../third-party/unitrazer/tzparse.c`, `../third-party/utrazer/platform/80x86/vc/bsp.c:186-215` | all functions of the receiver; `utrz_recv`, `ut_process` | the socket (a list of bytes, then closed), printing |
| `portable/*` | critical sections, waiting, thread functions (`Port`, `Thread`); tick, queues, posts and priorities of the uC/OS ports (`Port/Ucos`); start and end of the framework with clock and keyboard threads on linux_st and win32_st, with idle and object threads on win32_mt (`Life`) | sockets, console, assertion handlers |
| `fwk/src/rkhfwk_version.c`, module descriptions | - | not modelled |

Assumptions on the outside: pointers passed by the application are valid; C compiler and processor implement the C text; an
interrupt handler or a guard does not write RKH's private data; `RKH_CFG_*` values are those named as parameters in each
model file.

## 4. Plan per property

* **C01-C05 queue.** Ring buffer with offsets modelled literally (`pin`, `pout`, wrap at `pend`). C01: refinement
  to a list by an abstraction function and induction over the operation list. C02/C03/C05: invariants over histories.
  C04: negation by a general theorem (caller buffer unchanged) + partial.
* **C06-C10 memory pool.** Byte memory, pointer size parameter, free list threaded through memory. Invariant: the
  free list is a duplicate-free chain through exactly the non-allocated blocks. Client writes into allocated blocks are
  operations. C10: witnesses for undetected misuse.
* **C11-C14 ready group.** Tables checked entry by entry by the kernel; set semantics by bit lemmas; `findHighest` = minimum; traverse = sorted list of members.
* **C15, C16, C18-C21, C23-C27, C55 framework.** One state with queues, ready group, registry, event pools, reference counts; atomic steps; inductive invariants over arbitrary step sequences. C22: negation witness.
* **C17 registry.** History theorem; `ub` witness for the boundary priority.
* **C28-C33 timers.** Linked list in a store of timers; refinement to "set of running timers with countdown"; firing times by induction on ticks. C33: negation + actual order.
* **C34-C48 state machine.** `rkh_sm_dispatch` as a fuelled function over an arbitrary finite state-machine description, logging observable actions; well-formedness predicate for machines; theorems about the log. C44, C45, C46, C48: negation witnesses + partial theorems.
* **C49-C51 trace records.** Encoder modelled byte by byte; an independent decoder as specification; round-trip for all byte strings.
* **C52 trace stream.** Refinement of ring buffer to "last N unread bytes".
* **C53, C54 trace filters.** Bit-level model of the filter tables, frame and effect theorems; `ub` witness.

* **C56-C61.** Found while proving C06, C28, C53, C49: unchecked count, restarting hook, filter identifiers, 8-bit loop counter (negations by general theorems with the positive part beside them); sequence numbers by induction over the record history.
* **C62-C67.** C62: simulation of the whole framework by a reference model with sequences, sets and counted holders. The others are negations found while proving it, each from every reachable state.
* **C68.** Step budget: monotone and irrelevant; a measure for pseudostate chains; completion chains either end or go on for ever.
* **C69-C71.** Consequences of the refinement for particular transitions.
* **C72-C74 critical sections.** Each port is a list of instruction-level steps; a program is a tree of nested sections with an interrupt handler requested before every step; one induction over the tree for all ports.
* **C75, C76 waiting.** Transition system of the serving thread; invariants and a bound on the steps until all is processed.
* **C77, C78 threads.** Transition system of activation, thread, posts, termination; negations for all continuations.

* **C79-C82, C84 whole system.** The models of framework, timers and state machines composed; a system history is projected onto a framework history (a tick becomes its posts), a timer history and one signal sequence per object, and the theorems of the components are transferred. The posts of the timers go through the framework's contract like any other post.
* **C85 configuration without hierarchy.** A second, short model of the dispatch (`flatDispatch`); a simulation relates it step by step to the hierarchical engine on machines of basic states.
* **C57, C86, C87 hooks.** The tick loop with arbitrary hook calls is modelled; a sequential specification gives every timer one turn per tick; simulation for the calls that keep the loop's predecessor pointer valid (`Spec.safeCall`); each excluded kind of call has a negation theorem.
* **C88-C91 trace points.** Every `RKH_TR_*` macro as a list of fields depending on the configuration; the specification is a host program: it reads the configuration record and decodes the rest from the documented layouts. Round trip for all records through the stream model of C49-C52; both directions of the characterisation of readable configurations.
* **C92-C96 trace of a state machine.** The engine with its trace calls as a second interpreter that also collects records; erasing the records gives the engine of C34-C48 (C96). The specification is a reader of records that knows the machine's entry and exit actions only and rejects contradictory traces; a Hoare-style relation between the engine's state and the reader's knowledge is preserved by every engine function.
* **C97, C98 initialised again.** A simulation between an object that was in use and a new one: both logs differ by a prefix, and the histories are those the log before tells. Every engine function preserves the relation.
* **C99.** The chaining loop with a wrapping counter; induction over the gets.
* **C100 interrupted puts.** Both puts as sequences of single memory accesses (`Queue/Atomic`), proved equal to the puts of C01-C05 when uninterrupted; executions with handlers running complete queue calls between any two accesses; specification: some sequential order explains all results.
* **C101-C104 trace of the framework.** The operations of `Fwk/Model` with their records; a record written after the critical section stays pending and is written at any later moment with the values of that moment. The specification is a host that reads records, keeps signals per queue and a count per pool, and rejects contradictory traces. Simulation along every history and interleaving, on top of the refinement of C15-C27.
* **C105-C107 trace of timers, queues and pools.** The functions with their records, erasing to the functions of C28-C33, C01-C05, C06-C10; for each a host that keeps what it can know and rejects contradictory records; induction over histories with the refinement relation of the untraced module.
* **C108 from bytes to knowledge.** `Link/Read` says which module record a trace point is (arguments of the call in the source) and which module record a host takes a decoded message for; both agree for every point whose arguments fit. With C88 the bytes of any interleaving give back the records of each module, and C92, C101, C105-C107 say what they tell.
* **C109-C111 design rules.** `SM/Design`: rules on the tables of a machine (an else branch in every choice and conditional, unguarded history defaults, effects within the configured limit; no circle of segments; no circle of completion transitions) and, with the reference semantics, what they guarantee for every execution. A decision procedure for the rules (`SM/DesignDemo`) is proved sound. `Sys/Rest` lifts them to systems: invariant over histories that no object is abandoned, then C84.
* **C112, C113 times.** `Timer/Time`: the macros RKH_TIME_MS/SEC/MIN with C's integer division and wrap-around, composed with C28; the specification compares lengths of time by cross-multiplication.
* **C114 registration.** `Fwk/Register`: `rkh_sma_register` and `rkh_sma_unregister` as test and store with anything of the other contexts in between (in sequence they are the functions of `Fwk/Model`: `parts_register`, `parts_unregister`); the specification reads the successful calls in order; invariant over histories in which calls for the same priority do not overlap.
* **C115, C116 storage of event pools.** `Fwk/PoolSize`: `registerPool` hands the size on modulo 65536; by the exact count of a wrapped pool (C99) and induction over allocations exactly the blocks of the truncated storage are delivered, in address order, before the assertion. C115 (all storage is used) is false of the code from 64 KiB on.
* **C117, C118 threads.** `Thread/Model` puts the thread functions, sleeping and waking, the steps of activation and termination on top of the framework model: any interleaving of threads, interrupts and creators. C117: by an invariant relating program counters to the continuations of the framework, the critical sections of every history form a legal history of `Fwk` (operation `take`: a thread fetches and dispatches by itself, many at a time), so that all theorems about those hold; the same operation is in `Fwk/Trace` (C101-C104) and in `Sys` (C79-C82, C111). C118: invariant "sleeping with events queued implies signalled", and a measure (at most three own steps) until an event is dispatched, for all continuations.
* **C119, C120 life of threads.** Over all continuations: with the handle stored and no call of `rkh_sma_terminate` the thread lives and is registered; a thread that ended untold must have tested its flag between its creation and the store of the handle; after `rkh_sma_terminate` at most one further event, none if one is being processed, and then the thread ends within two own steps.
* **C121 memory pools stay inside their storage.** For every call whatever its arguments: not reported as `ub` implies nothing outside is changed; in correct histories `ub` is unreachable and the outside is unchanged.
* **C122 robustness of a state machine.** `SM/Robust`: an invariant weaker than that of the refinement (a state of the machine is current, histories are what the log tells), kept by every stage of the engine also when it stops half-way, from every situation including the one before initialisation; induction over any list of calls.
* **C123, C124 working variables.** `Nest/Model`: the dispatch with its working variables as stored. A simulation with exact step budgets relates each stage to the engine of `SM/Model`, whatever the variables contain on entry; dispatches made by actions are handled by induction over the rank of the machines. C124 is proved for automatic variables; for static ones it is refuted by three witnesses (effect, entry, exit action).
* **C125-C127 after the termination of an object.** `Fwk/Life`, from every reachable state of the framework model. C125 and C126: the ready group is followed through terminate, activate, post, select and fetch; the positive halves use the refinement. C127: `ownSub` (an object's own last call about a channel) is the specification; an invariant over tidy histories identifies it with the subscription of the priority.
* **C128-C130 waiting and delivery.** `Fwk/Response`, over pairs of a run and a continuation of it. C128: an invariant (the object stays registered with a non-empty queue) and a budget (1 while an object of lower priority is selected but not dispatched, else 0) that every dispatch of lower priority uses up and that no step renews. C129: conservation of the events of one object over every step, as a permutation. C130: every step leaves the waiting events in place, adding at the ends or taking the first.
* **C131** (covering guards): `SM/Design.lean`. `ExhaustiveFor m env` asks, instead of an else branch, that the guards of a choice, conditional or default transition are never all false; the proofs of C109 only use this, and C109 is now a corollary. `App/Ahsm.lean` proves the rule for a machine whose conditional has no else branch (invariant: y ≤ 2 after any past).
* **C132** (present situation): `SM/Memory.lean`. Every piece of the engine is shown to be uniform in the past (`Unif`), by composition; hypothesis: same current state, same history variables, and pasts the guards cannot tell apart whatever follows.
* **C133** (example application): `App/Ahsm.lean` has the tables, actions and guards of `demo/80x86/ahsm/my.c` and, separately, the chart as a function on (state, last substate of S11, last state in S1, x, y). By C132 one dispatch from each of the 31 situations that can be reached settles all sequences of events; signals outside the tables are handled symbolically.
* **C134–C137** (shared-resource example): `App/Shared*.lean`. The tables of `demo/cross/shared/server.c` and `client.c` are run by the engine model; the functions called by the engine act on queues (lists), the deferred queue and the timers (on/off). Every step of every scheduler is allowed, for any number of clients. `App/SharedLemmas.lean`: the engine's behaviour on these tables case by case (via C132) and an invariant of all runs (one request or permission per waiting client; `asked = granted ++ pending`). `App/SharedQuiet.lean`: the runs without PAUSE (each client is at one of six points of its cycle; one permission exists iff the server is busy). C137 by a potential that every step but a grant decreases. C134 and C136 are refuted by concrete runs and proved in part.
* **C138, C139** (performance counters of timers and pools): `Timer/Info*.lean`, `MemPool/Info*.lean`. The counters are added to the models of the modules; histories may read and clear them. The specification counts calls and refusals from the history alone (`counted`). Induction over histories.
* **C140** (starting the dynamic events over): `Fwk/Reinit.lean`. Counting the unused slots over lists of registrations; the failure is proved for all numbers of pools, the double allocation by a run.
* **C141** (timers with dynamic events): `Sys/DynTimer.lean`. A tick whose due events are static or reserved extends a legal run of the whole system to a legal run, so that all theorems about legal runs apply; the failure by a run of the whole system.
* **C142–C143** (`Trc/Flush`, `Trc/FlushProps`): `rkh_trc_flush` of the board support packages; steps are: writing a byte, taking a block (a pointer and a number of bytes), sending the next byte of a block. Invariant: the bytes taken and unsent, followed by the unread ones, occupy consecutive places of the ring. C143 has no hypothesis on the history: the place sent holds the newest byte written there.
* **C143** in full (`Trc/FlushExact`): refinement to a stream that forgets nothing (`Spec.Tape`): all bytes ever written, blocks as ranges of positions, any number of flushing contexts; no hypothesis on the history.
* **C144** (`Trc/Race`): single memory accesses of `rkh_trc_get` (unprotected, Linux package) interleaved with those of `rkh_trc_put`; safety invariant on the pointers per program point; concrete interleavings for the lost updates.
* **C145, C146** (blinky): `App/Blinky.lean` runs the example on the composed model `Sys` (queues, ready group, scheduler, timer list, engine); each framework call of an action and each critical section of the scheduler is one step, and a tick may come between any two. `App/BlinkyLemmas.lean` shows by forward simulation (using the refinement of the framework and of the timers) that it behaves like a small program with seven program points, a countdown and a counter. Never early: an invariant relating tick count, countdown and due time. Goes on: a potential. On time: induction over the ticks.
* **C147–C150** (unit-test link): `Host/Tz.lean` models the receiver byte by byte with its fixed buffers, the 8-bit counter and the undefined shifts; `Host/TzSpec.lean` has the records and responses. Invariant `Mid`: the buffer holds the unstuffed bytes since the last flag and the counter their number modulo 256; the framing is the one proved about the writer (C49–C51), so that writer and receiver are composed.
* **C151** (several objects of one type): `SM/Instances.lean`. The objects have their own state and log and share the variables of the histories. Without histories each call of an object gives what it gives alone (from `Unif.op`, the dependence of a call on its situation); by induction over the interleaved calls. With histories a concrete interleaving refutes the property.
* **C152** (a submachine state stands for the insertion of the submachine, rkhsm.h:2301-2303): `Subm/Spec.lean` defines from a machine with submachines the machine without them, in which each submachine state has its own copy of the submachine (context numbers, any nesting), as a machine of `SM/Model.lean`. A simulation between the two engines (`Subm/Lemmas*.lean`): the variables `*dyp` of the submachines around the current state hold the submachine states of its context. Each function of the engine is simulated; by induction over the calls, the logs, answers and states agree under the map that forgets copies. Refuted in general by concrete machines (two submachine states of one submachine; the place of the initial action; default states).
* **C153** (example demo/80x86/subm): `Subm/DemoProps.lean`. C152 for the example, whose machine meets the conditions, and a table of all its configurations and events for the inserted machine; by induction over the events.
* **C154** (order of the effects at entry and exit points, rkhsm.h:2311-2313, 2415-2421, 2447-2452): `Subm/Points.lean`. The pieces of the engine that leave no state, then the order of the stages of a dispatch. Refuted in the documented form by a concrete machine.
* **C155** (several objects of one type with submachines): `Subm/Objects.lean`. `*dyp` is shared. A call sets a variable only to a submachine state of its submachine, so with single use it does not change what the other objects have entered; by induction over the interleaved calls from C152's relation. Refuted with the example demo/80x86/subm and two objects.
* **C156–C159** (start and end of the framework on a host): `Life/Model.lean` has three threads - the main thread in `rkh_fwk_enter`, the clock and the keyboard thread of the demo BSP - as program counters over `running`, the number of events to process, the signal (a count on Linux, an auto-reset flag on Windows) and whether signal and critical section are destroyed; posts, stops and exits are arbitrary. C156: every three clock steps make a tick, by a phase argument. C157: a measure of the main thread that only its own steps decrease, invariant "not about to sleep". C158, C159: invariants over all schedules. Refutations are schedules for the concrete part followed by invariants for "for ever".
* **C160–C162** (completion events and result codes): `SM/Completion.lean`. `Turns` lists the steps of a dispatch (the event, then completion events); induction on the derivation of the semantics. The design rule is `Unconditional` (a property of the tables, with a decidable check proved sound) or, for known guards, `UnconditionalFor`.
* **C163, C164** (a host that falls behind): `Trc/Overflow.lean`. The bytes read are the wire with one piece missing per overflow (invariant over the history, on the abstract stream of C49); a receiver that jumps to any later position of the wire is in step again at the next flag (induction over the gaps with three hypotheses: in step, out of step, between frames). Refutations are concrete runs.
* **C165–C168 (time-outs as an object sees them, `Sys/Timeouts.lean`).** The whole system of C79–C82; `received` counts dispatches of the timer's
  event to the object, `waiting` what is in its queue. A conservation law (from the exact queue history) gives C165; C166–C168 follow with the
  timer specification. C166 and C168 are refuted by concrete legal histories: a time-out that is already in the queue is not taken back by
  `rkh_tmr_stop` or `rkh_tmr_start`. C167 tells how a program can find out (the result of `rkh_tmr_stop`).
* **C169–C171 (depleting queues, `Fwk/Deplete.lean`).** The framework model of C15–C27 with two more operations, `rkh_queue_deplete` on the queue
  of an object and on a deferred queue. The specification empties the queue and keeps its references with the reservations, so the refinement and the
  law of reference counts extend (C170). C169 is refuted for every reachable state and every later history without a manual collection; C171 is
  refuted for every reachable state between selection and fetch, and with assertions compiled out for every state of that shape.
* **C172, C173 (charts and signal numbers, `SM/Iso.lean`, `SM/IsoProps.lean`).** Specification: a renaming of signals, vertices, actions and guards
  (`Ren`), injective on signals and vertices and keeping the three reserved signals; `SameChart`. C172 is a simulation through every function of the
  engine. C173: exchanging two signals below 65533 is such a renaming (partial); the three signals above, which the check of
  `RKH_CFG_FWK_MAX_SIGNALS` admits (modelled for 16-bit signals only), are refuted one by one. `Iso.lean` imports the model only, so that a wrong
  engine is rejected by its proofs and not only by proofs it would otherwise depend on.
* **C174–C176 (polymorphic active objects, `Fwk/Virtual.lean`, `Fwk/VirtualProps.lean`).** An overriding post function is any function from state and
  event to a list of framework calls; `vpublish`, `vtimeouts` and `vrecallEnd` are the places where the framework calls through the table. C174: the whole
  publication is a list of ordinary operations that respects the contract (so all theorems about histories apply); induction over the subscribers.
  C175, C176: negations for functions that discard, and what remains.
* **C177–C181 (board support, `Bsp`).** `switch_tick` as a loop over the switches that may return early; specification by windows of eight samples of the
  padded history, invariant "the byte is the window". `bsp_rand` as multiplication modulo 2^32; linear arithmetic.
* **C182 (backlog, `Thread/Backlog`).** Generalises C118: induction over the continuation with the budget `need + 3(n-1)` of own steps and the invariant "at
  least these events wait, in front if nobody posts at the front"; only the object's own thread removes events, every other critical section keeps the
  invariant.
* **C183, C184 (changing the group being traversed, `RdyGrp/Live`, `Fwk/VirtualLive`).** The traverse over any state that contains the group: each row byte is
  read when its row begins. C183: refinement to a specification over the history of calls (`byRow`), by induction over rows and the members of a row. C184: the
  specification one expects (`byTurn`) agrees if no call concerns a priority still to come in the row; negation in general and for two publications.
* **C185-C189 (what the uC/OS ports replace, `Port/Ucos`, `Port/UcosProps`).** The tick divider, the message queue with its copying and its blocks, posting, the records of
  posts and the mapping of priorities; the operating system itself is assumed to work as documented (stated in the module). C185: induction over ticks with
  the divider's counter, then arithmetic. C186: refinement to a bounded list of messages; invariant: free and queued blocks are a permutation of all
  blocks, which do not overlap. C187, C188: one step from any queue reached by such a history. C189: case distinction.
* **C190-C192 (trace stream on a serial line, `Bsp/Uart`, `Bsp/UartProps`).** The sending loop of the LPC17xx driver statement by statement, its interrupt handler, the
  holding and shift registers and both interrupt masks, as a transition system over events in any order. C190: invariant (every byte is in one place). C191: a
  state that no event leaves, reached by an interrupt between two statements; otherwise an invariant (someone will set the flag) and a measure. C192: invariant
  while PRIMASK is set.
* **C193–C198** (start and end of the framework with one thread per object, win32_mt): `Life/Multi.lean` has the main thread in `rkh_fwk_enter`, the idle thread and any number of object threads as program counters; the trace is a list of numbered blocks, taking a block and sending it are two steps. Steps interleave freely. C193: a distance of the main thread (and of an object in `rkh_fwk_exit`) from the end, which its own steps decrease and others increase by at most twice what they record. C194: ticks are half the steps of the main thread. C195: invariant that use after deletion or closing implies deletion or closing, and these imply the place of the main thread. C196: with one flushing thread sent ++ held ++ waiting is the sequence of all blocks recorded. C197: a counting law over histories. C198: case analysis of the `switch`, for every number of priorities.
* **C199-C202 (time stamps and ticks of the boards, `Bsp/Tstamp`, `Bsp/TstampProps`).** Timer TPM1 of the ColdFire V1 and S08 boards clock by clock, with prescaler,
  counter, overflow flag and the (disabled) overflow interrupt, `get_ts` with a step between its two reads; the real-time counter millisecond by millisecond; SysTick clock by
  clock. The specification is in bus clocks, milliseconds and core clocks; the closed forms are proved by induction over executions.
* **`_partial` theorems.** Every property that is false of the code has a theorem with suffix `_partial` which states what remains true, with the extra hypothesis named in its comment; they are beside the negation or in a file `Partial.lean`.
* **C83.** The scheduler loop run to the end: induction over the list of waiting (object, event) pairs in priority order.

All properties listed can be expressed in the model; none is marked not applicable.

## 5. What a theorem is about, and what it is not

* Theorems about histories start from the initialised state and quantify over every finite list of calls; they hold of all
  prefixes. There is no bound on sizes, depths, steps or numbers of objects; configuration limits of the code (number of
  priorities, counter widths) appear as explicit hypotheses.
* Where the code bounds something silently, the bound is a hypothesis of the positive theorem and a negation theorem shows
  what happens beyond it.
* "partial" in `MANIFEST.json` means that the English property as stated is false of the code (then a negation theorem is listed), or
  proved only under the hypothesis named in the note.

## 6. Defects found in the C text (each with a theorem)

| property | defect | theorem |
|---|---|---|
| C04 | `rkh_queue_read` assigns the element to its by-value parameter | `Queue.queue_read_does_not_deliver` |
| C10 | `rkh_memPool_put` accepts interior pointers and double frees | `MemPool.mempool_accepts_interior_pointer`, `MemPool.mempool_accepts_double_free` |
| C17 | unregistering priority = `RKH_CFG_FWK_MAX_SMA` passes the range check | `Fwk.unregister_off_by_one_ub` |
| C22 | the 8-bit reference count wraps at 256 | `Fwk.refcount_wraps_recycles_live_event`, `Fwk.refcount_wraps_ignores_gc` |
| C23 | block sizes are reported modulo 256, larger blocks are never used | `Fwk.large_blocks_never_served` |
| C33 | timers expiring together fire most recent first, not in starting order | `Timer.same_tick_order_is_reversed` |
| C44 | effects before a choice point run before the exit actions | `SM.Findings.documented_order_fails` |
| C45 | a composite state can complete without its final state being reached | `SM.Findings.composite_completed_without_final` |
| C46 | the result code is that of the last completion event | `SM.Findings.handled_but_not_found` |
| C48 | nesting depth is not checked on creation | `SM.Findings.creation_overruns` |
| C54, C58-C60 | trace filter range check, identifiers, 8-bit signal, 8-bit loop counter | `Trc.symbol_filter_accepts_slot_past_table`, `Trc.success_event_is_all_events`, `Trc.signal_filter_aliases_from_256`, `Trc.set_all_signals_overruns_large_tables` |
| C56 | pool initialisation truncates the number of blocks | `MemPool.mempool_init_accepts_unrepresentable_count` |
| C57 | a hook restarting its timer makes the tick walk the list again | `Timer.restarting_hook_makes_other_timer_fire_early` |
| C57 | a hook of a one-shot timer that starts an idle timer or stops the next one makes the tick dereference NULL | `Timer.oneshot_hook_starting_idle_timer_crashes`, `Timer.oneshot_hook_stopping_next_timer_crashes` |
| C57 | a hook of a periodic timer that stops its own timer corrupts the list; a later tick never ends | `Timer.hook_stopping_its_own_timer_hangs_later` |
| C87 | a running timer restarted by a hook may expire one tick early | `Timer.restarted_in_hook_fires_one_tick_early` |
| C63 | an allocated event that was never posted cannot be given back | `Fwk.gc_of_fresh_leaks` |
| C64 | without assertions a rejected post leaves the count too high | `Fwk.post_full_leaks_reference` |
| C65 | a terminated object stays in the ready set | `Fwk.terminate_pending_crashes` |
| C66 | publish does not check its channel | `Fwk.publish_channel_unchecked` |
| C67 | recall asserts if the receiver runs in between | `Fwk.recall_interrupted_asserts` |
| C73 | Cortex-M ports enable interrupts on the outermost exit whatever they were before | `Port.armCnt_status_not_preserved` |
| C74 | ColdFire port counts before it masks | `Port.cfv1_not_protected` |
| C77, C78 | thread start and termination races | `Port.win32mt_object_dies`, `Port.ucos_object_dies`, `Port.ucos_terminated_while_waiting`; in the model of the whole framework `Thread.Demo.activation_race`, `Thread.ends_if_tested_early`, `Thread.Demo.terminated_handles_another`, `Thread.terminated_sleeper_stays` |
| C88, C91 | only one address size is announced; 8-byte addresses are accepted but 4 bytes are sent; 16 or more event pools overflow into the nibble of the block size (e.g. 64 pools) | `Trc.unreadable_fun`, `Trc.unreadable_ptr`, `Trc.unreadable_pack` |
| C89 | the event pool getters return `rui8_t`; the queue size of an activation is cut to 8 bits | `Trc.reported_counts_are_wrong`, `Trc.reported_queue_size_is_wrong` |
| C90 | allocation and recycling report the pool's index, the other records its number | `Trc.pool_numbers_disagree` |
| C97 | `rkh_sm_init` keeps the histories of an object used before | `SM.initialised_again_remembers` |
| C100 | the critical sections of the two puts are commented out; an interrupt between load and store of the count corrupts it | `Queue.unmasked_put_is_not_atomic`, `Queue.element_delivered_twice` |
| C103 | allocation and recycling records are written or computed outside the change they report; with an interrupt in between the latest number of used blocks stays wrong | `Fwk.Trace.shown_used_can_be_wrong` |
| C101 | (not a violation) the GET record is written after the critical section, so the order of records is not the order of events | `Fwk.Trace.naive_host_is_misled` |
| C112 | RKH_TIME_MS/SEC/MIN divide by the tick length rounded to whole milliseconds: with a tick rate that does not divide 1000 times are too long, above 1000 Hz the division is by zero, and long times wrap around | `Timer.time_too_long`, `Timer.time_zero_division`, `Timer.time_wraps_int`, `Timer.time_wraps_ticks`, `Timer.short_time_is_rejected` |
| C114 | the tests of `rkh_sma_register` and `rkh_sma_unregister` are made before the critical section: two contexts can give one priority to two objects, or remove an object registered by another | `Fwk.Register.two_objects_one_priority`, `Fwk.Register.unregister_removes_another` |
| C115 | `rkh_fwk_registerEvtPool` takes the storage size as `rui32_t` and casts it to `rui16_t`: of storage of 64 KiB or more only the size modulo 64 KiB is used, without any sign of it | `Fwk.PoolSize.large_storage_is_lost` |
| C124 | the working variables of `rkh_sm_dispatch` are `static` on every port with one thread: an action that starts or dispatches to another state machine (e.g. `rkh_sma_activate`) overwrites those of its own | `Nest.effect_starts_machine_undefined`, `Nest.entry_starts_machine_undefined`, `Nest.exit_starts_machine_mixes_states` |
| C125 | a post to a terminated object is accepted and makes its priority ready: null dereference in the scheduler, or an assertion for the object that has the priority now | `Fwk.post_to_terminated_crashes`, `Fwk.post_to_replaced_asserts` |
| C126 | terminating leaves the ready bit of a non-empty queue: the next object at that priority is scheduled with an empty queue and the assertion in the fetch fails | `Fwk.activated_again_with_pending_asserts` |
| C127 | subscriptions are by priority and survive the object | `Fwk.inherits_subscriptions`, `Fwk.unsubscribed_by_terminated` |
| C134 | `demo/cross/shared`: after PAUSE, PAUSE the server is idle although a client still uses the resource; two clients use it at once | `App.Shared.mutual_exclusion_fails` |
| C136 | `demo/cross/shared` with threads: five events can wait for the server, whose queue has four places (QSTO_SIZE) | `App.Shared.queues_fit_fails` |
| C138 | the performance counters of timers and pools are never updated | `Timer.timer_counters_do_not_count`, `MemPool.pool_counters_do_not_count` |
| C140 | `rkh_dynEvt_init` does not release the slots of the event pools | `Fwk.Reinit.pools_cannot_be_registered_again` |
| C141 | a dynamic event carried by a periodic timer is recycled after its first dispatch and posted again | `Sys.Demo.timer_with_dynamic_event_goes_wrong` |
| C142 | `rkh_trc_flush`: the block being sent is overwritten by records written meanwhile; two flushing contexts mix their blocks | `Trc.Flush.flush_sends_newer_bytes`, `two_flushes_reorder` |
| C144 | Linux package: `rkh_trc_get` outside the critical section loses updates of the number of unread bytes | `Trc.Race.unprotected_flush_fails` |
| C147 | unit-test receiver: the 8-bit counter `trix` is compared with 512: records of 256 bytes are ignored, more than 512 bytes overflow `tr`; texts of 16 characters overflow `symstr` | `Tz.record_of_256_is_lost`, `Tz.long_record_overflows`, `Tz.long_text_overflows` |
| C151 | the variables of the histories belong to the constant tables, so objects of the same type share them: an object restores the state in which another one left | `SM.Instances.objects_share_histories` |
| C152 | a transition from the inside of a submachine state to another submachine state of the same submachine neither leaves the first nor enters the second; a submachine state as default state of a composite state reads a member that does not exist (`addTargetSt` follows `parent`); the initial action of a submachine is executed before the entry of the submachine state | `Subm.twins_skipped`, `Subm.default_submachine_undefined`, `Subm.initial_action_first` |
| C154 | exit actions precede, and entry actions follow, both effects joined by an exit or entry point, not in between as documented | `Subm.exit_action_not_in_between`, `Subm.entry_action_not_in_between` |
| C155 | the variable that tells through which submachine state a submachine was entered belongs to the submachine, not to the object: an object leaves through the state by which another object entered | `Subm.Objects.objects_interfere` |
| C156 | win32_st: `rkh_hook_start` creates the clock thread before `running` is set (rkhport.c:152-154); a thread that runs at once ends and no tick ever happens | `Life.windows_clock_may_end` |
| C156 | Linux BSP: the call of `rkh_tmr_tick` is inside `#if RKH_CFG_TRC_TMR_EN` (hook.c:101-103): without the timer trace timers do not run | `Life.linux_no_ticks_without_timer_trace` |
| C157 | `rkhport_fwk_stop` does not wake the main thread: it may wait for ever | `Life.stop_may_hang` |
| C157 | linux_st: `rkh_fwk_exit` calls the exit hook but does not clear `running` | `Life.linux_exit_does_not_end` |
| C158 | the clock and keyboard threads are not joined before the critical section is destroyed | `Life.destroyed_section_is_used`, `Life.late_key_uses_destroyed_section` |
| C159 | the exit hook is called by `rkh_fwk_exit` and again at the end of `rkh_fwk_enter` | `Life.exit_hook_called_twice`, `Life.exit_hook_called_early` |
| C163 | an overflow joins the beginning of one trace record to the end of another; the sum check may accept it | `Trc.spliced_record_is_accepted` |
| C164 | 256 lost trace records are not noticed | `Trc.lost_records_not_noticed` |
| C166 | `rkh_tmr_stop` does not take back a time-out that waits in the queue: the object receives a time-out of a stopped timer | `timeout_after_stop` |
| C168 | restarting an expired timer: the stale time-out is received before the first tick | `early_timeout` |
| C169 | `rkh_queue_deplete` drops references without counting them down: the blocks of dynamic events are lost | `depleted_event_is_lost` |
| C171 | depleting the queue of the object just selected: assertion, or a stale event and a queue of 2^w - 1 elements | `deplete_after_selection_fails`, `deplete_after_selection_unchecked` |
| C173 | the check of `RKH_CFG_FWK_MAX_SIGNALS` admits the three signals the framework reserves | `largest_signal_never_handled`, `completion_signal_taken_unsent`, `creation_signal_restarts`, `creation_signal_enters_twice` |
| C175 | recalling an event for an object that overrides its LIFO post function and discards the event: assertion failure | `recall_to_discarding_object_asserts` |
| C176 | a new event discarded by an overriding post function with the collector is lost | `discarded_post_leaks` |
| - | the ports with threads (`win32_mt`, `ucos`, `ksdk_os`) call `rkh_sm_dispatch` directly, so an overridden virtual `task` is never called there | read off the code; not a theorem (nothing of the table is left in the modelled loop) |
| C179 | `switch_tick` returns when the first switch becomes released, without reading the second | `Bsp.second_switch_not_sampled` |
| C181 | with seed 0 (or a multiple of 2^30) `bsp_rand` always returns the same number | `Bsp.Rand.stuck` |
| C184 | an object unsubscribed during a publication (by an overriding post function) still gets the event if it is in the same group of eight priorities; if it was also terminated, an assertion fails | `RdyGrp.withdrawn_is_still_served`, `Fwk.VLiveDemo.unsubscribed_object_still_gets_event`, `Fwk.VLiveDemo.ended_object_asserts` |
| C185 | KSDK/uC/OS-III port: a framework tick rate above that of the operating system is accepted and no tick ever comes; one that does not divide it makes all timers run fast | `Port.Ucos.no_tick_at_all`, `Port.Ucos.tick_too_fast` |
| C187 | uC/OS ports: a refused post has already counted its reference; without assertions the event is lost and its memory leaks | `Port.Ucos.refused_post_leaks`, `Port.Ucos.post_after_termination_leaks` |
| C188 | uC/OS ports: the records of posts show addresses in place of the numbers of waiting events and free places | `Port.Ucos.record_shows_address` |
| C189 | uC/OS 3.03.01 port: the check for reserved priorities never fails | `Port.Ucos.reserved_priority_not_rejected` |
| C191 | LPC17xx board: if the transmit interrupt comes between the two statements of UARTPutc, the sender, and with it the whole system, waits for ever | `Bsp.Uart.lost_interrupt_stops_sender` |
| C192 | LPC17xx board: after a failed assertion the flush of the trace stream waits with interrupts disabled for an interrupt, so the board is never reset | `Bsp.Uart.assertion_never_resets` |
| C193 | win32_mt: `rkh_fwk_enter` sets `running` after objects may already have called `rkh_fwk_exit`: the stop is lost | `Life.Multi.early_stop_is_lost` |
| C195 | win32_mt: the critical section is deleted and the trace closed while the object threads, and possibly the idle thread, still run | `Life.Multi.objects_use_deleted_section`, `Life.Multi.idle_uses_closed_trace` |
| C196 | win32_mt: the exit hook flushes the trace in the main thread (or that of an object) while the idle thread may be flushing: blocks arrive in the wrong order, the corruption the comment in `rkh_fwk_enter` describes | `Life.Multi.idle_and_main_interleave`, `Life.Multi.exit_interleaves` |
| C197 | win32_mt: with `rkh_fwk_exit` the exit hook is called twice | `Life.Multi.exit_hook_twice` |
| C198 | win32_mt: all objects between the two highest and three lowest priorities share one thread priority; up to four priorities do not compile | `Life.Multi.middle_priorities_are_equal`, `Life.Multi.few_priorities_do_not_compile` |
| C199 | ColdFire V1, S08: stamps count 128 bus clocks, not the one announced; the overflow interrupt is not enabled, so that stamps repeat every 65536 counts; an overflow counts 65535 | `Bsp.Tstamp.stamp_not_announced`, `Bsp.Tstamp.stamps_repeat`, `Bsp.Tstamp.stamp_exact` |
| C200 | ColdFire V1, S08: time stamps go back by 65535 at every overflow but the first; an overflow between the reads of counter and flag makes a stamp jump ahead | `Bsp.Tstamp.stamps_go_back`, `Bsp.Tstamp.stamp_jumps_ahead` |
| C201 | ColdFire V1, S08: tick rates that do not divide 1000, or are below 4 Hz or above 1 kHz, are not kept | `Bsp.Tstamp.rtc_rate_partial`, `Bsp.Tstamp.fast_rates_tick_slowly` |
| C202 | K60, KL25Z: the SysTick reload value is one too large; ticks of 2^24 clocks or more are cut | `Bsp.Tstamp.systick_second_too_short`, `Bsp.Tstamp.systick_too_fast` |
| C95 | records of false guards precede the dispatch record of their event | `SM.guard_records_come_first` |

Seen while reading, outside the model: `rkh_sm_clear_history` writes no record although `RKH_TR_SM_CLRH` exists for it; with tracing on and the group SM off, `RKH_TR_SM_TS_STATE` takes one parameter but is called
with two; the empty `RKH_TR_FWK_EPOOL` has one parameter too few; user trace records without runtime filters call `rkh_trc_isoff_`,
which is then not compiled; the uC/OS ports pass the addresses of counters instead of counts to `RKH_TR_SMA_FIFO` and `RKH_TR_SMA_GET`.

## 7. Testing the theorems

`seeded/LOG.jsonl`: every line is one edit of a model definition in a scratch copy and the theorems that no longer prove. Edits that
leave all theorems provable are either equivalent (said so in the line) or led to a tightened theorem.

That some theorem fails does not show that the theorems of the claim do: a failing module stops the build before those that import it. The log was
therefore checked against the dependencies of the theorems in `MANIFEST.json`: in each line with a claim at least one failed theorem is used (directly
or not) by a theorem of that claim, except where a note says otherwise. Ten pairs of an edit and a claim did not pass this check at first; they
were replayed with the unrelated failing theorems stubbed in the scratch copy, and the replays are the lines whose note begins with "Replay".
A failed proof is still weaker evidence than a refuted statement: it shows that the proof depends on the edited behaviour.

The theorems of the manifest that no line of the log had reached were then listed. Some are facts about a specification alone (for example
`SM.mem_exited`, `SM.branch_or_none`, `Trc.framing_roundtrip`), which no edit of the model can touch; for the others an edit was aimed at the theorem
itself (lines whose note begins with "Aimed at"). Edits of this round that a theorem survived leave its claim true, and the note says why.
