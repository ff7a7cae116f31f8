# Design

A formal model of docket in Lean 4 (core library only unless a module says otherwise) and proofs about it.

## Trusted base

* Lean 4.33.0's kernel.
* The axioms `propext`, `Classical.choice` and `Quot.sound` at most; `lean/Verif/Axioms.lean` prints them for each property theorem.
* The reading of the Python and Lua sources into the model. Every definition cites the lines it models.
* The reading of Redis command semantics (streams and consumer groups, sorted sets, hashes, expiry, SET NX PX) in `Verif/Core/Redis.lean` and the small models.
* The reading of Python's own semantics (binding of arguments, signatures, exit stacks, cancellation, stable sorting, async generators) and of the libraries behind docket (redis-py subscriptions and locks, cronsim, the Prometheus client, `rich`'s markup) where a module models a part of them; the comment at the definition says which part.

## What is modelled and what is not

* `Verif/Core`: Redis contents of one docket, all lifecycle Lua scripts command by command, the worker's handling of one message as separate atomic steps, arbitrary interleavings of any number of workers and clients, crashes at every point, time and key expiry.
* The other modules each model one file or mechanism and are listed with their property below.
* Not modelled: asyncio itself, network failures in the middle of a command (a command either happened or not, covered by crash points), pickling (arguments are opaque), OpenTelemetry except for the carrying of traces in messages and the metrics exporter, logging output other than the call representation and the list of tasks at startup, the layout of tables on the terminal, signal handlers other than as a cancellation of the run, the health check server, the connection pool, the legacy `known:`/`stream-id:` keys that this version never writes outside of C121, Redis Cluster slot migration, float rounding of timestamps (times are exact).
* One clock: all processes read the same, non-decreasing clock, possibly late (a decision may use an older reading).

## Plan per property

* **C01 An accepted task is never lost** — Core. Invariant over all operation lists: live record implies a carrier (stream entry, or parked hash with its queue entry).
* **C02 A live task can always still be started** — Core. From the C01 invariant plus "stream entry is undelivered or pending", build an explicit continuation (wait, schedule, poll or redeliver, claim) and prove it starts the task.
* **C03 A task never becomes deliverable before its time** — Core. Invariant: every `when` in the stream and in worker memory is at most `now`.
* **C04 A scheduler tick moves exactly the due tasks, intact and in order** — Core. Closed form of the scheduler script under the queue/parked correspondence invariant.
* **C05 add() is a no-op for a key that is already scheduled or running** — Core. Invariant known-or-running for live keys; decision logic of the duplicate check.
* **C06 At most one current task per key** — Core. Invariant: generations of all messages are at most the current one, and at most one equals it.
* **C07 After replace() returns, no older version of the task is started** — Core. Corollary of monotone generations over every continuation.
* **C08 replace() is not overridden by a retry of the version it replaced** — Core. The code violates this (reschedule branch never checks supersession): witness theorem plus a partial positive theorem.
* **C09 A stale completion never disturbs its successor** — Core. Frame theorem for the terminal script on its superseded branch.
* **C10 Every message is handed to one worker unless its lease lapses** — Core. Invariants relating history, last-delivered id and pending list.
* **C11 Renewing a lease in time prevents redelivery** — Core. From C10: a redelivery needs an idle time of at least the timeout.
* **C12 A finished execution's message is gone for good** — Core. A stable predicate "gone", preserved by every step.
* **C13 cancel() of a task that has not been handed to a worker prevents it from running** — Core. Stable predicate "no message of the key anywhere"; witness for the violating case (tasks moved by the scheduler).
* **C14 cancel() records the cancellation without rewriting a finished outcome** — Core. Effect theorem of the cancel script for all states, idempotence.
* **C15 clear() empties the docket and leaves its keys usable** — Core. Effect theorem of clear; witness for the violating part (add after clear).
* **C16 A scheduled task's record does not expire before the task runs** — Core. Violated when a key is reused within the ttl: witness; partial positive for records without countdown.
* **C17 Execution states follow the documented lifecycle** — Core. Step relation on recorded states, by cases over all operations.
* **C18 A worker runs the function with the arguments that were scheduled** — Core. Invariant: every message anywhere was created by an accepted request in the history.
* **C19 get_result() returns the outcome of the latest run** — Core + result store. Violated by stale result keys: witnesses; partial positive.
* **C20 A waiter is always told about completion** — Small two-process model of subscribe/get_result against the publisher: witness of the gap, partial positive.
* **C21 execution_ttl=0 leaves no trace** — Core with ttl = 0: effect theorem.
* **C22 Progress counts every increment of the current run and is isolated between runs** — Core. Refinement of the progress hash to a sum over the history; frame theorem for stale finishes.
* **C23 Operations on one key do not affect another** — Core. Frame theorems per operation, using the invariant that stored message ids point to own messages.
* **C24 Distinct tasks use distinct Redis keys** — Strings: injectivity of the key-building functions; witnesses of collisions of parked keys.
* **C25 All keys of a docket live in one cluster slot** — Strings: hash tag extraction per Redis Cluster; theorem for prefixes, witnesses for odd names.
* **C26 A task is blocked exactly when an active strike matches it** — Strike list model with abstract spec (set of active strikes); violated in mixed cases: witness, partial positive.
* **C27 restore() undoes strike()** — Strike list: observational equality before/after.
* **C28 Every process ends up with the same strikes** — Log-replay model with arbitrary interleavings of local updates and batched reads.
* **C29 Strike instructions survive the wire** — Round trip over message encoding.
* **C30 Strike operators mean what they say, and incomparable values never match** — Decision logic over a value universe with partial ordering.
* **C31 Concurrency limits are never exceeded** — Slot set model; violated by unconditional renewal: witness; partial positive.
* **C32 A task waiting for a concurrency slot is never lost and waiters are served in order** — Waiter stream model, invariant and FIFO theorem; taking a slot, leaving by cancellation and the backstop as step theorems; order of service refuted by witnesses (overtaking, parked again).
* **C33 A rate limit admits at most `limit` executions per window** — Sliding window model, bound over all histories with monotone clock; witness for the same-key same-millisecond corner.
* **C34 A rate-limited task is told to come back when a slot opens** — Decision theorem over limiter states reachable with monotone clock.
* **C35 A cooldown admits at most one execution per window** — SET NX PX model, history theorem.
* **C36 A debounced task runs once, after things have been quiet** — State machine of the debounce script; starvation witness.
* **C37 Retry runs a failing task exactly the configured number of times** — Attempt loop, induction on attempts.
* **C38 Retry delays are as documented** — Arithmetic over attempts; witness for the uncapped first delay.
* **C39 Perpetual tasks reschedule themselves at the right time** — Arithmetic plus run-sequence induction.
* **C40 A timeout fires exactly when the allotted time is used up** — Discrete-event model of the wait loop.
* **C41 Conflicting single dependencies are always detected** — List model of declared dependencies over an arbitrary ancestor relation.
* **C42 The task body runs only with all dependencies resolved, and every opened dependency is closed in reverse order** — Resolution as a fold with an exit stack.
* **C43 A worker never runs more tasks than its concurrency** — Worker loop bookkeeping as a transition system; invariant.
* **C44 run_at_most() bounds the executions of each limited key** — Counting invariant over sequential deliveries; witness for concurrent duplicates.
* **C45 Script arguments reach the Lua code under the right names** — Encoder/decoder of script arguments over arbitrary signatures; round trip.
* **C46 An execution survives its message encoding** — Round trip of the message encoding.
* **C47 Generated keys are ordered and well-formed** — Arithmetic of the UUIDv7 layout and the sequence counter.
* **C48 scatter() spreads tasks evenly inside the window, all or nothing** — Arithmetic of timedelta division; list of scheduling calls.
* **C49 A snapshot accounts for every task exactly once** — Snapshot as a function of the stream, pending list and schedule.
* **C50 Worker listings show exactly the workers with a recent heartbeat** — Sorted set of heartbeats; history theorem.
* **C51 Arguments not marked as Logged never appear in log lines** — Non-interference theorem of the call representation.
* **C52 Stored results behave like a keyed store with expiry** — Refinement to a map with expiry; witness of collection/key collisions.
* **C53 Automatic tasks are seeded once and recovered when lost** — On the core model: seeding is add guarded by a liveness read.
* **C54 Durations on the command line are read correctly** — Parser over character lists against a printer.
* **C55 Cancellation signals reach the running task with that key** — Registry of running tasks per key; witness of the lost signal.
* **C56 Sentinel URLs are understood** — Parser over character lists against a printer.
* **C57 Docket test assertions mean what they say** — Decision logic over lists of executions.
* **C58 Task statistics add up** — Fold over the snapshot against counting specs.
* **C59 A task waiting for a concurrency slot still counts as the task of its key** — Concurrency model: stable predicate after cancel; witnesses for add, replace, clear and cancel followed by add. Where the payload of every message comes from, by induction over the steps of the limit.
* **C60 Every execution is settled exactly once** — Worker/Execute model: count of settling effects over all behaviours; violated when an exit raises after completion: witnesses, partial positive.
* **C61 A limit on a parameter is counted per value of the parameter** — Texts: key functions of the limits against Python argument binding; violated for positional arguments and across tasks: witnesses, partial positive.
* **C62 A cancellation affects the task it names and nothing else** — Same worker-loop model as C43: a signal changes only the task registered under the key; what the loop does with a cancelled asyncio task when it collects it.
* **C63 A task keeps its name and its function** — The registry as an insertion-ordered map; register, add, replace, scatter and decoding of messages as functions on it; a task followed through any number of re-schedulings by induction.
* **C64 Dockets with different names share nothing** — Keys as texts under the docket prefix; first delimiter argument. `Keys/Model`.
* **C65 A cancellation signal reaches the workers of its docket and no others** — Redis pattern matching (`stringmatchlen`) modelled in `Keys/Glob`; a literal pattern followed by `*` matches exactly the texts it is a prefix of.
* **C66 Nothing of a finished task is left after execution_ttl** — Invariant `Fading` on the core model: after the end nothing of the key is left but a record and a result that expire; induction over every continuation. The three ways the code leaves something behind are concrete histories.
* **C67 Due tasks are handed out in the order in which they were queued** — Invariant on the history: first hand-outs are strictly increasing in stream id, and every delivered stream entry has one; induction over all histories.
* **C68 One message cannot keep the others from being processed** — Decoding (C46), log line (C51) and execution (C42) put into the main loop: rounds, worker lives ended by an error, fleets of workers one after the other; induction over lives for what is dealt with, and the two ways in which the code gets stuck.
* **C69 docket watch stays until the task has ended** — The event generator with Python semantics (finished once a cancellation has left it), the timeout wrapper and the loop of watch over an arbitrary course of events; induction over the events heard.
* **C70 A strike on the command line strikes the value that was written** — The parsing of wildcards and typed values on texts, against a small relation of how values are written; integers and durations reuse C54.
* **C71 No accepted task waits forever for a worker** — Liveness over endless histories: a rank (the number of messages in front that nobody was given) that never grows and falls with every request for work; fairness of polls and scheduler as explicit hypotheses; a bound for finite continuations.
* **C72 A key's task does not run twice at the same time** — Invariant over all histories in which nothing disturbs the key (no replace, cancel, clear or strike of it, no redelivery of a message whose worker lives): the key is parked, waiting, or held by exactly one living process. Each excluded operation, and expiry of the record of a task added twice, gets a refuting history.
* **C73 run_until_finished() returns when, and only when, nothing is left to do** — The loop of one worker (its condition, putting away ended tasks, the two reads, the look at XLEN and ZCARD, reconnecting) runs in parallel with the whole system model; invariants over all interleavings relate the last look to the stream, the schedule and what workers hold (C01); a rank that falls with every round bounds the rounds until it returns.
* **C74 A dependency that asks for a task argument gets the value the task gets** — Signature binding, the TaskArgument objects of the process as a heap that other executions also write, the tree of dependency functions with its cache, and the final call are modelled as functions; a big-step relation says what a dependency tree is worth given the arguments; refinement is proved by induction over the nesting depth, with an invariant on heap and cache.
* **C75 get_execution() describes the task last accepted under the key** — get_execution as a function of the two states of Redis its two reads meet, on top of the system model. The record is related to the history by an invariant over every step (definition fields are those of the last accepted message, the state is that of the latest event of the key); a second invariant covers the first run of a record.
* **C76 Strikes that stand when a process opens the docket bind it from its first decision** — One process with a strike list, function by function: the monitor (batches of 100, position kept only when a batch was processed, errors, end of the initial load), sending, the start of the worker and the two places that ask whether a call is struck. Invariants over all event lists relate what was applied to the stream; the verdict on a call then follows from C26. What an undecodable entry does is proved for every history.
* **C77 The reported number of strikes in effect is the number of strikes in effect** — On the same model: the counter is the sum over the applied instructions; induction over the stream shows that it is the size of the set of active targets when every instruction changes that set.
* **C78 A follower of a task sees exactly the states it goes through** — Views/Subscribe.lean: the events a follower gets are the state read first and the announcements for the key published after its SUBSCRIBE.  Specification: the list of states the record shows after every step; the two lists agree up to consecutive repetitions.  Proof: one-step lemma (the new state is the announced one, or nothing changed, or the record is gone), induction over the history.
* **C79 get_result() returns only once the task has ended, and with its outcome** — The call as four moments on the same model (first look, subscription live, record read again, result fetched).  The answer equals the outcome the record gives at the moment it is read again; returning is equivalent to a terminal state among the recorded ones, by C78; with C19, the stored value arrives.
* **C80 A task is not given to anybody else while the worker that runs it is alive** — The renewal loop of one session (due time, consecutive failures, told to stop) beside the docket model (Worker/Renewal); events are any docket operation, a wake-up that renews or fails, stop and start.  Invariant: every message held by the worker was touched no earlier than due - (fails+1) intervals, so with prompt wake-ups its idle time never reaches the redelivery timeout.
* **C81 What a task reports about its progress is recorded for that task** — The Progress dependency as it is (Worker/Progress): one object per function and process, a slot that the last execution to enter it fills, reports that go to whatever is in the slot, beside the docket model.  Invariant: while no execution with the same object is in progress the slot holds this execution, whose tracker writes under its key.
* **C82 What a progress event and the Progress object say is what the record says** — Same model: each call writes to the record at once and updates the copy and publishes when its answer arrives.  Invariant: with one call at a time and nobody else writing, copy, last event and record agree, up to the call under way.
* **C83 An automatic Cron task is always scheduled for the next matching time** — The Cron dependency of one automatic function (Worker/Cron) beside the docket model: per process the position of the iterator made at import, per execution the moment its own iterator begins; seeding is split into reading initial_when and adding.  The matching times are an abstract schedule with a next-match function (CronSim is a third-party package).  Proved by following the position: after n seedings that found the task missing it is the n-th match after import.
* **C84 A Cron task is scheduled at most once for each matching time** — Same model.  Invariant: tasks accepted under the name have strictly increasing times and generations, the newest one has the generation of the record, and an execution began no earlier than the time it was for; so the only execution that may reschedule is the newest, and its next match is later.
* **C85 A worker that is told to stop lets the tasks it has begun finish** — The run of one worker as a machine over its awaits (Worker/Stop: _run, _worker_loop with its finally, process_completed_tasks), beside the docket model; exceptions, lost connections, the stop flag and cancellation of the run can arrive at every await, tasks end in any way.  Invariants: a task that was begun has ended or is still active; one whose message is still there is active.
* **C86 A worker that is told to stop begins no more tasks and returns** — Same machine.  A potential (how many tasks may still be begun) that no step increases, and two ranks that every step of the run decreases: one until the loop is left, one until the run is over.
* **C87 The worker's counters of tasks add up** — Worker/Metrics: the effects of one execution (Worker/Execute) with the counter updates in their places, proved to be the same effects (`items_effs`); any number of executions advancing item by item, each of which can be interrupted at any point and then goes to an except clause and the finally. The counters are totals of what was done (`Tally`), each execution goes through fixed stages (`Stage`), and the property follows by summing over executions. That succeeded/failed agree with the record is proved for executions in which results can be stored and neither handlers nor exits of dependencies raise or swallow anything; it fails otherwise. Histograms and labels are left out.
* **C88 What add, replace and schedule report is what happened** — Core/Calls: the calls with the execution they return and the counters, over the core model; single calls in any state, and histories by induction with the log of accepted tasks as the reference.
* **C89 A docket needs no setup** — Core/Group: the core model without its consumer group, which reading processes create when NOGROUP tells them to, one Redis command at a time; refinement to the core model by induction over the events (only reads touch the group), and a case analysis of the at most three commands a read takes.
* **C90 A task is handed to a worker in time** — Worker/Scheduler: the scheduler loop step by step on the core model, with clock readings, failures and waiting. The loop: an invariant bounds how long ago the last successful call can be, by where the loop is and how many calls have failed. The docket: from the regularity of scheduler and polls by splitting the history at the first scheduler call after the time and the first poll after that; that it stays in line in between is C71.
* **C91 A scrape of the metrics endpoint tells what was measured** — Views/Exporter: the cleaning of names as a function on characters, the family ids, the dictionary of families, the translation of a measurement, and the collector with scrapes as threads that share one queue, one step per access to it. Proved: the family id determines kind, name, description, label names and unit (the separators cannot occur where they would confuse), so every data point is added to a family with its own labels; by induction over the points the families tell a permutation of the facts. One scrape at a time: an invariant over the phases of the one scrape under way. Any number: everything told was measured. The full statement is refuted for overlapping scrapes. Not modelled: the SDK that measures and prometheus_client that renders the families as text.
* **C92 In-memory dockets are shared within a loop and nowhere else** — Views/Memory: event loops with an identity and an address that is unique only among the loops that still exist (held by the program or by the cache), the cache with its key (url, address), connections in two steps (drop the closed loops, look up under the lock), leaving, and clear_memory_servers. Proved by one invariant over all histories (entries belong to loops that exist, so no open loop has the address of another entry; servers in the cache and closed servers are distinct). Not modelled: the burner_redis server itself; closing it is taken to succeed at once.
* **C93 Leaving a docket gives back everything it opened** — Views/Contexts: RedisConnection, StrikeList, ResultStorage and Docket as objects with their attributes and their AsyncExitStack (a list of callbacks), entering and leaving branch by branch, every await with an outcome from an oracle, and how a stack unwinds (all callbacks, the last exception is raised). Proved: an entering that succeeds is undone by leaving, for every oracle (closing exactly what was opened in the opposite order), by composing per-callback facts over the nested stacks; induction over the blocks. The full statement is refuted for an entering that fails halfway and for a refused second entering. Not modelled: entering and leaving at the same time from several tasks; what closing a resource does.
* **C94 A task runs the function it was added with** — Views/Registry: each process has its table of tasks (register, register_collection, add and replace by function and by name), a shared table of waiting messages that carry a name, and workers that look the name up, run, retry and perpetuate. Invariant over all histories: with a naming that every registration respects, the name a message carries stands for the function asked for. For workers that register one collection, an invariant says the tables are complete and messages carry own names. Running is one step; the queue itself is the core model. Disagreements: functions with one `__name__`, second names of perpetual tasks, the name get_execution reports.
* **C95 The depth gauges count the waiting tasks** — Views/Depth: XLEN and the two ZCOUNTs of the heartbeat over the core model. Lower bounds for every history from the invariant that an outstanding task with a record is in the stream or the schedule. Exact counts for orderly histories from the invariants that schedule entries (KnownInv) and stream entries (CurrentInv, new) are of outstanding tasks, once per key by generations. Disagreements: running tasks count as ready, stale entries of replaced tasks count, a task due exactly now counts twice.
* **C96 A dependency's worker-wide setup is in force around the tasks that use it** — Worker/Hooks: the collection of classes from signatures and the worker loop as far as it enters and leaves the AsyncExitStack and runs and drains tasks. Membership and no repetition by induction over the folds; an invariant over all histories says that the log replays to the stack, so entering and leaving nest. Disagreements: entered again after a lost connection, undone before the running tasks are drained, tasks registered later are not considered.
* **C97 Every connection is told what the URL says** — Text-level model (Views/Connect) of userinfo, query strings (parse_qs, urlencode, unquote), redis-py's parse_url and the pools and clients made from a URL; a URL is written from meant credentials and options by an independent percent-encoding, and what each use's connection is given is compared with them. Quoting round trips by induction with a case analysis of all bytes, dictionaries by lookup laws; the funnel of Sentinel options is compared with a server's for every query string.
* **C98 A task waiting for a concurrency slot is not forgotten** — On the concurrency model (Concurrency/Model): the tasks of one limit in every history of adds, deliveries, acquires, releases, crashes and scavenging. Proved by an invariant over histories in which tasks under way are not cancelled, struck or left without giving their slot back: while someone waits, a task of the limit is under way (its message is queued or delivered and it has not yet handed its slot on) or a backstop is pending; so nobody waits once all messages of the limit are settled. Violated (with witnesses) when the task that would wake the others is cancelled, struck or fails before it has entered the limit, or finds its own old slot.
* **C99 A task is dropped only on account of other tasks** — Model (Limits/Gates) of one delivery under a list of rules: all are entered (Rate, Cooldown and Debounce scripts; the free slot is an input), the failures are collected by parameter, the first refusal decides, rate limits are left with it. The property is stated on the remembered deliveries. Proved by invariants on what each rule keeps: the cause of every drop, come-back and wait; the property for tasks without cooldowns and dropping rate limits, and for single rules and new tasks; that a cooldown's window is used up by a delivery that comes to nothing; that a cooldown before a debounce lets nothing run. Violated, with witnesses.
* **C100 An admission rule holds in whatever company** — On the model of C99 (Limits/Gates): invariants on what each rule keeps, under every answer of the others: each rule's own promise, stated on the remembered deliveries. For rate limits, a second model (Limits/Shared) of the object in which an execution remembers its place, shared (declared as a default) or its own (annotation), with executions that overlap: the limit holds and only started tasks count, proved for annotations in every history and for defaults without overlap (by simulation); violated, with witnesses, for defaults with overlap and for two deliveries in the same millisecond.
* **C101 Striking a function stops its tasks, and no others** — Extends the registry model of C94 by strikes (Strikes/Functions.lean): strikes and restores by function or by name, looked up by the name in the message. Specification on the log of events: a function is struck if the latest strike or restore on it was a strike. Violated for functions that go by other names (aliases; perpetual tasks change names) and for two functions of one name: witnesses. Proved by an invariant (names in messages are own names, the strike list is what the log says) where functions go by their own names only.
* **C102 A policy that is declared is in force** — On the model of an execution (Worker/Execute.lean, with Worker/Policy.lean for who runs the function and how automatic tasks are looked for): the policies offered are read off the declarations, and the handlers called off the effects. Violated for policies in annotations, which are entered and then never asked (witnesses). Proved for policies of the worker and of parameters, by what resolving leaves among the arguments, with the converse that only offered policies decide.
* **C103 An automatic task does not stay lost** — The loop as a program counter whose steps (one request to Redis each) interleave with anything on the docket (Worker/Reseed.lean, on the model of seeding of C53). Proved by an invariant on how far a round can have come while the task is lost: a bound on the clock in terms of interval, delay, length of a round and the number of failures, with the history in place of the record in a corollary; that a step of the loop leaves every other task alone; and what it schedules. Violated where the record says known though no message is left: after clear() until the record expires, and for ever if the task is added while clear() is at work (proved for any number of rounds).
* **C104 A cancellation is heard** — The listener as a program counter with the unread signals of its subscription (Worker/Listen.lean), interleaved with tasks, cancellations, errors and time. Proved: heard, by the position of the signal among the unread ones; recovery, by a bound on the clock as in C103; asked for, at most once, and whom it hits, by induction over the history. Violated while there is no subscription (Redis keeps no published message), and by a signal read when the next task of its key has been taken.
* **C105 The documented access rules are enough** — Requests by what Redis access control looks at, the check Redis makes (patterns for keys and channels, literal equality for pattern subscriptions), and the documented user (Keys/Acl.lean), over the pattern matcher of C65. Proved for names without pattern characters: everything under the prefix is permitted, and nothing of another docket is. Violated by the subscription of the workers to all cancellations (always refused), by cooldowns, rate limits and debounces on a cluster and under explicit scopes (exactly which is C105_scopes), and by names with pattern characters. The patterns granted by the tests of docket itself are shown to be enough for the subscription.
* **C106 A worker's own dependencies are all in force** — The loop of validate_worker_dependencies over named or unnamed items with the dict it fills (Worker/Given.lean). Proved: accepted exactly when all items are sound, with all dependencies in order under distinct names (generated names are distinct since decimal notation is injective); the first fault is reported; and, with the resolution model of C42, every given dependency was entered for every task that is called.
* **C107 An announcement says what was meant** — json.dumps and json.loads on flat objects, character by character, with escapes, surrogate pairs and numbers, and the string pieces and the five gsub calls of the scripts (Codec/Json.lean). Proved: reading back what was written, for all texts and whole numbers; the scripts for keys without control characters other than line feed, carriage return and tab, and exactly for those. The code itself remarks that it gives up on the other keys; for them the full statement is refuted.
* **C108 A run is linked to the trace it came from** — The message of C46 with what a propagator sets in it, and what the scripts do with its fields on the three ways to a worker (Codec/Trace.lean). The propagator is any pair of functions that keeps OpenTelemetry's contract. Proved: by two of the ways the run is linked to the span, by all of them the task is decoded unchanged; and for every task scheduled for later the link is lost, because the scheduler copies seven named fields.
* **C109 The progress of a running task is not lost under a limit** — The docket with one limit (Concurrency/Model.lean), in which the clean-up after a cancellation is two steps that may come at any time. Proved by induction over all steps: only that clean-up can touch the progress of a run that goes on, and under keys never cancelled the progress is the sum of the increments; refuted for a key whose older task was cancelled in the line.
* **C110 The recorded outcome is the one the task had** — The model of one execution (Worker/Execute.lean), in which every piece of user code and the result storage may return, raise or be cancelled. Proved by cases over the three ways the function can end: what is recorded is what the function did, given that leaving the dependencies and storing the result do not fail. Refuted otherwise: an error of storing the result is taken for an error of the task, which is then recorded as failed or, with a Retry, run again.
* **C111 A task is not started more often than it was asked for** — A conservation law over the core model: starts, undelivered messages, the parked message and messages handed out but not started add up to no more than acceptances and lapses. Proved by induction over all steps; every summand is read off the history or the docket, not off a helper of the model. Under a limit the waiters are one more summand and slots given take the place of starts.
* **C112 A worker starts whatever tasks it is given** — Model of the list of tasks a worker logs and of the start of its run. Proved by induction over the parameters and the tasks: exactly when the worker starts, and what the lines say. Refuted for generic types of typing without brackets (the worker does not start) and for generic types in general (the first argument is shown for the type).
* **C113 A cancelled task leaves the line** — Model of the subscriber that a worker runs for cancelled waiters, with the line, the signals under way and exceptions at every step. Proved: out of the line after two steps for each signal ahead if subscribed and nothing goes wrong; only cancelled tasks; once. Refuted: after any exception the subscriber is gone for as long as the worker stays in its loop; on a cluster it never listens; signals before it is subscribed are lost.
* **C114 The command line shows what there is** — Model of the tables of docket snapshot and docket workers, with the part of the terminal library rich that reads cells as markup (tags in brackets, names of pictures between colons). Proved: all rows for texts that do not read as markup, times, orders. Refuted: keys with words in brackets are shown without them, one key with a slash in brackets ends the command, names of pictures are replaced. The reading of markup is an assumption about rich.
* **C115 A worker looks around within its check interval** — Model of the two waits of the worker loop in microseconds: the sleep when all slots are taken, and XREADGROUP with the interval in whole milliseconds, for which zero means no limit. Proved by induction over rounds for intervals of a millisecond or more. Refuted for shorter ones: the worker waits until a message comes. That BLOCK 0 has no limit is an assumption about Redis.
* **C116 Every execution_ttl works** — The model of an execution (Worker/Execute) with storing results as the model of the result store (Views/Results) does it, for the seconds of the execution_ttl. Proved for zero and for a second or more, for all tasks: nothing goes on to the loop of the worker, what returned is completed and not retried. Refuted between: the store refuses a time to live of zero, so a failing task ends its worker without leaving a record, and a succeeding one counts as failed and is run again.
* **C117 What a perpetual task asks for does not stop its worker** — What a Perpetual was asked for, its on_complete, and the model of an execution (Worker/Execute) with it as completion handler on success and on failure. Proved: the worker goes on for requests with a time zone, arguments that can be pickled and intervals within the calendar, for all executions. Refuted: a time without a time zone is accepted by at() and raises once in the success branch and again in the failure branch, so it ends the worker and leaves the message; the same for arguments that cannot be pickled.
* **C118 The commands work on the docket that was named** — The two options of each command with their variables and defaults, validate_url, the scheme that urlsplit finds, and the choice of the backend (Cli/Target). Proved: all commands but watch open the docket that was named; for URLs written in small letters with :// none but worker and watch work in memory; only URLs of in-memory dockets are refused. Refuted: watch reads DOCKET_REDIS_URL instead of DOCKET_URL, and MEMORY:// passes the check.
* **C119 The retry a task asks for comes at its time and does not stop the worker** — The Retry of a run, after(), at() and handle_failure with their readings of the clock and the calendar of datetime (Worker/AskedRetry), as failure handler in the model of an execution (Worker/Execute). Proved: for dates of the calendar the worker goes on and the next run is scheduled for the right time, never before the one asked for. Refuted: at(datetime.max) and delays beyond the calendar raise in the worker and end its run.
* **C120 run_at_most() limits its own worker and nothing else** — run_at_most, its condition on the strike list of the Docket object, the question of a delivery and of an addition, and the counts of each worker (Worker/AtMost), against a specification in terms of the history. Proved by induction over all histories: exactly which deliveries and additions are refused, that the limit is kept, that nothing is left afterwards; the property itself for workers that share their Docket object with no other limited one. Refuted for workers with a common Docket object.
* **C121 A task left by an earlier version is treated like any other** — The keys known:{key} and stream-id:{key} of earlier versions next to the record of this one, for one task key, with the scripts as far as they touch them (Views/Legacy). Proved by invariants over all histories: add is refused and the task can still be started until it is; after replace and cancel it is not started, unless a worker has it or the scheduler of this version moved it. Refuted for tasks that were moved (replace and cancel do not find the message, and a message without generation is never superseded) and for clear, which leaves the known key of a task in the stream for good.
* **C122 A worker runs with the settings it was given** — The choice of each setting of docket worker (option, variable, default), how it is read by its type, and how it reaches the worker (Cli/Settings), against a specification of what the texts mean that takes up the one of C54. Proved for all combinations of options and environments with durations in whole seconds and levels in capitals. Refuted for durations in milliseconds and levels in small letters, both of which the documentation uses: no worker starts in the environment that docs/production.md gives.
* **C123 A docket opens with every kind of URL that is documented** — The choice of the backend by the scheme of the URL (Views/Opening), with the schemes that redis-py takes, against the list of documented schemes. Proved for all spellings of the scheme and all that may follow it; refuted for valkey://, which docs/production.md gives and which redis-py refuses.

## Where the code disagrees with a property

Each entry names a theorem that refutes a property as stated (or a consequence of it) by a concrete history of the model, with the explanation given there. The properties keep their full statements; what does hold is proved next to it under a name ending in `_partial`.

* `C05_violated_after_clear`: The code violates it after `clear()`: the record keeps its `known` mark until it expires.
* `C05_violated_after_crash`: The code violates it after a cancel that loses against a worker which already holds the message, starts it anyway and dies: the record says running forever.
* `C05_violated_by_strike`: The code violates it: a worker that finds an old, superseded message stricken drops the `known` mark of the newer task (worker.py:1017-1019, 1000-1009), and the next `add` is accepted as a duplicate.
* `C08_violated`: The code violates C08: the reschedule branch of `_schedule` (execution.py:113-158) does not compare generations.
* `C100_violated_limit_exceeded`: **Disagreement.** A `RateLimit` declared as a default, executions that overlap: the place that is given back for a task that another rule turns away is that of the task that entered last, which runs. Here three tasks are started within two seconds under a limit of two a minute.
* `C100_violated_place_lost`: **Disagreement.** … and the place of a task that was turned away stays taken for a whole window: the next task but one is turned away (dropped, with `drop=True`) though only one was started.
* `C100_violated_same_millisecond`: **Disagreement.** A task that is delivered again in the millisecond in which it was started, and is turned away by another rule, gives back the place of its own run (the two have the same member in the sorted set): three tasks are started within a minute under a limit of two.
* `C101_violated_other_name`: **Disagreement.** A function that is registered under another name as well (`register(report, names=["report", "nightly"])`) goes on running after `strike(report)`: tasks added as `add("nightly")` carry that name, and the strike is on `report.__name__`.
* `C101_violated_perpetual`: **Disagreement.** Nor does striking the other name help for long: a perpetual task added as `add("nightly")` goes by the function's own name from its second run on (dependencies/_perpetual.py:133), and so escapes `strike("nightly")`.
* `C101_violated_same_name`: **Disagreement.** Two functions of the same `__name__`, one of them registered under another name only so as to tell them apart: striking one turns away tasks of the other, which carry the same name.
* `C102_violated_annotation`: **Disagreement.** A retry policy in an annotation (`customer_id: Annotated[int, Retry(attempts=3)]`) is accepted, checked for conflicts and entered, and then not asked when the task fails: the worker looks for policies among the resolved arguments only, in which annotations leave nothing (_resolution.py:208-221, worker.py:1187).
* `C102_violated_automatic`: **Disagreement.** An automatic perpetual task whose `Perpetual` is in an annotation is found by the workers when they start, and scheduled, but does not go on after its first run: of the two ways to look for a policy one looks at annotations and the other does not.
* `C103_violated_cleared`: **C103, violated**: after `clear()` an automatic task is gone, and the record that says it is known keeps the loop from sowing it until the record expires (here after 900 seconds; the loop comes by every 60).
* `C103_violated_forever`: **C103, violated**: an automatic task that is added (by a worker that starts, or by its own execution) while `clear()` is at work can be removed while its record goes on saying that it is known, and does not expire: it is never sown again, however long the loop goes on.
* `C104_violated_deaf`: **C104, violated**: what is published while the worker has no subscription (its connection was lost, and it waits before it opens another) is never heard of: the cancelled task runs on, however long the worker listens afterwards.
* `C104_violated_successor`: **C104, violated**: the signal says the key only. If the task has ended and another of its key is taken before the signal is read, the new one is interrupted, although it was added after the cancellation.
* `C105_violated_cluster`
* `C105_violated_cluster_always`: On a cluster the documented user is refused every cooldown, rate limit and debounce of the docket's default scope, unless the docket's name itself begins with a brace.
* `C105_violated_confined`: Names that do not mark where they end are not kept apart: the user of docket `a` may read the queue of docket `a:b`.
* `C105_violated_listening`
* `C105_violated_listening_always`: The workers' subscription to cancellations is refused to every documented user, whatever the docket: access control wants it to be one of the user's channel patterns.
* `C105_violated_name`: A docket whose name contains a pattern character is refused its own queue.
* `C105_violated_scope`: A rate limit under a scope of its own is refused.
* `C107_violated_due`: A key with a NUL character: when the task becomes due, those who wait for it get an error.
* `C107_violated_woken`: The same when a waiter gets its turn.
* `C108_violated_later`: So the full statement is false.
* `C108_violated_later_always`: The code violates **C108**, for every task scheduled for later, whatever it is and in whatever span it was scheduled: the scheduler makes the stream entry of seven fields it names (worker.py:196-204), so what was injected into the message stays behind in the hash, which is deleted, and the run is linked to nothing.
* `C109_violated_late_cleanup`: The code violates it. "b" waits for a slot and is cancelled; before a worker has cleaned up after that cancellation, "b" is added anew and runs; then the clean-up deletes the progress of the key (_concurrency.py:401-404) without looking whose it is, and what the new run has reported is gone.
* `C110_violated_success_is_retried`: **C110, violated**: and under a `Retry` it is run again, as often as the policy allows, although it succeeded each time.
* `C110_violated_swallowed`: **C110, violated**: a task that was cancelled while it ran is recorded as failed, if one of its dependencies swallows the cancellation.
* `C110_violated_unstorable`: **C110, violated**: such a task is recorded as failed.
* `C110_violated_unstorable_always`: **C110, violated**: a task whose function returned a value that cannot be pickled, or that the storage refuses, is never recorded as completed: the error of storing it is taken for an error of the task (worker.py:1136-1148, 1179).
* `C112_violated_start`: `async def ingest(rows: typing.Dict)` among the tasks: the worker does not start, so no other task is served either.
* `C112_violated_types`: `async def ingest(rows: dict[str, int])` is listed as `ingest(rows: str)`.
* `C113_violated_cluster`: **Disagreement**: on a cluster the subscriber asks the cluster's client for a subscription, which it does not offer, and is gone at once: nobody is ever taken out of the line.
* `C113_violated_deaf`: **Disagreement**: after a lost connection the subscriber is gone (_concurrency.py:699-722 catch only `CancelledError`), and the cancelled task stays in the line.
* `C113_violated_early`: **Disagreement**: the worker takes tasks without waiting for the subscriber (worker.py:746-763 wait for the other ear only), so a task may wait, and be cancelled unheard, before it is subscribed.
* `C113_violated_for_good`: **Disagreement**, in general: once what the subscriber waits for has raised anything, no cancelled task is taken out of the line for as long as the worker stays in its loop, whatever else happens. (The worker's other ear, `C104_recovers`, subscribes again.)
* `C114_violated_error`: **C114, violated**: one task whose key has a slash in brackets keeps the whole command from listing anything, whatever else there is.
* `C114_violated_key`: **C114, violated**: the cells are given to `rich` as they are, so a key with a word in brackets is shown without it, and two tasks look like one.
* `C114_violated_picture`: **C114, violated**: a part of a key between colons is replaced if `rich` has a picture of that name, as it has of a `key`.
* `C115_violated`: **C115, violated**: an interval of less than a millisecond is cut to `BLOCK 0`, which means no limit: unless a message comes the worker waits for ever, whatever it is asked in the meantime and whatever its tasks do; `run_until_finished` does not return.
* `C116_violated_retried`: **C116, violated**: with retries left the function of a task that succeeded is run again.
* `C116_violated_success`: **C116, violated**: and so does a task that succeeds, unless it returns `None`: the function has run, but the task counts as failed, and is given to another worker.
* `C116_violated_worker`: **C116, violated**: on a docket with an `execution_ttl` of less than a second, a task that fails leaves no record, is not acknowledged, and ends the run of its worker; the next worker that it is given to meets the same.
* `C117_violated_arguments`: **C117, violated**: the same for arguments that cannot be pickled.
* `C117_violated_interval`: **C117, violated**: the same for `every=timedelta.max` and other intervals that lead out of the calendar, if the task asks for no time.
* `C117_violated_naive`: **C117, violated**: a time without a time zone is taken by `at`, and refused only when the task has ended, first as part of its success and then again as part of its failure. The run is not recorded, its message is not acknowledged, and the run of the worker ends; so does that of the next worker, after it has run the task again.
* `C118_violated_memory`: C118 fails for a URL in capitals: it is accepted, and the task is added to a docket in the memory of a process that ends.
* `C118_violated_spelling`: C118 fails for every spelling of `memory://` with a capital letter: all commands accept it and work on a docket in the memory of a process that ends.
* `C118_violated_watch`: C118 fails for `watch`: it reads `DOCKET_REDIS_URL` where the others read `DOCKET_URL`, so in the environment of the documentation it looks at the server on localhost.
* `C119_violated_at`: **C119, violated**: a task that asks to be retried at `datetime.max`, a common way to say never, names a date of the calendar; but some time has gone by when the delay is added to the clock again, which raises in the worker. Nothing is recorded, the message is not acknowledged, and the run of the worker ends; so does that of the next worker, after it has run the task again.
* `C119_violated_delay`: **C119, violated**: the same for a delay that leads out of the calendar, asked for by `after` or given to the `Retry`.
* `C120_violated`: **C120, violated**: two workers are given the same `Docket` object. One of them is in `run_at_most` and has made its starts of a key; a task with this key that is handed to the other worker, which nobody limited, is cancelled.
* `C121_violated`: C121 does not hold.
* `C121_violated_cancel`: C121 fails for `cancel` in the same way.
* `C121_violated_clear`: C121 after `clear` fails for a task that waited in the stream, and for good: its key was deleted from the stream, and what says that it is known stays; whatever happens short of a `replace` or `cancel`, nothing runs and `add` is refused.
* `C121_violated_replace`: C121 fails for `replace`: once this version's scheduler has moved the task to the stream, where the entry is is recorded nowhere, and a message without generation is not superseded by anything; the old task and the new one are both started.
* `C122_violated`: C122 does not hold.
* `C122_violated_documented`: No worker starts in the documented environment.
* `C122_violated_level`: C122 fails for all levels in small letters, whatever else is given: docs/production.md, lines 448 and 451, has `--logging-level info` and `--logging-level warning`.
* `C122_violated_milliseconds`: C122 fails for durations in milliseconds, whatever else is given: the command ends with an error. docs/production.md gives two settings in this way.
* `C123_violated`
* `C123_violated_valkey`: **C123 fails** for the URL of docs/production.md's "Valkey Support", and for every other with that scheme: redis-py knows no such scheme, so no docket opens.
* `C13_violated`: The code violates it: the scheduler does not record the stream id of the message it moves (worker.py:193-207), so `cancel` (docket.py:84-97) does not delete it and the next worker runs the task.
* `C15_violated_race`: The code's `clear` is two round trips. A task added in between for later execution loses its schedule entry but keeps its record: it can never run, because nothing moves it any more, and it cannot be added again.
* `C15_violated_readd`: The code violates it: `clear` sets an expiry but keeps the `known` mark.
* `C16_violated`: The code violates it: `_schedule` never clears the expiry that `_terminal` set (execution.py:377-382, 210-234), so a key that is added again within `execution_ttl` of its last run, for a time beyond it, loses its record ...
* `C16_violated_cancel_race`: The same happens when `cancel` and `add` race: the cancel's EXPIRE lands on the new task's record (docket.py:771-777).
* `C16_violated_task_lost`: ... and then the task is lost: when its time comes the scheduler moves it and the worker that claims it drops it as superseded, without running it.
* `C17_violated_cancelled_to_completed`: The code violates the first: a running task that is cancelled but ends normally goes from cancelled to completed (`_terminal` does not look at the state).
* `C17_violated_completed_to_running`: The code violates the second: when a message is redelivered while its first worker is still alive, and that worker completes before the second one claims, `_claim` accepts the same generation again and the task runs a second time.
* `C19_violated_overwritten`: The code violates it: a superseded run stores its result under the same key before it learns that it was superseded (worker.py:1136-1148).
* `C19_violated_stale_value`: The code violates it: `_terminal` does not clear a `result_key` left by an earlier run (execution.py:369-375, 848-852), so a run that returns `None` within the ttl of an earlier run that returned a value appears to have returned that old value.
* `C20_violated_cancel`: The code violates it when a waiting task is cancelled: `_cancel_task` announces nothing (docket.py:66-118).
* `C20_violated_gap`: The code violates it when the task ends between the waiter's read and its subscription: nothing is read again after subscribing.
* `C20_violated_ttl_zero`: The code violates it with `execution_ttl=0`: the record is gone, which reads as scheduled (execution.py:1061-1068).
* `C21_violated_cancel`: The code violates it for a task that the scheduler has moved to the stream.
* `C24_violated`: The code violates it: the payload of a task with key "queue", parked for the future, is stored in the docket's own schedule.
* `C24_violated_record`: And the payload of a task with key "runs:x" is stored in the record of task "x".
* `C24_violated_waiters`: The code violates it: the slots of the limit on the value `5:waiters` of a parameter are kept under the key of the wait list for the value `5` (a sorted set and a stream, so Redis answers with an error).
* `C25_violated_brace_name`: And for a name that starts with a closing brace.
* `C25_violated_debounce`: The code violates it when the debounced argument prints as `{}`, such as an empty dictionary: the script then gets keys from two slots.
* `C25_violated_empty_name`: The code violates it for an empty name: `{}` is not a hash tag.
* `C26_violated`: The code violates it: a later strike on one parameter of a task narrows the strike on the whole task, because "whole task" is represented by an empty dictionary.
* `C27_violated`: The code violates it: striking and restoring a parameter of a task that is struck as a whole lifts the strike on the whole task.
* `C28_violated_late_update`: The code violates it when the local update of a sent strike comes after the monitor has already read that strike and another process's restore of it.
* `C28_violated_mixed`: The code violates it even with immediate local updates when a task is struck both as a whole and by parameter.
* `C31_violated`: A worker that stalls for a redelivery timeout keeps running its task while another task takes its slot: two bodies under a limit of one.
* `C31_violated_renewal`: When the stalled worker wakes up it renews a slot that is no longer its own, and Redis then records more slots than the maximum.
* `C31_violated_timeouts`: **Disagreement.** Whether a slot is stale is decided by the timeout of the worker that wants it, how often it is renewed by that of its holder. A worker with a timeout of a quarter of another's, or less, takes the slots of tasks that are running and renewed on time: two bodies under a limit of one.
* `C32_violated_cancelled_in_front`: A cancelled waiter in front uses up the free slot: the next one, still scheduled, is not woken although the slot is free.
* `C32_violated_late_cleanup`: A worker that handles an old cancel signal late removes the wait-list entry of a newer task under the same key: the new task is lost although its record says scheduled. (Schedule "b", let it wait, cancel it; "b" is scheduled anew and waits again; then the signal of the old cancellation is handled.)
* `C32_violated_overtaken`: A slot is free while "c" still waits (the cancelled "b" in front used up the wake-up), and a task that has only just come takes it.
* `C32_violated_woken_parked_again`: A task that waited and was woken finds the slot taken by a task that never waited, and goes back to the end of the wait list; nothing bounds how often.
* `C33_violated_late_reading`: A worker that reads the clock and is then overtaken by a later attempt, which prunes the entries the earlier reading should still have counted.
* `C33_violated_same_millisecond`: Attempts of the same task in the same millisecond share one entry of the window, so they are all admitted.
* `C36_violated_cancelled_winner`: If the first submission of a burst is cancelled while it waits, the later ones have already been dropped and nothing runs at all.
* `C37_violated_exponential_forever`: The code violates it for `ExponentialRetry.forever()`: at the 48th attempt `delay * 2 ** (attempt - 1)` (_retry.py:207-208) exceeds the largest `timedelta` and raises before the cap is applied. The run then has no failure handler, so the task is marked as failed without being called, and never retried. (With the default delays this happens about 45 minutes after the first failure.)
* `C38_violated_first_delay_uncapped`: The code violates it when the minimum exceeds the maximum: the cap is applied from the second attempt on only (_retry.py:206-213), so the first delay is the minimum and the later ones, being the maximum, are shorter.
* `C39_violated_cron_ignores_request`: The code violates it: `Cron` inherits `at()` and `after()`, but its `on_complete` overwrites the requested time with the next cron time (_cron.py:110-117).
* `C39_violated_race`: The code violates it: `on_complete` checks `is_superseded()` and then calls `replace()` (_perpetual.py:109-141), which are two separate round trips, so a `replace()` by a client in between is undone by the perpetual task's own.
* `C40_violated_outcome_lost`: The code violates it: when the timer fires and the task finishes before the loop gets to run again, the loop condition `while not task.done()` ends the loop, and `run` returns `None` (_timeout.py:81-93): the result of the task, or the exception it raised, is dropped and the task is recorded as completed. Here the task, started at 100 with 10, extends by 5 at 104, then keeps the event loop busy until it returns at 112, when the timer set for 110 is handled.
* `C41_violated_memo`: The code violates it: the verdict of a function's first execution is reused for all others (worker.py:366-371), although it depends on how that execution's dependencies resolved: one that failed, or was passed explicitly, is not among them (_resolution.py:113-117, 184-186, 201-206). If the first execution's `Timeout` failed, no later conflict with the worker's is reported.
* `C41_violated_override`: The code violates it: two instances of a class that sets `single = False` below a single base are not reported (neither half of the check applies, _resolution.py:128-148), although two instances of different such classes are.
* `C42_violated_positional`: **C42, violated**: an explicit value for a dependency parameter passed by position does not win: the dependency is resolved anyway and passed by keyword, and the call is refused with "got multiple values for argument" (_resolution.py:184-187 looks only at keyword arguments).
* `C42_violated_precedence`: **C42, violated**: two dependencies annotate one parameter; the first refuses admission — say, a concurrency limit that parked the task — and the second fails. The second failure overwrites the first (_resolution.py:216-221), so the execution is recorded as failed although it is parked and will run later.
* `C44_violated_overlap`: **C44, violated**: two deliveries of the key that are both let through before the first claim is answered (the count is only raised after the claim, worker.py:1028-1034) both run: a redelivery of a message, or a task that replaced one which was being claimed.
* `C45_violated_derived_name`: **C45, violated**: the decorator accepts a signature with a parameter called `<name>_start` next to a variadic `<name>`; the derived local hides the parameter.
* `C48_violated_end`: **C48, violated**: seven tasks over one second: the interval is rounded up to 166667 microseconds, so the last task is 2 microseconds after the end of the window.
* `C48_violated_end_jitter`: **C48, violated**: a positive jitter moves the last task beyond the end of the window; times are only kept from preceding its start.
* `C49_violated_cap`: **C49, violated**: with more than 1000 messages in the stream, the lists hold 1000 of them, although the total counts all.
* `C49_violated_moved`: **C49, violated**: a task that the scheduler moves to the stream between the two reads is in neither list, although it is counted in the total.
* `C49_violated_unregistered`: **C49, violated**: one message of a function that this process has not registered makes the whole snapshot fail.
* `C50_violated_fraction`: **C50, violated**: with a maximum age that is not a whole number of seconds, a worker that is still listed can have lost its tasks: they expire after the whole seconds.
* `C50_violated_settings`: **C50, violated**: a process with a shorter heartbeat interval (such as the command line tools, which always use the defaults) removes workers that are alive by the settings of the others.
* `C50_violated_stale_names`: **C50, violated**: a worker that crashes and comes back under the same name without one of its tasks is still listed with it, for as long as it lives.
* `C51_violated_keyword`: **C51, violated**: a value in an unlogged `**kwargs` is shown if its name is that of a positional-only parameter that is `Logged`.
* `C51_violated_positional`: **C51, violated**: the second of the values for an unlogged `*args` is shown if the next parameter, a keyword-only one, is `Logged`.
* `C52_violated_collision`: **C52, violated**: collection `a` with key `b:c` and collection `a:b` with key `c` share one Redis key.
* `C52_violated_fraction`: **C52, violated**: a time to live of less than a second is cut down to zero, which Redis refuses.
* `C53_violated_after_clear`: **C53, violated**: after `clear()` the automatic tasks are gone, but their records still say that they are known, so they are not seeded again until the records expire.
* `C53_violated_alias`: **C53, violated**: an automatic function registered only under another name: scheduling it registers it under its own name as well, which ends the iteration over the registry with an error. At startup this error ends the worker.
* `C53_violated_key_taken`: **C53, violated**: while some other task uses the name of an automatic function as its key, the automatic function is not scheduled.
* `C53_violated_same_name`: **C53, violated**: of two automatic functions with the same `__name__` one is never scheduled, as they share the key.
* `C55_violated_successor_forgotten`: **C55, violated**: a task ends and its successor with the same key — a perpetual task or a retry without delay — is delivered before the loop has processed the end. Processing it then removes the successor from the register (worker.py:698 pops by key, whichever task is registered), and a cancellation does not reach the running successor.
* `C57_violated_alias`: **C57, violated**: a task scheduled under a second name of a function is not found when the function is asked for.
* `C57_violated_cap`: **C57, violated**: behind 1000 other messages a task is not found.
* `C57_violated_unregistered`: **C57, violated**: one task of a function that the process has not registered makes every assertion raise.
* `C59_violated_add`: It accepts: there are then two tasks of the key.
* `C59_violated_clear`
* `C59_violated_readd`: **Disagreement.** When the announcement of the cancellation is missed or acted on late, the place in the line stays, and waking asks only whether the key is `scheduled` (_concurrency.py:217-223): a key that was cancelled and scheduled again for later runs at once, with the arguments that had been cancelled.
* `C59_violated_replace`: A task replaced with a later time runs right away with the old arguments when the slot is released, and counts as the current version.
* `C60_violated_completed_then_failed`: **C60, violated**: a dependency whose exit raises after the task returned makes the execution be recorded twice: it is marked completed inside the `async with`, then the exception reaches the `except Exception` clause and it is marked failed (worker.py:1130-1156, 1179-1230).
* `C60_violated_completed_then_retried`: **C60, violated**: with a `Retry`, a task that returned and was marked completed is run again, because an exit raised.
* `C61_violated_across_tasks`: **C61, violated**: the key of a limit on a parameter does not name the task, so two tasks that limit a parameter of the same name share one window.
* `C61_violated_default`: … **violated** when the argument is left to its default: the lookup fails (the task is then reported as failing to resolve its dependencies) although the parameter has a value.
* `C61_violated_mixed`: **C61, violated**: the same customer, once by position and once by keyword, is counted under two keys, so the limit lets both through.
* `C61_violated_positional`: **C61, violated**: the limit is bound to the keyword argument only (_resolution.py:210-212). Two calls that pass different customers by position both count under the value `None` and block each other.
* `C62_violated_worker_stops`: **C62, violated**: a signal that arrives while the task is still waiting for its claim — outside the `try` of `_execute` — makes the asyncio task end in `CancelledError`; awaiting it in `process_completed_tasks` raises that in the main loop, which takes it for a shutdown request (worker.py:829) and returns: the worker stops taking tasks.
* `C63_violated_dropped`: **C63, violated**: two workers both register a perpetual task under a name of its own. After its first run it is sent under `__name__`, which the second worker does not know: that worker drops it.
* `C63_violated_mixed_up`: **C63, violated**: two perpetual functions with the same `__name__`, registered under different names. Each re-schedules itself by function, which registers it under `__name__` and sends the next run under that name: the last one to do so is called for both tasks.
* `C63_violated_name`: **C63, violated**: the next run of a perpetual task registered under another name than `__name__` goes by `__name__`, so that for instance strikes of its registered name no longer apply; the same happens to an agenda entry added by name.
* `C64_violated`: **C64, violated**: the docket `app:runs` parks the task `x` under the key that holds the record of the task `x` of the docket `app`.
* `C64_violated_queue`: The same for the waiting tasks themselves: the queue of docket `app:b` is the parked task `b:queue` of docket `app`.
* `C65_violated_complement`: **C65**: what goes wrong with the complement of a range, like `[^a-z]`, in the name of a docket, exactly: of the dockets whose names have a single character in its place, its workers obey the cancellations of those whose character is not in the range, and of no others.
* `C65_violated_other`: **C65, violated**: the workers of the docket `jobs?` also obey the cancellations of the docket `jobs2`: a task that runs there under the same key is cancelled.
* `C65_violated_own`: **C65, violated**: the workers of the docket `jobs[eu]` subscribe to a pattern that does not match its own channels, so running tasks of that docket can never be cancelled.
* `C65_violated_own_always`: No cancellation of the docket `jobs[eu]` reaches its workers, whatever the task.
* `C65_violated_range`: **C65**: what goes wrong with a range in the name of a docket, exactly: of the dockets whose names have a single character in the place of the range, its workers obey the cancellations of those whose character is in the range, and of no others.
* `C66_violated_cancel`: The code violates it: a client that dies between the two round trips of `cancel` (docket.py:753-777) leaves a record without expiry.
* `C66_violated_ghost`: The code violates it: when the record of a scheduled task has expired (see C16), the scheduler makes a new one that holds nothing but the state `queued` (worker.py:209-212); the worker then drops the message as superseded, and the record stays, saying queued, for ever.
* `C66_violated_progress`: The code violates it: progress reported after the end of the task (by a helper task or thread it left behind, or through `Docket.get_execution`) creates the progress hash anew (_execution_progress.py:154-174), and nothing ever removes it.
* `C68_violated`: **C68 is violated**: a task waits behind one whose arguments cannot be loaded.
* `C68_violated_raising`: **C68 is violated** by executions that raise into the loop, as soon as there are as many of them at the front as a worker takes at a time: they are redelivered and taken first by every later worker.
* `C68_violated_undecodable`: **C68 is violated** by a message that cannot be decoded (say its arguments are of a class that has been renamed): `from_message` raises in the worker's loop (worker.py:669-680), which ends the worker; the message stays pending, and the next worker takes it first. However many workers follow, of whatever concurrency, none of the messages behind it is ever dealt with.
* `C69_violated_quiet`: **C69 is violated**: the timeout of `iterate_with_timeout` cancels the pending `__anext__()`, which finishes the generator, so that the next turn ends the iteration. `watch` returns one second after it has begun to listen, while the task is running.
* `C70_violated`: **C70 is violated**: a text with a colon, such as `orders:2024`, is taken for a type and a value.
* `C70_violated_other_value`: **C70 is violated** silently when what is in front of the colon is empty or the name of a type: the strike is on another value.
* `C70_violated_unreachable`: **C70 is violated** for every text with a colon, whatever one writes: with Python's own types there is no way to name it, not even `str:...`, because the text is split at its last colon.
* `C72_violated_cancel`: Violated: cancelling a running task only asks it to stop; the key can be added again, and runs, while the cancelled execution is still cleaning up (or ignores the request).
* `C72_violated_clear`: Violated: `clear` lets the record of a running task expire.
* `C72_violated_expiry`: Violated, without anything unusual: a key that is added again within `execution_ttl` of its last end keeps that expiry (nothing removes it). If the task runs past it, its record is gone, and the next `add` of the key is accepted and started beside it.
* `C72_violated_lapse`: Violated: a worker that does not renew its lease in time, but lives on.
* `C72_violated_replace`: Violated: `replace` of a running task starts the new version beside the old one.
* `C72_violated_strike`: Violated: strikes that are lifted again. A worker that strikes out an old message of the key makes `add` forget the task that is waiting.
* `C73_violated_cancel`: Violated: a task that is cancelled just after a worker received it is started all the same (C13), but its message is gone: `run_until_finished()` of another worker returns at once, while the task runs.
* `C73_violated_clear`: Violated: the docket is cleared while a worker runs a task.
* `C73_violated_lapse`: Violated: a message is taken over from a worker that is alive; the second execution ends first and removes the message, and the first one is not seen any more.
* `C74_violated_default`: The code disagrees: an argument that the caller leaves at its default is `None` for an optional `TaskArgument`, not the default the task itself gets.
* `C74_violated_fails`: The code disagrees: a `TaskArgument()` for an argument left at its default fails, and the task never runs.
* `C74_violated_shared`: The code disagrees: one `TaskArgument()` used at parameters of different names keeps the name it was first entered under, so the second dependency gets the other argument.
* `C75_violated_attempt`: The code violates the property: a retry is reported with attempt 1, whatever its attempt is (docket.py:683).
* `C75_violated_completed_error`: The code violates the property: when the second run completes, `_terminal` writes an error only if there is one, so the completed execution still shows the error of the first.
* `C75_violated_gap`: The code violates the property for the state: when the record of a completed task expires between the two reads, `sync` falls back to its default and the task is reported as scheduled, which it was at no moment of the call.
* `C75_violated_leftovers`: The code violates the property: scheduling a key again does not clear the fields of the earlier run (`_schedule` only overwrites state, time and definition), so the task is reported as queued together with a worker, a starting time, a completion time and an error.
* `C76_violated`: Both contradict the full statement.
* `C76_violated_add`: The code violates it for clients: `docket.add` right after the docket was opened does not wait for the strikes, and accepts a task that is struck.
* `C76_violated_load`: … so `wait_for_strikes_loaded` may never return.
* `C76_violated_undecodable`: The code violates it when the stream holds an entry that the process cannot decode, for instance a strike on a value whose class it does not have. Whatever happens then, the wait for the strikes never ends, a worker that schedules automatic tasks never runs or skips a single task, and no instruction behind the entry is ever read.
* `C76_violated_undone`: The code violates it in a further way: an entry that cannot be decoded makes the monitor apply the entries before it again and again, once a second. A process that restores a task itself sees the task struck again from the next second on, for ever, although nobody has struck it since.
* `C76_violated_unseeded`: The code violates it for workers that do not schedule automatic tasks: only the seeding of these tasks waits for the strikes, so such a worker can run a task that was struck long before it was started.
* `C77_violated_growing`: The code violates it without bound when the stream holds an entry that the process cannot decode: the strikes before it are counted again every second.
* `C77_violated_negative`: The code violates it: restoring something that was never struck makes the number negative.
* `C77_violated_repeated`: The code violates it: issuing the same strike twice counts as two, although a single restore lifts it; after the restore one strike is reported and none is in effect.
* `C77_violated_unusable`: The code violates it: a strike on a value that cannot be hashed has no effect and is counted.
* `C78_violated_cancel`: The code violates C78: cancelling is recorded and not announced (docket.py:753-777).
* `C78_violated_expired`: The code violates C78: a task that ended and whose record has expired is shown as scheduled (execution.py:1061-1063).
* `C78_violated_gap`: The code violates C78: what happens between the first look and the acknowledgement of the SUBSCRIBE is never shown (execution.py:1121-1155).
* `C78_violated_superseded`: The code violates C78: when a replaced run ends, its end is announced as the end of the task that replaced it (execution.py:321-393, 880-930), which is still waiting in the queue.
* `C79_violated_expired`: The code violates C79: if the record expires before the waiter gets back to it, or the result before it is fetched, the answer is `None`, whatever the task returned.
* `C79_violated_returns_exception`: The code violates C79: a task that failed, and is scheduled again before the waiter gets back to the record, leaves its stored exception behind, and `get_result` *returns* that exception instead of raising it, because it takes any state other than cancelled and failed for success (execution.py:1020-1027).
* `C79_violated_superseded`: The code violates C79: the end of a replaced run wakes whoever waits for the task that replaced it; they find no result and are given `None`, although the task has yet to run.
* `C80_violated_draining`: The code violates C80: a worker that is told to stop (or whose polling connection is lost) finishes its tasks without renewing their leases any more (worker.py:822, 837, 842-844, 905-907); a task that then takes longer than `redelivery_timeout` is handed to another worker.
* `C80_violated_timeouts`: The code violates it: who takes a message over decides by its own timeout (worker.py:638-640), its holder renews by its own (903); a worker with a timeout of at most a quarter of its neighbour's takes that neighbour's running tasks away.
* `C81_violated_shared`: The code violates it: entering the dependency stores the execution's progress in the object in the signature of the function and hands out that object (_progress.py:35-38), so that of two executions of one function in one process, both report for the one that began later.
* `C82_violated_cancelled`: The code violates it when the task has been cancelled while it runs: `cancel()` deletes the record (docket.py:101-105), the next increment makes a new one with nothing but the count, and the event still says the total that was set before.
* `C82_violated_concurrent`: The code violates it when a body makes two calls at once (asyncio.gather): each call writes to the record, and remembers and publishes the number it got back when its answer arrives (_execution_progress.py:165-174), so that the last event says less than the record.
* `C83_violated_late`: The code violates it when a worker starts, or a lost task is sown again, after a matching time has passed since the import: seeding takes the next time of an iterator begun at import (_cron.py:92, 101-108), which is in the past, so that the task runs at once.
* `C83_violated_long_run`: The code violates it when a matching time passes while the task runs: the next time is taken from an iterator begun with the run (_cron.py:96, 116), so that the task runs again at once.
* `C83_violated_stricken`: The code violates it when the task has been stricken for a while: each seeding takes a time from the iterator and throws it away (worker.py:983-985, docket.py:413-424), so that once the task is restored it is scheduled that many matching times too late.
* `C84_violated_cancelled`: The code violates it when a run is taken over by another worker and the record gets lost: both executions schedule the same next time (here the task is cancelled in between).
* `C84_violated_two_processes`: The code violates it when the task gets lost (here because a worker that does not know the function runs the fallback instead, worker.py:137-153, 925-935) and another process, whose iterator has not moved since its import, sows it again: the task is run for the same time twice.
* `C85_violated`
* `C85_violated_orphans`: **Disagreement.** A second SIGTERM while the worker takes its heartbeat back (worker.py:839-841) ends the run at once, although its tasks have not ended: they are neither waited for nor interrupted.
* `C85_violated_second_signal`: **Disagreement.** A second SIGTERM (or Ctrl-C) while the worker waits for its tasks cancels the `gather` (worker.py:843) and with it the tasks: their work is interrupted, `_execute` takes that for a cancellation by a user and marks them as cancelled for good (worker.py:1166-1170), so no other worker runs them.
* `C85_violated_unsettled`: **Disagreement.** The last `process_completed_tasks` (worker.py:844) stops at the first task that ended with an exception, and what it should have done for the others is left undone: a task that was refused and should be scheduled again stays with a worker that is gone.
* `C86_violated`
* `C86_violated_never_returns`: **Disagreement.** And then the run does not end, although the worker was told to stop and its tasks have ended.
* `C86_violated_resumes`: **Disagreement.** The `CancelledError` of SIGTERM is caught at worker.py:829 and forgotten. If Redis then loses the connection while the worker puts its tasks away (worker.py:844), `_run` sees only a `ConnectionError`, connects again and goes on taking tasks (worker.py:551-566).
* `C86_violated_takes_more`: **Disagreement.** A worker that is told to stop while it asks Redis for new messages takes what it gets and begins it (worker.py:759-805: `_worker_stopping` is looked at only at the top of the loop).
* `C87_violated_blocked`: **Disagreement.** A task for which a concurrency limit has no room is counted as started and as completed though its function is never called and it goes back to the schedule.
* `C87_violated_swallowed`: **Disagreement.** A task that raised, in a dependency that swallowed the exception, is recorded as failed and counted neither as succeeded nor as failed.
* `C87_violated_unstorable`: **Disagreement.** A task whose function returned something that cannot be stored is counted as succeeded and as failed, and recorded as failed.
* `C88_violated_added`: **Disagreement.** A second `add` of the same key changes nothing and is counted as a task added all the same (docket.py:438).
* `C88_violated_cancelled`: **Disagreement.** Cancelling a key nothing is known of is counted as a task cancelled (docket.py:613).
* `C88_violated_replaced`: **Disagreement.** A `replace` of a key nothing is known of is counted as a task replaced and a task cancelled (docket.py:550-551).
* `C91_violated_fails`: **Disagreement.** Two overlapping scrapes can both find the last measurement in the queue; the one that is later to take it fails with an `IndexError`.
* `C91_violated_overlapping`: **Disagreement.** All scrapes share one queue of measurements. When two scrapes overlap, the first takes the measurements of both and tells every data point three times (its families are told again, with the new samples added, after the second measurement), and the second one is told nothing at all.
* `C91_violated_same_labels`: **Disagreement.** Cleaning names can make different attributes one label: two data points with different attributes are told with the same labels.
* `C93_violated`: **Disagreement.** When entering a docket fails after its first step, for example because the `setup` of the user's result storage raises or the caller is cancelled there, nothing of what was opened is closed: the connection pools stay open and the strike monitor goes on running (docket.py:218-247 does not unwind its stack when it raises).
* `C93_violated_refusal`: **Disagreement.** Entering a docket that is already entered is refused, but by then it has a new, unconnected strike list (strikes are no longer seen or sent) and a new, empty stack, so that leaving it closes nothing.
* `C93_violated_refusal_leaks`: The second half of it on its own.
* `C93_violated_stuck`: **Disagreement.** After that the docket can never be entered again: every attempt is refused as if it were in use.
* `C94_violated_alias`: **Disagreement.** A task added by a second name is perpetuated under its function's own `__name__` (`docket.replace(execution.function, ...)`, _perpetual.py:130): another worker, which like the first has registered it under the second name only, does not know that name, runs the fallback and so ends the chain.
* `C94_violated_reported`: **Disagreement.** `get_execution` builds the execution without the name in the record (docket.py:672-680): a task added by a second name is reported under its function's `__name__`, so that, for one, asking whether it is stricken gives another answer than the worker's.
* `C94_violated_same_name`: **Disagreement.** Functions are told apart by their `__name__` alone, and registering a second function of the same name silently replaces the first (docket.py:298-299): tasks already added with the first run the second. All lambdas, for one, have the same `__name__`.
* `C95_violated_both`: **Disagreement.** A task in the schedule that is due exactly at the moment of the heartbeat is counted in both gauges: both ranges include their bound (worker.py:1305-1306).
* `C95_violated_replaced`: **Disagreement.** A task that the scheduler has moved to the stream and that is then replaced leaves its old entry behind, which is counted although nothing is due: the scheduler does not record the entry it makes (worker.py:196-220), so the replacement cannot remove it.
* `C95_violated_running`: **Disagreement.** A task that a worker is running is counted as ready for execution: its entry stays in the stream until it is finished, and XLEN counts it (worker.py:1304).
* `C96_violated_draining`: **Disagreement.** When a worker leaves its loop it undoes the setups first and then waits for the tasks that are still running (worker.py:737, 830-840), which go on without them.
* `C96_violated_reconnect`: **Disagreement.** The setups are entered again each time the worker loses its connection and begins its loop anew (worker.py:544-568, 745-748), so more than once in its lifetime, against worker.py:577-578.
* `C96_violated_registered_later`: **Disagreement.** The classes are collected once, when the loop begins (worker.py:745): a task that is registered later runs without the setup of its dependencies.
* `C97_violated_cluster_options`: **Disagreement.** In a cluster, that connection has none of the options of the query string: the certificates that commands are checked against are not used for the messages.
* `C97_violated_cluster_password`: **Disagreement.** In a cluster, the connection that events are listened for and published over is given the user name and password as they stand in the URL, with their escapes: with the password `p@ss`, written `p%40ss`, commands are signed in properly and messages with the wrong password.
* `C97_violated_ssl_option`: **Disagreement.** With a Sentinel URL, the option `ssl` switches TLS on for the master whatever its value is, `false` included, and leaves it off for the Sentinel daemons.
* `C98_violated_cancelled`: **Disagreement.** A task waiting for a slot can wait for ever when the task that was woken before it is cancelled before a worker takes it up: the slot it was woken for stays free, but the backstops of the waiting tasks ran while the previous holder was still busy, and nobody else wakes them (`C98_deserted_waits_forever`).
* `C98_violated_failing`: **Disagreement.** The same when the task that was woken fails before it asks for its slot, for example because another of its dependencies fails.
* `C98_violated_own_slot`: **Disagreement.** A task whose worker crashed can be redelivered while the slot it held itself is not stale yet (the slot is renewed on another beat than the message). It then waits for its own slot; if its new worker crashes before the backstop is scheduled, it and every task waiting in front of it wait for ever.
* `C98_violated_struck`: **Disagreement.** The same when the task that was woken is struck.
* `C99_violated_alone`: **Disagreement.** A task that is alone, under a cooldown and a debounce: the debounce tells it to come back after a second, and then the cooldown, whose window its own first delivery has used up, drops it. It never runs.
* `C99_violated_for_nothing`: **Disagreement.** A cooldown drops a task on account of one that never ran: `b` is told by the rate limit to come back, and has used the cooldown's window up, so `c`, which comes when the rate limit has a place again, is dropped, and so is `b` when it comes back.
* `C99_violated_nothing_ever_runs`: C99, a cooldown and a debounce. Under a cooldown, declared first, and a debounce that together with the worker brings every task back within the cooldown's window, no task ever runs: each is told by the debounce to come back, and dropped by the cooldown when it does.
* `C99_violated_second_attempt`: **Disagreement.** A task under a cooldown, or under a rate limit that drops: it runs, fails and is retried, or its worker dies and it is redelivered. Its own first attempt is held against it, and the second is dropped.
* `C99_violated_woken_up`: **Disagreement.** A task under a cooldown and a concurrency limit: it finds no slot and waits; when it is woken up for the slot that was handed to it, the cooldown drops it, although no task has been started in the meantime.
