{"id": "C01", "title": "An accepted task is never lost", "statement": "If add(), replace(), a retry or a reschedule accepted a task under a key, and the key's execution record still says scheduled, queued or running and carries no expiry countdown, then the task's message for the current scheduling is still held by Redis: either waiting in the schedule with its payload or present in the work stream. No worker crash, scheduler tick, redelivery, lease renewal, stale completion or operation on another key removes it.", "quantifier": "every finite history of API calls, worker steps, scheduler ticks, clock advances and worker crashes at any point, every key; tasks without a concurrency limit (C31, C32 and C59 treat those)", "why_tests_cant": "A crash can fall between any two Redis commands of any number of workers; tests exercise a handful of interleavings.", "anchors": ["src/docket/execution.py: _schedule, _claim, _terminal", "src/docket/docket.py: _cancel_task, Docket.clear", "src/docket/worker.py: _stream_due_tasks, Worker._worker_loop"]}
{"id": "C02", "title": "A live task can always still be started", "statement": "From every reachable state, whatever workers have crashed, a task that is live (record says scheduled, queued or running, no expiry countdown) can be started by one healthy worker that merely waits, runs the scheduler and polls: there is a continuation after which the worker has started exactly the current scheduling of that key.", "quantifier": "every reachable state and every live key in it; tasks without a concurrency limit (C31, C32 and C59 treat those)", "why_tests_cant": "Needs a recovery argument from every reachable state, including those left by arbitrary crashes.", "anchors": ["src/docket/worker.py: Worker._worker_loop (get_redeliveries, get_new_deliveries), Worker._scheduler_loop, Worker._execute", "src/docket/execution.py: _claim"]}
{"id": "C03", "title": "A task never becomes deliverable before its time", "statement": "Every message in the work stream, and every task a worker holds or has started, has a `when` that is not later than the current time.", "quantifier": "every history with a clock that does not run backwards, all keys and times, including decisions taken on a clock reading older than the write", "why_tests_cant": "The property is about all orders of scheduling calls, scheduler ticks and clock readings.", "anchors": ["src/docket/execution.py: Execution.schedule (is_immediate), _schedule", "src/docket/worker.py: _stream_due_tasks"]}
{"id": "C04", "title": "A scheduler tick moves exactly the due tasks, intact and in order", "statement": "One scheduler tick at time t moves to the stream every parked task whose time is at most t and no other; each moved message keeps its key, when, function, args, kwargs, attempt and generation; moved messages are appended after everything already in the stream in order of due time; the reported counts are the number scheduled before the tick and the number moved.", "quantifier": "every schedule contents and every t", "why_tests_cant": "Quantifies over all sets of scheduled tasks and all times, including ties and boundary equality.", "anchors": ["src/docket/worker.py: _stream_due_tasks"]}
{"id": "C05", "title": "add() is a no-op for a key that is already scheduled or running", "statement": "If a live task exists under a key, add() with that key reports ALREADY_SCHEDULED and changes nothing at all; if the key has no pending or running task, add() reports SCHEDULED.", "quantifier": "every reachable state, every key, payload and time; tasks without a concurrency limit (C31, C32 and C59 treat those)", "why_tests_cant": "Idempotent enqueue must hold after every history, not only right after the first add().", "anchors": ["src/docket/docket.py: Docket.add", "src/docket/execution.py: _schedule (non-replace branch), Execution.schedule"]}
{"id": "C06", "title": "At most one current task per key", "statement": "While the execution record of a key survives, at most one message anywhere (schedule or stream) carries the key's current generation, so there is never more than one future task scheduled under one key; every other message of that key is older and can never be started.", "quantifier": "every history in which the key's record is not deleted or expired; every key; tasks without a concurrency limit (C31, C32 and C59 treat those)", "why_tests_cant": "Duplicates would only show up under particular interleavings of replace, retry, scheduler and redelivery.", "anchors": ["src/docket/execution.py: _schedule, _claim", "src/docket/worker.py: _stream_due_tasks", "docs/getting-started.md:70"]}
{"id": "C07", "title": "After replace() returns, no older version of the task is started", "statement": "Once replace() (or any later scheduling) has been accepted for a key, every later attempt by any worker to start a message of an earlier scheduling of that key is refused as superseded and the stale message is removed, as long as the key's record survives.", "quantifier": "every state, every history after the replace(), every worker and message; tasks without a concurrency limit (C31, C32 and C59 treat those)", "why_tests_cant": "Stale messages can sit in a worker's memory, in the stream or in the pending list for arbitrarily long.", "anchors": ["src/docket/execution.py: _schedule (replace branch), _claim", "src/docket/worker.py: Worker._execute"]}
{"id": "C08", "title": "replace() is not overridden by a retry of the version it replaced", "statement": "If replace() is accepted while an older version of the task is running, then a later retry or admission reschedule of that older version must not displace the replacement.", "quantifier": "every history in which the older execution retries or is rescheduled after the replace()", "why_tests_cant": "The race needs a particular order between replace() and the failure handling of a running task.", "anchors": ["src/docket/execution.py: _schedule (reschedule branch)", "src/docket/dependencies/_retry.py: Retry.handle_failure", "src/docket/worker.py: process_completed_tasks"]}
{"id": "C09", "title": "A stale completion never disturbs its successor", "statement": "When an execution whose key has since been rescheduled finishes in any way, the successor's record, schedule entry, stream message and progress are unchanged; only the stale execution's own stream message is removed.", "quantifier": "every state in which the finishing execution is of an older generation, every outcome", "why_tests_cant": "Depends on arbitrary interleavings between a running task and scheduling calls.", "anchors": ["src/docket/execution.py: _terminal, Execution._mark_as_terminal"]}
{"id": "C10", "title": "Every message is handed to one worker unless its lease lapses", "statement": "A stream message is handed out as a new delivery at most once in its life; any further hand-out is a redelivery that happens only when at least redelivery_timeout has passed since its last delivery or renewal.", "quantifier": "every history with any number of workers and any batch sizes", "why_tests_cant": "Exclusive hand-out must hold across all interleavings of polling workers.", "anchors": ["src/docket/worker.py: get_new_deliveries, get_redeliveries, Worker._renew_leases"]}
{"id": "C11", "title": "Renewing a lease in time prevents redelivery", "statement": "If, between two moments, a holder renews its message at gaps shorter than redelivery_timeout, then no other worker obtains that message by redelivery in between.", "quantifier": "every history whose renewal gaps for that message stay below the timeout", "why_tests_cant": "Timing property over all interleavings.", "anchors": ["src/docket/worker.py: Worker._renew_leases, get_redeliveries"]}
{"id": "C12", "title": "A finished execution's message is gone for good", "statement": "After a worker marks an execution completed, failed or cancelled, or reschedules it, or is refused as superseded, its stream message is neither in the stream nor pending, and no later poll or redelivery of any worker ever returns it again.", "quantifier": "every reachable state, every outcome and every continuation", "why_tests_cant": "Needs that message ids are never reused and acknowledged messages never come back, over unbounded continuations.", "anchors": ["src/docket/execution.py: _terminal, _claim, _schedule (reschedule branch)"]}
{"id": "C13", "title": "cancel() of a task that has not been handed to a worker prevents it from running", "statement": "If cancel(key) is called while the task is waiting in the schedule or in the stream and no worker holds it, then no worker ever starts that scheduling of the task.", "quantifier": "every reachable state with the task waiting, every continuation without a new add/replace of the key", "why_tests_cant": "Depends on how the task reached its waiting state (direct, or moved by the scheduler), and on all continuations.", "anchors": ["src/docket/docket.py: _cancel_task, Docket.cancel", "src/docket/worker.py: _stream_due_tasks", "docs/getting-started.md:129"]}
{"id": "C14", "title": "cancel() records the cancellation without rewriting a finished outcome", "statement": "After cancel(key), a record that was completed, failed or cancelled keeps its state; every other key's record reads cancelled and nothing of the task remains in the schedule; calling cancel() again changes no observable state.", "quantifier": "every state and key", "why_tests_cant": "Quantifies over all records and locations a task can be in.", "anchors": ["src/docket/docket.py: _cancel_task, Docket._cancel"]}
{"id": "C15", "title": "clear() empties the docket and leaves its keys usable", "statement": "clear() returns the number of stream messages plus scheduled tasks, leaves no stream message and no scheduled task, so that no worker can be handed any of them later, and a following add() of a cleared key is accepted.", "quantifier": "every reachable state", "why_tests_cant": "Quantifies over everything that can be in the stream and the schedule.", "anchors": ["src/docket/docket.py: Docket.clear"]}
{"id": "C16", "title": "A scheduled task's record does not expire before the task runs", "statement": "The execution record of a scheduled, queued or running task does not disappear with the passage of time, so that the task is still recognised as current when its time comes.", "quantifier": "every history and every clock advance", "why_tests_cant": "Requires waiting out expiry times in every possible history of the key.", "anchors": ["src/docket/execution.py: _schedule, _terminal (EXPIRE)", "src/docket/docket.py: Docket._cancel"]}
{"id": "C17", "title": "Execution states follow the documented lifecycle", "statement": "The recorded state of a key only changes along the documented transitions; in particular a record reaches completed or failed only from running, and a completed, failed or cancelled record becomes running again only after the key was scheduled again.", "quantifier": "every step from every reachable state", "why_tests_cant": "A universally quantified transition property over all operations and interleavings.", "anchors": ["src/docket/execution.py: ExecutionState, _schedule, _claim, _terminal", "src/docket/docket.py: _cancel_task", "src/docket/worker.py: _stream_due_tasks"]}
{"id": "C18", "title": "A worker runs the function with the arguments that were scheduled", "statement": "Every message a worker is handed equals, in key, when, function, args, kwargs and attempt, the request of the scheduling call that created it, however long it waited and however it travelled.", "quantifier": "every history, every delivered message", "why_tests_cant": "The message can travel through parked hashes, the stream, redeliveries and reschedules in any order.", "anchors": ["src/docket/execution.py: _schedule, Execution.as_message, Execution.from_message", "src/docket/worker.py: _stream_due_tasks"]}
{"id": "C19", "title": "get_result() returns the outcome of the latest run", "statement": "After an execution of a key finishes as current, get_result() for the key gives exactly that run's outcome: its value, None if it returned None, its exception if it failed, or ExecutionCancelled.", "quantifier": "every history of runs under the same key, within the record's and the stored result's lifetime", "why_tests_cant": "Depends on what earlier and superseded runs of the same key left behind.", "anchors": ["src/docket/execution.py: Execution.get_result, _terminal, _schedule", "src/docket/worker.py: Worker._execute"]}
{"id": "C20", "title": "A waiter is always told about completion", "statement": "A caller of subscribe()/get_result() that starts before or after the task finishes always observes a terminal state.", "quantifier": "every interleaving of the waiter's read and subscription with the task's state changes", "why_tests_cant": "The window between reading the state and subscribing is a few milliseconds in a test.", "anchors": ["src/docket/execution.py: Execution.subscribe, Execution.get_result"]}
{"id": "C21", "title": "execution_ttl=0 leaves no trace", "statement": "With execution_ttl=0, once a current execution finishes or is cancelled, no record, progress, stream message or stored result for its key remains.", "quantifier": "every reachable state with execution_ttl=0", "why_tests_cant": "Quantifies over all histories leading to the completion.", "anchors": ["src/docket/execution.py: _terminal", "src/docket/docket.py: Docket._cancel", "src/docket/worker.py: Worker._execute"]}
{"id": "C22", "title": "Progress counts every increment of the current run and is isolated between runs", "statement": "For a current run, the progress counter equals the sum of the increments since the run was claimed, in whatever order concurrent writers issue them; claiming resets it; non-positive increments and totals are rejected without effect; a superseded run finishing never deletes the progress of a newer run.", "quantifier": "every sequence of progress writes, claims and completions", "why_tests_cant": "Sums over arbitrary interleavings of concurrent writers.", "anchors": ["src/docket/_execution_progress.py: ExecutionProgress", "src/docket/execution.py: _claim, _terminal"]}
{"id": "C23", "title": "Operations on one key do not affect another", "statement": "add, replace, retry, claim, completion and cancel for one task key leave the record, schedule entry, stream messages and progress of every other task key unchanged.", "quantifier": "every reachable state, all pairs of distinct keys", "why_tests_cant": "Needs all pairs of keys and all states; message ids stored in records must never point to another key's message.", "anchors": ["src/docket/execution.py: _schedule, _claim, _terminal", "src/docket/docket.py: _cancel_task"]}
{"id": "C24", "title": "Distinct tasks use distinct Redis keys", "statement": "The Redis keys used for different purposes or different task keys of one docket never coincide, for every task key a user may choose.", "quantifier": "all docket names and all task keys", "why_tests_cant": "A universally quantified statement about string formatting.", "anchors": ["src/docket/docket.py: Docket.key, queue_key, stream_key, known_task_key, parked_task_key, stream_id_key, runs_key"]}
{"id": "C25", "title": "All keys of a docket live in one cluster slot", "statement": "On Redis Cluster every key a docket's scripts use hashes to the same slot, for every docket name and task key.", "quantifier": "all docket names, all key suffixes", "why_tests_cant": "Hash-tag extraction depends on braces anywhere in user-chosen names.", "anchors": ["src/docket/_redis.py: prefix", "src/docket/docket.py: Docket.prefix, Docket.key", "src/docket/dependencies/_debounce.py: __aenter__"]}
{"id": "C26", "title": "A task is blocked exactly when an active strike matches it", "statement": "A call is stricken if and only if a strike that was issued and not restored since covers it: a strike on the whole task, on a parameter of that task, or on a parameter of any task, where the operator holds between the call's value and the strike's value.", "quantifier": "every sequence of strike and restore instructions and every call", "why_tests_cant": "Strikes and restores can be issued in any order and any number.", "anchors": ["src/docket/strikelist.py: StrikeList.is_stricken, _matches_task_or_parameter_strike, _strike, _restore"]}
{"id": "C27", "title": "restore() undoes strike()", "statement": "Restoring a strike that was newly added returns the decision for every call to what it was before the strike; restoring a strike that is not there changes nothing.", "quantifier": "every strike list state, every instruction, every call", "why_tests_cant": "All strike list states have to be considered.", "anchors": ["src/docket/strikelist.py: StrikeList._strike, _restore"]}
{"id": "C28", "title": "Every process ends up with the same strikes", "statement": "After a process has read the strike stream to its end, its decisions depend only on the instructions in the stream and their order, not on how the reads were batched or on which instructions it issued itself.", "quantifier": "every stream, every batching, every interleaving of a process's own instructions with its reads", "why_tests_cant": "Arbitrary interleavings of the monitor loop with local updates.", "anchors": ["src/docket/strikelist.py: StrikeList.send_instruction, _read_strikes, _monitor_strikes"]}
{"id": "C29", "title": "Strike instructions survive the wire", "statement": "An instruction decoded from the strike stream is the instruction that was sent.", "quantifier": "all instructions", "why_tests_cant": "All combinations of direction, function, parameter, operator and value.", "anchors": ["src/docket/strikelist.py: StrikeInstruction.as_message, from_message"]}
{"id": "C30", "title": "Strike operators mean what they say, and incomparable values never match", "statement": "Each of ==, !=, >, >=, <, <= and between agrees with the mathematical comparison of the call's value with the strike's value; values that cannot be compared never match an ordering operator.", "quantifier": "all pairs of values and all operators", "why_tests_cant": "All pairs of values.", "anchors": ["src/docket/strikelist.py: StrikeList._is_match"]}
{"id": "C31", "title": "Concurrency limits are never exceeded", "statement": "The number of executions holding a slot of a concurrency limit never exceeds its maximum; an execution that ends gives its own slot back and no other.", "quantifier": "every history of acquisitions, releases, lease renewals, expiries and wake-ups by any number of workers", "why_tests_cant": "Slot accounting under crashes and lease expiry.", "anchors": ["src/docket/dependencies/_concurrency.py: _acquire_or_park, _release_and_wake, _scavenge_and_wake, ConcurrencyLimit._renew_lease_loop"]}
{"id": "C32", "title": "A task waiting for a concurrency slot is never lost and waiters are served in order", "statement": "A task that finds a slot free, or held by a worker that is gone, takes it and runs; one that finds none is parked and stays in the wait list until it is woken or cancelled; releasing or scavenging slots wakes the longest-waiting tasks first, as many as there are free slots, and puts each back in the work stream with its payload and a newer generation, and a cancelled waiter leaves without disturbing the others; slots go to tasks in the order in which they ask.", "quantifier": "every history of acquisitions, releases, scavenges and cancellations", "why_tests_cant": "All interleavings of parking and waking.", "anchors": ["src/docket/dependencies/_concurrency.py: _acquire_or_park, _release_and_wake, _scavenge_and_wake, _cancel_cleanup"]}
{"id": "C33", "title": "A rate limit admits at most `limit` executions per window", "statement": "In every time window of length `per`, at most `limit` executions are admitted for a rate-limit key.", "quantifier": "every sequence of attempts with a clock that does not run backwards", "why_tests_cant": "Any window position and any arrival pattern.", "anchors": ["src/docket/dependencies/_ratelimit.py: _sliding_window, RateLimit.__aenter__, __aexit__"]}
{"id": "C34", "title": "A rate-limited task is told to come back when a slot opens", "statement": "When an attempt is refused, the returned delay is positive, at most `per`, and an attempt made after that delay finds a free slot provided no other attempt was admitted meanwhile; one made earlier is refused again.", "quantifier": "every limiter state and refusal", "why_tests_cant": "All limiter contents and times.", "anchors": ["src/docket/dependencies/_ratelimit.py: _sliding_window"]}
{"id": "C35", "title": "A cooldown admits at most one execution per window", "statement": "Two executions admitted under the same cooldown key are at least `per` apart, and after `per` without an admission the next attempt is admitted.", "quantifier": "every sequence of attempts in time", "why_tests_cant": "Any arrival pattern.", "anchors": ["src/docket/dependencies/_cooldown.py: Cooldown.__aenter__"]}
{"id": "C36", "title": "A debounced task runs once, after things have been quiet", "statement": "An execution proceeds under a debounce key only if no submission was seen for at least `settle`; at most one execution proceeds per settled burst, and a burst that has gone quiet is eventually followed by an execution.", "quantifier": "every sequence of submissions, retries and clock advances", "why_tests_cant": "Any arrival pattern and any order of retries.", "anchors": ["src/docket/dependencies/_debounce.py: _debounce, Debounce.__aenter__"]}
{"id": "C37", "title": "Retry runs a failing task exactly the configured number of times", "statement": "A task that always fails under Retry(attempts=n) is run exactly n times; with attempts=None it is retried after every failure; a task that succeeds is not run again; crashes and redeliveries do not consume attempts.", "quantifier": "every n, every sequence of outcomes", "why_tests_cant": "All n and outcome sequences.", "anchors": ["src/docket/dependencies/_retry.py: Retry.handle_failure"]}
{"id": "C38", "title": "Retry delays are as documented", "statement": "ExponentialRetry waits minimum_delay * 2^(attempt-1), never less than minimum_delay and never more than maximum_delay, and the delays never decrease; Retry.after and Retry.at schedule the retry at the requested moment and never in the past.", "quantifier": "all attempts, minimum and maximum delays", "why_tests_cant": "All attempt numbers and delay settings.", "anchors": ["src/docket/dependencies/_retry.py: ExponentialRetry.__aenter__, Retry.after, Retry.at"]}
{"id": "C39", "title": "Perpetual tasks reschedule themselves at the right time", "statement": "After a run of a Perpetual task, the next run is scheduled under the same key at the requested time, else at max(now, now + every - duration), so that it is never in the past and starts are exactly `every` apart whenever a run takes no longer than `every`; it is not rescheduled if it was cancelled from inside or superseded.", "quantifier": "all durations, intervals and sequences of runs", "why_tests_cant": "All durations and run sequences.", "anchors": ["src/docket/dependencies/_perpetual.py: Perpetual.on_complete", "src/docket/dependencies/_cron.py: Cron.on_complete"]}
{"id": "C40", "title": "A timeout fires exactly when the allotted time is used up", "statement": "A task under Timeout is stopped only when the time since its start reaches the base allowance plus all extensions granted before expiry, and a task that finishes earlier is never reported as timed out: its own outcome is what is reported.", "quantifier": "every finishing time and every sequence of extensions", "why_tests_cant": "Any timing of extensions relative to the deadline.", "anchors": ["src/docket/dependencies/_timeout.py: Timeout"]}
{"id": "C41", "title": "Conflicting single dependencies are always detected", "statement": "Conflict detection reports a problem if and only if two different declared dependencies of a task share a dependency type that may be declared only once.", "quantifier": "every list of declared dependencies over every class hierarchy", "why_tests_cant": "All hierarchies and combinations.", "anchors": ["src/docket/dependencies/_resolution.py: detect_single_conflicts"]}
{"id": "C42", "title": "The task body runs only with all dependencies resolved, and every opened dependency is closed in reverse order", "statement": "The task function is called only if every dependency resolved; an admission refusal takes precedence over other dependency failures; explicitly passed arguments win over declared dependencies; dependencies that were entered are exited exactly once in reverse order whatever the outcome.", "quantifier": "every dependency list, every combination of resolution outcomes", "why_tests_cant": "All combinations of failing and succeeding dependencies.", "anchors": ["src/docket/dependencies/_resolution.py: resolved_dependencies", "src/docket/worker.py: Worker._execute"]}
{"id": "C43", "title": "A worker never runs more tasks than its concurrency", "statement": "The number of tasks a worker has in progress never exceeds its concurrency setting, and it never asks Redis for zero or fewer messages.", "quantifier": "every sequence of loop iterations, poll results and task completions", "why_tests_cant": "Any completion order and any batch sizes.", "anchors": ["src/docket/worker.py: Worker._worker_loop"]}
{"id": "C44", "title": "run_at_most() bounds the executions of each limited key", "statement": "With run_at_most({k: n}) the worker starts task k at most n times and does not limit other keys.", "quantifier": "every n and every sequence of deliveries processed one after the other", "why_tests_cant": "All delivery sequences.", "anchors": ["src/docket/worker.py: Worker.run_at_most, Worker._execute"]}
{"id": "C45", "title": "Script arguments reach the Lua code under the right names", "statement": "For every script signature, each Lua local declared for a parameter receives exactly the encoded value passed for that parameter, and variadic tails start where the script says.", "quantifier": "all signatures and all argument values", "why_tests_cant": "All signatures and argument lists.", "anchors": ["src/docket/_lua.py: redis_script, _generate_preamble, _expand_args, _encode_scalar"]}
{"id": "C46", "title": "An execution survives its message encoding", "statement": "Decoding the message of an execution gives back the same key, time, function name, arguments, attempt and generation.", "quantifier": "all executions", "why_tests_cant": "All field values.", "anchors": ["src/docket/execution.py: Execution.as_message, Execution.from_message"]}
{"id": "C47", "title": "Generated keys are ordered and well-formed", "statement": "Default task keys are valid version-7 UUIDs, and keys generated by one process while its clock does not run backwards sort in generation order, strictly unless more than 16384 fall in one clock step.", "quantifier": "every clock sequence and every random tail", "why_tests_cant": "All clock sequences.", "anchors": ["src/docket/_uuid7.py: uuid7"]}
{"id": "C48", "title": "scatter() spreads tasks evenly inside the window, all or nothing", "statement": "Agenda.scatter schedules every task of the agenda once, in order, at times that start at the beginning of the window (a single task in the middle), are evenly spaced, never precede its start and never exceed its end; if any task name is unknown or the window is not positive nothing is scheduled.", "quantifier": "every agenda, start, window and jitter", "why_tests_cant": "All agenda sizes and windows, including microsecond rounding.", "anchors": ["src/docket/agenda.py: Agenda.scatter"]}
{"id": "C49", "title": "A snapshot accounts for every task exactly once", "statement": "In a snapshot, every stream message appears either as running (if pending with a worker) or as future, every parked task appears as future, nothing appears twice and total_tasks is the number of messages plus scheduled tasks.", "quantifier": "every reachable docket contents", "why_tests_cant": "All contents and sizes.", "anchors": ["src/docket/_docket_snapshot.py: snapshot"]}
{"id": "C50", "title": "Worker listings show exactly the workers with a recent heartbeat", "statement": "Docket.workers() lists a worker if and only if its last heartbeat is less than heartbeat_interval * missed_heartbeats old, and likewise per task, with the time and the tasks of that heartbeat.", "quantifier": "every sequence of heartbeats, departures and queries", "why_tests_cant": "All heartbeat timings.", "anchors": ["src/docket/_docket_snapshot.py: workers, task_workers", "src/docket/worker.py: Worker._heartbeat, Worker._remove_heartbeat"]}
{"id": "C51", "title": "Arguments not marked as Logged never appear in log lines", "statement": "The call representation of an execution depends only on the function name, the key, the number and names of arguments, and the values of parameters annotated Logged.", "quantifier": "all signatures and pairs of calls that differ only in unlogged values", "why_tests_cant": "Non-interference over all values.", "anchors": ["src/docket/execution.py: Execution.call_repr", "src/docket/annotations.py: Logged"]}
{"id": "C52", "title": "Stored results behave like a keyed store with expiry", "statement": "A result read back is the last one put under that collection and key and not yet expired or deleted, for single and batched operations; other collections and keys are unaffected.", "quantifier": "every sequence of store operations and clock advances", "why_tests_cant": "All operation sequences and key pairs.", "anchors": ["src/docket/_result_store.py: ClusterKeyValueStore"]}
{"id": "C53", "title": "Automatic tasks are seeded once and recovered when lost", "statement": "Seeding automatic perpetual tasks never disturbs a live schedule and leaves every automatic task scheduled.", "quantifier": "every docket state and registry of tasks", "why_tests_cant": "All states the key can be in.", "anchors": ["src/docket/worker.py: Worker._schedule_all_automatic_perpetual_tasks, _automatic_perpetual_is_live"]}
{"id": "C54", "title": "Durations on the command line are read correctly", "statement": "CLI durations in seconds, minutes, hours, mm:ss and hh:mm:ss forms denote the expected number of seconds.", "quantifier": "all well-formed inputs", "why_tests_cant": "All digit strings.", "anchors": ["src/docket/cli/_support.py: duration"]}
{"id": "C55", "title": "Cancellation signals reach the running task with that key", "statement": "A cancellation signal for a key interrupts the task of that key running on this worker whenever there is one.", "quantifier": "every sequence of task starts, completions and signals on one worker", "why_tests_cant": "Orders of overlapping executions of one key.", "anchors": ["src/docket/worker.py: Worker._handle_cancellation, start_task, process_completed_tasks"]}
{"id": "C56", "title": "Sentinel URLs are understood", "statement": "Parsing a sentinel URL returns exactly the listed hosts with their ports (default 26379), the service name and the database number, and rejects URLs without host or service name.", "quantifier": "all host lists and service names", "why_tests_cant": "All lists of hosts.", "anchors": ["src/docket/_redis_sentinel.py: parse_sentinel_url"]}
{"id": "C57", "title": "Docket test assertions mean what they say", "statement": "assert_task_scheduled passes exactly when some future task matches every given criterion, and assert_task_not_scheduled exactly when none does.", "quantifier": "all docket contents and all criteria", "why_tests_cant": "All contents.", "anchors": ["src/docket/testing.py: _matches_criteria, assert_task_scheduled, assert_task_not_scheduled"]}
{"id": "C58", "title": "Task statistics add up", "statement": "For each task name, the reported totals equal the numbers of running and queued tasks with that name in the snapshot and the timestamps are the extremes.", "quantifier": "all snapshots", "why_tests_cant": "All snapshot contents.", "anchors": ["src/docket/cli/_support.py: get_task_stats"]}
{"id": "C59", "title": "A task waiting for a concurrency slot still counts as the task of its key", "statement": "While a task waits for a slot of a concurrency limit, cancel() of its key keeps it from ever running, add() with its key is refused, replace() supersedes it and clear() removes it, as for any other scheduled task.", "quantifier": "every history with a concurrency limit, every waiting task and every continuation", "why_tests_cant": "Needs all interleavings of releases, scavenges and cancel subscribers with client calls.", "anchors": ["src/docket/dependencies/_concurrency.py: _acquire_or_park, _release_and_wake, _scavenge_and_wake, _cancel_cleanup", "src/docket/docket.py: Docket.add, Docket.replace, Docket.cancel, Docket.clear"]}
{"id": "C60", "title": "Every execution is settled exactly once", "statement": "Each execution a worker starts ends with exactly one recorded outcome that acknowledges its message: completed, failed, cancelled, rescheduled or retried; none is forgotten and none is recorded twice.", "quantifier": "every combination of dependency, task, handler, storage and exit behaviour", "why_tests_cant": "All combinations of failures in the task, its dependencies' entry and exit, and the handlers.", "anchors": ["src/docket/worker.py: Worker._execute, process_completed_tasks"]}
{"id": "C61", "title": "A limit on a parameter is counted per value of the parameter", "statement": "Cooldown, RateLimit, Debounce and ConcurrencyLimit on a parameter apply an independent limit to each value: two executions of a task share it exactly if the parameter has the same value, however it was passed, and limits of different tasks do not interfere.", "quantifier": "all tasks, parameters, values and ways of passing them", "why_tests_cant": "All values and calling styles.", "anchors": ["src/docket/dependencies/_resolution.py: resolved_dependencies", "src/docket/dependencies/_cooldown.py: Cooldown", "src/docket/dependencies/_ratelimit.py: RateLimit", "src/docket/dependencies/_debounce.py: Debounce", "src/docket/execution.py: Execution.get_argument"]}
{"id": "C62", "title": "A cancellation affects the task it names and nothing else", "statement": "Cancelling a key interrupts at most the task with that key: the worker running it and all other tasks on that worker go on.", "quantifier": "every sequence of task starts, completions and cancellation signals on one worker", "why_tests_cant": "All interleavings of signals with starts and completions.", "anchors": ["src/docket/worker.py: Worker._handle_cancellation, Worker._execute, process_completed_tasks, Worker._worker_loop"]}
{"id": "C63", "title": "A task keeps its name and its function", "statement": "A task scheduled by a registered name keeps that name, and runs the function registered under it, through retries, perpetual re-scheduling and scatter(), so that functions registered under different names are never mixed up.", "quantifier": "every registry, name and sequence of re-schedulings", "why_tests_cant": "All registries with aliases, shadowed names and later registrations.", "anchors": ["src/docket/docket.py: Docket.register, Docket.add, Docket.replace", "src/docket/agenda.py: Agenda.scatter", "src/docket/dependencies/_perpetual.py: Perpetual.on_complete", "src/docket/execution.py: Execution.from_message"]}
{"id": "C64", "title": "Dockets with different names share nothing", "statement": "Two dockets with different names on the same Redis server never read or write each other's keys or channels, whatever their task keys, worker names, function names and argument values.", "quantifier": "all pairs of docket names, all task keys, worker names, function names, argument values and scopes", "why_tests_cant": "All names and keys.", "anchors": ["src/docket/docket.py: Docket.prefix, Docket.key", "src/docket/_redis.py: RedisConnection.prefix", "src/docket/dependencies/_concurrency.py: ConcurrencyLimit", "src/docket/_result_store.py: ClusterKeyValueStore"]}
{"id": "C65", "title": "A cancellation signal reaches the workers of its docket and no others", "statement": "When a running task is cancelled, every worker of the docket receives the signal, whatever the docket's name and the task's key, and no worker of another docket does.", "quantifier": "all docket names and task keys", "why_tests_cant": "All names and keys, including those with characters that mean something in a Redis pattern.", "anchors": ["src/docket/worker.py: Worker._cancellation_listener", "src/docket/docket.py: Docket.cancel, Docket.cancel_channel", "src/docket/dependencies/_concurrency.py: ConcurrencyLimit._cancel_subscriber"]}
{"id": "C66", "title": "Nothing of a finished task is left after execution_ttl", "statement": "Once the last execution of a key has ended, or the key was cancelled, and nothing more is done under the key, then after execution_ttl no record, result, progress, schedule entry or message of it is left.", "quantifier": "every reachable state, every way of ending, every continuation under other keys and every passage of time", "why_tests_cant": "All histories of other keys, schedulers, clears and crashes in between, and every point at which a client dies.", "anchors": ["src/docket/execution.py: _terminal, Execution._mark_as_terminal", "src/docket/docket.py: Docket._cancel, Docket.clear", "src/docket/worker.py: _stream_due_tasks, Worker._execute", "src/docket/_execution_progress.py: ExecutionProgress.increment"]}
{"id": "C67", "title": "Due tasks are handed out in the order in which they were queued", "statement": "Over all workers together, messages are handed out for the first time in the order in which they entered the queue: a task queued later is never handed to a worker while an earlier one is still waiting for its first worker.", "quantifier": "every history, any number of workers and any batch sizes", "why_tests_cant": "All interleavings of additions, scheduler moves, cancellations and polls.", "anchors": ["src/docket/worker.py: Worker._worker_loop (get_new_deliveries), _stream_due_tasks", "src/docket/execution.py: _schedule"]}
{"id": "C68", "title": "One message cannot keep the others from being processed", "statement": "Whatever one message holds, the workers go on to deal with the others: every message that a worker can decode, log and execute is dealt with after finitely many worker lives, also if other messages in the queue cannot be decoded or end a worker with an error.", "quantifier": "every queue, worker concurrency and number of worker lives; every way an execution can end", "why_tests_cant": "All queues and positions of the offending message, and the behaviour over any number of restarts.", "anchors": ["src/docket/worker.py: Worker._worker_loop (start_task, process_completed_tasks), Worker._execute", "src/docket/execution.py: Execution.from_message, Execution.call_repr", "src/docket/annotations.py: Annotation.annotated_parameters"]}
{"id": "C69", "title": "docket watch stays until the task has ended", "statement": "`docket watch KEY` shows the state the task has and returns only when the task has ended, however long the task runs and however seldom it reports anything.", "quantifier": "every course of the task: all times and orders of published events, all moments at which the command starts and subscribes", "why_tests_cant": "All timings of events against the polling interval.", "anchors": ["src/docket/cli/_support.py: iterate_with_timeout", "src/docket/cli/__init__.py: watch", "src/docket/execution.py: Execution.subscribe, Execution.sync"]}
{"id": "C70", "title": "A strike on the command line strikes the value that was written", "statement": "`docket strike` and `docket restore` issue exactly the instruction that was written: the named task and parameter (a star standing for all), the operator, and the value, as text or converted by the type written in front of it.", "quantifier": "all task and parameter names, operators and values", "why_tests_cant": "All texts, including those that contain the separators of the notation.", "anchors": ["src/docket/cli/_support.py: interpret_python_value, handle_strike_wildcard", "src/docket/cli/__init__.py: strike, restore"]}
{"id": "C71", "title": "No accepted task waits forever for a worker", "statement": "As long as workers go on asking for work and running the scheduler, every accepted task is handed to a worker: at the latest when workers have asked once more often than there were messages waiting in front of it. If the workers then live to start what they receive, the task is started. Only scheduling the key again, cancelling it or clearing the docket can change that.", "quantifier": "every endless history with any number of workers, crashes and other tasks in which workers keep asking for work and running the scheduler; every finite continuation", "why_tests_cant": "Liveness over endless schedules; all interleavings with other tasks, retries, redeliveries and cancellations.", "anchors": ["src/docket/worker.py: Worker._worker_loop (get_new_deliveries), _stream_due_tasks", "src/docket/execution.py: _schedule, _claim, _terminal"]}
{"id": "C72", "title": "A key's task does not run twice at the same time", "statement": "At no moment are two executions of the same key running: a task that has been started for a key has ended before another one of that key starts.", "quantifier": "every reachable state; any number of workers, crashes, retries, redeliveries and client calls", "why_tests_cant": "All interleavings of additions, replacements, cancellations, lapsed leases, expiring records and worker crashes.", "anchors": ["src/docket/execution.py: _schedule, _claim, _terminal", "src/docket/worker.py: Worker._worker_loop (start_task), Worker._execute", "src/docket/docket.py: Docket.add, Docket.replace, Docket.cancel, Docket.clear"]}
{"id": "C73", "title": "run_until_finished() returns when, and only when, nothing is left to do", "statement": "When run_until_finished() returns by itself, there was a moment, after which the worker took no more work, at which nothing was waiting or scheduled for later, every accepted task had ended or been cancelled, by whichever worker, and no task was running. And once nothing is left, it does return.", "quantifier": "every earlier history of the docket and every interleaving of the worker's loop with clients, its own tasks, other workers, the scheduler, crashes and lost connections", "why_tests_cant": "The decision rests on one look at Redis while everybody else goes on; all interleavings around that look matter.", "anchors": ["src/docket/worker.py: Worker.run_until_finished, Worker._run, Worker._worker_loop (check_for_work, process_completed_tasks)", "src/docket/execution.py: _schedule, _claim, _terminal"]}
{"id": "C74", "title": "A dependency that asks for a task argument gets the value the task gets", "statement": "A TaskArgument in a dependency function, at any depth, is the value that the task's own parameter of that name (the name written, or else the name of the parameter it stands at) has when the task runs; an optional one is None only if the task has no such argument. Asking for an argument the task has never keeps the task from running.", "quantifier": "every signature, call (by position, by keyword, *args, **kwargs), tree of dependency functions, and history of other executions in the same process", "why_tests_cant": "All signatures, calls and dependency trees, and the marks earlier or concurrent executions leave in shared objects.", "anchors": ["src/docket/execution.py: Execution.get_argument", "src/docket/dependencies/_contextual.py: TaskArgument", "src/docket/dependencies/_functional.py: _Depends._resolve_parameters", "src/docket/dependencies/_resolution.py: resolved_dependencies"]}
{"id": "C75", "title": "get_execution() describes the task last accepted under the key", "statement": "get_execution(key) returns an execution exactly when the key has a record, and what it returns is the task last accepted under that key: its function, arguments, time and attempt, the state it is in, who runs it since when, how and when it ended, and nothing left over from an earlier task of the same key.", "quantifier": "every history of calls, workers, retries, crashes and expiring records; anything happening between the two reads of the call", "why_tests_cant": "All histories that reuse a key, and all interleavings around the two reads.", "anchors": ["src/docket/docket.py: Docket.get_execution", "src/docket/execution.py: Execution.sync, _schedule, _claim, _terminal", "src/docket/worker.py: _stream_due_tasks"]}
{"id": "C76", "title": "Strikes that stand when a process opens the docket bind it from its first decision", "statement": "When wait_for_strikes_loaded() returns, every instruction issued before the process opened the docket has been applied, in order; the wait does end; no instruction is skipped or applied twice, whatever connection errors occur; and no struck task is run by a worker or accepted by docket.add, not even as the first thing the process does. A strike binds the process that issued it as soon as strike() returns.", "quantifier": "every stream of instructions of any length, every interleaving of reading it with new instructions, connection errors, the start of the worker, deliveries and calls of docket.add", "why_tests_cant": "Races between loading the strikes and the first tasks; streams of any length; entries a process cannot decode.", "anchors": ["src/docket/strikelist.py: StrikeList._monitor_strikes, _read_strikes, wait_for_strikes_loaded, send_instruction", "src/docket/worker.py: Worker._worker_loop, _schedule_all_automatic_perpetual_tasks, _execute", "src/docket/docket.py: Docket.add"]}
{"id": "C77", "title": "The reported number of strikes in effect is the number of strikes in effect", "statement": "Once a process has read all instructions, the metric docket_strikes_in_effect of the process is the number of strikes that are in effect.", "quantifier": "every stream of strike and restore instructions and every way of reading it", "why_tests_cant": "All sequences of repeated, unknown and unusable instructions, and re-reads after errors.", "anchors": ["src/docket/strikelist.py: StrikeList._read_strikes", "src/docket/instrumentation.py: STRIKES_IN_EFFECT"]}
{"id": "C78", "title": "A follower of a task sees exactly the states it goes through", "statement": "Whoever follows a task with Execution.subscribe() is shown the state it is in and then every state it goes through, in order, none left out and none that the task did not have; the last one shown is the state the task is in.", "quantifier": "every history before and while the task is followed: retries, replacements, cancellations, other tasks, expiring records; every moment at which the subscription becomes live", "why_tests_cant": "All interleavings of the follower's first look and its subscription with whatever happens to the task.", "anchors": ["src/docket/execution.py: Execution.subscribe, Execution.sync, _schedule, _claim, _terminal", "src/docket/worker.py: _stream_due_tasks", "src/docket/docket.py: _cancel_task"]}
{"id": "C79", "title": "get_result() returns only once the task has ended, and with its outcome", "statement": "When get_result() returns or raises, the task had ended at some moment since the call, and the answer is the outcome it had then: the value it returned, the exception it raised, or that it was cancelled. It does return once the task has ended while it waited.", "quantifier": "every history before and during the call; any delay between being woken, reading the record and fetching the result", "why_tests_cant": "The call reads the record, subscribes, reads the record again and fetches the result at four different moments; all interleavings with the task, its replacements and expiry matter.", "anchors": ["src/docket/execution.py: Execution.get_result, Execution.subscribe, Execution.sync, _terminal", "src/docket/worker.py: Worker._execute"]}
{"id": "C80", "title": "A task is not given to anybody else while the worker that runs it is alive", "statement": "While a worker that is alive works on a task, no other worker is given the task, however long it takes.", "quantifier": "every history of the docket before and after the worker opened its session, every number of tasks and workers, every way in which renewals are late or fail within the allowance, restarts of the session", "why_tests_cant": "Depends on the interleaving of the renewal loop with every poll of every other worker, on delays, on failed renewals and on when the worker is told to stop.", "anchors": ["src/docket/worker.py: Worker._renew_leases, Worker._worker_loop (get_redeliveries, finally), Worker._run"]}
{"id": "C81", "title": "What a task reports about its progress is recorded for that task", "statement": "What the body of a running task reports through its Progress (a total, a message, an increment) is recorded as the progress of that task, and the progress of no other task changes.", "quantifier": "every history of tasks, workers and processes; any number of executions of the same or of other functions in progress in the same process; every report", "why_tests_cant": "Where a report goes depends on which executions entered the dependency before and meanwhile, in every interleaving.", "anchors": ["src/docket/dependencies/_progress.py: Progress", "src/docket/_execution_progress.py: ExecutionProgress", "src/docket/execution.py: Execution.claim", "src/docket/worker.py: Worker._execute"]}
{"id": "C82", "title": "What a progress event and the Progress object say is what the record says", "statement": "While a task runs and none of its calls is under way, what its body reads back from its Progress, and the last progress event published about it, say what a reader of the task's progress is told.", "quantifier": "every history, every sequence of reports and answers, other tasks in progress, cancellations and replacements while the task runs", "why_tests_cant": "The object keeps a copy of the record that is updated when answers arrive; whether the copies agree depends on every interleaving of calls, answers and other clients.", "anchors": ["src/docket/_execution_progress.py: ExecutionProgress.set_total, ExecutionProgress.increment, ExecutionProgress.set_message, ExecutionProgress.sync", "src/docket/execution.py: _claim", "src/docket/docket.py: _cancel_task"]}
{"id": "C83", "title": "An automatic Cron task is always scheduled for the next matching time", "statement": "Whenever an automatic Cron task is scheduled (when a worker starts, when a lost task is sown again, when a run ends), it is for the first time after that moment that matches its expression; and it is never scheduled or run for a time that does not match.", "quantifier": "every schedule of matching times; every history of imports, seedings, strikes, runs, crashes and other operations on the docket, with any number of processes; every duration of a run", "why_tests_cant": "The times come from iterators whose positions depend on when modules were imported, how often seeding found the task missing and when runs began, in every interleaving.", "anchors": ["src/docket/dependencies/_cron.py: Cron.__init__, Cron.__aenter__, Cron.next_time, Cron.initial_when, Cron.on_complete", "src/docket/worker.py: Worker._schedule_all_automatic_perpetual_tasks, Worker._automatic_perpetual_is_live", "src/docket/dependencies/_perpetual.py: Perpetual.on_complete"]}
{"id": "C84", "title": "A Cron task is scheduled at most once for each matching time", "statement": "If nobody else schedules anything under its name, an automatic Cron task is never scheduled twice for the same matching time: each scheduling is for a later time than those before.", "quantifier": "every schedule of matching times; every history with any number of processes and workers, redeliveries and lost runs", "why_tests_cant": "Two executions of the same run, several processes that seed, and records that get lost can each repeat a time; all interleavings matter.", "anchors": ["src/docket/dependencies/_cron.py: Cron", "src/docket/worker.py: Worker._schedule_all_automatic_perpetual_tasks", "src/docket/dependencies/_perpetual.py: Perpetual.on_complete", "src/docket/execution.py: Execution.is_superseded"]}
{"id": "C85", "title": "A worker that is told to stop lets the tasks it has begun finish", "statement": "When a worker is told to stop (its context is left, or it gets SIGTERM), every task it has begun runs to its end before the run of the worker ends; none is interrupted, and each is settled: completed, failed, scheduled again, or dropped as its own outcome demands.", "quantifier": "every history of the docket before; every moment of the stop or the signal, every order in which the tasks end and every way in which they end, every exception of Redis and every number of lost connections", "why_tests_cant": "What the shutdown does depends on the exact await at which it arrives and on what the tasks and Redis do meanwhile; there are unboundedly many such interleavings.", "anchors": ["src/docket/worker.py: Worker.__aexit__, Worker.run, Worker._run, Worker._worker_loop"]}
{"id": "C86", "title": "A worker that is told to stop begins no more tasks and returns", "statement": "After it was told to stop, a worker begins no further task, and once its tasks have ended its run ends after a bounded number of steps.", "quantifier": "every history of the docket before; every moment of the stop or the signal and everything that may happen afterwards", "why_tests_cant": "It is a bound on every continuation of every execution, including lost connections during the shutdown.", "anchors": ["src/docket/worker.py: Worker.__aexit__, Worker.run, Worker._run, Worker._worker_loop"]}
{"id": "C87", "title": "The worker's counters of tasks add up", "statement": "At every moment, whatever tasks a worker runs at once, however they interleave and wherever they are interrupted: docket_tasks_running is the number of tasks the worker has started on and is not done with (never negative, 0 when idle), and docket_tasks_started = docket_tasks_completed + docket_tasks_running. A task is counted exactly once: as stricken, or superseded, or started. It is counted as succeeded exactly if its function returned, never twice, and succeeded/failed agree with what the task's record says.", "quantifier": "all sets of concurrent executions, all their interleavings, all dependencies, handlers, results and exceptions, interruptions at every await", "why_tests_cant": "the gauge is the sum of up and down counts in different code paths (try/except/finally); a test runs a few paths, not every combination of failures and interruptions", "anchors": [["src/docket/worker.py", "Worker._execute"], ["src/docket/worker.py", "Worker._worker_loop"], ["src/docket/instrumentation.py", "TASKS_RUNNING"]]}
{"id": "C88", "title": "What add, replace and schedule report is what happened", "statement": "The execution returned by add, replace or schedule(execution) says SCHEDULED only if exactly that task was put on the docket by this call (and its state is then the recorded one), ALREADY_SCHEDULED only if the call changed nothing, STRUCK exactly if a strike matched and then nothing changed; replace never says ALREADY_SCHEDULED. docket_tasks_scheduled is the number of tasks accepted through the docket, and docket_tasks_added, _replaced, _cancelled and _stricken count tasks that were added, replaced, cancelled and struck.", "quantifier": "all docket states, keys, requests, times, and all histories of calls with steps of workers and other processes in between", "why_tests_cant": "the answer depends on the state other processes left behind; tests exercise single calls on small dockets and do not compare the counters with the history", "anchors": [["src/docket/docket.py", "Docket.add"], ["src/docket/docket.py", "Docket.replace"], ["src/docket/docket.py", "Docket.schedule"], ["src/docket/docket.py", "Docket.cancel"], ["src/docket/execution.py", "Execution.schedule"], ["src/docket/execution.py", "Disposition"]]}
{"id": "C89", "title": "A docket needs no setup", "statement": "A docket needs no preparation. Tasks can be added before any worker has ever run, and workers and snapshots may be the first to use it, several of them at once. A read that finds the docket unprepared prepares it and is answered; no process is ended by an error about it; and whoever prepares it and whenever, the docket is in the state it would be in had it been prepared from the beginning: the first worker gets the tasks added before it, oldest first, none is skipped and none is handed out twice.", "quantifier": "all histories of client calls, worker reads and snapshots, all numbers of processes starting at the same time, all interleavings of their commands", "why_tests_cant": "The tests start one worker on an unused docket; the races between several processes that all find the group missing are not tried, nor what is already on the stream when the group is made.", "anchors": ["src/docket/docket.py:_ensure_stream_and_group", "src/docket/worker.py:_worker_loop", "src/docket/_docket_snapshot.py:snapshot"]}
{"id": "C90", "title": "A task is handed to a worker in time", "statement": "A task with a time in the future is handed to a worker soon after that time, and a task whose time has come soon after it is added. Precisely: if some worker's scheduler is woken at most `late` after it should be, its calls take at most `lag` and at most `n` of them in a row fail, what is due is moved at least every (n+1)(scheduling_resolution + 2 late + lag); and if a worker with free slots asks for tasks at least every D, the task is handed out at most that long plus lag plus D after its time, whatever else happens on the docket (unless its key is scheduled again, cancelled or cleared). A failed scheduler call does not end the loop. With a backlog of at most B tasks and workers asking for one at a time the last part is B times D.", "quantifier": "all histories of all processes, all delays and failures within the stated bounds, all numbers of tasks", "why_tests_cant": "Tests check that a task scheduled a few milliseconds ahead runs; a bound that holds for every interleaving with other tasks, schedulers and failures is not something they can show.", "anchors": ["src/docket/worker.py:_scheduler_loop", "src/docket/worker.py:_stream_due_tasks", "src/docket/worker.py:_worker_loop"]}
{"id": "C91", "title": "A scrape of the metrics endpoint tells what was measured", "statement": "A scrape of the metrics endpoint is told every data point of every metric that was measured for it exactly once: with the metric's cleaned name, its description and unit, one label for each attribute, and its value, as a counter, a gauge (for sums that may go down) or a histogram. The buckets of a histogram are running totals that end at +Inf with the number of all values. No two families of a scrape are alike. The description of the target comes first, and nothing is told that was not measured. A scrape ends and does not fail.", "quantifier": "all measurements (metrics, names, descriptions, units, attributes, values), all histories of scrapes, overlapping or not", "why_tests_cant": "Tests scrape once and look for a few names; that no data point is lost, doubled or put under another metric's labels is a statement about all names and attributes (the families are found by a text put together from them) and about all interleavings of scrapes, which run in threads.", "anchors": ["src/docket/_prometheus_exporter.py:_CustomCollector", "src/docket/_prometheus_exporter.py:sanitize_full_name", "src/docket/_prometheus_exporter.py:_convert_buckets", "src/docket/instrumentation.py:metrics_server"]}
{"id": "C92", "title": "In-memory dockets are shared within a loop and nowhere else", "statement": "With a memory:// URL, all dockets and workers that connect to the same URL in the same event loop use one server, also when none was connected in between, so what was scheduled is still there; connections to different URLs or in different event loops (threads, test cases) never share a server, not even when an event loop is gone and a new one is at the same address. A server is not closed while the loop it was made for is open, none is given out after it is closed and none is closed twice; what belongs to closed loops is closed at the next connection. The exception is an explicit clear_memory_servers().", "quantifier": "all histories of event loops coming and going in any number of threads, with connections entered, left and interleaved at every await, and all reuses of addresses", "why_tests_cant": "Tests open a few connections in one or two loops; the cache is keyed by id(loop), which Python reuses, so whether another loop's server can be handed out depends on when objects are freed and cannot be provoked at will.", "anchors": ["src/docket/_redis.py:RedisConnection._get_or_create_memory_client", "src/docket/_redis.py:_drop_closed_memory_servers", "src/docket/_redis.py:clear_memory_servers"]}
{"id": "C93", "title": "Leaving a docket gives back everything it opened", "statement": "After `async with docket` blocks, one after the other, every connection pool, client and background task the docket opened has been closed, each once and in the opposite order, whatever the blocks raised and whatever failed or was cancelled while closing or entering; the docket can then be entered again. A block ends the way its body ended: an error from closing is logged, not raised. Entering a docket that is in use is refused and makes no difference to it.", "quantifier": "all kinds of URL (cluster, in memory, pool), with or without a result storage of the user's, all sequences of blocks, all outcomes (success, exception, cancellation) of every await while entering and leaving", "why_tests_cant": "Tests enter and leave dockets that work; the property is about every point at which entering or leaving can fail or be cancelled.", "anchors": ["src/docket/docket.py:Docket.__aenter__", "src/docket/docket.py:Docket.__aexit__", "src/docket/_redis.py:RedisConnection.__aenter__", "src/docket/strikelist.py:StrikeList.__aenter__", "src/docket/_result_store.py:ResultStorage.__aenter__", "src/docket/_cancellation.py:cancel_task"]}
{"id": "C94", "title": "A task runs the function it was added with", "statement": "Whatever functions the processes register, under whatever names, and whoever adds, replaces, retries or perpetuates it: a task that a worker finds by name runs the function that the latest accepted add or replace of its key asked for. If every worker registers the same functions under the same names, every task is found, so no worker runs its fallback task instead; a worker of a process that has not registered the name runs its own fallback. get_execution reports a task under the name it was added with.", "quantifier": "all histories of register, register_collection, add and replace (by function or by name) and runs (settled, retried, perpetuated) in any number of processes", "why_tests_cant": "Tests use one process and a handful of functions with different names; the property is about every combination of names, processes and runs.", "anchors": ["src/docket/docket.py:Docket.register", "src/docket/docket.py:Docket.register_collection", "src/docket/docket.py:Docket.add", "src/docket/docket.py:Docket.replace", "src/docket/docket.py:Docket.get_execution", "src/docket/execution.py:Execution.from_message", "src/docket/dependencies/_perpetual.py:Perpetual.on_complete"]}
{"id": "C95", "title": "The depth gauges count the waiting tasks", "statement": "Whatever happened before, the queue depth that a worker's heartbeat reports is the number of tasks ready for immediate execution, and the schedule depth the number of tasks scheduled for the future: no waiting task is missing from the numbers, and none is counted that is finished, replaced or cancelled, or in the wrong gauge.", "quantifier": "all histories of adds, replaces, cancellations, scheduler moves, deliveries, crashes, retries and completions of any number of tasks and workers, and all clock readings of the heartbeat", "why_tests_cant": "Tests look at the gauges after a few tasks; the property is about every state the stream and the schedule can be in, including what replaced, redelivered and rescheduled tasks leave behind.", "anchors": ["src/docket/worker.py:Worker._heartbeat", "src/docket/instrumentation.py:QUEUE_DEPTH", "src/docket/instrumentation.py:SCHEDULE_DEPTH"]}
{"id": "C96", "title": "A dependency's worker-wide setup is in force around the tasks that use it", "statement": "A worker enters the worker_lifecycle setup of every dependency that its registered tasks (as a default or as an annotation) or its own dependencies use, once in its lifetime however many tasks use it, before it takes up any task. The setups are undone in reverse order however the worker's run ends, also when a setup fails, and whenever a task is being run the setups of its dependencies are in force.", "quantifier": "all sets of tasks and dependencies, and all histories of registrations, runs of the loop, failing setups, started and finished tasks, lost connections and stops", "why_tests_cant": "Tests enter one or two hooks in a run that ends normally; the property is about every combination of tasks, failures and ends.", "anchors": ["src/docket/worker.py:Worker._dependency_lifecycle_classes", "src/docket/worker.py:Worker._worker_loop", "src/docket/worker.py:Worker._run", "src/docket/dependencies/_concurrency.py:ConcurrencyLimit.worker_lifecycle"]}
{"id": "C97", "title": "Every connection is told what the URL says", "statement": "A docket signs in to Redis with exactly the user name and password its URL spells, once percent-decoded, whatever characters they have, whether it connects to a server, to a master that Sentinel watches or to a cluster, and whether for commands, results or events; no query parameter of a Sentinel URL stands in for them or for the database of the path. TLS is used if and only if the scheme asks for it. Every connection option of the query string reaches the connections, overriding docket's own values, and means the same for Sentinel as for a server; without one no connection has a read timeout. The Sentinel daemons get sentinel_username and sentinel_password and nothing of the master's, and the master nothing of theirs.", "quantifier": "all user names and passwords (all bytes), all schemes, hosts and paths, all lists of options (for the comparison of Sentinel with a server: every query string), all uses of a connection", "why_tests_cant": "tests use plain credentials and one server; clusters and escapes are excluded from coverage, and decoding, re-encoding and precedence must be right for every text", "anchors": ["src/docket/_redis.py: RedisConnection.__aenter__, _normalized_url, _create_cluster_client, _create_node_pool, _connection_pool_from_url, client, pubsub, publish", "src/docket/_redis_sentinel.py: parse_sentinel_url, sentinel_connection_pool", "src/docket/_result_store.py: ResultStorage.__aenter__"]}
{"id": "C98", "title": "A task waiting for a concurrency slot is not forgotten", "statement": "As long as a task waits for a slot of its concurrency limit, there is something that will give it one: another task of the limit is queued, is being run or is due to be redelivered, and will hand its slot on when it is done, or a backstop is still to come that looks after the waiting ones. When all other tasks have ended, none is left waiting.", "quantifier": "all histories of any number of workers and tasks under a limit, with crashes, redeliveries, renewals, wake-ups, scavenging and backstops interleaved in every way", "why_tests_cant": "Whether a waiting task is picked up depends on which task ends when, and on what its worker was doing when it died; a test waits for a few tasks under a few interleavings.", "anchors": ["src/docket/dependencies/_concurrency.py:_acquire_or_park", "src/docket/dependencies/_concurrency.py:_release_and_wake", "src/docket/dependencies/_concurrency.py:_scavenge_and_wake", "src/docket/dependencies/_concurrency.py:_safeguard_wake", "src/docket/dependencies/_concurrency.py:ConcurrencyLimit.__aenter__"]}
{"id": "C99", "title": "A task is dropped only on account of other tasks", "statement": "A task may be declared with several admission rules: cooldowns, rate limits, debounces and a concurrency limit. It is dropped only on account of another task that was let run, waits or is to come back. That one rule tells it to come back or to wait, that it fails and is retried, or that its worker dies and it is redelivered, does not make another rule (or the same one) drop it; and a task that is turned away takes no other task's place.", "quantifier": "all combinations and orders of rules with all settings, and all histories of deliveries of any number of tasks at any times", "why_tests_cant": "Tests put one rule on a task and deliver it once or twice; the property is about every combination of rules and about what a delivery that came to nothing leaves behind in each of them.", "anchors": ["src/docket/dependencies/_cooldown.py:Cooldown.__aenter__", "src/docket/dependencies/_ratelimit.py:RateLimit", "src/docket/dependencies/_debounce.py:Debounce.__aenter__", "src/docket/dependencies/_concurrency.py:ConcurrencyLimit.__aenter__", "src/docket/dependencies/_resolution.py:resolved_dependencies", "src/docket/worker.py:Worker._execute", "src/docket/worker.py:Worker._worker_loop"]}
{"id": "C100", "title": "An admission rule holds in whatever company", "statement": "Whatever other rules a task is declared with, in whatever order and style (as defaults or as annotations), and whatever they answer: a task under a cooldown starts only if none has started within the window; under a debounce only after a rest of the settling time; under a rate limit at most limit tasks are started within any period, and only tasks that were started take a place; under a concurrency limit only with a slot. A task that another rule turns away gives back its own place and no other's.", "quantifier": "all combinations of rules with all settings, all histories of deliveries, all overlaps of executions within and across processes", "why_tests_cant": "Tests put one rule on a task; with several, what a rule keeps depends on the answers of the others, and rules declared as defaults are one object shared by all executions of a process, so the outcome depends on how they overlap.", "anchors": ["src/docket/dependencies/_ratelimit.py:RateLimit.__aenter__", "src/docket/dependencies/_ratelimit.py:RateLimit.__aexit__", "src/docket/dependencies/_ratelimit.py:RateLimit.bind_to_parameter", "src/docket/dependencies/_cooldown.py:Cooldown.__aenter__", "src/docket/dependencies/_debounce.py:Debounce.__aenter__", "src/docket/dependencies/_resolution.py:resolved_dependencies"]}
{"id": "C101", "title": "Striking a function stops its tasks, and no others", "statement": "After Docket.strike(function), until Docket.restore of it, no task of that function is accepted by add or replace, and none is run by a worker that takes it, whichever way the function or the task was named; a worker that takes one cancels it. No task of any other function is turned away or cancelled on account of it, and once the function is restored its tasks are accepted and run again.", "quantifier": "every sequence of registrations (under any names), additions and replacements by function or by name, strikes and restores by function or by name, and runs in any processes, with settled, retried and perpetuated ends and fallback tasks", "why_tests_cant": "A test strikes a function under its own name; functions also go by names they are registered under, several processes register different functions, and whether a strike meets a task depends on the whole history of names.", "anchors": ["src/docket/docket.py:Docket.strike", "src/docket/docket.py:Docket.restore", "src/docket/docket.py:Docket.register", "src/docket/worker.py:Worker._execute"]}
{"id": "C102", "title": "A policy that is declared is in force", "statement": "A retry, perpetual or timeout policy declared for a task - as a default of one of its parameters, in an annotation, or for all tasks of a worker - applies to the task's runs: if the function fails (or another dependency fails) a declared retry policy decides whether it is tried again, when it has returned or finally failed a declared perpetual policy decides whether it is scheduled again, and a declared timeout runs it. If only one is declared it is that one, and a policy that was not declared, or that the caller replaced by another argument, decides nothing.", "quantifier": "every set of dependencies of the worker, of the parameters and of the annotations, every outcome of resolving them, all arguments passed by the caller, every outcome of the function and every answer of the policies", "why_tests_cant": "A test declares one policy in one place. Policies are looked for among the resolved arguments by type after dependencies of three kinds were entered, overridden by arguments or replaced by failures.", "anchors": ["src/docket/dependencies/_resolution.py:resolved_dependencies", "src/docket/dependencies/_resolution.py:get_single_dependency_of_type", "src/docket/worker.py:Worker._execute"]}
{"id": "C103", "title": "An automatic task does not stay lost", "statement": "While a worker runs that has an automatic perpetual task registered, the task does not stay off the docket: when its chain was severed after startup (its execution was consumed by a worker that does not know it, it was cancelled), it is scheduled again within one interval of the loop that looks for such tasks, apart from the time the loop itself takes and the attempts that fail. What the loop schedules is a first run of the function at the time it declares, and nothing else on the docket is touched, in particular no task that is waiting, queued or running. Once the worker stops the loop begins no other round.", "quantifier": "all registries, all histories of the docket before and between the loop's requests to Redis, all delays of the loop, all failures of requests and refusals of the lock", "why_tests_cant": "A test severs one chain and waits for one round; whether a lost task is found depends on when it is lost between the requests of a round, on what else fails in it, and on what earlier operations left in its record.", "anchors": ["src/docket/worker.py:Worker._reseed_automatic_perpetual_tasks_loop", "src/docket/worker.py:Worker._schedule_all_automatic_perpetual_tasks", "src/docket/worker.py:Worker._automatic_perpetual_is_live"]}
{"id": "C104", "title": "A cancellation is heard", "statement": "A task that runs on a worker when Docket.cancel is called for its key is interrupted, unless it ends before; a task is interrupted only because its own cancellation was asked for, and one cancellation interrupts one task at most. A worker takes no task before it can hear of cancellations, and is able to hear of them again soon after its connection was lost.", "quantifier": "all histories of tasks started and ended, cancellations, lost connections, other errors, delays of the listener and stops", "why_tests_cant": "Whether a signal is heard depends on where the listener is between its calls and on what happens to the connection between publication and reading; a test cancels one task of a worker that is listening.", "anchors": ["src/docket/worker.py:Worker._cancellation_listener", "src/docket/worker.py:Worker._handle_cancellation", "src/docket/worker.py:Worker._worker_loop", "src/docket/docket.py:Docket.cancel"]}
{"id": "C105", "title": "The documented access rules are enough", "statement": "A Redis user who is given exactly the key and channel patterns of the deployment documentation for a docket can do everything the docket, its workers and those who follow its tasks ask of Redis, on a single server and on a cluster, and can do nothing that concerns another docket.", "quantifier": "all docket names, cluster or not, and all task keys, worker names, function names, argument values and scopes", "why_tests_cant": "The tests that run under access control grant other patterns than the documentation, for a fixed list of docket names, and a test only sees the requests it happens to make.", "anchors": ["src/docket/_redis.py:RedisConnection.prefix", "src/docket/docket.py:Docket.key", "src/docket/dependencies/_cooldown.py:Cooldown.__aenter__", "src/docket/dependencies/_ratelimit.py:RateLimit.__aenter__", "src/docket/dependencies/_debounce.py:Debounce.__aenter__", "src/docket/worker.py:Worker._cancellation_listener", "docs/production.md:ACL Configuration"]}
{"id": "C106", "title": "A worker's own dependencies are all in force", "statement": "A worker is created with exactly the dependencies it is given, in a list or under names, none hiding another; it is refused, with the first thing that is wrong named, if one of them is no dependency or a name is reserved; and it calls no task before each of them was entered for that task and gave a value.", "quantifier": "all lists and mappings of things given to a worker, all functions, arguments and outcomes of entering dependencies", "why_tests_cant": "Lists of any length get generated names that have to differ from one another, and every task meets every dependency; tests give one or two.", "anchors": ["src/docket/dependencies/_resolution.py:validate_worker_dependencies", "src/docket/dependencies/_resolution.py:resolved_dependencies", "src/docket/worker.py:Worker.__init__"]}
{"id": "C107", "title": "An announcement says what was meant", "statement": "Every state or progress event that a docket publishes about a task can be read by whoever follows the task, and says the key, the state, the times, the worker, the error, the counts and the message exactly as they were, whatever characters they contain.", "quantifier": "all keys, worker names, error texts, messages, whole numbers and times", "why_tests_cant": "Some events are written by a JSON library and some are put together from pieces inside a script that escapes a fixed list of characters; whether both come back unchanged concerns all texts.", "anchors": ["src/docket/execution.py:Execution.schedule", "src/docket/execution.py:Execution.claim", "src/docket/execution.py:Execution.subscribe", "src/docket/worker.py:_stream_due_tasks", "src/docket/dependencies/_concurrency.py:_release_and_wake", "src/docket/dependencies/_concurrency.py:_scavenge_and_wake", "src/docket/_execution_progress.py:ExecutionProgress._publish"]}
{"id": "C108", "title": "A run is linked to the trace it came from", "statement": "When a task is scheduled from within an OpenTelemetry span, the span of its run is linked to that span, and to no other, whether the task is due at once, is scheduled for later or has to wait for a slot; a task scheduled outside of any span is linked to none; and what is added to the message for this does not disturb the task itself.", "quantifier": "all tasks and times, all spans, all propagators that keep OpenTelemetry's contract, all ways a message takes through the stream, the schedule and the waiting lines", "why_tests_cant": "The fields of a message pass through several scripts, some of which copy all of them and some of which name those they copy; a test follows one message along one way.", "anchors": ["src/docket/execution.py:Execution.schedule", "src/docket/execution.py:Execution.incoming_span_links", "src/docket/worker.py:_stream_due_tasks", "src/docket/dependencies/_concurrency.py:_acquire_or_park", "src/docket/dependencies/_concurrency.py:_release_and_wake", "src/docket/dependencies/_concurrency.py:_scavenge_and_wake", "src/docket/instrumentation.py:MessageGetter", "src/docket/instrumentation.py:MessageSetter"]}
{"id": "C109", "title": "The progress of a running task is not lost under a limit", "statement": "From the moment a run starts, and as long as it is neither over nor cancelled nor superseded, the progress anyone reads for it is the sum of the increments reported since, whatever happens meanwhile to other tasks, to the concurrency limit it runs under, to those waiting in line, and to cancelled tasks, including older ones of the same key.", "quantifier": "all interleavings of docket and limit steps, with cancelled waiters cleaned up at any later time", "why_tests_cant": "The loss needs a clean-up after a cancellation to be handled late, after the same key was added again and started; which interleavings are harmless is a question about all of them.", "anchors": ["src/docket/dependencies/_concurrency.py:ConcurrencyLimit._cancel_subscriber", "src/docket/dependencies/_concurrency.py:_cancel_cleanup", "src/docket/_execution_progress.py:ExecutionProgress"]}
{"id": "C110", "title": "The recorded outcome is the one the task had", "statement": "A task is recorded as completed if and only if its function was called and returned; as failed, or to be run again, only if its function, or something it depends on, raised; as cancelled only if it was cancelled or turned away. A task whose function returned is not run again on account of that run.", "quantifier": "all tasks, dependencies, results, and all behaviours of the function, of the handlers, of leaving the dependencies and of the storage for results", "why_tests_cant": "Which record is made depends on how five independent pieces of user code and a store end, and on the order in which they are asked; tests try a few combinations.", "anchors": ["src/docket/worker.py:Worker._execute", "src/docket/worker.py:Worker._worker_loop", "src/docket/_result_store.py:ResultStorage.put"]}
{"id": "C111", "title": "A task is not started more often than it was asked for", "statement": "In every history the number of times a task of a key is started is at most the number of times one was accepted (by add, replace, a retry or a reschedule) plus the number of times the lease of one lapsed and it was handed out again. So a task that was added once, and whose lease never lapsed, is started at most once; the same holds for each scheduling by itself.", "quantifier": "all histories of adds, replaces, cancellations, clears, scheduler runs, polls, redeliveries, crashes and completions, of any length; for tasks under a concurrency limit (which are parked, and claimed again when woken) the same bound on how often one is given a slot, over all histories that also acquire, renew, release, scavenge and clean up", "why_tests_cant": "A duplicate needs some interleaving in which one acceptance leaves two messages, or one message is read twice; that none exists is a statement about all of them.", "anchors": ["src/docket/execution.py:_schedule", "src/docket/execution.py:_claim", "src/docket/worker.py:_stream_due_tasks", "src/docket/worker.py:Worker._worker_loop"]}
{"id": "C112", "title": "A worker starts whatever tasks it is given", "statement": "When a worker starts it writes one line for each registered task, which shows the parameters a caller gives, in order, with their declared types and defaults, and a single ellipsis for the dependencies. Nothing about how a registered task is declared keeps the worker from starting and serving the others.", "quantifier": "all sets of registered tasks and all signatures: any number of parameters, any annotations, defaults and dependencies", "why_tests_cant": "Annotations come in many forms, and one that is not foreseen stops the worker before it has served any task; tests register a few.", "anchors": ["src/docket/execution.py:compact_signature", "src/docket/worker.py:Worker._startup_log", "src/docket/worker.py:Worker._run"]}
{"id": "C113", "title": "A cancelled task leaves the line", "statement": "When a task that waits for a concurrency slot is cancelled while a worker for such tasks is in its loop, it is soon taken out of the line and its backstop is dropped, so that it does not stand in front of others. No task is taken out of the line in this way that was not cancelled, and one cancellation takes out one task at most.", "quantifier": "all interleavings of tasks coming, being woken and being cancelled with the steps of the worker's subscriber, with connections lost at any point and workers leaving and entering their loops", "why_tests_cant": "Whether a signal is heard depends on what the subscriber was doing when it was sent and on everything that went wrong before; a test sends a signal to a subscriber that is ready.", "anchors": ["src/docket/dependencies/_concurrency.py:ConcurrencyLimit.worker_lifecycle", "src/docket/dependencies/_concurrency.py:ConcurrencyLimit._cancel_subscriber", "src/docket/dependencies/_concurrency.py:ConcurrencyLimit._cleanup_cancelled_waiter"]}
{"id": "C114", "title": "The command line shows what there is", "statement": "`docket snapshot` lists every task of the snapshot exactly once, the running ones first, with its function, key, time, worker and start, whatever the keys are; times within half an hour are shown as a distance and others as they are; the statistics list the functions with the most tasks first. `docket workers` lists every worker once, the one seen last first, with exactly its tasks and the one asked for in bold face.", "quantifier": "all snapshots with any number of tasks and any texts as names and keys, all times and all lists of workers", "why_tests_cant": "Names and keys are arbitrary texts which are put through the markup language of a terminal library; a test prints a few that contain none.", "anchors": ["src/docket/cli/__init__.py:snapshot", "src/docket/cli/_support.py:relative_time", "src/docket/cli/_support.py:print_workers"]}
{"id": "C115", "title": "A worker looks around within its check interval", "statement": "Whatever positive minimum check interval a worker was given, it looks at least once in every such interval whether it was told to stop, whether tasks have ended and whether there is room for more, however messages come; with room it wakes up as soon as a message comes; and running until finished ends within the interval when there is nothing to do.", "quantifier": "all positive intervals, all numbers of rounds with any of them with or without free slots, all times at which messages come or never come, all moments of a request to stop", "why_tests_cant": "The interval is rounded before it is given to Redis, where a zero has another meaning; a test uses one interval, and cannot wait for ever.", "anchors": ["src/docket/worker.py:Worker._worker_loop", "src/docket/worker.py:Worker.run_until_finished"]}
{"id": "C116", "title": "Every execution_ttl works", "statement": "Whatever execution_ttl a docket was given, no task makes an exception end the run of its worker, and a task whose function returned is completed (with its result stored if results are kept) and is neither recorded as failed nor handed to its retries.", "quantifier": "all execution_ttl values down to the microsecond, all tasks with any dependencies, handlers and outcomes whose results can be serialised and whose handlers do not raise", "why_tests_cant": "The value is used in two ways, as given and in whole seconds, and they differ only in a narrow range; a test tries a few values, among them zero.", "anchors": ["src/docket/worker.py:Worker._execute", "src/docket/_result_store.py:ClusterKeyValueStore.put", "src/docket/docket.py:Docket.__init__"]}
{"id": "C117", "title": "What a perpetual task asks for does not stop its worker", "statement": "Whatever the interval of a perpetual task is and whatever it asks of its next run, with at(), after(), perpetuate() or cancel(), the run of its worker goes on. If it asked for a delay or a time and did not cancel, it is scheduled again and this run is recorded as completed or failed.", "quantifier": "all intervals, all combinations of requests, all tasks with any dependencies and outcomes whose failures can be stored, superseded or not", "why_tests_cant": "A request is only acted on after the function has ended, in two places of the worker depending on the outcome; a test makes a request that is well-formed.", "anchors": ["src/docket/dependencies/_perpetual.py:Perpetual.on_complete", "src/docket/dependencies/_perpetual.py:Perpetual.at", "src/docket/worker.py:Worker._execute", "src/docket/execution.py:Execution.schedule"]}
{"id": "C118", "title": "The commands work on the docket that was named", "statement": "Every command of the command line works on the docket named by --docket and --url, else by the variables DOCKET_NAME and DOCKET_URL, else on the default one. All of them but the worker refuse the URL of a docket that would live in their own memory and be gone when they end, and they refuse no other URL.", "quantifier": "all commands, all options, all environments, all URLs", "why_tests_cant": "Every command declares its options again, and the URL is checked in one way and understood in another; tests run a few commands with one spelling of the URL.", "anchors": ["src/docket/cli/__init__.py:watch", "src/docket/cli/__init__.py:snapshot", "src/docket/cli/_support.py:validate_url", "src/docket/_redis.py:RedisConnection"]}
{"id": "C119", "title": "The retry a task asks for comes at its time and does not stop the worker", "statement": "Whatever delay a Retry was given and whatever a task asks of it with after() or at(), the run of the worker goes on. If there are attempts left the next run is scheduled for the time of the failure plus the delay; asked for with at(), it is not before the time that was asked for.", "quantifier": "all delays, all times to ask for, all times at which the task asks and at which its failure is handled, all tasks with any other dependencies and outcomes", "why_tests_cant": "The time asked for is turned into a delay and back into a time by two readings of the clock; a test asks for a time close by and tolerates what lies between them.", "anchors": ["src/docket/dependencies/_retry.py:Retry.at", "src/docket/dependencies/_retry.py:Retry.handle_failure", "src/docket/worker.py:Worker._execute"]}
{"id": "C120", "title": "run_at_most() limits its own worker and nothing else", "statement": "While run_at_most() runs on a worker, a task that is handed to a worker is refused exactly when it is stricken or this very worker has started its key as often as it was limited to. Afterwards nothing is left of the limits.", "quantifier": "all workers and Docket objects they are given, all limits, all orders of deliveries, additions, beginnings and ends of run_at_most()", "why_tests_cant": "The limit is put on the Docket object, which several workers and clients may hold; a test has one worker and one run.", "anchors": ["src/docket/worker.py:Worker.run_at_most", "src/docket/worker.py:Worker._execute", "src/docket/strikelist.py:StrikeList.add_condition", "src/docket/strikelist.py:StrikeList.is_stricken"]}
{"id": "C121", "title": "A task left by an earlier version is treated like any other", "statement": "A docket may still hold tasks that were scheduled by an earlier version of the library, which kept what it knew of them in keys of their own and gave them no generation. As long as such a task was not started, replaced, cancelled or cleared, add() under its key changes nothing and is refused, and a worker can still start the task. Once it was replaced, and once it was cancelled without being in the hands of a worker, it is not started any more. After clear(), and when it was started and has ended, its key can be used again.", "quantifier": "all ways an earlier version leaves a task, all histories of additions, replacements, cancellations, clearings, moves, deliveries, claims, ends and expirations", "why_tests_cant": "The tests try single calls on a hand-made state; what matters is every order of calls during an upgrade.", "anchors": ["src/docket/execution.py:_schedule", "src/docket/execution.py:_claim", "src/docket/execution.py:_terminal", "src/docket/docket.py:_cancel_task", "src/docket/docket.py:Docket.clear", "src/docket/worker.py:_stream_due_tasks"]}
{"id": "C122", "title": "A worker runs with the settings it was given", "statement": "Whatever settings docket worker is given on the command line, else in the environment, it starts and runs with each of them as it was meant: numbers, durations, names of levels and formats as they are documented, and the task collections. Settings that are not given have their defaults.", "quantifier": "all combinations of options and environment variables, all ways of writing each of them", "why_tests_cant": "There are a dozen settings with two sources each and many ways of writing; tests pass the values as Python objects or try a few texts.", "anchors": ["src/docket/cli/__init__.py:worker", "src/docket/cli/_support.py:duration", "src/docket/cli/_support.py:LogLevel", "src/docket/worker.py:Worker.run", "docs/production.md"]}
{"id": "C123", "title": "A docket opens with every kind of URL that is documented", "statement": "A docket with a URL of any documented scheme opens and connects to the kind of server the scheme stands for: a Redis or Valkey server, a cluster, a master that Sentinel watches, with TLS exactly if the scheme says so, or memory. The letters of the scheme may be small or capital and what follows the scheme makes no difference. A URL with another scheme is refused; no docket in memory is opened in its place.", "quantifier": "all URLs of all schemes, in all spellings", "why_tests_cant": "The scheme is looked at in several places, once as a prefix of the text and once as urllib reads it, and again by redis-py; tests try one URL for each kind of server they have.", "anchors": ["src/docket/_redis.py:RedisConnection", "src/docket/_redis_sentinel.py:is_sentinel_url", "docs/production.md", "docs/testing.md"]}
