{
 "claims": [
  {
   "property": "C01",
   "status": "proved",
   "theorems": [
    "Docket.C01_accepted_never_lost"
   ],
   "note": "For every interleaving with crashes, as long as the record is not orphaned (C16 treats expiry)."
  },
  {
   "property": "C02",
   "status": "proved",
   "theorems": [
    "Docket.C02_live_task_can_be_started"
   ],
   "note": ""
  },
  {
   "property": "C03",
   "status": "proved",
   "theorems": [
    "Docket.C03_never_early"
   ],
   "note": ""
  },
  {
   "property": "C04",
   "status": "proved",
   "theorems": [
    "Docket.C04_tick_moves_exactly_due",
    "Docket.C04_ties"
   ],
   "note": ""
  },
  {
   "property": "C05",
   "status": "partial",
   "theorems": [
    "Docket.C05_add_refused_for_live_key_partial",
    "Docket.C05_refused_add_changes_nothing",
    "Docket.C05_add_accepted_for_settled_key_partial",
    "Docket.C05_violated_by_strike",
    "Docket.C05_violated_after_clear",
    "Docket.C05_violated_after_crash"
   ],
   "note": "Refusal of live keys and acceptance of settled keys are proved under stated side conditions; the full statement is refuted by three concrete histories (strike of a stale message, clear, crash)."
  },
  {
   "property": "C06",
   "status": "proved",
   "theorems": [
    "Docket.C06_one_current_message",
    "Docket.C06_newest_is_current"
   ],
   "note": ""
  },
  {
   "property": "C07",
   "status": "proved",
   "theorems": [
    "Docket.C07_no_older_version_started",
    "Docket.C07_replace_takes_over"
   ],
   "note": ""
  },
  {
   "property": "C08",
   "status": "partial",
   "theorems": [
    "Docket.C08_violated",
    "Docket.C08_replacement_never_started_after_retry",
    "Docket.C08_only_retry_displaces_partial"
   ],
   "note": "The full statement is refuted: a retry of a superseded execution displaces the replacement. Proved: only a retry of an older execution can."
  },
  {
   "property": "C09",
   "status": "proved",
   "theorems": [
    "Docket.C09_stale_completion"
   ],
   "note": ""
  },
  {
   "property": "C10",
   "status": "proved",
   "theorems": [
    "Docket.C10_one_worker_unless_lapsed"
   ],
   "note": ""
  },
  {
   "property": "C100",
   "status": "partial",
   "theorems": [
    "Docket.Gates.C100_cooldown",
    "Docket.Gates.C100_debounce",
    "Docket.Gates.C100_slot",
    "Docket.Gates.C100_rate_limit_partial",
    "Docket.Gates.C100_violated_same_millisecond",
    "Docket.Shared.C100_annotated_limit",
    "Docket.Shared.C100_annotated_only_started_count",
    "Docket.Shared.C100_default_no_overlap_partial",
    "Docket.Shared.C100_violated_limit_exceeded",
    "Docket.Shared.C100_violated_place_lost"
   ],
   "note": "Cooldowns, debounces and concurrency limits proved in every history (C100_cooldown, C100_debounce, C100_slot). Rate limits: proved for annotations under all overlaps (C100_annotated_limit, C100_annotated_only_started_count) and for defaults when executions do not overlap within a process (C100_default_no_overlap_partial); false in the code otherwise: a shared RateLimit object gives back the place of whichever task entered last (C100_violated_limit_exceeded, C100_violated_place_lost)."
  },
  {
   "property": "C101",
   "status": "partial",
   "theorems": [
    "Docket.Functions.C101_partial",
    "Docket.Functions.C101_strikes_and_restores",
    "Docket.Functions.C101_runs_partial",
    "Docket.Functions.C101_dropped_partial",
    "Docket.Functions.C101_add_partial",
    "Docket.Functions.C101_violated_other_name",
    "Docket.Functions.C101_violated_perpetual",
    "Docket.Functions.C101_violated_same_name"
   ],
   "note": "Violated: strike(f) misses tasks that carry another name f is registered under, strike(name) misses a perpetual task from its second run on, and strike(f) also strikes another function of the same __name__. Proved where functions go by their own names only and no name stands for two functions: every run, drop, refusal and acceptance is what the standing strikes say, and tasks of functions not struck are run."
  },
  {
   "property": "C102",
   "status": "partial",
   "theorems": [
    "Docket.Execute.C102_violated_annotation",
    "Docket.Execute.C102_violated_automatic",
    "Docket.Execute.C102_retry_partial",
    "Docket.Execute.C102_perpetual_partial",
    "Docket.Execute.C102_perpetual_after_failure_partial",
    "Docket.Execute.C102_timeout_partial",
    "Docket.Execute.C102_the_one_partial",
    "Docket.Execute.C102_dependency_failure_partial",
    "Docket.Execute.C102_only_offered"
   ],
   "note": "Violated: a policy in an annotation is entered and never asked; an automatic perpetual task declared by annotation is seeded and runs once. Proved for policies of the worker and of parameters: they decide on failures of the function and of other dependencies, on completion, and who runs the function; and only offered policies decide anything."
  },
  {
   "property": "C103",
   "status": "partial",
   "theorems": [
    "Docket.Reseed.C103_healed_partial",
    "Docket.Reseed.C103_severed_partial",
    "Docket.Reseed.C103_harmless",
    "Docket.Reseed.C103_as_declared",
    "Docket.Reseed.C103_stops",
    "Docket.Reseed.C103_violated_forever",
    "Docket.Reseed.C103_violated_cleared"
   ],
   "note": "Healed within a bound for tasks whose record does not speak of them (C103_healed_partial) or whose history says they were cancelled or finished (C103_severed_partial), for functions registered under their own names; the loop leaves everything else alone and schedules what is declared. Violated after clear() until the record expires (C103_violated_cleared), and for ever when the task is added during clear() (C103_violated_forever)."
  },
  {
   "property": "C104",
   "status": "partial",
   "theorems": [
    "Docket.Listen.C104_heard_partial",
    "Docket.Listen.C104_first_subscribed",
    "Docket.Listen.C104_recovers",
    "Docket.Listen.C104_ends",
    "Docket.Listen.C104_asked",
    "Docket.Listen.C104_once",
    "Docket.Listen.C104_whom_partial",
    "Docket.Listen.C104_violated_deaf",
    "Docket.Listen.C104_violated_successor"
   ],
   "note": "Heard if the worker is subscribed when the signal is published and stays so until it is read (C104_heard_partial); interrupted only when asked (C104_asked), at most once per cancellation (C104_once), and only the task that ran then if no signal is unread when a task of its key is taken (C104_whom_partial); no task before the first subscription, recovery within a bound, end of the listener. Violated: a cancellation during a reconnection is never heard (C104_violated_deaf); a signal read late hits the next task of the key (C104_violated_successor)."
  },
  {
   "property": "C105",
   "status": "partial",
   "theorems": [
    "Docket.Keys.C105_enough_partial",
    "Docket.Keys.C105_violated_listening_always",
    "Docket.Keys.C105_violated_listening",
    "Docket.Keys.C105_violated_cluster_always",
    "Docket.Keys.C105_violated_cluster",
    "Docket.Keys.C105_scopes",
    "Docket.Keys.C105_violated_scope",
    "Docket.Keys.C105_violated_name",
    "Docket.Keys.C105_tested",
    "Docket.Keys.C105_confined",
    "Docket.Keys.C105_violated_confined"
   ],
   "note": "The code and its documentation disagree: the documented channel pattern never permits the workers' pattern subscription; cooldowns, rate limits and debounces use the plain docket name on a cluster, and any explicit scope as it is, so their keys are outside the documented pattern. All else is proved."
  },
  {
   "property": "C106",
   "status": "proved",
   "theorems": [
    "Docket.Execute.C106_accepted",
    "Docket.Execute.C106_refused",
    "Docket.Execute.C106_in_force"
   ],
   "note": "For functions none of whose parameters begins with __worker_dep__ (the prefix under which the worker's dependencies are kept)."
  },
  {
   "property": "C107",
   "status": "partial",
   "theorems": [
    "Docket.Json.C107_announced",
    "Docket.Json.C107_scripts_partial",
    "Docket.Json.C107_unreadable",
    "Docket.Json.C107_violated_due",
    "Docket.Json.C107_violated_woken",
    "Docket.Json.C107_events",
    "Docket.Json.C107_progress"
   ],
   "note": "The scripts' escaping leaves control characters other than line feed, carriage return and tab as they are, which JSON forbids (the code says so in a comment); those events cannot be read. All events written with json.dumps, and the scripts' events for all other keys, are proved."
  },
  {
   "property": "C108",
   "status": "partial",
   "theorems": [
    "Docket.Trace.C108_linked_partial",
    "Docket.Trace.C108_undisturbed",
    "Docket.Trace.C108_unlinked",
    "Docket.Trace.C108_violated_later_always",
    "Docket.Trace.C108_violated_later"
   ],
   "note": "The scheduler copies seven named fields, so a task scheduled for later arrives without what was injected and its run has no link: C108_violated_later_always, for every task. By the other two ways the link is proved."
  },
  {
   "property": "C109",
   "status": "partial",
   "theorems": [
    "Docket.C109_counted_partial",
    "Docket.C109_violated_late_cleanup"
   ],
   "note": "Proved under keys never cancelled; refuted otherwise: the clean-up after a cancelled waiter deletes the progress of its key, whoever's it is by then."
  },
  {
   "property": "C11",
   "status": "proved",
   "theorems": [
    "Docket.C11_renewal_prevents_redelivery"
   ],
   "note": ""
  },
  {
   "property": "C110",
   "status": "partial",
   "theorems": [
    "Docket.Execute.C110_truthful_partial",
    "Docket.Execute.C110_completed_returned",
    "Docket.Execute.C110_recorded_once",
    "Docket.Execute.C110_success_is_final",
    "Docket.Execute.C110_violated_unstorable_always",
    "Docket.Execute.C110_violated_unstorable",
    "Docket.Execute.C110_violated_success_is_retried",
    "Docket.Execute.C110_violated_swallowed"
   ],
   "note": "Proved unless leaving a dependency raises or swallows a cancellation, a completion handler raises, or the result cannot be stored; refuted otherwise: a task that returned something that cannot be pickled is recorded as failed, or retried."
  },
  {
   "property": "C111",
   "status": "proved",
   "theorems": [
    "Docket.Once.C111_starts",
    "Docket.Once.C111_each_scheduling",
    "Docket.Once.C111_added_once",
    "Docket.Once.C111_nothing_doubled",
    "Docket.Once.C111_limit_slots",
    "Docket.Once.C111_limit_once"
   ],
   "note": "A start is a successful claim; under a concurrency limit the bound is on how often a slot is given, for histories in which each execution enters the limit once."
  },
  {
   "property": "C112",
   "status": "partial",
   "theorems": [
    "Docket.Startup.C112_starts_partial",
    "Docket.Startup.C112_listed_partial",
    "Docket.Startup.C112_lines_partial",
    "Docket.Startup.C112_dependencies_hidden",
    "Docket.Startup.C112_violated_start",
    "Docket.Startup.C112_violated_types"
   ],
   "note": "Proved: the worker starts exactly when no parameter for callers is annotated with a generic of typing without brackets or with empty brackets; then one line per task with all parameters; dependencies are never spelt out. Refuted: bare typing.Dict keeps the worker from starting; dict[str, int] is listed as str."
  },
  {
   "property": "C113",
   "status": "partial",
   "theorems": [
    "Docket.Tidy.C113_tidied_partial",
    "Docket.Tidy.C113_only_cancelled",
    "Docket.Tidy.C113_once",
    "Docket.Tidy.C113_backstops",
    "Docket.Tidy.C113_violated_for_good",
    "Docket.Tidy.C113_violated_deaf",
    "Docket.Tidy.C113_violated_cluster",
    "Docket.Tidy.C113_violated_early"
   ],
   "note": "Proved for a subscriber that is subscribed when the task is cancelled and meets no exception until the signal was read; only cancelled tasks leave, one for each cancellation; backstops go with them. Refuted: a subscriber that met an exception never listens again while the worker stays in its loop (C113_violated_for_good), on a cluster it never listens, and the worker takes tasks before it does."
  },
  {
   "property": "C114",
   "status": "partial",
   "theorems": [
    "Docket.Tables.C114_times",
    "Docket.Tables.C114_rows_partial",
    "Docket.Tables.C114_violated_key",
    "Docket.Tables.C114_violated_error",
    "Docket.Tables.C114_violated_picture",
    "Docket.Tables.C114_stats",
    "Docket.Tables.C114_workers"
   ],
   "note": "Proved for names and keys that do not read as markup of the terminal library, and for times, orders and workers. Refuted: cells are handed over without escaping, so `order[eu]` is shown as `order`, a key with `[/tmp]` ends the command with an error and lists nothing, and `user:key:` is shown with a picture. Widths, titles and markup in the tasks of workers are not modelled."
  },
  {
   "property": "C115",
   "status": "partial",
   "theorems": [
    "Docket.Poll.C115_interval_partial",
    "Docket.Poll.C115_rounds_partial",
    "Docket.Poll.C115_stop_partial",
    "Docket.Poll.C115_finishes_partial",
    "Docket.Poll.C115_violated"
   ],
   "note": "Proved for intervals of a millisecond or more. Refuted for shorter ones: they become BLOCK 0, which has no limit, so without a message the worker does not see a request to stop or tasks that have ended, and running until finished does not return."
  },
  {
   "property": "C116",
   "status": "partial",
   "theorems": [
    "Docket.Execute.C116_worker_partial",
    "Docket.Execute.C116_completed_partial",
    "Docket.Execute.C116_violated_worker",
    "Docket.Execute.C116_violated_success",
    "Docket.Execute.C116_violated_retried"
   ],
   "note": "Proved for an execution_ttl of zero or of a second or more. Refuted for times between: they count as keeping results, but their whole seconds are zero, which the store refuses. A task that fails then leaves no record, is not acknowledged and ends its worker; one that returns a value counts as failed, and is run again if it has retries."
  },
  {
   "property": "C117",
   "status": "partial",
   "theorems": [
    "Docket.Execute.C117_goes_on_partial",
    "Docket.Execute.C117_answered",
    "Docket.Execute.C117_violated_naive",
    "Docket.Execute.C117_violated_arguments",
    "Docket.Execute.C117_violated_interval"
   ],
   "note": "Proved if the task cancelled, was superseded, or asked for arguments that can be pickled and no time without a time zone, with an interval that leads to a date datetime can express. Refuted otherwise: the request raises when the task has ended, twice, so that nothing is recorded, the message stays and the run of the worker ends."
  },
  {
   "property": "C118",
   "status": "partial",
   "theorems": [
    "Docket.Target.C118_named_partial",
    "Docket.Target.C118_same_partial",
    "Docket.Target.C118_memory_partial",
    "Docket.Target.C118_refused",
    "Docket.Target.C118_worker",
    "Docket.Target.C118_violated_watch",
    "Docket.Target.C118_violated_memory",
    "Docket.Target.C118_violated_spelling"
   ],
   "note": "Proved for all commands but watch, and for watch if its URL is written or no variable is set; the refusal of in-memory dockets for plain URLs. Refuted: watch ignores DOCKET_URL and does not check its URL, and the check is by the prefix memory:// although MEMORY:// and memory: are in-memory dockets too."
  },
  {
   "property": "C119",
   "status": "partial",
   "theorems": [
    "Docket.Execute.C119_goes_on_partial",
    "Docket.Execute.C119_run_partial",
    "Docket.Execute.C119_when_partial",
    "Docket.Execute.C119_violated_at",
    "Docket.Execute.C119_violated_delay"
   ],
   "note": "Proved for all executions if the next run falls on a date that datetime can express or no attempts are left. Refuted otherwise: the addition raises in the worker, so that nothing is recorded, the message stays and the run of the worker ends; at(datetime.max) always does this, since the clock goes on between the call and the failure."
  },
  {
   "property": "C12",
   "status": "proved",
   "theorems": [
    "Docket.C12_finished_message_is_gone",
    "Docket.C12_handed_message_is_gone"
   ],
   "note": ""
  },
  {
   "property": "C120",
   "status": "partial",
   "theorems": [
    "Docket.AtMost.C120_refused",
    "Docket.AtMost.C120_own_partial",
    "Docket.AtMost.C120_bound_partial",
    "Docket.AtMost.C120_added",
    "Docket.AtMost.C120_after",
    "Docket.AtMost.C120_violated"
   ],
   "note": "Proved for a worker that shares its Docket object with no other worker limited on the same key. Refuted otherwise: the condition is on the Docket object, so that a used-up limit of one worker cancels tasks that are handed to another one. Exactly which deliveries and additions are refused is proved for all histories. That question and claim of one delivery are one step is a simplification (see C44)."
  },
  {
   "property": "C121",
   "status": "partial",
   "theorems": [
    "Docket.Legacy.C121_add",
    "Docket.Legacy.C121_startable",
    "Docket.Legacy.C121_left",
    "Docket.Legacy.C121_unlisted",
    "Docket.Legacy.C121_ended",
    "Docket.Legacy.C121_replace_partial",
    "Docket.Legacy.C121_cancel_partial",
    "Docket.Legacy.C121_reuse_partial",
    "Docket.Legacy.C121_violated_clear",
    "Docket.Legacy.C121_violated_replace",
    "Docket.Legacy.C121_violated_cancel",
    "Docket.Legacy.C121_violated"
   ],
   "note": "Proved for add and for the task not being lost; for replace and cancel if no worker has the message and the scheduler of this version did not move it. Refuted: a parked task that was moved to the stream is started after replace (next to its replacement) and after cancel; after clear() the key of a task that waited in the stream is refused for good."
  },
  {
   "property": "C122",
   "status": "partial",
   "theorems": [
    "Docket.Settings.C122_runs_partial",
    "Docket.Settings.C122_understood",
    "Docket.Settings.C122_violated_milliseconds",
    "Docket.Settings.C122_violated_level",
    "Docket.Settings.C122_violated_documented",
    "Docket.Settings.C122_violated"
   ],
   "note": "Proved for all combinations of options and variables if durations are not in milliseconds and levels are in capitals. Refuted otherwise, for every such text: the command ends with an error, also with the environment and the command lines of docs/production.md. The flags, the fallback task and the import of collections are not modelled."
  },
  {
   "property": "C123",
   "status": "partial",
   "theorems": [
    "Docket.Opening.C123_opens_partial",
    "Docket.Opening.C123_refused",
    "Docket.Opening.C123_memory",
    "Docket.Opening.C123_violated_valkey",
    "Docket.Opening.C123_violated"
   ],
   "note": "Proved for all documented schemes but valkey, in all spellings and with anything after them, and that other schemes are refused. Refuted for valkey://, the URL that docs/production.md gives for Valkey. That redis-py's parse_url takes exactly redis, rediss and unix is part of the model. What else of the URL may be refused is in C56."
  },
  {
   "property": "C13",
   "status": "partial",
   "theorems": [
    "Docket.C13_cancel_prevents_running_partial",
    "Docket.C13_cancel_scheduled",
    "Docket.C13_cancel_immediate",
    "Docket.C13_cancel_ttl_zero",
    "Docket.C13_violated"
   ],
   "note": "Proved when the record names every stream message of the key; in particular for scheduled and immediately added tasks. Refuted for tasks the scheduler moved to the stream."
  },
  {
   "property": "C14",
   "status": "proved",
   "theorems": [
    "Docket.C14_cancel_records"
   ],
   "note": ""
  },
  {
   "property": "C15",
   "status": "partial",
   "theorems": [
    "Docket.C15_clear_partial",
    "Docket.C15_violated_readd",
    "Docket.C15_violated_race"
   ],
   "note": "Count, emptiness and no later run of cleared work proved; re-adding proved for execution_ttl=0 and refuted for positive ttl; race with add refuted."
  },
  {
   "property": "C16",
   "status": "partial",
   "theorems": [
    "Docket.C16_record_lasts_partial",
    "Docket.C16_violated",
    "Docket.C16_violated_task_lost",
    "Docket.C16_violated_cancel_race"
   ],
   "note": "Proved for keys with no earlier expiry; the full statement is refuted (re-add within the ttl, cancel/add race)."
  },
  {
   "property": "C17",
   "status": "partial",
   "theorems": [
    "Docket.C17_causes",
    "Docket.C17_lifecycle_partial",
    "Docket.C17_violated_cancelled_to_completed",
    "Docket.C17_violated_completed_to_running"
   ],
   "note": "Causes of every state change proved unconditionally; the lifecycle order proved for histories in which the key is not re-added or cancelled while an execution is alive; the full statement is refuted by two witnesses."
  },
  {
   "property": "C18",
   "status": "proved",
   "theorems": [
    "Docket.C18_payload",
    "Docket.C18_original_call"
   ],
   "note": ""
  },
  {
   "property": "C19",
   "status": "partial",
   "theorems": [
    "Docket.C19_outcome_partial",
    "Docket.C19_stored_outcome",
    "Docket.C19_outcome_lasts",
    "Docket.C19_violated_stale_value",
    "Docket.C19_violated_overwritten"
   ],
   "note": "Proved: the value, exception or cancellation of the current run is returned, None when no earlier run recorded a result, and the answer lasts. Refuted: None after an earlier value; a superseded run overwriting the stored value."
  },
  {
   "property": "C20",
   "status": "partial",
   "theorems": [
    "Docket.C20_told_partial",
    "Docket.C20_violated_gap",
    "Docket.C20_violated_cancel",
    "Docket.C20_violated_ttl_zero"
   ],
   "note": "Proved when the subscription is live before the end or the record is terminal when read. Refuted for the gap between read and subscription, for cancelling a waiting task, and for execution_ttl=0."
  },
  {
   "property": "C21",
   "status": "partial",
   "theorems": [
    "Docket.C21_no_trace_after_end",
    "Docket.C21_no_trace_after_cancel_partial",
    "Docket.C21_violated_cancel"
   ],
   "note": "Proved for the end of a current execution and for cancel of tasks whose message the record names; refuted for cancel of a task the scheduler moved to the stream."
  },
  {
   "property": "C22",
   "status": "proved",
   "theorems": [
    "Docket.C22_progress_counts",
    "Docket.C22_non_positive_refused",
    "Docket.C22_superseded_end_keeps_newer_progress",
    "Docket.C22_end_removes_progress"
   ],
   "note": ""
  },
  {
   "property": "C23",
   "status": "proved",
   "theorems": [
    "Docket.C23_keys_are_isolated"
   ],
   "note": ""
  },
  {
   "property": "C24",
   "status": "partial",
   "theorems": [
    "Docket.Keys.C24_distinct_keys_partial",
    "Docket.Keys.C24_safe_parked_key",
    "Docket.Keys.C24_distinct_channels",
    "Docket.Keys.C24_results_and_limits",
    "Docket.Keys.C24_violated_waiters",
    "Docket.Keys.C24_violated",
    "Docket.Keys.C24_violated_record"
   ],
   "note": "Distinct task keys give distinct Redis keys and channels for every purpose, except that the hash holding a future task's payload is named by the bare task key: it collides with another task's record or with the docket's own keys (C24_violated, C24_violated_record). C24_safe_parked_key gives the condition under which it cannot."
  },
  {
   "property": "C25",
   "status": "partial",
   "theorems": [
    "Docket.Keys.C25_one_slot_partial",
    "Docket.Keys.C25_violated_empty_name",
    "Docket.Keys.C25_violated_brace_name",
    "Docket.Keys.C25_debounce_one_slot_partial",
    "Docket.Keys.C25_violated_debounce"
   ],
   "note": "All keys of a docket share one cluster slot when the docket name is non-empty and does not start with a closing brace (violations exhibited); debounce keys share a slot except when the argument prints as {}."
  },
  {
   "property": "C26",
   "status": "partial",
   "theorems": [
    "Docket.Strikes.C26_blocked_iff_struck_partial",
    "Docket.Strikes.C26_mapping_blocked_iff_struck",
    "Docket.Strikes.C26_violated"
   ],
   "note": "Blocked iff an active strike covers the call, for strike histories where no key gets both a whole-task strike and a parameter strike; C26_violated shows the mixed case. Parameter-mapping strikes are covered in full."
  },
  {
   "property": "C27",
   "status": "partial",
   "theorems": [
    "Docket.Strikes.C27_restore_undoes_strike_partial",
    "Docket.Strikes.C27_restore_of_absent_changes_nothing",
    "Docket.Strikes.C27_violated"
   ],
   "note": "Restore undoes a strike and restoring an absent strike changes nothing; the mixed whole-task/parameter case is violated (C27_violated)."
  },
  {
   "property": "C28",
   "status": "partial",
   "theorems": [
    "Docket.Strikes.C28_batching_does_not_matter",
    "Docket.Strikes.C28_converges_partial",
    "Docket.Strikes.C28_violated_late_update",
    "Docket.Strikes.C28_violated_mixed"
   ],
   "note": "Processes that read the whole stream agree however the stream is batched; a late local update can reorder two updates (C28_violated_late_update) and mixed strikes do not commute (C28_violated_mixed)."
  },
  {
   "property": "C29",
   "status": "proved",
   "theorems": [
    "Docket.Strikes.C29_wire_round_trip",
    "Docket.Strikes.C29_same_effect"
   ],
   "note": "Round trip of the strike message encoding and equality of effect."
  },
  {
   "property": "C30",
   "status": "proved",
   "theorems": [
    "Docket.Strikes.C30_operators",
    "Docket.Strikes.C30_incomparable",
    "Docket.Strikes.C30_exclusive"
   ],
   "note": "Meaning of the seven operators, incomparable values never match, exclusivity."
  },
  {
   "property": "C31",
   "status": "partial",
   "theorems": [
    "Docket.C31_within_limit_partial",
    "Docket.C31_slots_partial",
    "Docket.C31_violated",
    "Docket.C31_violated_renewal",
    "Docket.C31_release_frees",
    "Docket.Mixed.C31_mixed_partial",
    "Docket.Mixed.C31_violated_timeouts"
   ],
   "note": "The limit holds in every history in which living holders renew in time; giving a slot back is proved without proviso. The unconditional limit is refuted (stalled holder, late renewal). Also for workers with different timeouts and limits, when slots are renewed within the smallest timeout; refuted when they are renewed within their own."
  },
  {
   "property": "C32",
   "status": "partial",
   "theorems": [
    "Docket.C32_no_slot_waits",
    "Docket.C32_longest_waiting_first",
    "Docket.C32_woken_partial",
    "Docket.C32_never_lost_partial",
    "Docket.C32_backstop_wakes",
    "Docket.C32_free_slot_is_taken",
    "Docket.C32_parked_waits",
    "Docket.C32_cancelled_leaves",
    "Docket.C32_wake_removes_backstops",
    "Docket.C32_violated_late_cleanup",
    "Docket.C32_violated_cancelled_in_front",
    "Docket.C32_violated_overtaken",
    "Docket.C32_violated_woken_parked_again"
   ],
   "note": "Taking a free or stale slot, parking, order, number and payload of woken tasks, their backstops, never-lost along any history not about the task itself, leaving by cancellation, and the backstop are proved. Refuted: a late cancel subscriber removes a newer task; a cancelled waiter in front uses up the free slot; a later task overtakes a waiter; a woken task is parked again."
  },
  {
   "property": "C33",
   "status": "partial",
   "theorems": [
    "Docket.C33_at_most_limit_per_window_partial",
    "Docket.C33_violated_same_millisecond",
    "Docket.C33_violated_late_reading",
    "Docket.C33_undelayed_partial"
   ],
   "note": "Holds when clock readings reach Redis in order, within a window of being taken, and a task is not admitted twice in one millisecond; refuted without either proviso."
  },
  {
   "property": "C34",
   "status": "proved",
   "theorems": [
    "Docket.C34_delay_bounds",
    "Docket.C34_slot_open_after_delay",
    "Docket.C34_refused_before_delay"
   ],
   "note": "Delay bounds, free slot after the delay, refusal before it, over all fair histories."
  },
  {
   "property": "C35",
   "status": "proved",
   "theorems": [
    "Docket.C35_admissions_apart",
    "Docket.C35_admitted_iff_window_over",
    "Docket.C35_keys_independent"
   ],
   "note": "Windows are counted in whole milliseconds, as the code does."
  },
  {
   "property": "C36",
   "status": "partial",
   "theorems": [
    "Docket.C36_proceeds_only_after_quiet",
    "Docket.C36_proceeds_apart",
    "Docket.C36_quiet_burst_is_followed_partial",
    "Docket.C36_violated_cancelled_winner",
    "Docket.C36_starved_without_winner"
   ],
   "note": "Quiet before proceeding and spacing proved for all ordered histories; an execution follows every burst when no waiting task is cancelled; refuted for a cancelled first submission, with unbounded starvation proved."
  },
  {
   "property": "C37",
   "status": "partial",
   "theorems": [
    "Docket.Retrying.C37_runs_exactly_n_times_partial",
    "Docket.Retrying.C37_failure_is_retried_partial",
    "Docket.Retrying.C37_success_is_final_partial",
    "Docket.Retrying.C37_attempt_number_bounded",
    "Docket.Retrying.C37_violated_exponential_forever"
   ],
   "note": "Proved for a key scheduled once and otherwise left alone (any crashes, redeliveries, other tasks), for retry settings whose delays can be computed; the attempt bound holds in every history. Refuted for ExponentialRetry.forever (overflow at attempt 48)."
  },
  {
   "property": "C38",
   "status": "partial",
   "theorems": [
    "Docket.Retrying.C38_delay_partial",
    "Docket.Retrying.C38_violated_first_delay_uncapped",
    "Docket.Retrying.C38_retry_is_scheduled_after_delay",
    "Docket.Retrying.C38_retry_at"
   ],
   "note": "Formula, bounds and monotonicity for minimum <= maximum; refuted when minimum > maximum. Negative delays given to Retry.after are not modelled."
  },
  {
   "property": "C39",
   "status": "partial",
   "theorems": [
    "Docket.Perpetuals.C39_time",
    "Docket.Perpetuals.C39_requests",
    "Docket.Perpetuals.C39_spacing",
    "Docket.Perpetuals.C39_rescheduled_partial",
    "Docket.Perpetuals.C39_not_rescheduled",
    "Docket.Perpetuals.C39_violated_race",
    "Docket.Perpetuals.C39_cron_time",
    "Docket.Perpetuals.C39_violated_cron_ignores_request",
    "Docket.Perpetuals.C39_cron_may_be_past"
   ],
   "note": "Time formula, spacing for all run sequences, rescheduling and non-rescheduling in every reachable state; refuted for a replace() racing with the completion and for Cron with a requested time. Cron expressions themselves (cronsim) are not modelled."
  },
  {
   "property": "C40",
   "status": "partial",
   "theorems": [
    "Docket.Timeouts.C40_not_before",
    "Docket.Timeouts.C40_on_time",
    "Docket.Timeouts.C40_fires",
    "Docket.Timeouts.C40_outcome_reported_partial",
    "Docket.Timeouts.C40_violated_outcome_lost"
   ],
   "note": "Timing for all finishing times and extensions; refuted that the outcome of a task finishing in time is always reported (it is lost when the timeout and the completion fall in one wake-up)."
  },
  {
   "property": "C41",
   "status": "partial",
   "theorems": [
    "Docket.Single.C41_no_false_alarm",
    "Docket.Single.C41_detected_iff_partial",
    "Docket.Single.C41_violated_override",
    "Docket.Single.C41_violated_memo",
    "Docket.Single.C41_memo_partial",
    "Docket.Single.C41_memo_history_partial"
   ],
   "note": "If and only if for hierarchies without overridden single flags; refuted for a subclass overriding the flag and for the memo keyed by function."
  },
  {
   "property": "C42",
   "status": "partial",
   "theorems": [
    "Docket.Execute.C42_called_only_if_resolved",
    "Docket.Execute.C42_explicit_wins",
    "Docket.Execute.C42_called_once",
    "Docket.Execute.C42_closed_in_reverse",
    "Docket.Execute.C42_opened",
    "Docket.Execute.C42_refusal_first_partial",
    "Docket.Execute.C42_violated_precedence",
    "Docket.Execute.C42_violated_positional",
    "Docket.Execute.C42_called_if_resolved"
   ],
   "note": "Called only if all resolved, explicit keyword arguments win, called at most once, closed exactly once in reverse: for all behaviours. Refusal precedence unless overwritten on the same parameter; refuted for two annotations on one parameter and for positional arguments."
  },
  {
   "property": "C43",
   "status": "proved",
   "theorems": [
    "Docket.Loop.C43_concurrency",
    "Docket.Loop.C43_asks"
   ],
   "note": "Main loop with arbitrary poll results, completions and signals: the number of active tasks never exceeds the concurrency, and the count asked for is positive."
  },
  {
   "property": "C44",
   "status": "partial",
   "theorems": [
    "Docket.Loop.C44_at_most_partial",
    "Docket.Loop.C44_others_unlimited",
    "Docket.Loop.C44_not_before_limit",
    "Docket.Loop.C44_violated_overlap"
   ],
   "note": "At most n starts for deliveries processed one after the other (the counter is updated when a delivery is handed to the task); violated when several deliveries of the limited key overlap (C44_violated_overlap)."
  },
  {
   "property": "C45",
   "status": "partial",
   "theorems": [
    "Docket.Lua.C45_arguments_partial",
    "Docket.Lua.C45_variadic",
    "Docket.Lua.C45_integers_exact",
    "Docket.Lua.C45_integers_not_exact",
    "Docket.Lua.C45_refused",
    "Docket.Lua.C45_violated_derived_name"
   ],
   "note": "All signatures and values under the hypothesis that no parameter is called <variadic>_start; refuted without it (C45_violated_derived_name). Integers are exact up to 2^53."
  },
  {
   "property": "C46",
   "status": "proved",
   "theorems": [
    "Docket.Message.C46_time",
    "Docket.Message.C46_round_trip",
    "Docket.Message.C46_stamped",
    "Docket.Message.C46_unregistered",
    "Docket.Message.C46_before_generations",
    "Docket.Message.C46_injective"
   ],
   "note": "Text and bytes of the message fields, ISO time stamps with offset, counters and function names are modelled down to characters; pickling of args and kwargs is abstract with its round trip as hypothesis."
  },
  {
   "property": "C47",
   "status": "proved",
   "theorems": [
    "Docket.Uuid7.C47_ordered",
    "Docket.Uuid7.C47_well_formed"
   ],
   "note": "The vendored UUIDv7 generator; clock readings below the 12-digit 48-bit limit (about year 3998)."
  },
  {
   "property": "C48",
   "status": "partial",
   "theorems": [
    "Docket.Agenda.C48_each_once_in_order",
    "Docket.Agenda.C48_registered",
    "Docket.Agenda.C48_nothing_on_error",
    "Docket.Agenda.C48_times_partial",
    "Docket.Agenda.C48_jitter_partial",
    "Docket.Agenda.C48_violated_end",
    "Docket.Agenda.C48_violated_end_jitter"
   ],
   "note": "Every task once and in order, and nothing on error, for all inputs; the times are inside the window without jitter and without rounding. With microsecond rounding, or with jitter, the end can be exceeded (C48_violated_end, C48_violated_end_jitter)."
  },
  {
   "property": "C49",
   "status": "partial",
   "theorems": [
    "Docket.Snap.C49_faithful_partial",
    "Docket.Snap.C49_sound_partial",
    "Docket.Snap.C49_violated_moved",
    "Docket.Snap.C49_violated_unregistered",
    "Docket.Snap.C49_violated_cap"
   ],
   "note": "Faithful for at most 1000 messages, both reads seeing the same contents, and known functions; sound with anything in between. Fails beyond: C49_violated_cap, C49_violated_moved, C49_violated_unregistered."
  },
  {
   "property": "C50",
   "status": "partial",
   "theorems": [
    "Docket.Beat.C50_workers_partial",
    "Docket.Beat.C50_task_workers_partial",
    "Docket.Beat.C50_violated_settings",
    "Docket.Beat.C50_violated_stale_names",
    "Docket.Beat.C50_violated_fraction"
   ],
   "note": "Exact for all sequences of heartbeats, departures and listings under one clock, equal settings, worker names that do not come back with fewer tasks and a maximum age of whole seconds. Fails otherwise: C50_violated_settings, C50_violated_stale_names, C50_violated_fraction."
  },
  {
   "property": "C51",
   "status": "partial",
   "theorems": [
    "Docket.CallRepr.C51_noninterference_partial",
    "Docket.CallRepr.C51_shown",
    "Docket.CallRepr.C51_violated_positional",
    "Docket.CallRepr.C51_violated_keyword"
   ],
   "note": "Non-interference for all signatures and values, if at most one positional argument goes to *args and no keyword in **kwargs has the name of a parameter; fails otherwise: C51_violated_positional, C51_violated_keyword."
  },
  {
   "property": "C52",
   "status": "partial",
   "theorems": [
    "Docket.Results.C52_get_partial",
    "Docket.Results.C52_no_collision_colon",
    "Docket.Results.C52_no_collision_same",
    "Docket.Results.C52_get_many",
    "Docket.Results.C52_ttl",
    "Docket.Results.C52_delete_many",
    "Docket.Results.C52_delete",
    "Docket.Results.C52_violated_collision",
    "Docket.Results.C52_violated_fraction",
    "Docket.Results.C52_put_many"
   ],
   "note": "Proved for every history of single and batched operations in which no two (collection, key) pairs make one Redis key, which includes the docket's own use (one collection). Fails for colliding collections and for times to live under a second."
  },
  {
   "property": "C53",
   "status": "partial",
   "theorems": [
    "Docket.Seed.C53_never_disturbs",
    "Docket.Seed.C53_only_automatic",
    "Docket.Seed.C53_all_scheduled_partial",
    "Docket.Seed.C53_as_declared",
    "Docket.Seed.C53_locked",
    "Docket.Seed.C53_violated_alias",
    "Docket.Seed.C53_violated_same_name",
    "Docket.Seed.C53_violated_after_clear",
    "Docket.Seed.C53_violated_key_taken"
   ],
   "note": "Seeding never disturbs a live key and touches only automatic perpetual keys: all registries and states. Every automatic task is scheduled under stated conditions; the full claim fails for aliases, two functions of one name, after a clear, and when the key is taken."
  },
  {
   "property": "C54",
   "status": "proved",
   "theorems": [
    "Docket.Cli.C54_reads",
    "Docket.Cli.C54_rejects"
   ],
   "note": "For all numerals Python reads (at most 4300 digits) and texts in the six forms; plus what can be accepted at all. int() of non-ASCII digits and spaces is not modelled."
  },
  {
   "property": "C55",
   "status": "partial",
   "theorems": [
    "Docket.Loop.C55_signal_reaches_partial",
    "Docket.Loop.C55_violated_successor_forgotten"
   ],
   "note": "A signal reaches the registered task; refuted when a successor registered under the same key is forgotten by the ending of its predecessor (C55_violated_successor_forgotten)."
  },
  {
   "property": "C56",
   "status": "proved",
   "theorems": [
    "Docket.Sentinel.C56_reads",
    "Docket.Sentinel.C56_accepted",
    "Docket.Sentinel.C56_no_host",
    "Docket.Sentinel.C56_no_service",
    "Docket.Sentinel.C56_only_sentinel"
   ],
   "note": "For all host lists, names, ports, credentials, service names, databases and query strings without fragment; Python's check of bracketed hosts and redis-py's check of options are parameters."
  },
  {
   "property": "C57",
   "status": "partial",
   "theorems": [
    "Docket.Testing.C57_scheduled_partial",
    "Docket.Testing.C57_not_scheduled_partial",
    "Docket.Testing.C57_count_partial",
    "Docket.Testing.C57_violated_alias",
    "Docket.Testing.C57_violated_unregistered",
    "Docket.Testing.C57_violated_cap"
   ],
   "note": "Proved for every reachable state a snapshot can read in full (at most 1000 messages, functions registered under their own names). The full statement fails for aliases, unregistered functions and more than 1000 messages."
  },
  {
   "property": "C58",
   "status": "proved",
   "theorems": [
    "Docket.Stats.C58_correct",
    "Docket.Stats.C58_once"
   ],
   "note": ""
  },
  {
   "property": "C59",
   "status": "partial",
   "theorems": [
    "Docket.C59_cancelled_waiter_never_runs",
    "Docket.C59_violated_add",
    "Docket.C59_violated_replace",
    "Docket.C59_violated_clear",
    "Docket.Payload.C59_only_asked_for",
    "Docket.Payload.C59_cleaned_up",
    "Docket.Payload.C59_violated_readd"
   ],
   "note": "cancel() of a waiting task proved until the key is scheduled again, and beyond that once its place in the line was given up; what waits or runs is always what was asked for. add(), replace(), clear() and cancel() followed by add() refuted."
  },
  {
   "property": "C60",
   "status": "partial",
   "theorems": [
    "Docket.Execute.C60_never_forgotten",
    "Docket.Execute.C60_settled_once_partial",
    "Docket.Execute.C60_result_stored_first",
    "Docket.Execute.C60_result_kept",
    "Docket.Execute.C60_violated_completed_then_failed",
    "Docket.Execute.C60_violated_completed_then_retried"
   ],
   "note": "Never forgotten: all behaviours. At most once if no exit raises; refuted for raising exits."
  },
  {
   "property": "C61",
   "status": "partial",
   "theorems": [
    "Docket.ArgKey.C61_violated_positional",
    "Docket.ArgKey.C61_violated_mixed",
    "Docket.ArgKey.C61_violated_across_tasks",
    "Docket.ArgKey.C61_per_value_partial",
    "Docket.ArgKey.C61_names_partial",
    "Docket.ArgKey.C61_per_task_key",
    "Docket.ArgKey.C61_concurrency_given",
    "Docket.ArgKey.C61_violated_default"
   ],
   "note": "Per value for keyword arguments; refuted for positional arguments, defaults and across tasks."
  },
  {
   "property": "C62",
   "status": "partial",
   "theorems": [
    "Docket.Loop.C62_only_the_named_task",
    "Docket.Loop.C62_violated_worker_stops",
    "Docket.Loop.C62_worker_goes_on_partial"
   ],
   "note": "Only the named task is interrupted (proved in full); the worker goes on as long as the cancellation is absorbed inside the task's execution; refuted in general (C62_violated_worker_stops)."
  },
  {
   "property": "C63",
   "status": "partial",
   "theorems": [
    "Docket.Names.C63_same_function_partial",
    "Docket.Names.C63_same_name_partial",
    "Docket.Names.C63_violated_mixed_up",
    "Docket.Names.C63_violated_name",
    "Docket.Names.C63_violated_dropped"
   ],
   "note": "Holds when every function is registered under one name only (its own or an alias used for scheduling); fails for aliases: C63_violated_mixed_up, C63_violated_name, C63_violated_dropped."
  },
  {
   "property": "C64",
   "status": "partial",
   "theorems": [
    "Docket.Keys.C64_disjoint_partial",
    "Docket.Keys.C64_violated",
    "Docket.Keys.C64_violated_queue"
   ],
   "note": "Holds for names without a colon (cluster mode: without a closing brace); refuted for other names."
  },
  {
   "property": "C65",
   "status": "partial",
   "theorems": [
    "Docket.Keys.C65_cancel_partial",
    "Docket.Keys.C65_violated_own",
    "Docket.Keys.C65_violated_own_always",
    "Docket.Keys.C65_violated_other",
    "Docket.Keys.C65_violated_range",
    "Docket.Keys.C65_violated_complement"
   ],
   "note": "Holds for names without pattern characters; refuted for names with brackets or question marks."
  },
  {
   "property": "C66",
   "status": "partial",
   "theorems": [
    "Docket.C66_gone_after_end_partial",
    "Docket.C66_gone_after_cancel_partial",
    "Docket.C66_violated_progress",
    "Docket.C66_violated_cancel",
    "Docket.C66_violated_ghost"
   ],
   "note": "Holds from the end of a run or a completed cancel on, if nothing more is done under the key. Refuted for progress reported after the end, for a cancel that dies half way, and for the record the scheduler recreates after an expiry."
  },
  {
   "property": "C67",
   "status": "proved",
   "theorems": [
    "Docket.C67_handed_in_order",
    "Docket.C67_no_overtaking"
   ],
   "note": "First hand-outs in stream order over all workers; no overtaking of a waiting message."
  },
  {
   "property": "C68",
   "status": "partial",
   "theorems": [
    "Docket.Poison.C68_all_processed_partial",
    "Docket.Poison.C68_others_processed_partial",
    "Docket.Poison.C68_when_harmless",
    "Docket.Poison.C68_violated_undecodable",
    "Docket.Poison.C68_violated_raising",
    "Docket.Poison.C68_violated",
    "Docket.CallRepr.C68_when_raising"
   ],
   "note": "Proved: a queue of harmless messages is dealt with completely; with fewer raising messages than the concurrency, all others are dealt with exactly once; when a message is harmless in user terms. Violated in general: a message that cannot be decoded at the front of the queue, or as many executions that raise into the loop as the worker takes at a time, stop every worker that follows (C68_violated_undecodable, C68_violated_raising)."
  },
  {
   "property": "C69",
   "status": "partial",
   "theorems": [
    "Docket.Watch.C69_shows_the_state",
    "Docket.Watch.C69_until_ended_partial",
    "Docket.Watch.C69_already_ended",
    "Docket.Watch.C69_violated_quiet"
   ],
   "note": "Proved: watch always returns and shows the state of that moment; it returns only on completion or failure unless nothing is published for the length of the poll interval. Refuted: a quiet task is abandoned after one second while it runs (the polling fallback cancels the generator it polls for)."
  },
  {
   "property": "C70",
   "status": "partial",
   "theorems": [
    "Docket.Cli.C70_strikes_what_was_written_partial",
    "Docket.Cli.C70_wildcards",
    "Docket.Cli.C70_refused",
    "Docket.Cli.C70_violated",
    "Docket.Cli.C70_violated_other_value",
    "Docket.Cli.C70_violated_unreachable",
    "Docket.Cli.C70_truth_values"
   ],
   "note": "Proved for None, integers, booleans, durations and texts without a colon, for all names and operators, with wildcards and refusals. Refuted for texts with a colon, which cannot be expressed at all."
  },
  {
   "property": "C71",
   "status": "proved",
   "theorems": [
    "Docket.C71_served_in_turn",
    "Docket.C71_eventually_handed",
    "Docket.C71_eventually_started"
   ],
   "note": "C71_served_in_turn bounds the wait in every finite continuation by the number of unserved messages in front; C71_eventually_handed and C71_eventually_started are liveness theorems over endless histories with explicit fairness (workers poll, the scheduler runs, workers survive from receiving to starting). endless_fits exhibits such a history. Tasks with a concurrency limit are the subject of C59."
  },
  {
   "property": "C72",
   "status": "partial",
   "theorems": [
    "Docket.C72_one_at_a_time_partial",
    "Docket.C72_not_two_running_partial",
    "Docket.C72_violated_replace",
    "Docket.C72_violated_cancel",
    "Docket.C72_violated_lapse",
    "Docket.C72_violated_expiry",
    "Docket.C72_violated_strike",
    "Docket.C72_violated_clear"
   ],
   "note": "Proved for every history in which the key is not disturbed: no replace or cancel of it, no clear, no strike of it, no redelivery of a message of the key held by a living worker, and the record is never lost while the task is around. Each of these exclusions is needed: replace, cancel followed by add, a lapsed lease, expiry of the record of a task added twice, a strike and clear each come with a history in which two executions of the key run at once."
  },
  {
   "property": "C73",
   "status": "partial",
   "theorems": [
    "Docket.Finish.C73_nothing_left_partial",
    "Docket.Finish.C73_nobody_busy_partial",
    "Docket.Finish.C73_returns",
    "Docket.Finish.C73_violated_cancel",
    "Docket.Finish.C73_violated_clear",
    "Docket.Finish.C73_violated_lapse"
   ],
   "note": "Proved for all interleavings: at the last look the stream and the schedule were empty, the worker had no task and took none afterwards, and every accepted task had ended or been cancelled (unless its record expired, C16); and it returns within a bounded number of rounds once nothing is left. That no other worker runs a task at that moment is proved only if nobody cancels or replaces a task just between hand-out and start, clears the docket while messages are held, or takes over a message from a living worker; each of these comes with a refuting history. Not modelled: tasks started one after the other from one answer (they are started in one step), and the tear-down after the loop."
  },
  {
   "property": "C74",
   "status": "partial",
   "theorems": [
    "Docket.TaskArg.C74_passed_partial",
    "Docket.TaskArg.C74_frame",
    "Docket.TaskArg.C74_same_value_partial",
    "Docket.TaskArg.C74_one_value",
    "Docket.TaskArg.C74_runs_partial",
    "Docket.TaskArg.C74_violated_default",
    "Docket.TaskArg.C74_violated_shared",
    "Docket.TaskArg.C74_violated_fails",
    "Docket.TaskArg.C74_fails"
   ],
   "note": "Proved for all signatures, calls and dependency trees: dependencies get what the caller passed (C74_passed_partial), which is what the task's parameter is (C74_frame, C74_same_value_partial), and the body runs (C74_runs_partial). Missing, because the code does otherwise: arguments left at their default are None or an error for a dependency (C74_violated_default, C74_violated_fails), and one TaskArgument() shared by parameters of different names sticks to the first name (C74_violated_shared). Positional-only parameters are not modelled."
  },
  {
   "property": "C75",
   "status": "partial",
   "theorems": [
    "Docket.C75_task_partial",
    "Docket.C75_found",
    "Docket.C75_unknown",
    "Docket.C75_state_partial",
    "Docket.C75_describes_partial",
    "Docket.C75_ended_partial",
    "Docket.C75_where_partial",
    "Docket.C75_violated_leftovers",
    "Docket.C75_violated_completed_error",
    "Docket.C75_violated_attempt",
    "Docket.C75_violated_gap"
   ],
   "note": "Function, arguments, time and found/not found hold in every history and for every pair of reads. State, worker and starting time are right in every history as long as the record exists at the second read (queued and the place of the task: calm histories). For the first run of a record the whole answer is proved accurate, and after its end exactly the end is returned. The full statement is false of the code: fields of an earlier run survive a re-schedule (C75_violated_leftovers, C75_violated_completed_error), a retry is reported as attempt 1 (C75_violated_attempt), and a record that expires between the reads is reported as scheduled (C75_violated_gap)."
  },
  {
   "property": "C76",
   "status": "partial",
   "theorems": [
    "Docket.Strikes.Monitor.C76_loaded",
    "Docket.Strikes.Monitor.C76_in_order_partial",
    "Docket.Strikes.Monitor.C76_load_ends_partial",
    "Docket.Strikes.Monitor.C76_worker_starts_partial",
    "Docket.Strikes.Monitor.C76_worker_obeys_partial",
    "Docket.Strikes.Monitor.C76_decides_partial",
    "Docket.Strikes.Monitor.C76_issuer_obeys_partial",
    "Docket.Strikes.Monitor.C76_violated_unseeded",
    "Docket.Strikes.Monitor.C76_violated_add",
    "Docket.Strikes.Monitor.C76_violated",
    "Docket.Strikes.Monitor.C76_violated_undecodable",
    "Docket.Strikes.Monitor.C76_violated_load",
    "Docket.Strikes.Monitor.C76_violated_undone"
   ],
   "note": "Proved for all event lists: once the wait is over everything from before the connection has been applied, first and in order (C76_loaded); nothing skipped or repeated, and the wait ends, if every entry can be decoded; a worker that schedules automatic tasks never runs a call under a standing strike; a process obeys its own strikes at once. The full statement is false of the code: a worker with schedule_automatic_tasks=False and docket.add do not wait for the strikes (C76_violated_unseeded, C76_violated_add); one entry that a process cannot decode blocks its strike list, and its worker, for ever (C76_violated_undecodable, C76_violated_load), and makes it re-apply earlier entries every second, undoing its own restores (C76_violated_undone)."
  },
  {
   "property": "C77",
   "status": "partial",
   "theorems": [
    "Docket.Strikes.Monitor.C77_counts_partial",
    "Docket.Strikes.Monitor.C77_violated_repeated",
    "Docket.Strikes.Monitor.C77_violated_negative",
    "Docket.Strikes.Monitor.C77_violated_unusable",
    "Docket.Strikes.Monitor.C77_violated_growing"
   ],
   "note": "Proved when every instruction changes what is struck and can be decoded (C77_counts_partial). Otherwise the code's number is wrong: repeated strikes count twice, restores of nothing make it negative, unusable strikes count, and an undecodable entry lets it grow every second (C77_violated_*)."
  },
  {
   "property": "C78",
   "status": "partial",
   "theorems": [
    "Docket.C78_sees_partial",
    "Docket.C78_current_partial",
    "Docket.C78_event_true_partial",
    "Docket.C78_violated_gap",
    "Docket.C78_violated_cancel",
    "Docket.C78_violated_superseded",
    "Docket.C78_violated_expired"
   ],
   "note": "Proved for every history in which the task has a record at the first look, nothing is announced about it before the subscription is live, it is not cancelled while live, and no superseded run of it ends while followed. Missing because the code violates it: states in the gap between first look and SUBSCRIBE are lost, cancellation is not announced, the end of a superseded run is announced as the end of the task, an expired record reads as scheduled. Progress events are not modelled."
  },
  {
   "property": "C79",
   "status": "partial",
   "theorems": [
    "Docket.C79_outcome_partial",
    "Docket.C79_returns_iff_partial",
    "Docket.C79_value_partial",
    "Docket.C79_violated_superseded",
    "Docket.C79_violated_returns_exception",
    "Docket.C79_violated_expired"
   ],
   "note": "Proved under the conditions of C78: it stops waiting exactly when the record has shown a terminal state, and answers with the outcome at the moment the record is read again, provided the record still exists and shows the end then and the stored result is still the same. Missing because the code violates it: the end of a superseded run makes it return None, scheduling the key again before the record is read again makes it return (not raise) the stored exception, an expired record gives None. Time limits are not modelled."
  },
  {
   "property": "C80",
   "status": "partial",
   "theorems": [
    "Docket.Renewal.C80_kept_partial",
    "Docket.Renewal.C80_two_failures_partial",
    "Docket.Renewal.C80_violated_draining",
    "Docket.Renewal.C80_violated_timeouts"
   ],
   "note": "Holds when the renewal loop wakes at most delay late, at most n renewals in a row fail, (n+1)(interval+delay) < redelivery timeout, and the worker is not told to stop while it has tasks. Full statement violated: renewals end as soon as the worker drains (C80_violated_draining), and workers with different timeouts take each other's running tasks (C80_violated_timeouts)."
  },
  {
   "property": "C81",
   "status": "partial",
   "theorems": [
    "Docket.Progress.C81_recorded_partial",
    "Docket.Progress.C81_one_after_the_other_partial",
    "Docket.Progress.C81_violated_shared"
   ],
   "note": "Proved for every history in which, while the task is in progress, no other execution with the same Progress object is (one function per process, or one task at a time). The full statement is violated by the code (C81_violated_shared): the Progress in a function's signature is one object per process, and entering it for a second execution redirects the reports of the first."
  },
  {
   "property": "C82",
   "status": "partial",
   "theorems": [
    "Docket.Progress.C82_agrees_partial",
    "Docket.Progress.C82_violated_concurrent",
    "Docket.Progress.C82_violated_cancelled"
   ],
   "note": "Proved for every history in which the object is not shared with another execution in progress, the body awaits each call before the next, and nothing but its own reports changed the record. The full statement is violated by the code: answers of concurrent increments may arrive out of order (C82_violated_concurrent), and cancel() deletes the record under a running task (C82_violated_cancelled)."
  },
  {
   "property": "C83",
   "status": "partial",
   "theorems": [
    "Docket.Cron.C83_on_schedule",
    "Docket.Cron.C83_seeded_exactly",
    "Docket.Cron.C83_seeded_next_partial",
    "Docket.Cron.C83_completed_exactly",
    "Docket.Cron.C83_completed_next_partial",
    "Docket.Cron.C83_violated_late",
    "Docket.Cron.C83_violated_stricken",
    "Docket.Cron.C83_violated_long_run"
   ],
   "note": "Proved for every history: nothing but matching times is ever scheduled (C83_on_schedule); exactly which time seeding and completion choose (C83_seeded_exactly, C83_completed_exactly); and that it is the next matching time when the process found the task missing for the first time with no match since its import, or when no match passed during the run. The full statement is violated by the code: late seeding schedules a past time (C83_violated_late), a stricken task drifts into the future (C83_violated_stricken), a run that outlasts the period is repeated at once (C83_violated_long_run)."
  },
  {
   "property": "C84",
   "status": "partial",
   "theorems": [
    "Docket.Cron.C84_each_time_once_partial",
    "Docket.Cron.C84_violated_two_processes",
    "Docket.Cron.C84_violated_cancelled"
   ],
   "note": "Proved for every history in which the task is never lost after its first scheduling. The full statement is violated by the code when the task is lost and another process sows it again (C84_violated_two_processes), or when it is cancelled while two executions of it are in progress (C84_violated_cancelled)."
  },
  {
   "property": "C85",
   "status": "partial",
   "theorems": [
    "Docket.Stop.C85_waits_partial",
    "Docket.Stop.C85_not_interrupted_partial",
    "Docket.Stop.C85_settled_partial",
    "Docket.Stop.C85_violated_second_signal",
    "Docket.Stop.C85_violated_orphans",
    "Docket.Stop.C85_violated_unsettled",
    "Docket.Stop.C85_violated",
    "Docket.Stop.C85_records_partial",
    "Docket.Stop.C85_not_cancelled_partial",
    "Docket.Stop.C85_stop_cancels_none"
   ],
   "note": "Proved: a run ends only when every task it has begun has ended (unless it is cancelled a second time while it takes its heartbeat back); no task is interrupted unless the run is cancelled while it waits for its tasks; and if no task ends with an exception of its own and nothing goes wrong while tasks are put away, no begun task is left on the docket. Violated: a second SIGTERM interrupts the tasks and they are recorded as cancelled for good (C85_violated_second_signal); a second SIGTERM during the heartbeat removal ends the run with tasks running (C85_violated_orphans); a task that raised makes the last process_completed_tasks skip the others (C85_violated_unsettled). A begun task that nobody cancelled can record its outcome at any time, also after the stop, and is not recorded as cancelled."
  },
  {
   "property": "C86",
   "status": "partial",
   "theorems": [
    "Docket.Stop.C86_stop_few_partial",
    "Docket.Stop.C86_stop_none_partial",
    "Docket.Stop.C86_cancel_none_partial",
    "Docket.Stop.C86_stop_returns_partial",
    "Docket.Stop.C86_cancel_returns_partial",
    "Docket.Stop.C86_violated_takes_more",
    "Docket.Stop.C86_violated_resumes",
    "Docket.Stop.C86_violated_never_returns",
    "Docket.Stop.C86_violated"
   ],
   "note": "Proved: after a stop at most `concurrency` further tasks are begun, and none if the run was at the top of its loop, connecting or winding up; it leaves its loop within 3*concurrency+6 steps and is over concurrency+4 steps after its tasks have ended. After a cancellation none is begun and the run ends, if no ConnectionError comes from Redis during the wind-up or from a task. Violated: a stop that arrives while messages are read still begins them (C86_violated_takes_more); a ConnectionError during the wind-up makes a worker that got SIGTERM connect again and go on (C86_violated_resumes, C86_violated_never_returns)."
  },
  {
   "property": "C87",
   "status": "partial",
   "theorems": [
    "Docket.Metrics.C87_running_is_what_is_running",
    "Docket.Metrics.C87_called_counts_as_running",
    "Docket.Metrics.C87_started_is_running_or_completed",
    "Docket.Metrics.C87_successes_and_failures_counted",
    "Docket.Metrics.C87_success_only_if_returned",
    "Docket.Metrics.C87_every_task_counted_once",
    "Docket.Metrics.C87_success_iff_returned",
    "Docket.Metrics.C87_success_and_failure_as_recorded_partial",
    "Docket.Metrics.C87_violated_unstorable",
    "Docket.Metrics.C87_violated_swallowed",
    "Docket.Metrics.C87_violated_blocked"
   ],
   "note": "Gauge, started/completed and one count per task are proved for every interleaving and interruption; success is counted iff the function returned. Agreement with the record is partial: an unstorable result counts as success and failure, an exception swallowed by a dependency's exit counts as neither, and a task for which there is no room counts as started and completed (violations proved)."
  },
  {
   "property": "C88",
   "status": "partial",
   "theorems": [
    "Docket.Calls.C88_add_verdict",
    "Docket.Calls.C88_replace_verdict",
    "Docket.Calls.C88_schedule_verdict",
    "Docket.Calls.C88_scheduled_counts_accepted",
    "Docket.Calls.C88_stricken_counts_struck",
    "Docket.Calls.C88_added_partial",
    "Docket.Calls.C88_cancelled_partial",
    "Docket.Calls.C88_violated_added",
    "Docket.Calls.C88_violated_cancelled",
    "Docket.Calls.C88_violated_replaced"
   ],
   "note": "Dispositions and docket_tasks_scheduled/_stricken are proved for all states and histories. docket_tasks_added counts adds that changed nothing, _cancelled and _replaced count calls that found nothing (violations proved)."
  },
  {
   "property": "C89",
   "status": "proved",
   "theorems": [
    "Docket.Group.C89_as_if_always_there",
    "Docket.Group.C89_reading_works",
    "Docket.Group.C89_no_error",
    "Docket.Group.C89_first_worker_gets_all"
   ],
   "note": "All histories. The refinement says there is a history of the core model (group there all along) with the same calls of others in the same order in which only what was asked is read; every core theorem therefore holds of dockets set up on the way. The stream and group are never deleted (nothing in docket deletes them)."
  },
  {
   "property": "C90",
   "status": "proved",
   "theorems": [
    "Docket.C90_in_time",
    "Docket.C90_in_time_backlog",
    "Docket.C90_at_once",
    "Docket.Scheduler.C90_scheduler_regular",
    "Docket.Scheduler.C90_worker_in_time",
    "Docket.Scheduler.C90_can_be_punctual"
   ],
   "note": "All histories within the stated bounds on delays and failures; C90_can_be_punctual shows that the loop can always go on within them. How often the worker loop asks for tasks is a hypothesis (D), not derived from the loop."
  },
  {
   "property": "C91",
   "status": "partial",
   "theorems": [
    "Docket.Exporter.C91_scrape_partial",
    "Docket.Exporter.C91_truthful",
    "Docket.Exporter.C91_ends",
    "Docket.Exporter.C91_names",
    "Docket.Exporter.C91_units",
    "Docket.Exporter.C91_labels",
    "Docket.Exporter.C91_total",
    "Docket.Exporter.C91_violated_overlapping",
    "Docket.Exporter.C91_violated_fails",
    "Docket.Exporter.C91_violated_same_labels"
   ],
   "note": "Proved for scrapes that come one at a time; for overlapping scrapes only that nothing is told that was not measured. The full statement is false of the code: scrapes run in threads and share one queue of measurements (C91_violated_overlapping, C91_violated_fails), and cleaning can make two attributes one label (C91_violated_same_labels). Attributes with an empty name are excluded."
  },
  {
   "property": "C92",
   "status": "proved",
   "theorems": [
    "Docket.Memory.C92_shared",
    "Docket.Memory.C92_apart",
    "Docket.Memory.C92_kept",
    "Docket.Memory.C92_working",
    "Docket.Memory.C92_cleaned_up",
    "Docket.Memory.C92_connects"
   ],
   "note": "All histories of loops, connections and clearings. An address is reused only when nothing refers to the object, which is what Python guarantees for id(). Closing a server is modelled as immediate."
  },
  {
   "property": "C93",
   "status": "partial",
   "theorems": [
    "Docket.Ctx.C93_released_partial",
    "Docket.Ctx.C93_block_partial",
    "Docket.Ctx.C93_not_reentrant",
    "Docket.Ctx.C93_violated",
    "Docket.Ctx.C93_violated_stuck",
    "Docket.Ctx.C93_violated_refusal",
    "Docket.Ctx.C93_violated_refusal_leaks"
   ],
   "note": "Proved for all sequences of blocks whose entering succeeds or fails at its first await, with every outcome of the other awaits. Violated when entering fails later (C93_violated, C93_violated_stuck: what was opened stays open and the docket can never be entered again) and by a refused second entering (C93_violated_refusal, C93_violated_refusal_leaks)."
  },
  {
   "property": "C94",
   "status": "partial",
   "theorems": [
    "Docket.Registry.C94_runs_what_was_added_partial",
    "Docket.Registry.C94_violated_same_name",
    "Docket.Registry.C94_registered",
    "Docket.Registry.C94_added",
    "Docket.Registry.C94_unknown",
    "Docket.Registry.C94_again",
    "Docket.Registry.C94_never_dropped_partial",
    "Docket.Registry.C94_reported_partial",
    "Docket.Registry.C94_violated_alias",
    "Docket.Registry.C94_violated_reported"
   ],
   "note": "C94_runs_what_was_added_partial assumes that no name stands for two functions, C94_never_dropped_partial and C94_reported_partial that functions are registered under their own names only; C94_violated_same_name, C94_violated_alias and C94_violated_reported show the full statements fail. C94_registered, C94_added, C94_unknown and C94_again are full."
  },
  {
   "property": "C95",
   "status": "partial",
   "theorems": [
    "Docket.C95_due_counted_partial",
    "Docket.C95_future_counted_partial",
    "Docket.C95_all_counted_partial",
    "Docket.C95_schedule_exact_partial",
    "Docket.C95_queue_exact_partial",
    "Docket.C95_violated_running",
    "Docket.C95_violated_replaced",
    "Docket.C95_violated_both"
   ],
   "note": "Proved for every history: no outstanding task with a record is missing. Proved exact: the schedule depth for orderly histories, the queue depth (of tasks due and not finished) if also nothing is replaced or cancelled, when no task falls due between the reading of the clock and the counting. Missing because the code differs: tasks being run are counted as ready, a replaced task the scheduler had moved leaves a counted entry, and a task due exactly at the heartbeat is counted in both."
  },
  {
   "property": "C96",
   "status": "partial",
   "theorems": [
    "Docket.Hooks.C96_not_twice_at_once",
    "Docket.Hooks.C96_last_in_first_out",
    "Docket.Hooks.C96_undone",
    "Docket.Hooks.C96_in_force_partial",
    "Docket.Hooks.C96_once_partial",
    "Docket.Hooks.C96_started_inside",
    "Docket.Hooks.C96_started",
    "Docket.Hooks.C96_drained",
    "Docket.Hooks.C96_violated_reconnect",
    "Docket.Hooks.C96_violated_draining",
    "Docket.Hooks.C96_violated_registered_later"
   ],
   "note": "Proved: which setups are in force from the beginning of a run of the loop until it is left, at most one entering per run of the loop, proper nesting, everything undone outside the loop, tasks only taken up inside. Missing because the code differs: a lost connection enters the setups again, tasks still running when the loop is left go on without them, and tasks registered after the loop began are not considered."
  },
  {
   "property": "C97",
   "status": "partial",
   "theorems": [
    "Docket.Connect.C97_connected",
    "Docket.Connect.C97_signed_in_partial",
    "Docket.Connect.C97_cluster_messages_partial",
    "Docket.Connect.C97_tls_partial",
    "Docket.Connect.C97_options_partial",
    "Docket.Connect.C97_waits",
    "Docket.Connect.C97_same_options",
    "Docket.Connect.C97_master_apart",
    "Docket.Connect.C97_daemons",
    "Docket.Connect.C97_violated_cluster_password",
    "Docket.Connect.C97_violated_cluster_options",
    "Docket.Connect.C97_violated_ssl_option"
   ],
   "note": "Proved for every URL: commands and results, and everything for servers and Sentinel, sign in with the credentials spelled; cluster messages do exactly if no character needs escaping; TLS; options; equality of Sentinel and server options for every query string; the daemons' credentials. Fails (witnesses): the connection for a cluster's events is given the credentials without decoding and none of the URL's options, and ssl=false in a Sentinel URL switches TLS on. redis-py's parse_url and from_url are modelled as documented; conversion of option values is left out."
  },
  {
   "property": "C98",
   "status": "partial",
   "theorems": [
    "Docket.Waiting.C98_not_forgotten_partial",
    "Docket.Waiting.C98_none_left_behind_partial",
    "Docket.Waiting.C98_deserted_waits_forever",
    "Docket.Waiting.C98_violated_cancelled",
    "Docket.Waiting.C98_violated_struck",
    "Docket.Waiting.C98_violated_failing",
    "Docket.Waiting.C98_violated_own_slot"
   ],
   "note": "Proved for histories in which no task of the limit is cancelled, struck or ends without having entered the limit while others wait (C98_not_forgotten_partial, C98_none_left_behind_partial); false in the code otherwise: C98_violated_*. C98_deserted_waits_forever shows that a task left behind is not taken up by anything else."
  },
  {
   "property": "C99",
   "status": "partial",
   "theorems": [
    "Docket.Gates.C99_cause",
    "Docket.Gates.C99_without_cooldown_partial",
    "Docket.Gates.C99_no_failure",
    "Docket.Gates.C99_single_rule_partial",
    "Docket.Gates.C99_come_back_cause",
    "Docket.Gates.C99_waits_cause",
    "Docket.Gates.C99_runs",
    "Docket.Gates.C99_window_used_up",
    "Docket.Gates.C99_violated_nothing_ever_runs",
    "Docket.Gates.C99_violated_alone",
    "Docket.Gates.C99_violated_woken_up",
    "Docket.Gates.C99_violated_second_attempt",
    "Docket.Gates.C99_violated_for_nothing"
   ],
   "note": "False in the code (C99_violated_*): a cooldown's window is used up by a delivery that another rule turns away, and a task's own first attempt counts against its second. Proved: the cause of every drop, coming back and waiting in every history; the property for tasks without cooldowns and dropping rate limits, and for single rules and tasks delivered for the first time."
  }
 ]
}