import Verif.Props.C01_C04
import Verif.Props.C05_C09
import Verif.Props.C10_C16
import Verif.Props.C17_C18
import Verif.Props.C19_C23
import Verif.Props.C24_C25
import Verif.Props.C26_C30
import Verif.Props.C31_C32
import Verif.Props.C59
import Verif.Props.C33_C36
import Verif.Props.C37_C39
import Verif.Props.C40
import Verif.Props.C41
import Verif.Props.C42_C60
import Verif.Props.C61
import Verif.Props.C43_C44
import Verif.Props.C55_C62
import Verif.Props.C45
import Verif.Props.C46
import Verif.Props.C47
import Verif.Props.C48
import Verif.Props.C49
import Verif.Props.C63
import Verif.Props.C50
import Verif.Props.C51
import Verif.Props.C52
import Verif.Props.C53
import Verif.Props.C54
import Verif.Props.C56
import Verif.Props.C57
import Verif.Props.C58
import Verif.Props.C64_C65
import Verif.Props.C66_C67
import Verif.Props.C68
import Verif.Core.Pids
import Verif.Worker.Poison
import Verif.Cli.Watch
import Verif.Cli.StrikeArgs
import Verif.Props.C69
import Verif.Props.C70
import Verif.Props.C71
import Verif.Props.C72
import Verif.Worker.Finish
import Verif.Props.C73
import Verif.Worker.TaskArgument
import Verif.Props.C74
import Verif.Views.GetExecution
import Verif.Props.C75
import Verif.Strikes.Monitor
import Verif.Props.C76_C77
import Verif.Views.Subscribe
import Verif.Props.C78_C79
import Verif.Worker.Renewal
import Verif.Props.C80
import Verif.Worker.Progress
import Verif.Props.C81_C82
import Verif.Worker.Cron
import Verif.Props.C83_C84
import Verif.Worker.Stop
import Verif.Props.C85_C86
import Verif.Props.C87
import Verif.Props.C88
import Verif.Props.C89
import Verif.Props.C90
import Verif.Props.C91
import Verif.Props.C92
import Verif.Props.C93
import Verif.Props.C94
import Verif.Props.C95
import Verif.Props.C96
import Verif.Props.C97
import Verif.Props.C98
import Verif.Props.C99
import Verif.Props.C100
import Verif.Props.C101
import Verif.Props.C102
import Verif.Props.C103
import Verif.Props.C104
import Verif.Props.C105
import Verif.Props.C106
import Verif.Props.C107
import Verif.Props.C108
import Verif.Props.C109
import Verif.Props.C110
import Verif.Props.C111
import Verif.Props.C111_limit
import Verif.Props.C59_payload
import Verif.Props.C31_mixed
import Verif.Worker.Startup
import Verif.Props.C112
import Verif.Props.C85_finish
import Verif.Worker.Tidy
import Verif.Props.C113
import Verif.Cli.Tables
import Verif.Props.C114
import Verif.Worker.Poll
import Verif.Props.C115
import Verif.Worker.Ttl
import Verif.Props.C116
import Verif.Worker.Asked
import Verif.Props.C117
import Verif.Cli.Target
import Verif.Props.C118
import Verif.Worker.AskedRetry
import Verif.Worker.AtMost
import Verif.Props.C119
import Verif.Props.C120
import Verif.Views.Legacy
import Verif.Props.C121
import Verif.Cli.Settings
import Verif.Props.C122
import Verif.Views.Opening
import Verif.Props.C123

/-! # The axioms each property theorem depends on

Generated; the build fails if one of them changes. -/

/-- info: 'Docket.C01_accepted_never_lost' depends on axioms: [propext, Classical.choice, Quot.sound] -/
#guard_msgs (whitespace := lax) in
#print axioms Docket.C01_accepted_never_lost

/-- info: 'Docket.C02_live_task_can_be_started' depends on axioms: [propext, Classical.choice, Quot.sound] -/
#guard_msgs (whitespace := lax) in
#print axioms Docket.C02_live_task_can_be_started

/-- info: 'Docket.C03_never_early' depends on axioms: [propext, Classical.choice, Quot.sound] -/
#guard_msgs (whitespace := lax) in
#print axioms Docket.C03_never_early

/-- info: 'Docket.C04_tick_moves_exactly_due' depends on axioms: [propext, Classical.choice, Quot.sound] -/
#guard_msgs (whitespace := lax) in
#print axioms Docket.C04_tick_moves_exactly_due

/-- info: 'Docket.C04_ties' depends on axioms: [propext, Classical.choice, Quot.sound] -/
#guard_msgs (whitespace := lax) in
#print axioms Docket.C04_ties

/-- info: 'Docket.C05_add_refused_for_live_key_partial' depends on axioms: [propext, Classical.choice, Quot.sound] -/
#guard_msgs (whitespace := lax) in
#print axioms Docket.C05_add_refused_for_live_key_partial

/-- info: 'Docket.C05_refused_add_changes_nothing' depends on axioms: [propext, Classical.choice, Quot.sound] -/
#guard_msgs (whitespace := lax) in
#print axioms Docket.C05_refused_add_changes_nothing

/-- info: 'Docket.C05_add_accepted_for_settled_key_partial' depends on axioms: [propext, Classical.choice, Quot.sound] -/
#guard_msgs (whitespace := lax) in
#print axioms Docket.C05_add_accepted_for_settled_key_partial

/-- info: 'Docket.C05_violated_by_strike' depends on axioms: [propext, Classical.choice, Quot.sound] -/
#guard_msgs (whitespace := lax) in
#print axioms Docket.C05_violated_by_strike

/-- info: 'Docket.C05_violated_after_clear' depends on axioms: [propext, Classical.choice, Quot.sound] -/
#guard_msgs (whitespace := lax) in
#print axioms Docket.C05_violated_after_clear

/-- info: 'Docket.C05_violated_after_crash' depends on axioms: [propext, Classical.choice, Quot.sound] -/
#guard_msgs (whitespace := lax) in
#print axioms Docket.C05_violated_after_crash

/-- info: 'Docket.C06_one_current_message' depends on axioms: [propext, Classical.choice, Quot.sound] -/
#guard_msgs (whitespace := lax) in
#print axioms Docket.C06_one_current_message

/-- info: 'Docket.C06_newest_is_current' depends on axioms: [propext, Classical.choice, Quot.sound] -/
#guard_msgs (whitespace := lax) in
#print axioms Docket.C06_newest_is_current

/-- info: 'Docket.C07_no_older_version_started' depends on axioms: [propext, Classical.choice, Quot.sound] -/
#guard_msgs (whitespace := lax) in
#print axioms Docket.C07_no_older_version_started

/-- info: 'Docket.C07_replace_takes_over' depends on axioms: [propext, Classical.choice, Quot.sound] -/
#guard_msgs (whitespace := lax) in
#print axioms Docket.C07_replace_takes_over

/-- info: 'Docket.C08_violated' depends on axioms: [propext, Classical.choice, Quot.sound] -/
#guard_msgs (whitespace := lax) in
#print axioms Docket.C08_violated

/-- info: 'Docket.C08_replacement_never_started_after_retry' depends on axioms: [propext, Classical.choice, Quot.sound] -/
#guard_msgs (whitespace := lax) in
#print axioms Docket.C08_replacement_never_started_after_retry

/-- info: 'Docket.C08_only_retry_displaces_partial' depends on axioms: [propext, Classical.choice, Quot.sound] -/
#guard_msgs (whitespace := lax) in
#print axioms Docket.C08_only_retry_displaces_partial

/-- info: 'Docket.C09_stale_completion' depends on axioms: [propext, Classical.choice, Quot.sound] -/
#guard_msgs (whitespace := lax) in
#print axioms Docket.C09_stale_completion

/-- info: 'Docket.C10_one_worker_unless_lapsed' depends on axioms: [propext, Classical.choice, Quot.sound] -/
#guard_msgs (whitespace := lax) in
#print axioms Docket.C10_one_worker_unless_lapsed

/-- info: 'Docket.Gates.C100_cooldown' depends on axioms: [propext, Quot.sound] -/
#guard_msgs (whitespace := lax) in
#print axioms Docket.Gates.C100_cooldown

/-- info: 'Docket.Gates.C100_debounce' depends on axioms: [propext, Classical.choice, Quot.sound] -/
#guard_msgs (whitespace := lax) in
#print axioms Docket.Gates.C100_debounce

/-- info: 'Docket.Gates.C100_slot' depends on axioms: [propext, Quot.sound] -/
#guard_msgs (whitespace := lax) in
#print axioms Docket.Gates.C100_slot

/-- info: 'Docket.Gates.C100_rate_limit_partial' depends on axioms: [propext, Classical.choice, Quot.sound] -/
#guard_msgs (whitespace := lax) in
#print axioms Docket.Gates.C100_rate_limit_partial

/-- info: 'Docket.Gates.C100_violated_same_millisecond' depends on axioms: [propext] -/
#guard_msgs (whitespace := lax) in
#print axioms Docket.Gates.C100_violated_same_millisecond

/-- info: 'Docket.Shared.C100_annotated_limit' depends on axioms: [propext, Classical.choice, Quot.sound] -/
#guard_msgs (whitespace := lax) in
#print axioms Docket.Shared.C100_annotated_limit

/-- info: 'Docket.Shared.C100_annotated_only_started_count' depends on axioms: [propext, Classical.choice, Quot.sound] -/
#guard_msgs (whitespace := lax) in
#print axioms Docket.Shared.C100_annotated_only_started_count

/-- info: 'Docket.Shared.C100_default_no_overlap_partial' depends on axioms: [propext, Classical.choice, Quot.sound] -/
#guard_msgs (whitespace := lax) in
#print axioms Docket.Shared.C100_default_no_overlap_partial

/-- info: 'Docket.Shared.C100_violated_limit_exceeded' depends on axioms: [propext] -/
#guard_msgs (whitespace := lax) in
#print axioms Docket.Shared.C100_violated_limit_exceeded

/-- info: 'Docket.Shared.C100_violated_place_lost' depends on axioms: [propext] -/
#guard_msgs (whitespace := lax) in
#print axioms Docket.Shared.C100_violated_place_lost

/-- info: 'Docket.Functions.C101_partial' depends on axioms: [propext] -/
#guard_msgs (whitespace := lax) in
#print axioms Docket.Functions.C101_partial

/-- info: 'Docket.Functions.C101_strikes_and_restores' depends on axioms: [propext, Quot.sound] -/
#guard_msgs (whitespace := lax) in
#print axioms Docket.Functions.C101_strikes_and_restores

/-- info: 'Docket.Functions.C101_runs_partial' depends on axioms: [propext, Quot.sound] -/
#guard_msgs (whitespace := lax) in
#print axioms Docket.Functions.C101_runs_partial

/-- info: 'Docket.Functions.C101_dropped_partial' depends on axioms: [propext, Quot.sound] -/
#guard_msgs (whitespace := lax) in
#print axioms Docket.Functions.C101_dropped_partial

/-- info: 'Docket.Functions.C101_add_partial' depends on axioms: [propext, Quot.sound] -/
#guard_msgs (whitespace := lax) in
#print axioms Docket.Functions.C101_add_partial

/-- info: 'Docket.Functions.C101_violated_other_name' depends on axioms: [propext, Classical.choice, Quot.sound] -/
#guard_msgs (whitespace := lax) in
#print axioms Docket.Functions.C101_violated_other_name

/-- info: 'Docket.Functions.C101_violated_perpetual' depends on axioms: [propext, Classical.choice, Quot.sound] -/
#guard_msgs (whitespace := lax) in
#print axioms Docket.Functions.C101_violated_perpetual

/-- info: 'Docket.Functions.C101_violated_same_name' depends on axioms: [propext, Quot.sound] -/
#guard_msgs (whitespace := lax) in
#print axioms Docket.Functions.C101_violated_same_name

/-- info: 'Docket.Execute.C102_violated_annotation' depends on axioms: [propext, Classical.choice, Quot.sound] -/
#guard_msgs (whitespace := lax) in
#print axioms Docket.Execute.C102_violated_annotation

/-- info: 'Docket.Execute.C102_violated_automatic' depends on axioms: [propext, Classical.choice, Quot.sound] -/
#guard_msgs (whitespace := lax) in
#print axioms Docket.Execute.C102_violated_automatic

/-- info: 'Docket.Execute.C102_retry_partial' depends on axioms: [propext, Classical.choice, Quot.sound] -/
#guard_msgs (whitespace := lax) in
#print axioms Docket.Execute.C102_retry_partial

/-- info: 'Docket.Execute.C102_perpetual_partial' depends on axioms: [propext, Classical.choice, Quot.sound] -/
#guard_msgs (whitespace := lax) in
#print axioms Docket.Execute.C102_perpetual_partial

/-- info: 'Docket.Execute.C102_perpetual_after_failure_partial' depends on axioms: [propext, Classical.choice, Quot.sound] -/
#guard_msgs (whitespace := lax) in
#print axioms Docket.Execute.C102_perpetual_after_failure_partial

/-- info: 'Docket.Execute.C102_timeout_partial' depends on axioms: [propext, Classical.choice, Quot.sound] -/
#guard_msgs (whitespace := lax) in
#print axioms Docket.Execute.C102_timeout_partial

/-- info: 'Docket.Execute.C102_the_one_partial' depends on axioms: [propext, Classical.choice, Quot.sound] -/
#guard_msgs (whitespace := lax) in
#print axioms Docket.Execute.C102_the_one_partial

/-- info: 'Docket.Execute.C102_dependency_failure_partial' depends on axioms: [propext, Classical.choice, Quot.sound] -/
#guard_msgs (whitespace := lax) in
#print axioms Docket.Execute.C102_dependency_failure_partial

/-- info: 'Docket.Execute.C102_only_offered' depends on axioms: [propext, Classical.choice, Quot.sound] -/
#guard_msgs (whitespace := lax) in
#print axioms Docket.Execute.C102_only_offered

/-- info: 'Docket.Reseed.C103_healed_partial' depends on axioms: [propext, Classical.choice, Quot.sound] -/
#guard_msgs (whitespace := lax) in
#print axioms Docket.Reseed.C103_healed_partial

/-- info: 'Docket.Reseed.C103_severed_partial' depends on axioms: [propext, Classical.choice, Quot.sound] -/
#guard_msgs (whitespace := lax) in
#print axioms Docket.Reseed.C103_severed_partial

/-- info: 'Docket.Reseed.C103_harmless' depends on axioms: [propext, Classical.choice, Quot.sound] -/
#guard_msgs (whitespace := lax) in
#print axioms Docket.Reseed.C103_harmless

/-- info: 'Docket.Reseed.C103_as_declared' depends on axioms: [propext, Classical.choice, Quot.sound] -/
#guard_msgs (whitespace := lax) in
#print axioms Docket.Reseed.C103_as_declared

/-- info: 'Docket.Reseed.C103_stops' depends on axioms: [propext, Classical.choice, Quot.sound] -/
#guard_msgs (whitespace := lax) in
#print axioms Docket.Reseed.C103_stops

/-- info: 'Docket.Reseed.C103_violated_forever' depends on axioms: [propext, Classical.choice, Quot.sound] -/
#guard_msgs (whitespace := lax) in
#print axioms Docket.Reseed.C103_violated_forever

/-- info: 'Docket.Reseed.C103_violated_cleared' depends on axioms: [propext, Classical.choice, Quot.sound] -/
#guard_msgs (whitespace := lax) in
#print axioms Docket.Reseed.C103_violated_cleared

/-- info: 'Docket.Listen.C104_heard_partial' depends on axioms: [propext, Quot.sound] -/
#guard_msgs (whitespace := lax) in
#print axioms Docket.Listen.C104_heard_partial

/-- info: 'Docket.Listen.C104_first_subscribed' depends on axioms: [propext, Quot.sound] -/
#guard_msgs (whitespace := lax) in
#print axioms Docket.Listen.C104_first_subscribed

/-- info: 'Docket.Listen.C104_recovers' depends on axioms: [propext, Quot.sound] -/
#guard_msgs (whitespace := lax) in
#print axioms Docket.Listen.C104_recovers

/-- info: 'Docket.Listen.C104_ends' depends on axioms: [propext] -/
#guard_msgs (whitespace := lax) in
#print axioms Docket.Listen.C104_ends

/-- info: 'Docket.Listen.C104_asked' depends on axioms: [propext, Quot.sound] -/
#guard_msgs (whitespace := lax) in
#print axioms Docket.Listen.C104_asked

/-- info: 'Docket.Listen.C104_once' depends on axioms: [propext, Quot.sound] -/
#guard_msgs (whitespace := lax) in
#print axioms Docket.Listen.C104_once

/-- info: 'Docket.Listen.C104_whom_partial' depends on axioms: [propext, Quot.sound] -/
#guard_msgs (whitespace := lax) in
#print axioms Docket.Listen.C104_whom_partial

/-- info: 'Docket.Listen.C104_violated_deaf' depends on axioms: [propext, Quot.sound] -/
#guard_msgs (whitespace := lax) in
#print axioms Docket.Listen.C104_violated_deaf

/-- info: 'Docket.Listen.C104_violated_successor' depends on axioms: [propext, Quot.sound] -/
#guard_msgs (whitespace := lax) in
#print axioms Docket.Listen.C104_violated_successor

/-- info: 'Docket.Keys.C105_enough_partial' depends on axioms: [propext, Classical.choice, Quot.sound] -/
#guard_msgs (whitespace := lax) in
#print axioms Docket.Keys.C105_enough_partial

/-- info: 'Docket.Keys.C105_violated_listening_always' depends on axioms: [propext] -/
#guard_msgs (whitespace := lax) in
#print axioms Docket.Keys.C105_violated_listening_always

/-- info: 'Docket.Keys.C105_violated_listening' depends on axioms: [propext] -/
#guard_msgs (whitespace := lax) in
#print axioms Docket.Keys.C105_violated_listening

/-- info: 'Docket.Keys.C105_violated_cluster_always' depends on axioms: [propext, Classical.choice, Quot.sound] -/
#guard_msgs (whitespace := lax) in
#print axioms Docket.Keys.C105_violated_cluster_always

/-- info: 'Docket.Keys.C105_violated_cluster' depends on axioms: [propext, Classical.choice, Quot.sound] -/
#guard_msgs (whitespace := lax) in
#print axioms Docket.Keys.C105_violated_cluster

/-- info: 'Docket.Keys.C105_scopes' depends on axioms: [propext, Classical.choice, Quot.sound] -/
#guard_msgs (whitespace := lax) in
#print axioms Docket.Keys.C105_scopes

/-- info: 'Docket.Keys.C105_violated_scope' depends on axioms: [propext, Classical.choice, Quot.sound] -/
#guard_msgs (whitespace := lax) in
#print axioms Docket.Keys.C105_violated_scope

/-- info: 'Docket.Keys.C105_violated_name' depends on axioms: [propext] -/
#guard_msgs (whitespace := lax) in
#print axioms Docket.Keys.C105_violated_name

/-- info: 'Docket.Keys.C105_tested' depends on axioms: [propext, Classical.choice, Quot.sound] -/
#guard_msgs (whitespace := lax) in
#print axioms Docket.Keys.C105_tested

/-- info: 'Docket.Keys.C105_confined' depends on axioms: [propext, Classical.choice, Quot.sound] -/
#guard_msgs (whitespace := lax) in
#print axioms Docket.Keys.C105_confined

/-- info: 'Docket.Keys.C105_violated_confined' depends on axioms: [propext] -/
#guard_msgs (whitespace := lax) in
#print axioms Docket.Keys.C105_violated_confined

/-- info: 'Docket.Execute.C106_accepted' depends on axioms: [propext, Classical.choice, Quot.sound] -/
#guard_msgs (whitespace := lax) in
#print axioms Docket.Execute.C106_accepted

/-- info: 'Docket.Execute.C106_refused' depends on axioms: [propext, Classical.choice, Quot.sound] -/
#guard_msgs (whitespace := lax) in
#print axioms Docket.Execute.C106_refused

/-- info: 'Docket.Execute.C106_in_force' depends on axioms: [propext, Classical.choice, Quot.sound] -/
#guard_msgs (whitespace := lax) in
#print axioms Docket.Execute.C106_in_force

/-- info: 'Docket.Json.C107_announced' depends on axioms: [propext, Classical.choice, Quot.sound] -/
#guard_msgs (whitespace := lax) in
#print axioms Docket.Json.C107_announced

/-- info: 'Docket.Json.C107_scripts_partial' depends on axioms: [propext, Quot.sound] -/
#guard_msgs (whitespace := lax) in
#print axioms Docket.Json.C107_scripts_partial

/-- info: 'Docket.Json.C107_unreadable' depends on axioms: [propext, Quot.sound] -/
#guard_msgs (whitespace := lax) in
#print axioms Docket.Json.C107_unreadable

/-- info: 'Docket.Json.C107_violated_due' depends on axioms: [propext, Quot.sound] -/
#guard_msgs (whitespace := lax) in
#print axioms Docket.Json.C107_violated_due

/-- info: 'Docket.Json.C107_violated_woken' depends on axioms: [propext, Quot.sound] -/
#guard_msgs (whitespace := lax) in
#print axioms Docket.Json.C107_violated_woken

/-- info: 'Docket.Json.C107_events' depends on axioms: [propext, Classical.choice, Quot.sound] -/
#guard_msgs (whitespace := lax) in
#print axioms Docket.Json.C107_events

/-- info: 'Docket.Json.C107_progress' depends on axioms: [propext, Classical.choice, Quot.sound] -/
#guard_msgs (whitespace := lax) in
#print axioms Docket.Json.C107_progress

/-- info: 'Docket.Trace.C108_linked_partial' depends on axioms: [propext, Classical.choice, Quot.sound] -/
#guard_msgs (whitespace := lax) in
#print axioms Docket.Trace.C108_linked_partial

/-- info: 'Docket.Trace.C108_undisturbed' depends on axioms: [propext, Classical.choice, Quot.sound] -/
#guard_msgs (whitespace := lax) in
#print axioms Docket.Trace.C108_undisturbed

/-- info: 'Docket.Trace.C108_unlinked' depends on axioms: [propext, Classical.choice, Quot.sound] -/
#guard_msgs (whitespace := lax) in
#print axioms Docket.Trace.C108_unlinked

/-- info: 'Docket.Trace.C108_violated_later_always' depends on axioms: [propext, Classical.choice, Quot.sound] -/
#guard_msgs (whitespace := lax) in
#print axioms Docket.Trace.C108_violated_later_always

/-- info: 'Docket.Trace.C108_violated_later' depends on axioms: [propext, Classical.choice, Quot.sound] -/
#guard_msgs (whitespace := lax) in
#print axioms Docket.Trace.C108_violated_later

/-- info: 'Docket.C109_counted_partial' depends on axioms: [propext, Classical.choice, Quot.sound] -/
#guard_msgs (whitespace := lax) in
#print axioms Docket.C109_counted_partial

/-- info: 'Docket.C109_violated_late_cleanup' depends on axioms: [propext, Classical.choice, Quot.sound] -/
#guard_msgs (whitespace := lax) in
#print axioms Docket.C109_violated_late_cleanup

/-- info: 'Docket.C11_renewal_prevents_redelivery' depends on axioms: [propext, Classical.choice, Quot.sound] -/
#guard_msgs (whitespace := lax) in
#print axioms Docket.C11_renewal_prevents_redelivery

/-- info: 'Docket.Execute.C110_truthful_partial' depends on axioms: [propext, Classical.choice, Quot.sound] -/
#guard_msgs (whitespace := lax) in
#print axioms Docket.Execute.C110_truthful_partial

/-- info: 'Docket.Execute.C110_completed_returned' depends on axioms: [propext, Classical.choice, Quot.sound] -/
#guard_msgs (whitespace := lax) in
#print axioms Docket.Execute.C110_completed_returned

/-- info: 'Docket.Execute.C110_recorded_once' depends on axioms: [propext, Classical.choice, Quot.sound] -/
#guard_msgs (whitespace := lax) in
#print axioms Docket.Execute.C110_recorded_once

/-- info: 'Docket.Execute.C110_success_is_final' depends on axioms: [propext, Classical.choice, Quot.sound] -/
#guard_msgs (whitespace := lax) in
#print axioms Docket.Execute.C110_success_is_final

/-- info: 'Docket.Execute.C110_violated_unstorable_always' depends on axioms: [propext, Classical.choice, Quot.sound] -/
#guard_msgs (whitespace := lax) in
#print axioms Docket.Execute.C110_violated_unstorable_always

/-- info: 'Docket.Execute.C110_violated_unstorable' depends on axioms: [propext, Classical.choice, Quot.sound] -/
#guard_msgs (whitespace := lax) in
#print axioms Docket.Execute.C110_violated_unstorable

/-- info: 'Docket.Execute.C110_violated_success_is_retried' depends on axioms: [propext, Classical.choice, Quot.sound] -/
#guard_msgs (whitespace := lax) in
#print axioms Docket.Execute.C110_violated_success_is_retried

/-- info: 'Docket.Execute.C110_violated_swallowed' depends on axioms: [propext, Classical.choice, Quot.sound] -/
#guard_msgs (whitespace := lax) in
#print axioms Docket.Execute.C110_violated_swallowed

/-- info: 'Docket.Once.C111_starts' depends on axioms: [propext, Classical.choice, Quot.sound] -/
#guard_msgs (whitespace := lax) in
#print axioms Docket.Once.C111_starts

/-- info: 'Docket.Once.C111_each_scheduling' depends on axioms: [propext, Classical.choice, Quot.sound] -/
#guard_msgs (whitespace := lax) in
#print axioms Docket.Once.C111_each_scheduling

/-- info: 'Docket.Once.C111_added_once' depends on axioms: [propext, Classical.choice, Quot.sound] -/
#guard_msgs (whitespace := lax) in
#print axioms Docket.Once.C111_added_once

/-- info: 'Docket.Once.C111_nothing_doubled' depends on axioms: [propext, Classical.choice, Quot.sound] -/
#guard_msgs (whitespace := lax) in
#print axioms Docket.Once.C111_nothing_doubled

/-- info: 'Docket.Once.C111_limit_slots' depends on axioms: [propext, Classical.choice, Quot.sound] -/
#guard_msgs (whitespace := lax) in
#print axioms Docket.Once.C111_limit_slots

/-- info: 'Docket.Once.C111_limit_once' depends on axioms: [propext, Classical.choice, Quot.sound] -/
#guard_msgs (whitespace := lax) in
#print axioms Docket.Once.C111_limit_once

/-- info: 'Docket.Startup.C112_starts_partial' depends on axioms: [propext, Classical.choice, Quot.sound] -/
#guard_msgs (whitespace := lax) in
#print axioms Docket.Startup.C112_starts_partial

/-- info: 'Docket.Startup.C112_listed_partial' depends on axioms: [propext, Classical.choice, Quot.sound] -/
#guard_msgs (whitespace := lax) in
#print axioms Docket.Startup.C112_listed_partial

/-- info: 'Docket.Startup.C112_lines_partial' depends on axioms: [propext, Classical.choice, Quot.sound] -/
#guard_msgs (whitespace := lax) in
#print axioms Docket.Startup.C112_lines_partial

/-- info: 'Docket.Startup.C112_dependencies_hidden' depends on axioms: [propext, Classical.choice, Quot.sound] -/
#guard_msgs (whitespace := lax) in
#print axioms Docket.Startup.C112_dependencies_hidden

/-- info: 'Docket.Startup.C112_violated_start' depends on axioms: [propext, Classical.choice, Quot.sound] -/
#guard_msgs (whitespace := lax) in
#print axioms Docket.Startup.C112_violated_start

/-- info: 'Docket.Startup.C112_violated_types' depends on axioms: [propext, Classical.choice, Quot.sound] -/
#guard_msgs (whitespace := lax) in
#print axioms Docket.Startup.C112_violated_types

/-- info: 'Docket.Tidy.C113_tidied_partial' depends on axioms: [propext, Quot.sound] -/
#guard_msgs (whitespace := lax) in
#print axioms Docket.Tidy.C113_tidied_partial

/-- info: 'Docket.Tidy.C113_only_cancelled' depends on axioms: [propext, Quot.sound] -/
#guard_msgs (whitespace := lax) in
#print axioms Docket.Tidy.C113_only_cancelled

/-- info: 'Docket.Tidy.C113_once' depends on axioms: [propext, Quot.sound] -/
#guard_msgs (whitespace := lax) in
#print axioms Docket.Tidy.C113_once

/-- info: 'Docket.Tidy.C113_backstops' depends on axioms: [propext, Quot.sound] -/
#guard_msgs (whitespace := lax) in
#print axioms Docket.Tidy.C113_backstops

/-- info: 'Docket.Tidy.C113_violated_for_good' depends on axioms: [propext, Quot.sound] -/
#guard_msgs (whitespace := lax) in
#print axioms Docket.Tidy.C113_violated_for_good

/-- info: 'Docket.Tidy.C113_violated_deaf' depends on axioms: [propext, Quot.sound] -/
#guard_msgs (whitespace := lax) in
#print axioms Docket.Tidy.C113_violated_deaf

/-- info: 'Docket.Tidy.C113_violated_cluster' depends on axioms: [propext] -/
#guard_msgs (whitespace := lax) in
#print axioms Docket.Tidy.C113_violated_cluster

/-- info: 'Docket.Tidy.C113_violated_early' depends on axioms: [propext, Quot.sound] -/
#guard_msgs (whitespace := lax) in
#print axioms Docket.Tidy.C113_violated_early

/-- info: 'Docket.Tables.C114_times' depends on axioms: [propext, Quot.sound] -/
#guard_msgs (whitespace := lax) in
#print axioms Docket.Tables.C114_times

/-- info: 'Docket.Tables.C114_rows_partial' depends on axioms: [propext, Quot.sound] -/
#guard_msgs (whitespace := lax) in
#print axioms Docket.Tables.C114_rows_partial

/-- info: 'Docket.Tables.C114_violated_key' depends on axioms: [propext] -/
#guard_msgs (whitespace := lax) in
#print axioms Docket.Tables.C114_violated_key

/-- info: 'Docket.Tables.C114_violated_error' depends on axioms: [propext, Quot.sound] -/
#guard_msgs (whitespace := lax) in
#print axioms Docket.Tables.C114_violated_error

/-- info: 'Docket.Tables.C114_violated_picture' depends on axioms: [propext, Quot.sound] -/
#guard_msgs (whitespace := lax) in
#print axioms Docket.Tables.C114_violated_picture

/-- info: 'Docket.Tables.C114_stats' depends on axioms: [propext, Quot.sound] -/
#guard_msgs (whitespace := lax) in
#print axioms Docket.Tables.C114_stats

/-- info: 'Docket.Tables.C114_workers' depends on axioms: [propext, Quot.sound] -/
#guard_msgs (whitespace := lax) in
#print axioms Docket.Tables.C114_workers

/-- info: 'Docket.Poll.C115_interval_partial' depends on axioms: [propext, Quot.sound] -/
#guard_msgs (whitespace := lax) in
#print axioms Docket.Poll.C115_interval_partial

/-- info: 'Docket.Poll.C115_rounds_partial' depends on axioms: [propext, Quot.sound] -/
#guard_msgs (whitespace := lax) in
#print axioms Docket.Poll.C115_rounds_partial

/-- info: 'Docket.Poll.C115_stop_partial' depends on axioms: [propext, Quot.sound] -/
#guard_msgs (whitespace := lax) in
#print axioms Docket.Poll.C115_stop_partial

/-- info: 'Docket.Poll.C115_finishes_partial' depends on axioms: [propext, Quot.sound] -/
#guard_msgs (whitespace := lax) in
#print axioms Docket.Poll.C115_finishes_partial

/-- info: 'Docket.Poll.C115_violated' depends on axioms: [propext, Quot.sound] -/
#guard_msgs (whitespace := lax) in
#print axioms Docket.Poll.C115_violated

/-- info: 'Docket.Execute.C116_worker_partial' depends on axioms: [propext, Classical.choice, Quot.sound] -/
#guard_msgs (whitespace := lax) in
#print axioms Docket.Execute.C116_worker_partial

/-- info: 'Docket.Execute.C116_completed_partial' depends on axioms: [propext, Classical.choice, Quot.sound] -/
#guard_msgs (whitespace := lax) in
#print axioms Docket.Execute.C116_completed_partial

/-- info: 'Docket.Execute.C116_violated_worker' depends on axioms: [propext, Classical.choice, Quot.sound] -/
#guard_msgs (whitespace := lax) in
#print axioms Docket.Execute.C116_violated_worker

/-- info: 'Docket.Execute.C116_violated_success' depends on axioms: [propext, Classical.choice, Quot.sound] -/
#guard_msgs (whitespace := lax) in
#print axioms Docket.Execute.C116_violated_success

/-- info: 'Docket.Execute.C116_violated_retried' depends on axioms: [propext, Classical.choice, Quot.sound] -/
#guard_msgs (whitespace := lax) in
#print axioms Docket.Execute.C116_violated_retried

/-- info: 'Docket.Execute.C117_goes_on_partial' depends on axioms: [propext, Classical.choice, Quot.sound] -/
#guard_msgs (whitespace := lax) in
#print axioms Docket.Execute.C117_goes_on_partial

/-- info: 'Docket.Execute.C117_answered' depends on axioms: [propext, Classical.choice, Quot.sound] -/
#guard_msgs (whitespace := lax) in
#print axioms Docket.Execute.C117_answered

/-- info: 'Docket.Execute.C117_violated_naive' depends on axioms: [propext, Classical.choice, Quot.sound] -/
#guard_msgs (whitespace := lax) in
#print axioms Docket.Execute.C117_violated_naive

/-- info: 'Docket.Execute.C117_violated_arguments' depends on axioms: [propext, Classical.choice, Quot.sound] -/
#guard_msgs (whitespace := lax) in
#print axioms Docket.Execute.C117_violated_arguments

/-- info: 'Docket.Execute.C117_violated_interval' depends on axioms: [propext, Classical.choice, Quot.sound] -/
#guard_msgs (whitespace := lax) in
#print axioms Docket.Execute.C117_violated_interval

/-- info: 'Docket.Target.C118_named_partial' depends on axioms: [propext] -/
#guard_msgs (whitespace := lax) in
#print axioms Docket.Target.C118_named_partial

/-- info: 'Docket.Target.C118_same_partial' depends on axioms: [propext] -/
#guard_msgs (whitespace := lax) in
#print axioms Docket.Target.C118_same_partial

/-- info: 'Docket.Target.C118_memory_partial' depends on axioms: [propext, Classical.choice, Quot.sound] -/
#guard_msgs (whitespace := lax) in
#print axioms Docket.Target.C118_memory_partial

/-- info: 'Docket.Target.C118_refused' depends on axioms: [propext, Classical.choice, Quot.sound] -/
#guard_msgs (whitespace := lax) in
#print axioms Docket.Target.C118_refused

/-- info: 'Docket.Target.C118_worker' depends on axioms: [propext] -/
#guard_msgs (whitespace := lax) in
#print axioms Docket.Target.C118_worker

/-- info: 'Docket.Target.C118_violated_watch' depends on axioms: [propext] -/
#guard_msgs (whitespace := lax) in
#print axioms Docket.Target.C118_violated_watch

/-- info: 'Docket.Target.C118_violated_memory' depends on axioms: [propext] -/
#guard_msgs (whitespace := lax) in
#print axioms Docket.Target.C118_violated_memory

/-- info: 'Docket.Target.C118_violated_spelling' depends on axioms: [propext, Classical.choice, Quot.sound] -/
#guard_msgs (whitespace := lax) in
#print axioms Docket.Target.C118_violated_spelling

/-- info: 'Docket.Execute.C119_goes_on_partial' depends on axioms: [propext, Classical.choice, Quot.sound] -/
#guard_msgs (whitespace := lax) in
#print axioms Docket.Execute.C119_goes_on_partial

/-- info: 'Docket.Execute.C119_run_partial' depends on axioms: [propext, Classical.choice, Quot.sound] -/
#guard_msgs (whitespace := lax) in
#print axioms Docket.Execute.C119_run_partial

/-- info: 'Docket.Execute.C119_when_partial' depends on axioms: [propext, Classical.choice, Quot.sound] -/
#guard_msgs (whitespace := lax) in
#print axioms Docket.Execute.C119_when_partial

/-- info: 'Docket.Execute.C119_violated_at' depends on axioms: [propext, Classical.choice, Quot.sound] -/
#guard_msgs (whitespace := lax) in
#print axioms Docket.Execute.C119_violated_at

/-- info: 'Docket.Execute.C119_violated_delay' depends on axioms: [propext, Classical.choice, Quot.sound] -/
#guard_msgs (whitespace := lax) in
#print axioms Docket.Execute.C119_violated_delay

/-- info: 'Docket.C12_finished_message_is_gone' depends on axioms: [propext, Classical.choice, Quot.sound] -/
#guard_msgs (whitespace := lax) in
#print axioms Docket.C12_finished_message_is_gone

/-- info: 'Docket.C12_handed_message_is_gone' depends on axioms: [propext, Classical.choice, Quot.sound] -/
#guard_msgs (whitespace := lax) in
#print axioms Docket.C12_handed_message_is_gone

/-- info: 'Docket.AtMost.C120_refused' depends on axioms: [propext, Quot.sound] -/
#guard_msgs (whitespace := lax) in
#print axioms Docket.AtMost.C120_refused

/-- info: 'Docket.AtMost.C120_own_partial' depends on axioms: [propext, Quot.sound] -/
#guard_msgs (whitespace := lax) in
#print axioms Docket.AtMost.C120_own_partial

/-- info: 'Docket.AtMost.C120_bound_partial' depends on axioms: [propext, Quot.sound] -/
#guard_msgs (whitespace := lax) in
#print axioms Docket.AtMost.C120_bound_partial

/-- info: 'Docket.AtMost.C120_added' depends on axioms: [propext, Quot.sound] -/
#guard_msgs (whitespace := lax) in
#print axioms Docket.AtMost.C120_added

/-- info: 'Docket.AtMost.C120_after' depends on axioms: [propext, Quot.sound] -/
#guard_msgs (whitespace := lax) in
#print axioms Docket.AtMost.C120_after

/-- info: 'Docket.AtMost.C120_violated' depends on axioms: [propext] -/
#guard_msgs (whitespace := lax) in
#print axioms Docket.AtMost.C120_violated

/-- info: 'Docket.Legacy.C121_add' depends on axioms: [propext, Quot.sound] -/
#guard_msgs (whitespace := lax) in
#print axioms Docket.Legacy.C121_add

/-- info: 'Docket.Legacy.C121_startable' depends on axioms: [propext, Quot.sound] -/
#guard_msgs (whitespace := lax) in
#print axioms Docket.Legacy.C121_startable

/-- info: 'Docket.Legacy.C121_left' depends on axioms: [Quot.sound] -/
#guard_msgs (whitespace := lax) in
#print axioms Docket.Legacy.C121_left

/-- info: 'Docket.Legacy.C121_unlisted' depends on axioms: [propext, Quot.sound] -/
#guard_msgs (whitespace := lax) in
#print axioms Docket.Legacy.C121_unlisted

/-- info: 'Docket.Legacy.C121_ended' depends on axioms: [propext, Quot.sound] -/
#guard_msgs (whitespace := lax) in
#print axioms Docket.Legacy.C121_ended

/-- info: 'Docket.Legacy.C121_replace_partial' depends on axioms: [propext, Quot.sound] -/
#guard_msgs (whitespace := lax) in
#print axioms Docket.Legacy.C121_replace_partial

/-- info: 'Docket.Legacy.C121_cancel_partial' depends on axioms: [propext, Quot.sound] -/
#guard_msgs (whitespace := lax) in
#print axioms Docket.Legacy.C121_cancel_partial

/-- info: 'Docket.Legacy.C121_reuse_partial' depends on axioms: [propext, Quot.sound] -/
#guard_msgs (whitespace := lax) in
#print axioms Docket.Legacy.C121_reuse_partial

/-- info: 'Docket.Legacy.C121_violated_clear' depends on axioms: [propext] -/
#guard_msgs (whitespace := lax) in
#print axioms Docket.Legacy.C121_violated_clear

/-- info: 'Docket.Legacy.C121_violated_replace' depends on axioms: [propext, Classical.choice, Quot.sound] -/
#guard_msgs (whitespace := lax) in
#print axioms Docket.Legacy.C121_violated_replace

/-- info: 'Docket.Legacy.C121_violated_cancel' depends on axioms: [propext, Quot.sound] -/
#guard_msgs (whitespace := lax) in
#print axioms Docket.Legacy.C121_violated_cancel

/-- info: 'Docket.Legacy.C121_violated' depends on axioms: [propext, Quot.sound] -/
#guard_msgs (whitespace := lax) in
#print axioms Docket.Legacy.C121_violated

/-- info: 'Docket.Settings.C122_runs_partial' depends on axioms: [propext, Classical.choice, Quot.sound] -/
#guard_msgs (whitespace := lax) in
#print axioms Docket.Settings.C122_runs_partial

/-- info: 'Docket.Settings.C122_understood' depends on axioms: [propext, Quot.sound] -/
#guard_msgs (whitespace := lax) in
#print axioms Docket.Settings.C122_understood

/-- info: 'Docket.Settings.C122_violated_milliseconds' depends on axioms: [propext, Quot.sound] -/
#guard_msgs (whitespace := lax) in
#print axioms Docket.Settings.C122_violated_milliseconds

/-- info: 'Docket.Settings.C122_violated_level' depends on axioms: [propext] -/
#guard_msgs (whitespace := lax) in
#print axioms Docket.Settings.C122_violated_level

/-- info: 'Docket.Settings.C122_violated_documented' depends on axioms: [propext, Quot.sound] -/
#guard_msgs (whitespace := lax) in
#print axioms Docket.Settings.C122_violated_documented

/-- info: 'Docket.Settings.C122_violated' depends on axioms: [propext, Quot.sound] -/
#guard_msgs (whitespace := lax) in
#print axioms Docket.Settings.C122_violated

/-- info: 'Docket.Opening.C123_opens_partial' depends on axioms: [propext, Classical.choice, Quot.sound] -/
#guard_msgs (whitespace := lax) in
#print axioms Docket.Opening.C123_opens_partial

/-- info: 'Docket.Opening.C123_refused' depends on axioms: [propext, Classical.choice, Quot.sound] -/
#guard_msgs (whitespace := lax) in
#print axioms Docket.Opening.C123_refused

/-- info: 'Docket.Opening.C123_memory' depends on axioms: [propext] -/
#guard_msgs (whitespace := lax) in
#print axioms Docket.Opening.C123_memory

/-- info: 'Docket.Opening.C123_violated_valkey' depends on axioms: [propext, Classical.choice, Quot.sound] -/
#guard_msgs (whitespace := lax) in
#print axioms Docket.Opening.C123_violated_valkey

/-- info: 'Docket.Opening.C123_violated' depends on axioms: [propext, Classical.choice, Quot.sound] -/
#guard_msgs (whitespace := lax) in
#print axioms Docket.Opening.C123_violated

/-- info: 'Docket.C13_cancel_prevents_running_partial' depends on axioms: [propext, Classical.choice, Quot.sound] -/
#guard_msgs (whitespace := lax) in
#print axioms Docket.C13_cancel_prevents_running_partial

/-- info: 'Docket.C13_cancel_scheduled' depends on axioms: [propext, Classical.choice, Quot.sound] -/
#guard_msgs (whitespace := lax) in
#print axioms Docket.C13_cancel_scheduled

/-- info: 'Docket.C13_cancel_immediate' depends on axioms: [propext, Classical.choice, Quot.sound] -/
#guard_msgs (whitespace := lax) in
#print axioms Docket.C13_cancel_immediate

/-- info: 'Docket.C13_cancel_ttl_zero' depends on axioms: [propext, Classical.choice, Quot.sound] -/
#guard_msgs (whitespace := lax) in
#print axioms Docket.C13_cancel_ttl_zero

/-- info: 'Docket.C13_violated' depends on axioms: [propext, Classical.choice, Quot.sound] -/
#guard_msgs (whitespace := lax) in
#print axioms Docket.C13_violated

/-- info: 'Docket.C14_cancel_records' depends on axioms: [propext, Quot.sound] -/
#guard_msgs (whitespace := lax) in
#print axioms Docket.C14_cancel_records

/-- info: 'Docket.C15_clear_partial' depends on axioms: [propext, Classical.choice, Quot.sound] -/
#guard_msgs (whitespace := lax) in
#print axioms Docket.C15_clear_partial

/-- info: 'Docket.C15_violated_readd' depends on axioms: [propext, Classical.choice, Quot.sound] -/
#guard_msgs (whitespace := lax) in
#print axioms Docket.C15_violated_readd

/-- info: 'Docket.C15_violated_race' depends on axioms: [propext, Classical.choice, Quot.sound] -/
#guard_msgs (whitespace := lax) in
#print axioms Docket.C15_violated_race

/-- info: 'Docket.C16_record_lasts_partial' depends on axioms: [propext, Classical.choice, Quot.sound] -/
#guard_msgs (whitespace := lax) in
#print axioms Docket.C16_record_lasts_partial

/-- info: 'Docket.C16_violated' depends on axioms: [propext, Classical.choice, Quot.sound] -/
#guard_msgs (whitespace := lax) in
#print axioms Docket.C16_violated

/-- info: 'Docket.C16_violated_task_lost' depends on axioms: [propext, Classical.choice, Quot.sound] -/
#guard_msgs (whitespace := lax) in
#print axioms Docket.C16_violated_task_lost

/-- info: 'Docket.C16_violated_cancel_race' depends on axioms: [propext, Classical.choice, Quot.sound] -/
#guard_msgs (whitespace := lax) in
#print axioms Docket.C16_violated_cancel_race

/-- info: 'Docket.C17_causes' depends on axioms: [propext, Classical.choice, Quot.sound] -/
#guard_msgs (whitespace := lax) in
#print axioms Docket.C17_causes

/-- info: 'Docket.C17_lifecycle_partial' depends on axioms: [propext, Classical.choice, Quot.sound] -/
#guard_msgs (whitespace := lax) in
#print axioms Docket.C17_lifecycle_partial

/-- info: 'Docket.C17_violated_cancelled_to_completed' depends on axioms: [propext, Classical.choice, Quot.sound] -/
#guard_msgs (whitespace := lax) in
#print axioms Docket.C17_violated_cancelled_to_completed

/-- info: 'Docket.C17_violated_completed_to_running' depends on axioms: [propext, Classical.choice, Quot.sound] -/
#guard_msgs (whitespace := lax) in
#print axioms Docket.C17_violated_completed_to_running

/-- info: 'Docket.C18_payload' depends on axioms: [propext, Classical.choice, Quot.sound] -/
#guard_msgs (whitespace := lax) in
#print axioms Docket.C18_payload

/-- info: 'Docket.C18_original_call' depends on axioms: [propext, Classical.choice, Quot.sound] -/
#guard_msgs (whitespace := lax) in
#print axioms Docket.C18_original_call

/-- info: 'Docket.C19_outcome_partial' depends on axioms: [propext, Classical.choice, Quot.sound] -/
#guard_msgs (whitespace := lax) in
#print axioms Docket.C19_outcome_partial

/-- info: 'Docket.C19_stored_outcome' depends on axioms: [propext, Classical.choice, Quot.sound] -/
#guard_msgs (whitespace := lax) in
#print axioms Docket.C19_stored_outcome

/-- info: 'Docket.C19_outcome_lasts' depends on axioms: [propext, Classical.choice, Quot.sound] -/
#guard_msgs (whitespace := lax) in
#print axioms Docket.C19_outcome_lasts

/-- info: 'Docket.C19_violated_stale_value' depends on axioms: [propext, Classical.choice, Quot.sound] -/
#guard_msgs (whitespace := lax) in
#print axioms Docket.C19_violated_stale_value

/-- info: 'Docket.C19_violated_overwritten' depends on axioms: [propext, Classical.choice, Quot.sound] -/
#guard_msgs (whitespace := lax) in
#print axioms Docket.C19_violated_overwritten

/-- info: 'Docket.C20_told_partial' depends on axioms: [propext, Classical.choice, Quot.sound] -/
#guard_msgs (whitespace := lax) in
#print axioms Docket.C20_told_partial

/-- info: 'Docket.C20_violated_gap' depends on axioms: [propext, Classical.choice, Quot.sound] -/
#guard_msgs (whitespace := lax) in
#print axioms Docket.C20_violated_gap

/-- info: 'Docket.C20_violated_cancel' depends on axioms: [propext, Classical.choice, Quot.sound] -/
#guard_msgs (whitespace := lax) in
#print axioms Docket.C20_violated_cancel

/-- info: 'Docket.C20_violated_ttl_zero' depends on axioms: [propext, Classical.choice, Quot.sound] -/
#guard_msgs (whitespace := lax) in
#print axioms Docket.C20_violated_ttl_zero

/-- info: 'Docket.C21_no_trace_after_end' depends on axioms: [propext, Classical.choice, Quot.sound] -/
#guard_msgs (whitespace := lax) in
#print axioms Docket.C21_no_trace_after_end

/-- info: 'Docket.C21_no_trace_after_cancel_partial' depends on axioms: [propext, Classical.choice, Quot.sound] -/
#guard_msgs (whitespace := lax) in
#print axioms Docket.C21_no_trace_after_cancel_partial

/-- info: 'Docket.C21_violated_cancel' depends on axioms: [propext, Classical.choice, Quot.sound] -/
#guard_msgs (whitespace := lax) in
#print axioms Docket.C21_violated_cancel

/-- info: 'Docket.C22_progress_counts' depends on axioms: [propext, Classical.choice, Quot.sound] -/
#guard_msgs (whitespace := lax) in
#print axioms Docket.C22_progress_counts

/-- info: 'Docket.C22_non_positive_refused' depends on axioms: [propext, Quot.sound] -/
#guard_msgs (whitespace := lax) in
#print axioms Docket.C22_non_positive_refused

/-- info: 'Docket.C22_superseded_end_keeps_newer_progress' depends on axioms: [propext, Classical.choice, Quot.sound] -/
#guard_msgs (whitespace := lax) in
#print axioms Docket.C22_superseded_end_keeps_newer_progress

/-- info: 'Docket.C22_end_removes_progress' depends on axioms: [propext, Classical.choice, Quot.sound] -/
#guard_msgs (whitespace := lax) in
#print axioms Docket.C22_end_removes_progress

/-- info: 'Docket.C23_keys_are_isolated' depends on axioms: [propext, Classical.choice, Quot.sound] -/
#guard_msgs (whitespace := lax) in
#print axioms Docket.C23_keys_are_isolated

/-- info: 'Docket.Keys.C24_distinct_keys_partial' depends on axioms: [propext] -/
#guard_msgs (whitespace := lax) in
#print axioms Docket.Keys.C24_distinct_keys_partial

/-- info: 'Docket.Keys.C24_safe_parked_key' depends on axioms: [propext] -/
#guard_msgs (whitespace := lax) in
#print axioms Docket.Keys.C24_safe_parked_key

/-- info: 'Docket.Keys.C24_distinct_channels' depends on axioms: [propext] -/
#guard_msgs (whitespace := lax) in
#print axioms Docket.Keys.C24_distinct_channels

/-- info: 'Docket.Keys.C24_results_and_limits' depends on axioms: [propext, Quot.sound] -/
#guard_msgs (whitespace := lax) in
#print axioms Docket.Keys.C24_results_and_limits

/-- info: 'Docket.Keys.C24_violated_waiters' depends on axioms: [propext] -/
#guard_msgs (whitespace := lax) in
#print axioms Docket.Keys.C24_violated_waiters

/-- info: 'Docket.Keys.C24_violated' does not depend on any axioms -/
#guard_msgs (whitespace := lax) in
#print axioms Docket.Keys.C24_violated

/-- info: 'Docket.Keys.C24_violated_record' does not depend on any axioms -/
#guard_msgs (whitespace := lax) in
#print axioms Docket.Keys.C24_violated_record

/-- info: 'Docket.Keys.C25_one_slot_partial' depends on axioms: [propext, Quot.sound] -/
#guard_msgs (whitespace := lax) in
#print axioms Docket.Keys.C25_one_slot_partial

/-- info: 'Docket.Keys.C25_violated_empty_name' depends on axioms: [propext] -/
#guard_msgs (whitespace := lax) in
#print axioms Docket.Keys.C25_violated_empty_name

/-- info: 'Docket.Keys.C25_violated_brace_name' depends on axioms: [propext] -/
#guard_msgs (whitespace := lax) in
#print axioms Docket.Keys.C25_violated_brace_name

/-- info: 'Docket.Keys.C25_debounce_one_slot_partial' depends on axioms: [propext, Quot.sound] -/
#guard_msgs (whitespace := lax) in
#print axioms Docket.Keys.C25_debounce_one_slot_partial

/-- info: 'Docket.Keys.C25_violated_debounce' depends on axioms: [propext] -/
#guard_msgs (whitespace := lax) in
#print axioms Docket.Keys.C25_violated_debounce

/-- info: 'Docket.Strikes.C26_blocked_iff_struck_partial' depends on axioms: [propext, Classical.choice, Quot.sound] -/
#guard_msgs (whitespace := lax) in
#print axioms Docket.Strikes.C26_blocked_iff_struck_partial

/-- info: 'Docket.Strikes.C26_mapping_blocked_iff_struck' depends on axioms: [propext, Classical.choice, Quot.sound] -/
#guard_msgs (whitespace := lax) in
#print axioms Docket.Strikes.C26_mapping_blocked_iff_struck

/-- info: 'Docket.Strikes.C26_violated' depends on axioms: [propext, Classical.choice, Quot.sound] -/
#guard_msgs (whitespace := lax) in
#print axioms Docket.Strikes.C26_violated

/-- info: 'Docket.Strikes.C27_restore_undoes_strike_partial' depends on axioms: [propext, Classical.choice, Quot.sound] -/
#guard_msgs (whitespace := lax) in
#print axioms Docket.Strikes.C27_restore_undoes_strike_partial

/-- info: 'Docket.Strikes.C27_restore_of_absent_changes_nothing' depends on axioms: [propext, Classical.choice, Quot.sound] -/
#guard_msgs (whitespace := lax) in
#print axioms Docket.Strikes.C27_restore_of_absent_changes_nothing

/-- info: 'Docket.Strikes.C27_violated' depends on axioms: [propext, Classical.choice, Quot.sound] -/
#guard_msgs (whitespace := lax) in
#print axioms Docket.Strikes.C27_violated

/-- info: 'Docket.Strikes.C28_batching_does_not_matter' depends on axioms: [propext, Classical.choice, Quot.sound] -/
#guard_msgs (whitespace := lax) in
#print axioms Docket.Strikes.C28_batching_does_not_matter

/-- info: 'Docket.Strikes.C28_converges_partial' depends on axioms: [propext, Classical.choice, Quot.sound] -/
#guard_msgs (whitespace := lax) in
#print axioms Docket.Strikes.C28_converges_partial

/-- info: 'Docket.Strikes.C28_violated_late_update' depends on axioms: [propext, Classical.choice, Quot.sound] -/
#guard_msgs (whitespace := lax) in
#print axioms Docket.Strikes.C28_violated_late_update

/-- info: 'Docket.Strikes.C28_violated_mixed' depends on axioms: [propext, Classical.choice, Quot.sound] -/
#guard_msgs (whitespace := lax) in
#print axioms Docket.Strikes.C28_violated_mixed

/-- info: 'Docket.Strikes.C29_wire_round_trip' depends on axioms: [propext, Classical.choice, Quot.sound] -/
#guard_msgs (whitespace := lax) in
#print axioms Docket.Strikes.C29_wire_round_trip

/-- info: 'Docket.Strikes.C29_same_effect' depends on axioms: [propext, Classical.choice, Quot.sound] -/
#guard_msgs (whitespace := lax) in
#print axioms Docket.Strikes.C29_same_effect

/-- info: 'Docket.Strikes.C30_operators' depends on axioms: [propext, Classical.choice, Quot.sound] -/
#guard_msgs (whitespace := lax) in
#print axioms Docket.Strikes.C30_operators

/-- info: 'Docket.Strikes.C30_incomparable' depends on axioms: [propext, Classical.choice, Quot.sound] -/
#guard_msgs (whitespace := lax) in
#print axioms Docket.Strikes.C30_incomparable

/-- info: 'Docket.Strikes.C30_exclusive' depends on axioms: [propext, Classical.choice, Quot.sound] -/
#guard_msgs (whitespace := lax) in
#print axioms Docket.Strikes.C30_exclusive

/-- info: 'Docket.C31_within_limit_partial' depends on axioms: [propext, Classical.choice, Quot.sound] -/
#guard_msgs (whitespace := lax) in
#print axioms Docket.C31_within_limit_partial

/-- info: 'Docket.C31_slots_partial' depends on axioms: [propext, Classical.choice, Quot.sound] -/
#guard_msgs (whitespace := lax) in
#print axioms Docket.C31_slots_partial

/-- info: 'Docket.C31_violated' depends on axioms: [propext, Classical.choice, Quot.sound] -/
#guard_msgs (whitespace := lax) in
#print axioms Docket.C31_violated

/-- info: 'Docket.C31_violated_renewal' depends on axioms: [propext, Classical.choice, Quot.sound] -/
#guard_msgs (whitespace := lax) in
#print axioms Docket.C31_violated_renewal

/-- info: 'Docket.C31_release_frees' depends on axioms: [propext, Classical.choice, Quot.sound] -/
#guard_msgs (whitespace := lax) in
#print axioms Docket.C31_release_frees

/-- info: 'Docket.Mixed.C31_mixed_partial' depends on axioms: [propext, Classical.choice, Quot.sound] -/
#guard_msgs (whitespace := lax) in
#print axioms Docket.Mixed.C31_mixed_partial

/-- info: 'Docket.Mixed.C31_violated_timeouts' depends on axioms: [propext, Classical.choice, Quot.sound] -/
#guard_msgs (whitespace := lax) in
#print axioms Docket.Mixed.C31_violated_timeouts

/-- info: 'Docket.C32_no_slot_waits' depends on axioms: [propext, Classical.choice, Quot.sound] -/
#guard_msgs (whitespace := lax) in
#print axioms Docket.C32_no_slot_waits

/-- info: 'Docket.C32_longest_waiting_first' depends on axioms: [propext, Classical.choice, Quot.sound] -/
#guard_msgs (whitespace := lax) in
#print axioms Docket.C32_longest_waiting_first

/-- info: 'Docket.C32_woken_partial' depends on axioms: [propext, Classical.choice, Quot.sound] -/
#guard_msgs (whitespace := lax) in
#print axioms Docket.C32_woken_partial

/-- info: 'Docket.C32_never_lost_partial' depends on axioms: [propext, Classical.choice, Quot.sound] -/
#guard_msgs (whitespace := lax) in
#print axioms Docket.C32_never_lost_partial

/-- info: 'Docket.C32_backstop_wakes' depends on axioms: [propext, Classical.choice, Quot.sound] -/
#guard_msgs (whitespace := lax) in
#print axioms Docket.C32_backstop_wakes

/-- info: 'Docket.C32_free_slot_is_taken' depends on axioms: [propext, Classical.choice, Quot.sound] -/
#guard_msgs (whitespace := lax) in
#print axioms Docket.C32_free_slot_is_taken

/-- info: 'Docket.C32_parked_waits' depends on axioms: [propext, Classical.choice, Quot.sound] -/
#guard_msgs (whitespace := lax) in
#print axioms Docket.C32_parked_waits

/-- info: 'Docket.C32_cancelled_leaves' depends on axioms: [propext, Classical.choice, Quot.sound] -/
#guard_msgs (whitespace := lax) in
#print axioms Docket.C32_cancelled_leaves

/-- info: 'Docket.C32_wake_removes_backstops' depends on axioms: [propext, Classical.choice, Quot.sound] -/
#guard_msgs (whitespace := lax) in
#print axioms Docket.C32_wake_removes_backstops

/-- info: 'Docket.C32_violated_late_cleanup' depends on axioms: [propext, Classical.choice, Quot.sound] -/
#guard_msgs (whitespace := lax) in
#print axioms Docket.C32_violated_late_cleanup

/-- info: 'Docket.C32_violated_cancelled_in_front' depends on axioms: [propext, Classical.choice, Quot.sound] -/
#guard_msgs (whitespace := lax) in
#print axioms Docket.C32_violated_cancelled_in_front

/-- info: 'Docket.C32_violated_overtaken' depends on axioms: [propext, Classical.choice, Quot.sound] -/
#guard_msgs (whitespace := lax) in
#print axioms Docket.C32_violated_overtaken

/-- info: 'Docket.C32_violated_woken_parked_again' depends on axioms: [propext, Classical.choice, Quot.sound] -/
#guard_msgs (whitespace := lax) in
#print axioms Docket.C32_violated_woken_parked_again

/-- info: 'Docket.C33_at_most_limit_per_window_partial' depends on axioms: [propext, Classical.choice, Quot.sound] -/
#guard_msgs (whitespace := lax) in
#print axioms Docket.C33_at_most_limit_per_window_partial

/-- info: 'Docket.C33_violated_same_millisecond' depends on axioms: [propext, Quot.sound] -/
#guard_msgs (whitespace := lax) in
#print axioms Docket.C33_violated_same_millisecond

/-- info: 'Docket.C33_violated_late_reading' depends on axioms: [propext, Quot.sound] -/
#guard_msgs (whitespace := lax) in
#print axioms Docket.C33_violated_late_reading

/-- info: 'Docket.C33_undelayed_partial' depends on axioms: [propext, Classical.choice, Quot.sound] -/
#guard_msgs (whitespace := lax) in
#print axioms Docket.C33_undelayed_partial

/-- info: 'Docket.C34_delay_bounds' depends on axioms: [propext, Classical.choice, Quot.sound] -/
#guard_msgs (whitespace := lax) in
#print axioms Docket.C34_delay_bounds

/-- info: 'Docket.C34_slot_open_after_delay' depends on axioms: [propext, Classical.choice, Quot.sound] -/
#guard_msgs (whitespace := lax) in
#print axioms Docket.C34_slot_open_after_delay

/-- info: 'Docket.C34_refused_before_delay' depends on axioms: [propext, Classical.choice, Quot.sound] -/
#guard_msgs (whitespace := lax) in
#print axioms Docket.C34_refused_before_delay

/-- info: 'Docket.C35_admissions_apart' depends on axioms: [propext, Quot.sound] -/
#guard_msgs (whitespace := lax) in
#print axioms Docket.C35_admissions_apart

/-- info: 'Docket.C35_admitted_iff_window_over' depends on axioms: [propext, Quot.sound] -/
#guard_msgs (whitespace := lax) in
#print axioms Docket.C35_admitted_iff_window_over

/-- info: 'Docket.C35_keys_independent' depends on axioms: [propext] -/
#guard_msgs (whitespace := lax) in
#print axioms Docket.C35_keys_independent

/-- info: 'Docket.C36_proceeds_only_after_quiet' depends on axioms: [propext, Quot.sound] -/
#guard_msgs (whitespace := lax) in
#print axioms Docket.C36_proceeds_only_after_quiet

/-- info: 'Docket.C36_proceeds_apart' depends on axioms: [propext, Quot.sound] -/
#guard_msgs (whitespace := lax) in
#print axioms Docket.C36_proceeds_apart

/-- info: 'Docket.C36_quiet_burst_is_followed_partial' depends on axioms: [propext, Classical.choice, Quot.sound] -/
#guard_msgs (whitespace := lax) in
#print axioms Docket.C36_quiet_burst_is_followed_partial

/-- info: 'Docket.C36_violated_cancelled_winner' depends on axioms: [propext] -/
#guard_msgs (whitespace := lax) in
#print axioms Docket.C36_violated_cancelled_winner

/-- info: 'Docket.C36_starved_without_winner' depends on axioms: [propext, Quot.sound] -/
#guard_msgs (whitespace := lax) in
#print axioms Docket.C36_starved_without_winner

/-- info: 'Docket.Retrying.C37_runs_exactly_n_times_partial' depends on axioms: [propext, Classical.choice, Quot.sound] -/
#guard_msgs (whitespace := lax) in
#print axioms Docket.Retrying.C37_runs_exactly_n_times_partial

/-- info: 'Docket.Retrying.C37_failure_is_retried_partial' depends on axioms: [propext, Classical.choice, Quot.sound] -/
#guard_msgs (whitespace := lax) in
#print axioms Docket.Retrying.C37_failure_is_retried_partial

/-- info: 'Docket.Retrying.C37_success_is_final_partial' depends on axioms: [propext, Classical.choice, Quot.sound] -/
#guard_msgs (whitespace := lax) in
#print axioms Docket.Retrying.C37_success_is_final_partial

/-- info: 'Docket.Retrying.C37_attempt_number_bounded' depends on axioms: [propext, Classical.choice, Quot.sound] -/
#guard_msgs (whitespace := lax) in
#print axioms Docket.Retrying.C37_attempt_number_bounded

/-- info: 'Docket.Retrying.C37_violated_exponential_forever' depends on axioms: [propext, Classical.choice, Quot.sound] -/
#guard_msgs (whitespace := lax) in
#print axioms Docket.Retrying.C37_violated_exponential_forever

/-- info: 'Docket.Retrying.C38_delay_partial' depends on axioms: [propext, Quot.sound] -/
#guard_msgs (whitespace := lax) in
#print axioms Docket.Retrying.C38_delay_partial

/-- info: 'Docket.Retrying.C38_violated_first_delay_uncapped' depends on axioms: [propext, Quot.sound] -/
#guard_msgs (whitespace := lax) in
#print axioms Docket.Retrying.C38_violated_first_delay_uncapped

/-- info: 'Docket.Retrying.C38_retry_is_scheduled_after_delay' depends on axioms: [propext, Classical.choice, Quot.sound] -/
#guard_msgs (whitespace := lax) in
#print axioms Docket.Retrying.C38_retry_is_scheduled_after_delay

/-- info: 'Docket.Retrying.C38_retry_at' depends on axioms: [propext, Classical.choice, Quot.sound] -/
#guard_msgs (whitespace := lax) in
#print axioms Docket.Retrying.C38_retry_at

/-- info: 'Docket.Perpetuals.C39_time' depends on axioms: [propext, Quot.sound] -/
#guard_msgs (whitespace := lax) in
#print axioms Docket.Perpetuals.C39_time

/-- info: 'Docket.Perpetuals.C39_requests' does not depend on any axioms -/
#guard_msgs (whitespace := lax) in
#print axioms Docket.Perpetuals.C39_requests

/-- info: 'Docket.Perpetuals.C39_spacing' depends on axioms: [propext, Quot.sound] -/
#guard_msgs (whitespace := lax) in
#print axioms Docket.Perpetuals.C39_spacing

/-- info: 'Docket.Perpetuals.C39_rescheduled_partial' depends on axioms: [propext, Classical.choice, Quot.sound] -/
#guard_msgs (whitespace := lax) in
#print axioms Docket.Perpetuals.C39_rescheduled_partial

/-- info: 'Docket.Perpetuals.C39_not_rescheduled' depends on axioms: [propext, Classical.choice, Quot.sound] -/
#guard_msgs (whitespace := lax) in
#print axioms Docket.Perpetuals.C39_not_rescheduled

/-- info: 'Docket.Perpetuals.C39_violated_race' depends on axioms: [propext, Classical.choice, Quot.sound] -/
#guard_msgs (whitespace := lax) in
#print axioms Docket.Perpetuals.C39_violated_race

/-- info: 'Docket.Perpetuals.C39_cron_time' depends on axioms: [propext, Quot.sound] -/
#guard_msgs (whitespace := lax) in
#print axioms Docket.Perpetuals.C39_cron_time

/-- info: 'Docket.Perpetuals.C39_violated_cron_ignores_request' depends on axioms: [propext, Quot.sound] -/
#guard_msgs (whitespace := lax) in
#print axioms Docket.Perpetuals.C39_violated_cron_ignores_request

/-- info: 'Docket.Perpetuals.C39_cron_may_be_past' depends on axioms: [propext, Classical.choice, Quot.sound] -/
#guard_msgs (whitespace := lax) in
#print axioms Docket.Perpetuals.C39_cron_may_be_past

/-- info: 'Docket.Timeouts.C40_not_before' depends on axioms: [propext, Quot.sound] -/
#guard_msgs (whitespace := lax) in
#print axioms Docket.Timeouts.C40_not_before

/-- info: 'Docket.Timeouts.C40_on_time' depends on axioms: [propext, Classical.choice, Quot.sound] -/
#guard_msgs (whitespace := lax) in
#print axioms Docket.Timeouts.C40_on_time

/-- info: 'Docket.Timeouts.C40_fires' depends on axioms: [propext, Classical.choice, Quot.sound] -/
#guard_msgs (whitespace := lax) in
#print axioms Docket.Timeouts.C40_fires

/-- info: 'Docket.Timeouts.C40_outcome_reported_partial' depends on axioms: [propext] -/
#guard_msgs (whitespace := lax) in
#print axioms Docket.Timeouts.C40_outcome_reported_partial

/-- info: 'Docket.Timeouts.C40_violated_outcome_lost' does not depend on any axioms -/
#guard_msgs (whitespace := lax) in
#print axioms Docket.Timeouts.C40_violated_outcome_lost

/-- info: 'Docket.Single.C41_no_false_alarm' depends on axioms: [propext, Classical.choice, Quot.sound] -/
#guard_msgs (whitespace := lax) in
#print axioms Docket.Single.C41_no_false_alarm

/-- info: 'Docket.Single.C41_detected_iff_partial' depends on axioms: [propext, Classical.choice, Quot.sound] -/
#guard_msgs (whitespace := lax) in
#print axioms Docket.Single.C41_detected_iff_partial

/-- info: 'Docket.Single.C41_violated_override' depends on axioms: [propext, Quot.sound] -/
#guard_msgs (whitespace := lax) in
#print axioms Docket.Single.C41_violated_override

/-- info: 'Docket.Single.C41_violated_memo' depends on axioms: [propext, Quot.sound] -/
#guard_msgs (whitespace := lax) in
#print axioms Docket.Single.C41_violated_memo

/-- info: 'Docket.Single.C41_memo_partial' depends on axioms: [propext, Classical.choice, Quot.sound] -/
#guard_msgs (whitespace := lax) in
#print axioms Docket.Single.C41_memo_partial

/-- info: 'Docket.Single.C41_memo_history_partial' depends on axioms: [propext, Classical.choice, Quot.sound] -/
#guard_msgs (whitespace := lax) in
#print axioms Docket.Single.C41_memo_history_partial

/-- info: 'Docket.Execute.C42_called_only_if_resolved' depends on axioms: [propext, Classical.choice, Quot.sound] -/
#guard_msgs (whitespace := lax) in
#print axioms Docket.Execute.C42_called_only_if_resolved

/-- info: 'Docket.Execute.C42_explicit_wins' depends on axioms: [propext, Classical.choice, Quot.sound] -/
#guard_msgs (whitespace := lax) in
#print axioms Docket.Execute.C42_explicit_wins

/-- info: 'Docket.Execute.C42_called_once' depends on axioms: [propext, Classical.choice, Quot.sound] -/
#guard_msgs (whitespace := lax) in
#print axioms Docket.Execute.C42_called_once

/-- info: 'Docket.Execute.C42_closed_in_reverse' depends on axioms: [propext, Classical.choice, Quot.sound] -/
#guard_msgs (whitespace := lax) in
#print axioms Docket.Execute.C42_closed_in_reverse

/-- info: 'Docket.Execute.C42_opened' depends on axioms: [propext, Classical.choice, Quot.sound] -/
#guard_msgs (whitespace := lax) in
#print axioms Docket.Execute.C42_opened

/-- info: 'Docket.Execute.C42_refusal_first_partial' depends on axioms: [propext, Classical.choice, Quot.sound] -/
#guard_msgs (whitespace := lax) in
#print axioms Docket.Execute.C42_refusal_first_partial

/-- info: 'Docket.Execute.C42_violated_precedence' depends on axioms: [propext, Classical.choice, Quot.sound] -/
#guard_msgs (whitespace := lax) in
#print axioms Docket.Execute.C42_violated_precedence

/-- info: 'Docket.Execute.C42_violated_positional' depends on axioms: [propext, Classical.choice, Quot.sound] -/
#guard_msgs (whitespace := lax) in
#print axioms Docket.Execute.C42_violated_positional

/-- info: 'Docket.Execute.C42_called_if_resolved' depends on axioms: [propext, Classical.choice, Quot.sound] -/
#guard_msgs (whitespace := lax) in
#print axioms Docket.Execute.C42_called_if_resolved

/-- info: 'Docket.Loop.C43_concurrency' depends on axioms: [propext, Classical.choice, Quot.sound] -/
#guard_msgs (whitespace := lax) in
#print axioms Docket.Loop.C43_concurrency

/-- info: 'Docket.Loop.C43_asks' depends on axioms: [propext, Quot.sound] -/
#guard_msgs (whitespace := lax) in
#print axioms Docket.Loop.C43_asks

/-- info: 'Docket.Loop.C44_at_most_partial' depends on axioms: [propext, Quot.sound] -/
#guard_msgs (whitespace := lax) in
#print axioms Docket.Loop.C44_at_most_partial

/-- info: 'Docket.Loop.C44_others_unlimited' depends on axioms: [propext] -/
#guard_msgs (whitespace := lax) in
#print axioms Docket.Loop.C44_others_unlimited

/-- info: 'Docket.Loop.C44_not_before_limit' depends on axioms: [propext, Quot.sound] -/
#guard_msgs (whitespace := lax) in
#print axioms Docket.Loop.C44_not_before_limit

/-- info: 'Docket.Loop.C44_violated_overlap' depends on axioms: [propext] -/
#guard_msgs (whitespace := lax) in
#print axioms Docket.Loop.C44_violated_overlap

/-- info: 'Docket.Lua.C45_arguments_partial' depends on axioms: [propext, Quot.sound] -/
#guard_msgs (whitespace := lax) in
#print axioms Docket.Lua.C45_arguments_partial

/-- info: 'Docket.Lua.C45_variadic' depends on axioms: [propext, Quot.sound] -/
#guard_msgs (whitespace := lax) in
#print axioms Docket.Lua.C45_variadic

/-- info: 'Docket.Lua.C45_integers_exact' depends on axioms: [propext, Quot.sound] -/
#guard_msgs (whitespace := lax) in
#print axioms Docket.Lua.C45_integers_exact

/-- info: 'Docket.Lua.C45_integers_not_exact' does not depend on any axioms -/
#guard_msgs (whitespace := lax) in
#print axioms Docket.Lua.C45_integers_not_exact

/-- info: 'Docket.Lua.C45_refused' depends on axioms: [propext, Quot.sound] -/
#guard_msgs (whitespace := lax) in
#print axioms Docket.Lua.C45_refused

/-- info: 'Docket.Lua.C45_violated_derived_name' depends on axioms: [propext, Quot.sound] -/
#guard_msgs (whitespace := lax) in
#print axioms Docket.Lua.C45_violated_derived_name

/-- info: 'Docket.Message.C46_time' depends on axioms: [propext, Quot.sound] -/
#guard_msgs (whitespace := lax) in
#print axioms Docket.Message.C46_time

/-- info: 'Docket.Message.C46_round_trip' depends on axioms: [propext, Classical.choice, Quot.sound] -/
#guard_msgs (whitespace := lax) in
#print axioms Docket.Message.C46_round_trip

/-- info: 'Docket.Message.C46_stamped' depends on axioms: [propext, Classical.choice, Quot.sound] -/
#guard_msgs (whitespace := lax) in
#print axioms Docket.Message.C46_stamped

/-- info: 'Docket.Message.C46_unregistered' depends on axioms: [propext, Classical.choice, Quot.sound] -/
#guard_msgs (whitespace := lax) in
#print axioms Docket.Message.C46_unregistered

/-- info: 'Docket.Message.C46_before_generations' depends on axioms: [propext, Classical.choice, Quot.sound] -/
#guard_msgs (whitespace := lax) in
#print axioms Docket.Message.C46_before_generations

/-- info: 'Docket.Message.C46_injective' depends on axioms: [propext, Classical.choice, Quot.sound] -/
#guard_msgs (whitespace := lax) in
#print axioms Docket.Message.C46_injective

/-- info: 'Docket.Uuid7.C47_ordered' depends on axioms: [propext, Classical.choice, Quot.sound] -/
#guard_msgs (whitespace := lax) in
#print axioms Docket.Uuid7.C47_ordered

/-- info: 'Docket.Uuid7.C47_well_formed' depends on axioms: [propext, Classical.choice, Quot.sound] -/
#guard_msgs (whitespace := lax) in
#print axioms Docket.Uuid7.C47_well_formed

/-- info: 'Docket.Agenda.C48_each_once_in_order' depends on axioms: [propext, Classical.choice, Quot.sound] -/
#guard_msgs (whitespace := lax) in
#print axioms Docket.Agenda.C48_each_once_in_order

/-- info: 'Docket.Agenda.C48_registered' depends on axioms: [propext, Quot.sound] -/
#guard_msgs (whitespace := lax) in
#print axioms Docket.Agenda.C48_registered

/-- info: 'Docket.Agenda.C48_nothing_on_error' depends on axioms: [propext] -/
#guard_msgs (whitespace := lax) in
#print axioms Docket.Agenda.C48_nothing_on_error

/-- info: 'Docket.Agenda.C48_times_partial' depends on axioms: [propext, Classical.choice, Quot.sound] -/
#guard_msgs (whitespace := lax) in
#print axioms Docket.Agenda.C48_times_partial

/-- info: 'Docket.Agenda.C48_jitter_partial' depends on axioms: [propext, Classical.choice, Quot.sound] -/
#guard_msgs (whitespace := lax) in
#print axioms Docket.Agenda.C48_jitter_partial

/-- info: 'Docket.Agenda.C48_violated_end' depends on axioms: [propext, Quot.sound] -/
#guard_msgs (whitespace := lax) in
#print axioms Docket.Agenda.C48_violated_end

/-- info: 'Docket.Agenda.C48_violated_end_jitter' depends on axioms: [propext, Quot.sound] -/
#guard_msgs (whitespace := lax) in
#print axioms Docket.Agenda.C48_violated_end_jitter

/-- info: 'Docket.Snap.C49_faithful_partial' depends on axioms: [propext, Classical.choice, Quot.sound] -/
#guard_msgs (whitespace := lax) in
#print axioms Docket.Snap.C49_faithful_partial

/-- info: 'Docket.Snap.C49_sound_partial' depends on axioms: [propext, Classical.choice, Quot.sound] -/
#guard_msgs (whitespace := lax) in
#print axioms Docket.Snap.C49_sound_partial

/-- info: 'Docket.Snap.C49_violated_moved' depends on axioms: [propext, Classical.choice, Quot.sound] -/
#guard_msgs (whitespace := lax) in
#print axioms Docket.Snap.C49_violated_moved

/-- info: 'Docket.Snap.C49_violated_unregistered' depends on axioms: [propext, Classical.choice, Quot.sound] -/
#guard_msgs (whitespace := lax) in
#print axioms Docket.Snap.C49_violated_unregistered

/-- info: 'Docket.Snap.C49_violated_cap' depends on axioms: [propext, Classical.choice, Quot.sound] -/
#guard_msgs (whitespace := lax) in
#print axioms Docket.Snap.C49_violated_cap

/-- info: 'Docket.Beat.C50_workers_partial' depends on axioms: [propext, Quot.sound] -/
#guard_msgs (whitespace := lax) in
#print axioms Docket.Beat.C50_workers_partial

/-- info: 'Docket.Beat.C50_task_workers_partial' depends on axioms: [propext, Classical.choice, Quot.sound] -/
#guard_msgs (whitespace := lax) in
#print axioms Docket.Beat.C50_task_workers_partial

/-- info: 'Docket.Beat.C50_violated_settings' depends on axioms: [propext, Quot.sound] -/
#guard_msgs (whitespace := lax) in
#print axioms Docket.Beat.C50_violated_settings

/-- info: 'Docket.Beat.C50_violated_stale_names' depends on axioms: [propext, Quot.sound] -/
#guard_msgs (whitespace := lax) in
#print axioms Docket.Beat.C50_violated_stale_names

/-- info: 'Docket.Beat.C50_violated_fraction' depends on axioms: [propext, Quot.sound] -/
#guard_msgs (whitespace := lax) in
#print axioms Docket.Beat.C50_violated_fraction

/-- info: 'Docket.CallRepr.C51_noninterference_partial' depends on axioms: [propext, Quot.sound] -/
#guard_msgs (whitespace := lax) in
#print axioms Docket.CallRepr.C51_noninterference_partial

/-- info: 'Docket.CallRepr.C51_shown' depends on axioms: [propext, Quot.sound] -/
#guard_msgs (whitespace := lax) in
#print axioms Docket.CallRepr.C51_shown

/-- info: 'Docket.CallRepr.C51_violated_positional' depends on axioms: [propext, Quot.sound] -/
#guard_msgs (whitespace := lax) in
#print axioms Docket.CallRepr.C51_violated_positional

/-- info: 'Docket.CallRepr.C51_violated_keyword' depends on axioms: [propext, Quot.sound] -/
#guard_msgs (whitespace := lax) in
#print axioms Docket.CallRepr.C51_violated_keyword

/-- info: 'Docket.Results.C52_get_partial' depends on axioms: [propext, Quot.sound] -/
#guard_msgs (whitespace := lax) in
#print axioms Docket.Results.C52_get_partial

/-- info: 'Docket.Results.C52_no_collision_colon' depends on axioms: [propext] -/
#guard_msgs (whitespace := lax) in
#print axioms Docket.Results.C52_no_collision_colon

/-- info: 'Docket.Results.C52_no_collision_same' does not depend on any axioms -/
#guard_msgs (whitespace := lax) in
#print axioms Docket.Results.C52_no_collision_same

/-- info: 'Docket.Results.C52_get_many' depends on axioms: [propext, Quot.sound] -/
#guard_msgs (whitespace := lax) in
#print axioms Docket.Results.C52_get_many

/-- info: 'Docket.Results.C52_ttl' depends on axioms: [propext, Quot.sound] -/
#guard_msgs (whitespace := lax) in
#print axioms Docket.Results.C52_ttl

/-- info: 'Docket.Results.C52_delete_many' depends on axioms: [propext, Quot.sound] -/
#guard_msgs (whitespace := lax) in
#print axioms Docket.Results.C52_delete_many

/-- info: 'Docket.Results.C52_delete' depends on axioms: [propext] -/
#guard_msgs (whitespace := lax) in
#print axioms Docket.Results.C52_delete

/-- info: 'Docket.Results.C52_violated_collision' depends on axioms: [propext] -/
#guard_msgs (whitespace := lax) in
#print axioms Docket.Results.C52_violated_collision

/-- info: 'Docket.Results.C52_violated_fraction' does not depend on any axioms -/
#guard_msgs (whitespace := lax) in
#print axioms Docket.Results.C52_violated_fraction

/-- info: 'Docket.Results.C52_put_many' depends on axioms: [propext, Classical.choice, Quot.sound] -/
#guard_msgs (whitespace := lax) in
#print axioms Docket.Results.C52_put_many

/-- info: 'Docket.Seed.C53_never_disturbs' depends on axioms: [propext, Classical.choice, Quot.sound] -/
#guard_msgs (whitespace := lax) in
#print axioms Docket.Seed.C53_never_disturbs

/-- info: 'Docket.Seed.C53_only_automatic' depends on axioms: [propext, Classical.choice, Quot.sound] -/
#guard_msgs (whitespace := lax) in
#print axioms Docket.Seed.C53_only_automatic

/-- info: 'Docket.Seed.C53_all_scheduled_partial' depends on axioms: [propext, Classical.choice, Quot.sound] -/
#guard_msgs (whitespace := lax) in
#print axioms Docket.Seed.C53_all_scheduled_partial

/-- info: 'Docket.Seed.C53_as_declared' depends on axioms: [propext, Classical.choice, Quot.sound] -/
#guard_msgs (whitespace := lax) in
#print axioms Docket.Seed.C53_as_declared

/-- info: 'Docket.Seed.C53_locked' depends on axioms: [propext, Classical.choice, Quot.sound] -/
#guard_msgs (whitespace := lax) in
#print axioms Docket.Seed.C53_locked

/-- info: 'Docket.Seed.C53_violated_alias' depends on axioms: [propext, Classical.choice, Quot.sound] -/
#guard_msgs (whitespace := lax) in
#print axioms Docket.Seed.C53_violated_alias

/-- info: 'Docket.Seed.C53_violated_same_name' depends on axioms: [propext, Classical.choice, Quot.sound] -/
#guard_msgs (whitespace := lax) in
#print axioms Docket.Seed.C53_violated_same_name

/-- info: 'Docket.Seed.C53_violated_after_clear' depends on axioms: [propext, Classical.choice, Quot.sound] -/
#guard_msgs (whitespace := lax) in
#print axioms Docket.Seed.C53_violated_after_clear

/-- info: 'Docket.Seed.C53_violated_key_taken' depends on axioms: [propext, Classical.choice, Quot.sound] -/
#guard_msgs (whitespace := lax) in
#print axioms Docket.Seed.C53_violated_key_taken

/-- info: 'Docket.Cli.C54_reads' depends on axioms: [propext, Classical.choice, Quot.sound] -/
#guard_msgs (whitespace := lax) in
#print axioms Docket.Cli.C54_reads

/-- info: 'Docket.Cli.C54_rejects' depends on axioms: [propext, Quot.sound] -/
#guard_msgs (whitespace := lax) in
#print axioms Docket.Cli.C54_rejects

/-- info: 'Docket.Loop.C55_signal_reaches_partial' depends on axioms: [propext, Quot.sound] -/
#guard_msgs (whitespace := lax) in
#print axioms Docket.Loop.C55_signal_reaches_partial

/-- info: 'Docket.Loop.C55_violated_successor_forgotten' depends on axioms: [propext, Quot.sound] -/
#guard_msgs (whitespace := lax) in
#print axioms Docket.Loop.C55_violated_successor_forgotten

/-- info: 'Docket.Sentinel.C56_reads' depends on axioms: [propext, Classical.choice, Quot.sound] -/
#guard_msgs (whitespace := lax) in
#print axioms Docket.Sentinel.C56_reads

/-- info: 'Docket.Sentinel.C56_accepted' depends on axioms: [propext] -/
#guard_msgs (whitespace := lax) in
#print axioms Docket.Sentinel.C56_accepted

/-- info: 'Docket.Sentinel.C56_no_host' depends on axioms: [propext, Classical.choice, Quot.sound] -/
#guard_msgs (whitespace := lax) in
#print axioms Docket.Sentinel.C56_no_host

/-- info: 'Docket.Sentinel.C56_no_service' depends on axioms: [propext, Classical.choice, Quot.sound] -/
#guard_msgs (whitespace := lax) in
#print axioms Docket.Sentinel.C56_no_service

/-- info: 'Docket.Sentinel.C56_only_sentinel' depends on axioms: [propext, Quot.sound] -/
#guard_msgs (whitespace := lax) in
#print axioms Docket.Sentinel.C56_only_sentinel

/-- info: 'Docket.Testing.C57_scheduled_partial' depends on axioms: [propext, Classical.choice, Quot.sound] -/
#guard_msgs (whitespace := lax) in
#print axioms Docket.Testing.C57_scheduled_partial

/-- info: 'Docket.Testing.C57_not_scheduled_partial' depends on axioms: [propext, Classical.choice, Quot.sound] -/
#guard_msgs (whitespace := lax) in
#print axioms Docket.Testing.C57_not_scheduled_partial

/-- info: 'Docket.Testing.C57_count_partial' depends on axioms: [propext, Classical.choice, Quot.sound] -/
#guard_msgs (whitespace := lax) in
#print axioms Docket.Testing.C57_count_partial

/-- info: 'Docket.Testing.C57_violated_alias' depends on axioms: [propext, Classical.choice, Quot.sound] -/
#guard_msgs (whitespace := lax) in
#print axioms Docket.Testing.C57_violated_alias

/-- info: 'Docket.Testing.C57_violated_unregistered' depends on axioms: [propext, Classical.choice, Quot.sound] -/
#guard_msgs (whitespace := lax) in
#print axioms Docket.Testing.C57_violated_unregistered

/-- info: 'Docket.Testing.C57_violated_cap' depends on axioms: [propext, Classical.choice, Quot.sound] -/
#guard_msgs (whitespace := lax) in
#print axioms Docket.Testing.C57_violated_cap

/-- info: 'Docket.Stats.C58_correct' depends on axioms: [propext, Classical.choice, Quot.sound] -/
#guard_msgs (whitespace := lax) in
#print axioms Docket.Stats.C58_correct

/-- info: 'Docket.Stats.C58_once' depends on axioms: [propext, Quot.sound] -/
#guard_msgs (whitespace := lax) in
#print axioms Docket.Stats.C58_once

/-- info: 'Docket.C59_cancelled_waiter_never_runs' depends on axioms: [propext, Classical.choice, Quot.sound] -/
#guard_msgs (whitespace := lax) in
#print axioms Docket.C59_cancelled_waiter_never_runs

/-- info: 'Docket.C59_violated_add' depends on axioms: [propext, Classical.choice, Quot.sound] -/
#guard_msgs (whitespace := lax) in
#print axioms Docket.C59_violated_add

/-- info: 'Docket.C59_violated_replace' depends on axioms: [propext, Classical.choice, Quot.sound] -/
#guard_msgs (whitespace := lax) in
#print axioms Docket.C59_violated_replace

/-- info: 'Docket.C59_violated_clear' depends on axioms: [propext, Classical.choice, Quot.sound] -/
#guard_msgs (whitespace := lax) in
#print axioms Docket.C59_violated_clear

/-- info: 'Docket.Payload.C59_only_asked_for' depends on axioms: [propext, Classical.choice, Quot.sound] -/
#guard_msgs (whitespace := lax) in
#print axioms Docket.Payload.C59_only_asked_for

/-- info: 'Docket.Payload.C59_cleaned_up' depends on axioms: [propext, Classical.choice, Quot.sound] -/
#guard_msgs (whitespace := lax) in
#print axioms Docket.Payload.C59_cleaned_up

/-- info: 'Docket.Payload.C59_violated_readd' depends on axioms: [propext, Classical.choice, Quot.sound] -/
#guard_msgs (whitespace := lax) in
#print axioms Docket.Payload.C59_violated_readd

/-- info: 'Docket.Execute.C60_never_forgotten' depends on axioms: [propext, Classical.choice, Quot.sound] -/
#guard_msgs (whitespace := lax) in
#print axioms Docket.Execute.C60_never_forgotten

/-- info: 'Docket.Execute.C60_settled_once_partial' depends on axioms: [propext, Classical.choice, Quot.sound] -/
#guard_msgs (whitespace := lax) in
#print axioms Docket.Execute.C60_settled_once_partial

/-- info: 'Docket.Execute.C60_result_stored_first' depends on axioms: [propext, Classical.choice, Quot.sound] -/
#guard_msgs (whitespace := lax) in
#print axioms Docket.Execute.C60_result_stored_first

/-- info: 'Docket.Execute.C60_result_kept' depends on axioms: [propext, Classical.choice, Quot.sound] -/
#guard_msgs (whitespace := lax) in
#print axioms Docket.Execute.C60_result_kept

/-- info: 'Docket.Execute.C60_violated_completed_then_failed' depends on axioms: [propext, Classical.choice, Quot.sound] -/
#guard_msgs (whitespace := lax) in
#print axioms Docket.Execute.C60_violated_completed_then_failed

/-- info: 'Docket.Execute.C60_violated_completed_then_retried' depends on axioms: [propext, Classical.choice, Quot.sound] -/
#guard_msgs (whitespace := lax) in
#print axioms Docket.Execute.C60_violated_completed_then_retried

/-- info: 'Docket.ArgKey.C61_violated_positional' does not depend on any axioms -/
#guard_msgs (whitespace := lax) in
#print axioms Docket.ArgKey.C61_violated_positional

/-- info: 'Docket.ArgKey.C61_violated_mixed' does not depend on any axioms -/
#guard_msgs (whitespace := lax) in
#print axioms Docket.ArgKey.C61_violated_mixed

/-- info: 'Docket.ArgKey.C61_violated_across_tasks' does not depend on any axioms -/
#guard_msgs (whitespace := lax) in
#print axioms Docket.ArgKey.C61_violated_across_tasks

/-- info: 'Docket.ArgKey.C61_per_value_partial' depends on axioms: [propext] -/
#guard_msgs (whitespace := lax) in
#print axioms Docket.ArgKey.C61_per_value_partial

/-- info: 'Docket.ArgKey.C61_names_partial' depends on axioms: [propext] -/
#guard_msgs (whitespace := lax) in
#print axioms Docket.ArgKey.C61_names_partial

/-- info: 'Docket.ArgKey.C61_per_task_key' depends on axioms: [propext] -/
#guard_msgs (whitespace := lax) in
#print axioms Docket.ArgKey.C61_per_task_key

/-- info: 'Docket.ArgKey.C61_concurrency_given' does not depend on any axioms -/
#guard_msgs (whitespace := lax) in
#print axioms Docket.ArgKey.C61_concurrency_given

/-- info: 'Docket.ArgKey.C61_violated_default' does not depend on any axioms -/
#guard_msgs (whitespace := lax) in
#print axioms Docket.ArgKey.C61_violated_default

/-- info: 'Docket.Loop.C62_only_the_named_task' depends on axioms: [propext, Quot.sound] -/
#guard_msgs (whitespace := lax) in
#print axioms Docket.Loop.C62_only_the_named_task

/-- info: 'Docket.Loop.C62_violated_worker_stops' depends on axioms: [propext] -/
#guard_msgs (whitespace := lax) in
#print axioms Docket.Loop.C62_violated_worker_stops

/-- info: 'Docket.Loop.C62_worker_goes_on_partial' depends on axioms: [propext, Quot.sound] -/
#guard_msgs (whitespace := lax) in
#print axioms Docket.Loop.C62_worker_goes_on_partial

/-- info: 'Docket.Names.C63_same_function_partial' depends on axioms: [propext, Quot.sound] -/
#guard_msgs (whitespace := lax) in
#print axioms Docket.Names.C63_same_function_partial

/-- info: 'Docket.Names.C63_same_name_partial' depends on axioms: [propext, Quot.sound] -/
#guard_msgs (whitespace := lax) in
#print axioms Docket.Names.C63_same_name_partial

/-- info: 'Docket.Names.C63_violated_mixed_up' depends on axioms: [propext, Quot.sound] -/
#guard_msgs (whitespace := lax) in
#print axioms Docket.Names.C63_violated_mixed_up

/-- info: 'Docket.Names.C63_violated_name' depends on axioms: [propext] -/
#guard_msgs (whitespace := lax) in
#print axioms Docket.Names.C63_violated_name

/-- info: 'Docket.Names.C63_violated_dropped' depends on axioms: [propext, Quot.sound] -/
#guard_msgs (whitespace := lax) in
#print axioms Docket.Names.C63_violated_dropped

/-- info: 'Docket.Keys.C64_disjoint_partial' depends on axioms: [propext] -/
#guard_msgs (whitespace := lax) in
#print axioms Docket.Keys.C64_disjoint_partial

/-- info: 'Docket.Keys.C64_violated' depends on axioms: [propext] -/
#guard_msgs (whitespace := lax) in
#print axioms Docket.Keys.C64_violated

/-- info: 'Docket.Keys.C64_violated_queue' depends on axioms: [propext] -/
#guard_msgs (whitespace := lax) in
#print axioms Docket.Keys.C64_violated_queue

/-- info: 'Docket.Keys.C65_cancel_partial' depends on axioms: [propext, Classical.choice, Quot.sound] -/
#guard_msgs (whitespace := lax) in
#print axioms Docket.Keys.C65_cancel_partial

/-- info: 'Docket.Keys.C65_violated_own' depends on axioms: [propext] -/
#guard_msgs (whitespace := lax) in
#print axioms Docket.Keys.C65_violated_own

/-- info: 'Docket.Keys.C65_violated_own_always' depends on axioms: [propext] -/
#guard_msgs (whitespace := lax) in
#print axioms Docket.Keys.C65_violated_own_always

/-- info: 'Docket.Keys.C65_violated_other' depends on axioms: [propext] -/
#guard_msgs (whitespace := lax) in
#print axioms Docket.Keys.C65_violated_other

/-- info: 'Docket.Keys.C65_violated_range' depends on axioms: [propext, Classical.choice, Quot.sound] -/
#guard_msgs (whitespace := lax) in
#print axioms Docket.Keys.C65_violated_range

/-- info: 'Docket.Keys.C65_violated_complement' depends on axioms: [propext, Classical.choice, Quot.sound] -/
#guard_msgs (whitespace := lax) in
#print axioms Docket.Keys.C65_violated_complement

/-- info: 'Docket.C66_gone_after_end_partial' depends on axioms: [propext, Classical.choice, Quot.sound] -/
#guard_msgs (whitespace := lax) in
#print axioms Docket.C66_gone_after_end_partial

/-- info: 'Docket.C66_gone_after_cancel_partial' depends on axioms: [propext, Classical.choice, Quot.sound] -/
#guard_msgs (whitespace := lax) in
#print axioms Docket.C66_gone_after_cancel_partial

/-- info: 'Docket.C66_violated_progress' depends on axioms: [propext, Classical.choice, Quot.sound] -/
#guard_msgs (whitespace := lax) in
#print axioms Docket.C66_violated_progress

/-- info: 'Docket.C66_violated_cancel' depends on axioms: [propext, Classical.choice, Quot.sound] -/
#guard_msgs (whitespace := lax) in
#print axioms Docket.C66_violated_cancel

/-- info: 'Docket.C66_violated_ghost' depends on axioms: [propext, Classical.choice, Quot.sound] -/
#guard_msgs (whitespace := lax) in
#print axioms Docket.C66_violated_ghost

/-- info: 'Docket.C67_handed_in_order' depends on axioms: [propext, Classical.choice, Quot.sound] -/
#guard_msgs (whitespace := lax) in
#print axioms Docket.C67_handed_in_order

/-- info: 'Docket.C67_no_overtaking' depends on axioms: [propext, Classical.choice, Quot.sound] -/
#guard_msgs (whitespace := lax) in
#print axioms Docket.C67_no_overtaking

/-- info: 'Docket.Poison.C68_all_processed_partial' depends on axioms: [propext, Classical.choice, Quot.sound] -/
#guard_msgs (whitespace := lax) in
#print axioms Docket.Poison.C68_all_processed_partial

/-- info: 'Docket.Poison.C68_others_processed_partial' depends on axioms: [propext, Classical.choice, Quot.sound] -/
#guard_msgs (whitespace := lax) in
#print axioms Docket.Poison.C68_others_processed_partial

/-- info: 'Docket.Poison.C68_when_harmless' depends on axioms: [propext, Classical.choice, Quot.sound] -/
#guard_msgs (whitespace := lax) in
#print axioms Docket.Poison.C68_when_harmless

/-- info: 'Docket.Poison.C68_violated_undecodable' depends on axioms: [propext, Classical.choice, Quot.sound] -/
#guard_msgs (whitespace := lax) in
#print axioms Docket.Poison.C68_violated_undecodable

/-- info: 'Docket.Poison.C68_violated_raising' depends on axioms: [propext, Classical.choice, Quot.sound] -/
#guard_msgs (whitespace := lax) in
#print axioms Docket.Poison.C68_violated_raising

/-- info: 'Docket.Poison.C68_violated' depends on axioms: [propext, Classical.choice, Quot.sound] -/
#guard_msgs (whitespace := lax) in
#print axioms Docket.Poison.C68_violated

/-- info: 'Docket.CallRepr.C68_when_raising' depends on axioms: [propext, Quot.sound] -/
#guard_msgs (whitespace := lax) in
#print axioms Docket.CallRepr.C68_when_raising

/-- info: 'Docket.Watch.C69_shows_the_state' depends on axioms: [propext, Classical.choice, Quot.sound] -/
#guard_msgs (whitespace := lax) in
#print axioms Docket.Watch.C69_shows_the_state

/-- info: 'Docket.Watch.C69_until_ended_partial' depends on axioms: [propext, Classical.choice, Quot.sound] -/
#guard_msgs (whitespace := lax) in
#print axioms Docket.Watch.C69_until_ended_partial

/-- info: 'Docket.Watch.C69_already_ended' depends on axioms: [propext] -/
#guard_msgs (whitespace := lax) in
#print axioms Docket.Watch.C69_already_ended

/-- info: 'Docket.Watch.C69_violated_quiet' depends on axioms: [propext] -/
#guard_msgs (whitespace := lax) in
#print axioms Docket.Watch.C69_violated_quiet

/-- info: 'Docket.Cli.C70_strikes_what_was_written_partial' depends on axioms: [propext, Classical.choice, Quot.sound] -/
#guard_msgs (whitespace := lax) in
#print axioms Docket.Cli.C70_strikes_what_was_written_partial

/-- info: 'Docket.Cli.C70_wildcards' depends on axioms: [propext, Quot.sound] -/
#guard_msgs (whitespace := lax) in
#print axioms Docket.Cli.C70_wildcards

/-- info: 'Docket.Cli.C70_refused' depends on axioms: [propext, Quot.sound] -/
#guard_msgs (whitespace := lax) in
#print axioms Docket.Cli.C70_refused

/-- info: 'Docket.Cli.C70_violated' depends on axioms: [propext] -/
#guard_msgs (whitespace := lax) in
#print axioms Docket.Cli.C70_violated

/-- info: 'Docket.Cli.C70_violated_other_value' depends on axioms: [propext] -/
#guard_msgs (whitespace := lax) in
#print axioms Docket.Cli.C70_violated_other_value

/-- info: 'Docket.Cli.C70_violated_unreachable' depends on axioms: [propext, Quot.sound] -/
#guard_msgs (whitespace := lax) in
#print axioms Docket.Cli.C70_violated_unreachable

/-- info: 'Docket.Cli.C70_truth_values' depends on axioms: [propext, Quot.sound] -/
#guard_msgs (whitespace := lax) in
#print axioms Docket.Cli.C70_truth_values

/-- info: 'Docket.C71_served_in_turn' depends on axioms: [propext, Classical.choice, Quot.sound] -/
#guard_msgs (whitespace := lax) in
#print axioms Docket.C71_served_in_turn

/-- info: 'Docket.C71_eventually_handed' depends on axioms: [propext, Classical.choice, Quot.sound] -/
#guard_msgs (whitespace := lax) in
#print axioms Docket.C71_eventually_handed

/-- info: 'Docket.C71_eventually_started' depends on axioms: [propext, Classical.choice, Quot.sound] -/
#guard_msgs (whitespace := lax) in
#print axioms Docket.C71_eventually_started

/-- info: 'Docket.C72_one_at_a_time_partial' depends on axioms: [propext, Classical.choice, Quot.sound] -/
#guard_msgs (whitespace := lax) in
#print axioms Docket.C72_one_at_a_time_partial

/-- info: 'Docket.C72_not_two_running_partial' depends on axioms: [propext, Classical.choice, Quot.sound] -/
#guard_msgs (whitespace := lax) in
#print axioms Docket.C72_not_two_running_partial

/-- info: 'Docket.C72_violated_replace' depends on axioms: [propext, Classical.choice, Quot.sound] -/
#guard_msgs (whitespace := lax) in
#print axioms Docket.C72_violated_replace

/-- info: 'Docket.C72_violated_cancel' depends on axioms: [propext, Classical.choice, Quot.sound] -/
#guard_msgs (whitespace := lax) in
#print axioms Docket.C72_violated_cancel

/-- info: 'Docket.C72_violated_lapse' depends on axioms: [propext, Classical.choice, Quot.sound] -/
#guard_msgs (whitespace := lax) in
#print axioms Docket.C72_violated_lapse

/-- info: 'Docket.C72_violated_expiry' depends on axioms: [propext, Classical.choice, Quot.sound] -/
#guard_msgs (whitespace := lax) in
#print axioms Docket.C72_violated_expiry

/-- info: 'Docket.C72_violated_strike' depends on axioms: [propext, Classical.choice, Quot.sound] -/
#guard_msgs (whitespace := lax) in
#print axioms Docket.C72_violated_strike

/-- info: 'Docket.C72_violated_clear' depends on axioms: [propext, Classical.choice, Quot.sound] -/
#guard_msgs (whitespace := lax) in
#print axioms Docket.C72_violated_clear

/-- info: 'Docket.Finish.C73_nothing_left_partial' depends on axioms: [propext, Classical.choice, Quot.sound] -/
#guard_msgs (whitespace := lax) in
#print axioms Docket.Finish.C73_nothing_left_partial

/-- info: 'Docket.Finish.C73_nobody_busy_partial' depends on axioms: [propext, Classical.choice, Quot.sound] -/
#guard_msgs (whitespace := lax) in
#print axioms Docket.Finish.C73_nobody_busy_partial

/-- info: 'Docket.Finish.C73_returns' depends on axioms: [propext, Classical.choice, Quot.sound] -/
#guard_msgs (whitespace := lax) in
#print axioms Docket.Finish.C73_returns

/-- info: 'Docket.Finish.C73_violated_cancel' depends on axioms: [propext, Classical.choice, Quot.sound] -/
#guard_msgs (whitespace := lax) in
#print axioms Docket.Finish.C73_violated_cancel

/-- info: 'Docket.Finish.C73_violated_clear' depends on axioms: [propext, Classical.choice, Quot.sound] -/
#guard_msgs (whitespace := lax) in
#print axioms Docket.Finish.C73_violated_clear

/-- info: 'Docket.Finish.C73_violated_lapse' depends on axioms: [propext, Classical.choice, Quot.sound] -/
#guard_msgs (whitespace := lax) in
#print axioms Docket.Finish.C73_violated_lapse

/-- info: 'Docket.TaskArg.C74_passed_partial' depends on axioms: [propext, Quot.sound] -/
#guard_msgs (whitespace := lax) in
#print axioms Docket.TaskArg.C74_passed_partial

/-- info: 'Docket.TaskArg.C74_frame' depends on axioms: [propext, Classical.choice, Quot.sound] -/
#guard_msgs (whitespace := lax) in
#print axioms Docket.TaskArg.C74_frame

/-- info: 'Docket.TaskArg.C74_same_value_partial' depends on axioms: [propext, Classical.choice, Quot.sound] -/
#guard_msgs (whitespace := lax) in
#print axioms Docket.TaskArg.C74_same_value_partial

/-- info: 'Docket.TaskArg.C74_one_value' depends on axioms: [propext, Quot.sound] -/
#guard_msgs (whitespace := lax) in
#print axioms Docket.TaskArg.C74_one_value

/-- info: 'Docket.TaskArg.C74_runs_partial' depends on axioms: [propext, Quot.sound] -/
#guard_msgs (whitespace := lax) in
#print axioms Docket.TaskArg.C74_runs_partial

/-- info: 'Docket.TaskArg.C74_violated_default' depends on axioms: [propext, Classical.choice, Quot.sound] -/
#guard_msgs (whitespace := lax) in
#print axioms Docket.TaskArg.C74_violated_default

/-- info: 'Docket.TaskArg.C74_violated_shared' depends on axioms: [propext, Quot.sound] -/
#guard_msgs (whitespace := lax) in
#print axioms Docket.TaskArg.C74_violated_shared

/-- info: 'Docket.TaskArg.C74_violated_fails' depends on axioms: [propext] -/
#guard_msgs (whitespace := lax) in
#print axioms Docket.TaskArg.C74_violated_fails

/-- info: 'Docket.TaskArg.C74_fails' depends on axioms: [propext] -/
#guard_msgs (whitespace := lax) in
#print axioms Docket.TaskArg.C74_fails

/-- info: 'Docket.C75_task_partial' depends on axioms: [propext, Classical.choice, Quot.sound] -/
#guard_msgs (whitespace := lax) in
#print axioms Docket.C75_task_partial

/-- info: 'Docket.C75_found' depends on axioms: [propext, Classical.choice, Quot.sound] -/
#guard_msgs (whitespace := lax) in
#print axioms Docket.C75_found

/-- info: 'Docket.C75_unknown' depends on axioms: [propext, Classical.choice, Quot.sound] -/
#guard_msgs (whitespace := lax) in
#print axioms Docket.C75_unknown

/-- info: 'Docket.C75_state_partial' depends on axioms: [propext, Classical.choice, Quot.sound] -/
#guard_msgs (whitespace := lax) in
#print axioms Docket.C75_state_partial

/-- info: 'Docket.C75_describes_partial' depends on axioms: [propext, Classical.choice, Quot.sound] -/
#guard_msgs (whitespace := lax) in
#print axioms Docket.C75_describes_partial

/-- info: 'Docket.C75_ended_partial' depends on axioms: [propext, Classical.choice, Quot.sound] -/
#guard_msgs (whitespace := lax) in
#print axioms Docket.C75_ended_partial

/-- info: 'Docket.C75_where_partial' depends on axioms: [propext, Classical.choice, Quot.sound] -/
#guard_msgs (whitespace := lax) in
#print axioms Docket.C75_where_partial

/-- info: 'Docket.C75_violated_leftovers' depends on axioms: [propext, Classical.choice, Quot.sound] -/
#guard_msgs (whitespace := lax) in
#print axioms Docket.C75_violated_leftovers

/-- info: 'Docket.C75_violated_completed_error' depends on axioms: [propext, Classical.choice, Quot.sound] -/
#guard_msgs (whitespace := lax) in
#print axioms Docket.C75_violated_completed_error

/-- info: 'Docket.C75_violated_attempt' depends on axioms: [propext, Classical.choice, Quot.sound] -/
#guard_msgs (whitespace := lax) in
#print axioms Docket.C75_violated_attempt

/-- info: 'Docket.C75_violated_gap' depends on axioms: [propext, Classical.choice, Quot.sound] -/
#guard_msgs (whitespace := lax) in
#print axioms Docket.C75_violated_gap

/-- info: 'Docket.Strikes.Monitor.C76_loaded' depends on axioms: [propext, Classical.choice, Quot.sound] -/
#guard_msgs (whitespace := lax) in
#print axioms Docket.Strikes.Monitor.C76_loaded

/-- info: 'Docket.Strikes.Monitor.C76_in_order_partial' depends on axioms: [propext, Classical.choice, Quot.sound] -/
#guard_msgs (whitespace := lax) in
#print axioms Docket.Strikes.Monitor.C76_in_order_partial

/-- info: 'Docket.Strikes.Monitor.C76_load_ends_partial' depends on axioms: [propext, Classical.choice, Quot.sound] -/
#guard_msgs (whitespace := lax) in
#print axioms Docket.Strikes.Monitor.C76_load_ends_partial

/-- info: 'Docket.Strikes.Monitor.C76_worker_starts_partial' depends on axioms: [propext, Classical.choice, Quot.sound] -/
#guard_msgs (whitespace := lax) in
#print axioms Docket.Strikes.Monitor.C76_worker_starts_partial

/-- info: 'Docket.Strikes.Monitor.C76_worker_obeys_partial' depends on axioms: [propext, Classical.choice, Quot.sound] -/
#guard_msgs (whitespace := lax) in
#print axioms Docket.Strikes.Monitor.C76_worker_obeys_partial

/-- info: 'Docket.Strikes.Monitor.C76_decides_partial' depends on axioms: [propext, Classical.choice, Quot.sound] -/
#guard_msgs (whitespace := lax) in
#print axioms Docket.Strikes.Monitor.C76_decides_partial

/-- info: 'Docket.Strikes.Monitor.C76_issuer_obeys_partial' depends on axioms: [propext, Classical.choice, Quot.sound] -/
#guard_msgs (whitespace := lax) in
#print axioms Docket.Strikes.Monitor.C76_issuer_obeys_partial

/-- info: 'Docket.Strikes.Monitor.C76_violated_unseeded' depends on axioms: [propext, Classical.choice, Quot.sound] -/
#guard_msgs (whitespace := lax) in
#print axioms Docket.Strikes.Monitor.C76_violated_unseeded

/-- info: 'Docket.Strikes.Monitor.C76_violated_add' depends on axioms: [propext, Classical.choice, Quot.sound] -/
#guard_msgs (whitespace := lax) in
#print axioms Docket.Strikes.Monitor.C76_violated_add

/-- info: 'Docket.Strikes.Monitor.C76_violated' depends on axioms: [propext, Classical.choice, Quot.sound] -/
#guard_msgs (whitespace := lax) in
#print axioms Docket.Strikes.Monitor.C76_violated

/-- info: 'Docket.Strikes.Monitor.C76_violated_undecodable' depends on axioms: [propext, Classical.choice, Quot.sound] -/
#guard_msgs (whitespace := lax) in
#print axioms Docket.Strikes.Monitor.C76_violated_undecodable

/-- info: 'Docket.Strikes.Monitor.C76_violated_load' depends on axioms: [propext, Classical.choice, Quot.sound] -/
#guard_msgs (whitespace := lax) in
#print axioms Docket.Strikes.Monitor.C76_violated_load

/-- info: 'Docket.Strikes.Monitor.C76_violated_undone' depends on axioms: [propext, Classical.choice, Quot.sound] -/
#guard_msgs (whitespace := lax) in
#print axioms Docket.Strikes.Monitor.C76_violated_undone

/-- info: 'Docket.Strikes.Monitor.C77_counts_partial' depends on axioms: [propext, Classical.choice, Quot.sound] -/
#guard_msgs (whitespace := lax) in
#print axioms Docket.Strikes.Monitor.C77_counts_partial

/-- info: 'Docket.Strikes.Monitor.C77_violated_repeated' depends on axioms: [propext, Classical.choice, Quot.sound] -/
#guard_msgs (whitespace := lax) in
#print axioms Docket.Strikes.Monitor.C77_violated_repeated

/-- info: 'Docket.Strikes.Monitor.C77_violated_negative' depends on axioms: [propext, Classical.choice, Quot.sound] -/
#guard_msgs (whitespace := lax) in
#print axioms Docket.Strikes.Monitor.C77_violated_negative

/-- info: 'Docket.Strikes.Monitor.C77_violated_unusable' depends on axioms: [propext, Classical.choice, Quot.sound] -/
#guard_msgs (whitespace := lax) in
#print axioms Docket.Strikes.Monitor.C77_violated_unusable

/-- info: 'Docket.Strikes.Monitor.C77_violated_growing' depends on axioms: [propext, Classical.choice, Quot.sound] -/
#guard_msgs (whitespace := lax) in
#print axioms Docket.Strikes.Monitor.C77_violated_growing

/-- info: 'Docket.C78_sees_partial' depends on axioms: [propext, Classical.choice, Quot.sound] -/
#guard_msgs (whitespace := lax) in
#print axioms Docket.C78_sees_partial

/-- info: 'Docket.C78_current_partial' depends on axioms: [propext, Classical.choice, Quot.sound] -/
#guard_msgs (whitespace := lax) in
#print axioms Docket.C78_current_partial

/-- info: 'Docket.C78_event_true_partial' depends on axioms: [propext, Classical.choice, Quot.sound] -/
#guard_msgs (whitespace := lax) in
#print axioms Docket.C78_event_true_partial

/-- info: 'Docket.C78_violated_gap' depends on axioms: [propext, Classical.choice, Quot.sound] -/
#guard_msgs (whitespace := lax) in
#print axioms Docket.C78_violated_gap

/-- info: 'Docket.C78_violated_cancel' depends on axioms: [propext, Classical.choice, Quot.sound] -/
#guard_msgs (whitespace := lax) in
#print axioms Docket.C78_violated_cancel

/-- info: 'Docket.C78_violated_superseded' depends on axioms: [propext, Classical.choice, Quot.sound] -/
#guard_msgs (whitespace := lax) in
#print axioms Docket.C78_violated_superseded

/-- info: 'Docket.C78_violated_expired' depends on axioms: [propext, Classical.choice, Quot.sound] -/
#guard_msgs (whitespace := lax) in
#print axioms Docket.C78_violated_expired

/-- info: 'Docket.C79_outcome_partial' depends on axioms: [propext, Classical.choice, Quot.sound] -/
#guard_msgs (whitespace := lax) in
#print axioms Docket.C79_outcome_partial

/-- info: 'Docket.C79_returns_iff_partial' depends on axioms: [propext, Classical.choice, Quot.sound] -/
#guard_msgs (whitespace := lax) in
#print axioms Docket.C79_returns_iff_partial

/-- info: 'Docket.C79_value_partial' depends on axioms: [propext, Classical.choice, Quot.sound] -/
#guard_msgs (whitespace := lax) in
#print axioms Docket.C79_value_partial

/-- info: 'Docket.C79_violated_superseded' depends on axioms: [propext, Classical.choice, Quot.sound] -/
#guard_msgs (whitespace := lax) in
#print axioms Docket.C79_violated_superseded

/-- info: 'Docket.C79_violated_returns_exception' depends on axioms: [propext, Classical.choice, Quot.sound] -/
#guard_msgs (whitespace := lax) in
#print axioms Docket.C79_violated_returns_exception

/-- info: 'Docket.C79_violated_expired' depends on axioms: [propext, Classical.choice, Quot.sound] -/
#guard_msgs (whitespace := lax) in
#print axioms Docket.C79_violated_expired

/-- info: 'Docket.Renewal.C80_kept_partial' depends on axioms: [propext, Classical.choice, Quot.sound] -/
#guard_msgs (whitespace := lax) in
#print axioms Docket.Renewal.C80_kept_partial

/-- info: 'Docket.Renewal.C80_two_failures_partial' depends on axioms: [propext, Classical.choice, Quot.sound] -/
#guard_msgs (whitespace := lax) in
#print axioms Docket.Renewal.C80_two_failures_partial

/-- info: 'Docket.Renewal.C80_violated_draining' depends on axioms: [propext, Classical.choice, Quot.sound] -/
#guard_msgs (whitespace := lax) in
#print axioms Docket.Renewal.C80_violated_draining

/-- info: 'Docket.Renewal.C80_violated_timeouts' depends on axioms: [propext, Classical.choice, Quot.sound] -/
#guard_msgs (whitespace := lax) in
#print axioms Docket.Renewal.C80_violated_timeouts

/-- info: 'Docket.Progress.C81_recorded_partial' depends on axioms: [propext, Classical.choice, Quot.sound] -/
#guard_msgs (whitespace := lax) in
#print axioms Docket.Progress.C81_recorded_partial

/-- info: 'Docket.Progress.C81_one_after_the_other_partial' depends on axioms: [propext, Classical.choice, Quot.sound] -/
#guard_msgs (whitespace := lax) in
#print axioms Docket.Progress.C81_one_after_the_other_partial

/-- info: 'Docket.Progress.C81_violated_shared' depends on axioms: [propext, Classical.choice, Quot.sound] -/
#guard_msgs (whitespace := lax) in
#print axioms Docket.Progress.C81_violated_shared

/-- info: 'Docket.Progress.C82_agrees_partial' depends on axioms: [propext, Classical.choice, Quot.sound] -/
#guard_msgs (whitespace := lax) in
#print axioms Docket.Progress.C82_agrees_partial

/-- info: 'Docket.Progress.C82_violated_concurrent' depends on axioms: [propext, Classical.choice, Quot.sound] -/
#guard_msgs (whitespace := lax) in
#print axioms Docket.Progress.C82_violated_concurrent

/-- info: 'Docket.Progress.C82_violated_cancelled' depends on axioms: [propext, Classical.choice, Quot.sound] -/
#guard_msgs (whitespace := lax) in
#print axioms Docket.Progress.C82_violated_cancelled

/-- info: 'Docket.Cron.C83_on_schedule' depends on axioms: [propext, Classical.choice, Quot.sound] -/
#guard_msgs (whitespace := lax) in
#print axioms Docket.Cron.C83_on_schedule

/-- info: 'Docket.Cron.C83_seeded_exactly' depends on axioms: [propext, Classical.choice, Quot.sound] -/
#guard_msgs (whitespace := lax) in
#print axioms Docket.Cron.C83_seeded_exactly

/-- info: 'Docket.Cron.C83_seeded_next_partial' depends on axioms: [propext, Classical.choice, Quot.sound] -/
#guard_msgs (whitespace := lax) in
#print axioms Docket.Cron.C83_seeded_next_partial

/-- info: 'Docket.Cron.C83_completed_exactly' depends on axioms: [propext, Classical.choice, Quot.sound] -/
#guard_msgs (whitespace := lax) in
#print axioms Docket.Cron.C83_completed_exactly

/-- info: 'Docket.Cron.C83_completed_next_partial' depends on axioms: [propext, Classical.choice, Quot.sound] -/
#guard_msgs (whitespace := lax) in
#print axioms Docket.Cron.C83_completed_next_partial

/-- info: 'Docket.Cron.C83_violated_late' depends on axioms: [propext, Classical.choice, Quot.sound] -/
#guard_msgs (whitespace := lax) in
#print axioms Docket.Cron.C83_violated_late

/-- info: 'Docket.Cron.C83_violated_stricken' depends on axioms: [propext, Classical.choice, Quot.sound] -/
#guard_msgs (whitespace := lax) in
#print axioms Docket.Cron.C83_violated_stricken

/-- info: 'Docket.Cron.C83_violated_long_run' depends on axioms: [propext, Classical.choice, Quot.sound] -/
#guard_msgs (whitespace := lax) in
#print axioms Docket.Cron.C83_violated_long_run

/-- info: 'Docket.Cron.C84_each_time_once_partial' depends on axioms: [propext, Classical.choice, Quot.sound] -/
#guard_msgs (whitespace := lax) in
#print axioms Docket.Cron.C84_each_time_once_partial

/-- info: 'Docket.Cron.C84_violated_two_processes' depends on axioms: [propext, Classical.choice, Quot.sound] -/
#guard_msgs (whitespace := lax) in
#print axioms Docket.Cron.C84_violated_two_processes

/-- info: 'Docket.Cron.C84_violated_cancelled' depends on axioms: [propext, Classical.choice, Quot.sound] -/
#guard_msgs (whitespace := lax) in
#print axioms Docket.Cron.C84_violated_cancelled

/-- info: 'Docket.Stop.C85_waits_partial' depends on axioms: [propext, Classical.choice, Quot.sound] -/
#guard_msgs (whitespace := lax) in
#print axioms Docket.Stop.C85_waits_partial

/-- info: 'Docket.Stop.C85_not_interrupted_partial' depends on axioms: [propext, Classical.choice, Quot.sound] -/
#guard_msgs (whitespace := lax) in
#print axioms Docket.Stop.C85_not_interrupted_partial

/-- info: 'Docket.Stop.C85_settled_partial' depends on axioms: [propext, Classical.choice, Quot.sound] -/
#guard_msgs (whitespace := lax) in
#print axioms Docket.Stop.C85_settled_partial

/-- info: 'Docket.Stop.C85_violated_second_signal' depends on axioms: [propext, Classical.choice, Quot.sound] -/
#guard_msgs (whitespace := lax) in
#print axioms Docket.Stop.C85_violated_second_signal

/-- info: 'Docket.Stop.C85_violated_orphans' depends on axioms: [propext, Classical.choice, Quot.sound] -/
#guard_msgs (whitespace := lax) in
#print axioms Docket.Stop.C85_violated_orphans

/-- info: 'Docket.Stop.C85_violated_unsettled' depends on axioms: [propext, Classical.choice, Quot.sound] -/
#guard_msgs (whitespace := lax) in
#print axioms Docket.Stop.C85_violated_unsettled

/-- info: 'Docket.Stop.C85_violated' depends on axioms: [propext, Classical.choice, Quot.sound] -/
#guard_msgs (whitespace := lax) in
#print axioms Docket.Stop.C85_violated

/-- info: 'Docket.Stop.C85_records_partial' depends on axioms: [propext, Classical.choice, Quot.sound] -/
#guard_msgs (whitespace := lax) in
#print axioms Docket.Stop.C85_records_partial

/-- info: 'Docket.Stop.C85_not_cancelled_partial' depends on axioms: [propext, Classical.choice, Quot.sound] -/
#guard_msgs (whitespace := lax) in
#print axioms Docket.Stop.C85_not_cancelled_partial

/-- info: 'Docket.Stop.C85_stop_cancels_none' depends on axioms: [propext, Classical.choice, Quot.sound] -/
#guard_msgs (whitespace := lax) in
#print axioms Docket.Stop.C85_stop_cancels_none

/-- info: 'Docket.Stop.C86_stop_few_partial' depends on axioms: [propext, Classical.choice, Quot.sound] -/
#guard_msgs (whitespace := lax) in
#print axioms Docket.Stop.C86_stop_few_partial

/-- info: 'Docket.Stop.C86_stop_none_partial' depends on axioms: [propext, Classical.choice, Quot.sound] -/
#guard_msgs (whitespace := lax) in
#print axioms Docket.Stop.C86_stop_none_partial

/-- info: 'Docket.Stop.C86_cancel_none_partial' depends on axioms: [propext, Classical.choice, Quot.sound] -/
#guard_msgs (whitespace := lax) in
#print axioms Docket.Stop.C86_cancel_none_partial

/-- info: 'Docket.Stop.C86_stop_returns_partial' depends on axioms: [propext, Classical.choice, Quot.sound] -/
#guard_msgs (whitespace := lax) in
#print axioms Docket.Stop.C86_stop_returns_partial

/-- info: 'Docket.Stop.C86_cancel_returns_partial' depends on axioms: [propext, Classical.choice, Quot.sound] -/
#guard_msgs (whitespace := lax) in
#print axioms Docket.Stop.C86_cancel_returns_partial

/-- info: 'Docket.Stop.C86_violated_takes_more' depends on axioms: [propext, Classical.choice, Quot.sound] -/
#guard_msgs (whitespace := lax) in
#print axioms Docket.Stop.C86_violated_takes_more

/-- info: 'Docket.Stop.C86_violated_resumes' depends on axioms: [propext, Classical.choice, Quot.sound] -/
#guard_msgs (whitespace := lax) in
#print axioms Docket.Stop.C86_violated_resumes

/-- info: 'Docket.Stop.C86_violated_never_returns' depends on axioms: [propext, Classical.choice, Quot.sound] -/
#guard_msgs (whitespace := lax) in
#print axioms Docket.Stop.C86_violated_never_returns

/-- info: 'Docket.Stop.C86_violated' depends on axioms: [propext, Classical.choice, Quot.sound] -/
#guard_msgs (whitespace := lax) in
#print axioms Docket.Stop.C86_violated

/-- info: 'Docket.Metrics.C87_running_is_what_is_running' depends on axioms: [propext, Classical.choice, Quot.sound] -/
#guard_msgs (whitespace := lax) in
#print axioms Docket.Metrics.C87_running_is_what_is_running

/-- info: 'Docket.Metrics.C87_called_counts_as_running' depends on axioms: [propext, Classical.choice, Quot.sound] -/
#guard_msgs (whitespace := lax) in
#print axioms Docket.Metrics.C87_called_counts_as_running

/-- info: 'Docket.Metrics.C87_started_is_running_or_completed' depends on axioms: [propext, Classical.choice, Quot.sound] -/
#guard_msgs (whitespace := lax) in
#print axioms Docket.Metrics.C87_started_is_running_or_completed

/-- info: 'Docket.Metrics.C87_successes_and_failures_counted' depends on axioms: [propext, Classical.choice, Quot.sound] -/
#guard_msgs (whitespace := lax) in
#print axioms Docket.Metrics.C87_successes_and_failures_counted

/-- info: 'Docket.Metrics.C87_success_only_if_returned' depends on axioms: [propext, Classical.choice, Quot.sound] -/
#guard_msgs (whitespace := lax) in
#print axioms Docket.Metrics.C87_success_only_if_returned

/-- info: 'Docket.Metrics.C87_every_task_counted_once' depends on axioms: [propext, Classical.choice, Quot.sound] -/
#guard_msgs (whitespace := lax) in
#print axioms Docket.Metrics.C87_every_task_counted_once

/-- info: 'Docket.Metrics.C87_success_iff_returned' depends on axioms: [propext, Classical.choice, Quot.sound] -/
#guard_msgs (whitespace := lax) in
#print axioms Docket.Metrics.C87_success_iff_returned

/-- info: 'Docket.Metrics.C87_success_and_failure_as_recorded_partial' depends on axioms: [propext, Classical.choice, Quot.sound] -/
#guard_msgs (whitespace := lax) in
#print axioms Docket.Metrics.C87_success_and_failure_as_recorded_partial

/-- info: 'Docket.Metrics.C87_violated_unstorable' depends on axioms: [propext, Classical.choice, Quot.sound] -/
#guard_msgs (whitespace := lax) in
#print axioms Docket.Metrics.C87_violated_unstorable

/-- info: 'Docket.Metrics.C87_violated_swallowed' depends on axioms: [propext, Classical.choice, Quot.sound] -/
#guard_msgs (whitespace := lax) in
#print axioms Docket.Metrics.C87_violated_swallowed

/-- info: 'Docket.Metrics.C87_violated_blocked' depends on axioms: [propext, Classical.choice, Quot.sound] -/
#guard_msgs (whitespace := lax) in
#print axioms Docket.Metrics.C87_violated_blocked

/-- info: 'Docket.Calls.C88_add_verdict' depends on axioms: [propext, Classical.choice, Quot.sound] -/
#guard_msgs (whitespace := lax) in
#print axioms Docket.Calls.C88_add_verdict

/-- info: 'Docket.Calls.C88_replace_verdict' depends on axioms: [propext, Classical.choice, Quot.sound] -/
#guard_msgs (whitespace := lax) in
#print axioms Docket.Calls.C88_replace_verdict

/-- info: 'Docket.Calls.C88_schedule_verdict' depends on axioms: [propext, Classical.choice, Quot.sound] -/
#guard_msgs (whitespace := lax) in
#print axioms Docket.Calls.C88_schedule_verdict

/-- info: 'Docket.Calls.C88_scheduled_counts_accepted' depends on axioms: [propext, Classical.choice, Quot.sound] -/
#guard_msgs (whitespace := lax) in
#print axioms Docket.Calls.C88_scheduled_counts_accepted

/-- info: 'Docket.Calls.C88_stricken_counts_struck' depends on axioms: [propext, Classical.choice, Quot.sound] -/
#guard_msgs (whitespace := lax) in
#print axioms Docket.Calls.C88_stricken_counts_struck

/-- info: 'Docket.Calls.C88_added_partial' depends on axioms: [propext, Classical.choice, Quot.sound] -/
#guard_msgs (whitespace := lax) in
#print axioms Docket.Calls.C88_added_partial

/-- info: 'Docket.Calls.C88_cancelled_partial' depends on axioms: [propext, Classical.choice, Quot.sound] -/
#guard_msgs (whitespace := lax) in
#print axioms Docket.Calls.C88_cancelled_partial

/-- info: 'Docket.Calls.C88_violated_added' depends on axioms: [propext, Classical.choice, Quot.sound] -/
#guard_msgs (whitespace := lax) in
#print axioms Docket.Calls.C88_violated_added

/-- info: 'Docket.Calls.C88_violated_cancelled' depends on axioms: [propext, Classical.choice, Quot.sound] -/
#guard_msgs (whitespace := lax) in
#print axioms Docket.Calls.C88_violated_cancelled

/-- info: 'Docket.Calls.C88_violated_replaced' depends on axioms: [propext, Classical.choice, Quot.sound] -/
#guard_msgs (whitespace := lax) in
#print axioms Docket.Calls.C88_violated_replaced

/-- info: 'Docket.Group.C89_as_if_always_there' depends on axioms: [propext, Classical.choice, Quot.sound] -/
#guard_msgs (whitespace := lax) in
#print axioms Docket.Group.C89_as_if_always_there

/-- info: 'Docket.Group.C89_reading_works' depends on axioms: [propext, Classical.choice, Quot.sound] -/
#guard_msgs (whitespace := lax) in
#print axioms Docket.Group.C89_reading_works

/-- info: 'Docket.Group.C89_no_error' depends on axioms: [propext, Classical.choice, Quot.sound] -/
#guard_msgs (whitespace := lax) in
#print axioms Docket.Group.C89_no_error

/-- info: 'Docket.Group.C89_first_worker_gets_all' depends on axioms: [propext, Classical.choice, Quot.sound] -/
#guard_msgs (whitespace := lax) in
#print axioms Docket.Group.C89_first_worker_gets_all

/-- info: 'Docket.C90_in_time' depends on axioms: [propext, Classical.choice, Quot.sound] -/
#guard_msgs (whitespace := lax) in
#print axioms Docket.C90_in_time

/-- info: 'Docket.C90_in_time_backlog' depends on axioms: [propext, Classical.choice, Quot.sound] -/
#guard_msgs (whitespace := lax) in
#print axioms Docket.C90_in_time_backlog

/-- info: 'Docket.C90_at_once' depends on axioms: [propext, Classical.choice, Quot.sound] -/
#guard_msgs (whitespace := lax) in
#print axioms Docket.C90_at_once

/-- info: 'Docket.Scheduler.C90_scheduler_regular' depends on axioms: [propext, Classical.choice, Quot.sound] -/
#guard_msgs (whitespace := lax) in
#print axioms Docket.Scheduler.C90_scheduler_regular

/-- info: 'Docket.Scheduler.C90_worker_in_time' depends on axioms: [propext, Classical.choice, Quot.sound] -/
#guard_msgs (whitespace := lax) in
#print axioms Docket.Scheduler.C90_worker_in_time

/-- info: 'Docket.Scheduler.C90_can_be_punctual' depends on axioms: [propext, Classical.choice, Quot.sound] -/
#guard_msgs (whitespace := lax) in
#print axioms Docket.Scheduler.C90_can_be_punctual

/-- info: 'Docket.Exporter.C91_scrape_partial' depends on axioms: [propext, Quot.sound] -/
#guard_msgs (whitespace := lax) in
#print axioms Docket.Exporter.C91_scrape_partial

/-- info: 'Docket.Exporter.C91_truthful' depends on axioms: [propext, Classical.choice, Quot.sound] -/
#guard_msgs (whitespace := lax) in
#print axioms Docket.Exporter.C91_truthful

/-- info: 'Docket.Exporter.C91_ends' depends on axioms: [propext, Quot.sound] -/
#guard_msgs (whitespace := lax) in
#print axioms Docket.Exporter.C91_ends

/-- info: 'Docket.Exporter.C91_names' depends on axioms: [propext, Quot.sound] -/
#guard_msgs (whitespace := lax) in
#print axioms Docket.Exporter.C91_names

/-- info: 'Docket.Exporter.C91_units' depends on axioms: [propext, Classical.choice, Quot.sound] -/
#guard_msgs (whitespace := lax) in
#print axioms Docket.Exporter.C91_units

/-- info: 'Docket.Exporter.C91_labels' depends on axioms: [propext, Classical.choice, Quot.sound] -/
#guard_msgs (whitespace := lax) in
#print axioms Docket.Exporter.C91_labels

/-- info: 'Docket.Exporter.C91_total' depends on axioms: [propext, Quot.sound] -/
#guard_msgs (whitespace := lax) in
#print axioms Docket.Exporter.C91_total

/-- info: 'Docket.Exporter.C91_violated_overlapping' depends on axioms: [propext, Quot.sound] -/
#guard_msgs (whitespace := lax) in
#print axioms Docket.Exporter.C91_violated_overlapping

/-- info: 'Docket.Exporter.C91_violated_fails' depends on axioms: [propext, Quot.sound] -/
#guard_msgs (whitespace := lax) in
#print axioms Docket.Exporter.C91_violated_fails

/-- info: 'Docket.Exporter.C91_violated_same_labels' does not depend on any axioms -/
#guard_msgs (whitespace := lax) in
#print axioms Docket.Exporter.C91_violated_same_labels

/-- info: 'Docket.Memory.C92_shared' depends on axioms: [propext, Classical.choice, Quot.sound] -/
#guard_msgs (whitespace := lax) in
#print axioms Docket.Memory.C92_shared

/-- info: 'Docket.Memory.C92_apart' depends on axioms: [propext, Classical.choice, Quot.sound] -/
#guard_msgs (whitespace := lax) in
#print axioms Docket.Memory.C92_apart

/-- info: 'Docket.Memory.C92_kept' depends on axioms: [propext, Classical.choice, Quot.sound] -/
#guard_msgs (whitespace := lax) in
#print axioms Docket.Memory.C92_kept

/-- info: 'Docket.Memory.C92_working' depends on axioms: [propext, Classical.choice, Quot.sound] -/
#guard_msgs (whitespace := lax) in
#print axioms Docket.Memory.C92_working

/-- info: 'Docket.Memory.C92_cleaned_up' depends on axioms: [propext, Classical.choice, Quot.sound] -/
#guard_msgs (whitespace := lax) in
#print axioms Docket.Memory.C92_cleaned_up

/-- info: 'Docket.Memory.C92_connects' depends on axioms: [propext, Classical.choice, Quot.sound] -/
#guard_msgs (whitespace := lax) in
#print axioms Docket.Memory.C92_connects

/-- info: 'Docket.Ctx.C93_released_partial' depends on axioms: [propext, Classical.choice, Quot.sound] -/
#guard_msgs (whitespace := lax) in
#print axioms Docket.Ctx.C93_released_partial

/-- info: 'Docket.Ctx.C93_block_partial' depends on axioms: [propext, Quot.sound] -/
#guard_msgs (whitespace := lax) in
#print axioms Docket.Ctx.C93_block_partial

/-- info: 'Docket.Ctx.C93_not_reentrant' depends on axioms: [propext] -/
#guard_msgs (whitespace := lax) in
#print axioms Docket.Ctx.C93_not_reentrant

/-- info: 'Docket.Ctx.C93_violated' depends on axioms: [propext, Quot.sound] -/
#guard_msgs (whitespace := lax) in
#print axioms Docket.Ctx.C93_violated

/-- info: 'Docket.Ctx.C93_violated_stuck' depends on axioms: [propext] -/
#guard_msgs (whitespace := lax) in
#print axioms Docket.Ctx.C93_violated_stuck

/-- info: 'Docket.Ctx.C93_violated_refusal' depends on axioms: [propext] -/
#guard_msgs (whitespace := lax) in
#print axioms Docket.Ctx.C93_violated_refusal

/-- info: 'Docket.Ctx.C93_violated_refusal_leaks' depends on axioms: [propext, Quot.sound] -/
#guard_msgs (whitespace := lax) in
#print axioms Docket.Ctx.C93_violated_refusal_leaks

/-- info: 'Docket.Registry.C94_runs_what_was_added_partial' depends on axioms: [propext] -/
#guard_msgs (whitespace := lax) in
#print axioms Docket.Registry.C94_runs_what_was_added_partial

/-- info: 'Docket.Registry.C94_violated_same_name' does not depend on any axioms -/
#guard_msgs (whitespace := lax) in
#print axioms Docket.Registry.C94_violated_same_name

/-- info: 'Docket.Registry.C94_registered' depends on axioms: [propext] -/
#guard_msgs (whitespace := lax) in
#print axioms Docket.Registry.C94_registered

/-- info: 'Docket.Registry.C94_added' depends on axioms: [propext] -/
#guard_msgs (whitespace := lax) in
#print axioms Docket.Registry.C94_added

/-- info: 'Docket.Registry.C94_unknown' depends on axioms: [propext] -/
#guard_msgs (whitespace := lax) in
#print axioms Docket.Registry.C94_unknown

/-- info: 'Docket.Registry.C94_again' depends on axioms: [propext] -/
#guard_msgs (whitespace := lax) in
#print axioms Docket.Registry.C94_again

/-- info: 'Docket.Registry.C94_never_dropped_partial' depends on axioms: [propext, Quot.sound] -/
#guard_msgs (whitespace := lax) in
#print axioms Docket.Registry.C94_never_dropped_partial

/-- info: 'Docket.Registry.C94_reported_partial' depends on axioms: [propext, Quot.sound] -/
#guard_msgs (whitespace := lax) in
#print axioms Docket.Registry.C94_reported_partial

/-- info: 'Docket.Registry.C94_violated_alias' depends on axioms: [propext] -/
#guard_msgs (whitespace := lax) in
#print axioms Docket.Registry.C94_violated_alias

/-- info: 'Docket.Registry.C94_violated_reported' does not depend on any axioms -/
#guard_msgs (whitespace := lax) in
#print axioms Docket.Registry.C94_violated_reported

/-- info: 'Docket.C95_due_counted_partial' depends on axioms: [propext, Classical.choice, Quot.sound] -/
#guard_msgs (whitespace := lax) in
#print axioms Docket.C95_due_counted_partial

/-- info: 'Docket.C95_future_counted_partial' depends on axioms: [propext, Classical.choice, Quot.sound] -/
#guard_msgs (whitespace := lax) in
#print axioms Docket.C95_future_counted_partial

/-- info: 'Docket.C95_all_counted_partial' depends on axioms: [propext, Classical.choice, Quot.sound] -/
#guard_msgs (whitespace := lax) in
#print axioms Docket.C95_all_counted_partial

/-- info: 'Docket.C95_schedule_exact_partial' depends on axioms: [propext, Classical.choice, Quot.sound] -/
#guard_msgs (whitespace := lax) in
#print axioms Docket.C95_schedule_exact_partial

/-- info: 'Docket.C95_queue_exact_partial' depends on axioms: [propext, Classical.choice, Quot.sound] -/
#guard_msgs (whitespace := lax) in
#print axioms Docket.C95_queue_exact_partial

/-- info: 'Docket.C95_violated_running' depends on axioms: [propext, Classical.choice, Quot.sound] -/
#guard_msgs (whitespace := lax) in
#print axioms Docket.C95_violated_running

/-- info: 'Docket.C95_violated_replaced' depends on axioms: [propext, Classical.choice, Quot.sound] -/
#guard_msgs (whitespace := lax) in
#print axioms Docket.C95_violated_replaced

/-- info: 'Docket.C95_violated_both' depends on axioms: [propext, Classical.choice, Quot.sound] -/
#guard_msgs (whitespace := lax) in
#print axioms Docket.C95_violated_both

/-- info: 'Docket.Hooks.C96_not_twice_at_once' depends on axioms: [propext, Quot.sound] -/
#guard_msgs (whitespace := lax) in
#print axioms Docket.Hooks.C96_not_twice_at_once

/-- info: 'Docket.Hooks.C96_last_in_first_out' depends on axioms: [propext, Quot.sound] -/
#guard_msgs (whitespace := lax) in
#print axioms Docket.Hooks.C96_last_in_first_out

/-- info: 'Docket.Hooks.C96_undone' depends on axioms: [propext, Quot.sound] -/
#guard_msgs (whitespace := lax) in
#print axioms Docket.Hooks.C96_undone

/-- info: 'Docket.Hooks.C96_in_force_partial' depends on axioms: [propext, Quot.sound] -/
#guard_msgs (whitespace := lax) in
#print axioms Docket.Hooks.C96_in_force_partial

/-- info: 'Docket.Hooks.C96_once_partial' depends on axioms: [propext, Classical.choice, Quot.sound] -/
#guard_msgs (whitespace := lax) in
#print axioms Docket.Hooks.C96_once_partial

/-- info: 'Docket.Hooks.C96_started_inside' depends on axioms: [propext] -/
#guard_msgs (whitespace := lax) in
#print axioms Docket.Hooks.C96_started_inside

/-- info: 'Docket.Hooks.C96_started' depends on axioms: [propext] -/
#guard_msgs (whitespace := lax) in
#print axioms Docket.Hooks.C96_started

/-- info: 'Docket.Hooks.C96_drained' depends on axioms: [propext, Quot.sound] -/
#guard_msgs (whitespace := lax) in
#print axioms Docket.Hooks.C96_drained

/-- info: 'Docket.Hooks.C96_violated_reconnect' depends on axioms: [propext] -/
#guard_msgs (whitespace := lax) in
#print axioms Docket.Hooks.C96_violated_reconnect

/-- info: 'Docket.Hooks.C96_violated_draining' depends on axioms: [propext, Quot.sound] -/
#guard_msgs (whitespace := lax) in
#print axioms Docket.Hooks.C96_violated_draining

/-- info: 'Docket.Hooks.C96_violated_registered_later' depends on axioms: [propext, Quot.sound] -/
#guard_msgs (whitespace := lax) in
#print axioms Docket.Hooks.C96_violated_registered_later

/-- info: 'Docket.Connect.C97_connected' depends on axioms: [propext, Classical.choice, Quot.sound] -/
#guard_msgs (whitespace := lax) in
#print axioms Docket.Connect.C97_connected

/-- info: 'Docket.Connect.C97_signed_in_partial' depends on axioms: [propext, Classical.choice, Quot.sound] -/
#guard_msgs (whitespace := lax) in
#print axioms Docket.Connect.C97_signed_in_partial

/-- info: 'Docket.Connect.C97_cluster_messages_partial' depends on axioms: [propext, Classical.choice, Quot.sound] -/
#guard_msgs (whitespace := lax) in
#print axioms Docket.Connect.C97_cluster_messages_partial

/-- info: 'Docket.Connect.C97_tls_partial' depends on axioms: [propext, Classical.choice, Quot.sound] -/
#guard_msgs (whitespace := lax) in
#print axioms Docket.Connect.C97_tls_partial

/-- info: 'Docket.Connect.C97_options_partial' depends on axioms: [propext, Classical.choice, Quot.sound] -/
#guard_msgs (whitespace := lax) in
#print axioms Docket.Connect.C97_options_partial

/-- info: 'Docket.Connect.C97_waits' depends on axioms: [propext, Classical.choice, Quot.sound] -/
#guard_msgs (whitespace := lax) in
#print axioms Docket.Connect.C97_waits

/-- info: 'Docket.Connect.C97_same_options' depends on axioms: [propext, Classical.choice, Quot.sound] -/
#guard_msgs (whitespace := lax) in
#print axioms Docket.Connect.C97_same_options

/-- info: 'Docket.Connect.C97_master_apart' depends on axioms: [propext, Classical.choice, Quot.sound] -/
#guard_msgs (whitespace := lax) in
#print axioms Docket.Connect.C97_master_apart

/-- info: 'Docket.Connect.C97_daemons' depends on axioms: [propext, Classical.choice, Quot.sound] -/
#guard_msgs (whitespace := lax) in
#print axioms Docket.Connect.C97_daemons

/-- info: 'Docket.Connect.C97_violated_cluster_password' depends on axioms: [propext, Classical.choice, Quot.sound] -/
#guard_msgs (whitespace := lax) in
#print axioms Docket.Connect.C97_violated_cluster_password

/-- info: 'Docket.Connect.C97_violated_cluster_options' depends on axioms: [propext] -/
#guard_msgs (whitespace := lax) in
#print axioms Docket.Connect.C97_violated_cluster_options

/-- info: 'Docket.Connect.C97_violated_ssl_option' depends on axioms: [propext] -/
#guard_msgs (whitespace := lax) in
#print axioms Docket.Connect.C97_violated_ssl_option

/-- info: 'Docket.Waiting.C98_not_forgotten_partial' depends on axioms: [propext, Classical.choice, Quot.sound] -/
#guard_msgs (whitespace := lax) in
#print axioms Docket.Waiting.C98_not_forgotten_partial

/-- info: 'Docket.Waiting.C98_none_left_behind_partial' depends on axioms: [propext, Classical.choice, Quot.sound] -/
#guard_msgs (whitespace := lax) in
#print axioms Docket.Waiting.C98_none_left_behind_partial

/-- info: 'Docket.Waiting.C98_deserted_waits_forever' depends on axioms: [propext, Classical.choice, Quot.sound] -/
#guard_msgs (whitespace := lax) in
#print axioms Docket.Waiting.C98_deserted_waits_forever

/-- info: 'Docket.Waiting.C98_violated_cancelled' depends on axioms: [propext, Classical.choice, Quot.sound] -/
#guard_msgs (whitespace := lax) in
#print axioms Docket.Waiting.C98_violated_cancelled

/-- info: 'Docket.Waiting.C98_violated_struck' depends on axioms: [propext, Classical.choice, Quot.sound] -/
#guard_msgs (whitespace := lax) in
#print axioms Docket.Waiting.C98_violated_struck

/-- info: 'Docket.Waiting.C98_violated_failing' depends on axioms: [propext, Classical.choice, Quot.sound] -/
#guard_msgs (whitespace := lax) in
#print axioms Docket.Waiting.C98_violated_failing

/-- info: 'Docket.Waiting.C98_violated_own_slot' depends on axioms: [propext, Classical.choice, Quot.sound] -/
#guard_msgs (whitespace := lax) in
#print axioms Docket.Waiting.C98_violated_own_slot

/-- info: 'Docket.Gates.C99_cause' depends on axioms: [propext, Classical.choice, Quot.sound] -/
#guard_msgs (whitespace := lax) in
#print axioms Docket.Gates.C99_cause

/-- info: 'Docket.Gates.C99_without_cooldown_partial' depends on axioms: [propext, Classical.choice, Quot.sound] -/
#guard_msgs (whitespace := lax) in
#print axioms Docket.Gates.C99_without_cooldown_partial

/-- info: 'Docket.Gates.C99_no_failure' depends on axioms: [propext, Classical.choice, Quot.sound] -/
#guard_msgs (whitespace := lax) in
#print axioms Docket.Gates.C99_no_failure

/-- info: 'Docket.Gates.C99_single_rule_partial' depends on axioms: [propext, Classical.choice, Quot.sound] -/
#guard_msgs (whitespace := lax) in
#print axioms Docket.Gates.C99_single_rule_partial

/-- info: 'Docket.Gates.C99_come_back_cause' depends on axioms: [propext, Classical.choice, Quot.sound] -/
#guard_msgs (whitespace := lax) in
#print axioms Docket.Gates.C99_come_back_cause

/-- info: 'Docket.Gates.C99_waits_cause' depends on axioms: [propext, Quot.sound] -/
#guard_msgs (whitespace := lax) in
#print axioms Docket.Gates.C99_waits_cause

/-- info: 'Docket.Gates.C99_runs' depends on axioms: [propext, Classical.choice, Quot.sound] -/
#guard_msgs (whitespace := lax) in
#print axioms Docket.Gates.C99_runs

/-- info: 'Docket.Gates.C99_window_used_up' depends on axioms: [propext, Classical.choice, Quot.sound] -/
#guard_msgs (whitespace := lax) in
#print axioms Docket.Gates.C99_window_used_up

/-- info: 'Docket.Gates.C99_violated_nothing_ever_runs' depends on axioms: [propext, Classical.choice, Quot.sound] -/
#guard_msgs (whitespace := lax) in
#print axioms Docket.Gates.C99_violated_nothing_ever_runs

/-- info: 'Docket.Gates.C99_violated_alone' depends on axioms: [propext, Quot.sound] -/
#guard_msgs (whitespace := lax) in
#print axioms Docket.Gates.C99_violated_alone

/-- info: 'Docket.Gates.C99_violated_woken_up' depends on axioms: [propext, Quot.sound] -/
#guard_msgs (whitespace := lax) in
#print axioms Docket.Gates.C99_violated_woken_up

/-- info: 'Docket.Gates.C99_violated_second_attempt' depends on axioms: [propext, Quot.sound] -/
#guard_msgs (whitespace := lax) in
#print axioms Docket.Gates.C99_violated_second_attempt

/-- info: 'Docket.Gates.C99_violated_for_nothing' depends on axioms: [propext] -/
#guard_msgs (whitespace := lax) in
#print axioms Docket.Gates.C99_violated_for_nothing
