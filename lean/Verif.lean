import Verif.Props.C01_C04
import Verif.Props.C05_C09
import Verif.Props.C10_C16
import Verif.Props.C17_C18
import Verif.Props.C19_C23
import Verif.Props.C24_C25
import Verif.Props.C26_C30
import Verif.Props.C31_C32
import Verif.Props.C59
import Verif.Props.C33_C36
import Verif.Props.C37_C39
import Verif.Props.C40
import Verif.Props.C41
import Verif.Props.C42_C60
import Verif.Props.C61
import Verif.Props.C43_C44
import Verif.Props.C55_C62
import Verif.Props.C45
import Verif.Props.C46
import Verif.Props.C47
import Verif.Props.C48
import Verif.Props.C49
import Verif.Props.C63
import Verif.Props.C50
import Verif.Props.C51
import Verif.Props.C52
import Verif.Props.C53
import Verif.Props.C54
import Verif.Props.C56
import Verif.Props.C57
import Verif.Props.C58
import Verif.Props.C64_C65
import Verif.Props.C66_C67
import Verif.Props.C68
import Verif.Core.Pids
import Verif.Worker.Poison
import Verif.Cli.Watch
import Verif.Cli.StrikeArgs
import Verif.Props.C69
import Verif.Props.C70
import Verif.Props.C71
import Verif.Props.C72
import Verif.Worker.Finish
import Verif.Props.C73
import Verif.Worker.TaskArgument
import Verif.Props.C74
import Verif.Views.GetExecution
import Verif.Props.C75
import Verif.Strikes.Monitor
import Verif.Props.C76_C77
import Verif.Views.Subscribe
import Verif.Props.C78_C79
import Verif.Worker.Renewal
import Verif.Props.C80
import Verif.Worker.Progress
import Verif.Props.C81_C82
import Verif.Worker.Cron
import Verif.Props.C83_C84
import Verif.Worker.Stop
import Verif.Props.C85_C86
import Verif.Props.C87
import Verif.Props.C88
import Verif.Props.C89
import Verif.Props.C90
import Verif.Props.C91
import Verif.Props.C92
import Verif.Props.C93
import Verif.Props.C94
import Verif.Props.C95
import Verif.Props.C96
import Verif.Props.C97
import Verif.Props.C98
import Verif.Props.C99
import Verif.Props.C100
import Verif.Props.C101
import Verif.Props.C102
import Verif.Props.C103
import Verif.Props.C104
import Verif.Props.C105
import Verif.Props.C106
import Verif.Props.C107
import Verif.Props.C108
import Verif.Props.C109
import Verif.Props.C110
import Verif.Props.C111
import Verif.Props.C111_limit
import Verif.Props.C59_payload
import Verif.Props.C31_mixed
import Verif.Worker.Startup
import Verif.Props.C112
import Verif.Props.C85_finish
import Verif.Worker.Tidy
import Verif.Props.C113
import Verif.Cli.Tables
import Verif.Props.C114
import Verif.Worker.Poll
import Verif.Props.C115
import Verif.Worker.Ttl
import Verif.Props.C116
import Verif.Worker.Asked
import Verif.Props.C117
import Verif.Cli.Target
import Verif.Props.C118
import Verif.Worker.AskedRetry
import Verif.Worker.AtMost
import Verif.Props.C119
import Verif.Props.C120
import Verif.Views.Legacy
import Verif.Props.C121
import Verif.Cli.Settings
import Verif.Props.C122
import Verif.Views.Opening
import Verif.Props.C123
import Verif.Axioms
