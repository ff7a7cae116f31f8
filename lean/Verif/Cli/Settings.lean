import Verif.Cli.Duration
import Verif.Cli.Target

/-!
# The settings of `docket worker`

Models how the options of the `worker` command (cli/__init__.py:62-206) are chosen and read and
how they reach the worker (cli/__init__.py:207-226, worker.py:412-450).  Of the libraries `typer`
and `click`: an option counts before its environment variable, which counts if it is not empty,
and the value is read by the type of the option.

Left out: `--docket` and `--url` (see `Cli/Target.lean`), the flags, the fallback task, and whether
the task collections can be imported.  `int` is the one of `Cli/Duration.lean`.
-/

namespace Docket.Settings
open Decimal Cli Target

/-- The levels of `LogLevel`, cli/_support.py:51-56. -/
inductive Level
  | debug
  | info
  | warning
  | error
  | critical
  deriving DecidableEq, Repr

/-- The formats of `LogFormat`, cli/_support.py:59-62. -/
inductive Format
  | rich
  | plain
  | json
  deriving DecidableEq, Repr

/-- The value of an option, read by its type: the option if it is there, else the variable unless
it is empty, else the default.  `none` is the error with which the command ends. -/
def choose (read : Text → Option α) (given env : Option Text) (default_ : α) : Option α :=
  match given with
  | some v => read v
  | none =>
    match env with
    | some v => if v = [] then some default_ else read v
    | none => some default_

/-- `parser=duration`, in milliseconds. -/
def readDuration (t : Text) : Option Int := (duration t).map (1000 * ·)

/-- The choice of a `LogLevel` by its value; `case_sensitive` is not changed from `True`. -/
def readLevel (t : Text) : Option Level :=
  if t = t!"DEBUG" then some .debug
  else if t = t!"INFO" then some .info
  else if t = t!"WARNING" then some .warning
  else if t = t!"ERROR" then some .error
  else if t = t!"CRITICAL" then some .critical
  else none

/-- The choice of a `LogFormat` by its value. -/
def readFormat (t : Text) : Option Format :=
  if t = t!"rich" then some .rich
  else if t = t!"plain" then some .plain
  else if t = t!"json" then some .json
  else none

/-- `str.split()` for ASCII, by which `click` takes the values of an option that may be repeated
from its variable; `word` is the word begun. -/
def words (word : Text) : Text → List Text
  | [] => if word = [] then [] else [word]
  | c :: cs =>
    if isSpace c then (if word = [] then words [] cs else word :: words [] cs)
    else words (word ++ [c]) cs

/-- The options as written on the command line. -/
structure Options where
  name : Option Text := none
  concurrency : Option Text := none
  redeliveryTimeout : Option Text := none
  reconnectionDelay : Option Text := none
  minimumCheckInterval : Option Text := none
  schedulingResolution : Option Text := none
  healthcheckPort : Option Text := none
  metricsPort : Option Text := none
  loggingLevel : Option Text := none
  loggingFormat : Option Text := none
  tasks : List Text := []

/-- What the worker runs with; times in milliseconds. -/
structure Settings where
  name : Text
  concurrency : Int
  redeliveryTimeout : Int
  reconnectionDelay : Int
  minimumCheckInterval : Int
  schedulingResolution : Int
  healthcheckPort : Option Int
  metricsPort : Option Int
  loggingLevel : Level
  loggingFormat : Format
  tasks : List Text
  deriving DecidableEq, Repr

/-- The tasks, cli/__init__.py:63-74: those on the command line, else the words of the variable. -/
def chooseTasks (given : List Text) (env : Option Text) : List Text :=
  if given = [] then
    match env with
    | some v => if v = [] then [t!"docket.tasks:standard_tasks"] else words [] v
    | none => [t!"docket.tasks:standard_tasks"]
  else given

/-- `worker`, cli/__init__.py:62-226, with `Worker.run`, worker.py:412-450.  `host` is
`default_worker_name()`, cli/_support.py:69-70, and `terminal` is `sys.stdout.isatty()`. -/
def worker (host : Text) (terminal : Bool) (env : Environ) (o : Options) : Option Settings := do
  let name ← choose some o.name (env t!"DOCKET_WORKER_NAME") host
  let level ← choose readLevel o.loggingLevel (env t!"DOCKET_LOGGING_LEVEL") .info
  let format ← choose readFormat o.loggingFormat (env t!"DOCKET_LOGGING_FORMAT")
    (if terminal then .rich else .plain)
  let concurrency ← choose pyInt o.concurrency (env t!"DOCKET_WORKER_CONCURRENCY") 10
  let redelivery ← choose readDuration o.redeliveryTimeout
    (env t!"DOCKET_WORKER_REDELIVERY_TIMEOUT") 300000
  let reconnection ← choose readDuration o.reconnectionDelay
    (env t!"DOCKET_WORKER_RECONNECTION_DELAY") 5000
  let check ← choose readDuration o.minimumCheckInterval
    (env t!"DOCKET_WORKER_MINIMUM_CHECK_INTERVAL") 100
  let resolution ← choose readDuration o.schedulingResolution
    (env t!"DOCKET_WORKER_SCHEDULING_RESOLUTION") 250
  let health ← choose (fun t => (pyInt t).map some) o.healthcheckPort
    (env t!"DOCKET_WORKER_HEALTHCHECK_PORT") none
  let metrics ← choose (fun t => (pyInt t).map some) o.metricsPort
    (env t!"DOCKET_WORKER_METRICS_PORT") none
  some {
    name := if name = [] then host else name
    concurrency := concurrency
    redeliveryTimeout := redelivery
    reconnectionDelay := reconnection
    minimumCheckInterval := check
    schedulingResolution := resolution
    healthcheckPort := health
    metricsPort := metrics
    loggingLevel := level
    loggingFormat := format
    tasks := chooseTasks o.tasks (env t!"DOCKET_TASKS") }

end Docket.Settings
