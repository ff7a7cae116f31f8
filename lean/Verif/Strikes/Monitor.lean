import Verif.Strikes.Model
/-
How a process that has a docket open learns about strikes, and where it asks whether a
call is struck: the strike monitor of src/docket/strikelist.py, and its callers in
src/docket/docket.py and src/docket/worker.py.
-/
namespace Docket.Strikes.Monitor

/-- What a process decides about a call: `docket.add` accepts or refuses it, a worker that
has been handed it runs or skips it. -/
inductive Decision
  | add (c : Call) (struck : Bool)
  | execute (c : Call) (struck : Bool)

/-- One process with the docket open, and the stream of strike instructions.  An entry of
the stream is `none` if `StrikeInstruction.from_message` (strikelist.py:84-94) raises on it
in this process, for instance because its value is pickled by reference to a module that
the process does not have. -/
structure Node where
  /-- the Redis stream at `strike_key` (strikelist.py:217-220) -/
  stream : List (Option Instr) := []
  /-- how many entries there are up to `last_id` of `_monitor_strikes` (strikelist.py:550) -/
  pos : Nat := 0
  /-- `initial_load_complete` of `_monitor_strikes` (strikelist.py:551) -/
  initial : Bool := false
  /-- `_strikes_loaded`, the event that `wait_for_strikes_loaded` awaits
  (strikelist.py:242, 276-287) -/
  loaded : Bool := false
  /-- `task_strikes` and `parameter_strikes` -/
  st : State := {}
  /-- instructions of this process that are in the stream and for which the XADD of
  `send_instruction` has not returned yet (strikelist.py:304-307) -/
  unsent : List Instr := []
  /-- this process's `docket_strikes_in_effect`, summed over its labels
  (instrumentation.py:113-117) -/
  gauge : Int := 0
  /-- the worker of this process has got past `_schedule_all_automatic_perpetual_tasks`
  and reads tasks (worker.py:764-783) -/
  polling : Bool := false
  /-- not in the code: the instructions the monitor has applied, oldest first -/
  applied : List Instr := []
  /-- not in the code: the decisions taken, oldest first -/
  decisions : List Decision := []

/-- The loop over the messages of one reply, strikelist.py:600-617.  It ends early, with an
exception, at the first message that cannot be decoded; what it did before stays done.
Logging is left out. -/
def process (n : Node) : List (Option Instr) → Node × Bool
  | [] => (n, true)
  | none :: _ => (n, false)
  | some i :: rest =>
    process { n with
      st := update n.st i
      gauge := n.gauge + (if i.restore then -1 else 1)
      applied := n.applied ++ [i] } rest

/-- One turn of `_monitor_strikes` (strikelist.py:550-565) whose XREAD gets a reply:
`_read_strikes` (567-619), whose `last_id` is kept by the monitor only if it returns.  After
an exception the monitor sleeps for a second and goes on from the `last_id` it had.  A
blocking XREAD is taken at the moment it replies. -/
def readStrikes (n : Node) : Node :=
  let batch := (n.stream.drop n.pos).take 100
  match batch, n.initial with
  | [], false => { n with initial := true, loaded := true }
  | [], true => n
  | m :: ms, _ =>
    let (n', ok) := process n (m :: ms)
    if ok then { n' with pos := n.pos + (m :: ms).length } else n'

/-- What can happen to the process.  -/
inductive Ev
  /-- another process appends an entry to the stream -/
  | other (m : Option Instr)
  /-- `send_instruction` of this process: its XADD (strikelist.py:304-305) -/
  | send (i : Instr)
  /-- … and its local update, once the XADD has returned (strikelist.py:307) -/
  | sent
  /-- an XREAD of the monitor is answered -/
  | read
  /-- an XREAD of the monitor fails with a connection error (strikelist.py:559-562) -/
  | readFails
  /-- the worker tries to get past the seeding of the automatic tasks (worker.py:764-765) -/
  | start
  /-- `docket.add` of a call by this process (docket.py:412-416) -/
  | add (c : Call)
  /-- the worker of this process takes up a message with the call (worker.py:1017) -/
  | execute (c : Call)

/-- One event.  `automatic` is the worker's `schedule_automatic_tasks`: only if it is on
does the worker wait for `wait_for_strikes_loaded` (worker.py:764-765, 956-959) before it
starts to read tasks.  The client side of `docket.add` never waits. -/
def Node.step (automatic : Bool) (n : Node) : Ev → Node
  | .other m => { n with stream := n.stream ++ [m] }
  | .send i => { n with stream := n.stream ++ [some i], unsent := n.unsent ++ [i] }
  | .sent =>
    match n.unsent with
    | [] => n
    | i :: rest => { n with unsent := rest, st := update n.st i }
  | .read => readStrikes n
  | .readFails => n
  | .start => if automatic && !n.loaded then n else { n with polling := true }
  | .add c => { n with decisions := n.decisions ++ [.add c (isStricken n.st c)] }
  | .execute c =>
    if n.polling then { n with decisions := n.decisions ++ [.execute c (isStricken n.st c)] } else n

/-- A process that opens the docket when the stream holds `stream`: the `StrikeList` enters
with nothing read (strikelist.py:231-255). -/
def connect (stream : List (Option Instr)) : Node := { stream := stream }

def Node.run (automatic : Bool) (n : Node) (evs : List Ev) : Node := evs.foldl (Node.step automatic) n

end Docket.Strikes.Monitor
