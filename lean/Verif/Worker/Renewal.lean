import Verif.Core.System
/-
The lease renewal loop of a worker (`_renew_leases`, worker.py:887-923) next to everything else
that happens on the docket: the core operations of all workers and clients, the renewal loop of
one worker `w`, and the end of its session.
-/
namespace Docket.Renewal
open Docket

/-- One worker's lease renewal: its name, the time between two renewals
(`redelivery_timeout / 4` of this worker, worker.py:903), when the loop wakes up next, how many
renewals in a row have failed (only for stating theorems), and whether `session.stopping` is
set. -/
structure Loop where
  w : WorkerName
  interval : Nat
  due : Time
  fails : Nat := 0
  stopping : Bool := false
  deriving DecidableEq, Repr

/-- The docket and one worker's loop. -/
structure St where
  sys : Sys
  loop : Loop

/-- What can happen. -/
inductive Ev where
  /-- a client, a task or any worker does something -/
  | op (o : Op)
  /-- the renewal loop wakes up; `ok` is false if XCLAIM raises (922-923) -/
  | wake (ok : Bool)
  /-- the worker is asked to stop, or loses its connection: `session.stopping.set()`
  (worker.py:822, 837) -/
  | stop
  /-- the worker connects again: a new session with a new renewal loop (worker.py:544-568,
  608-613, 776-779) -/
  | start
  deriving DecidableEq

/-- `active_messages`: the messages of the tasks the worker has started and that have not ended,
worker.py:615, 681, 692. -/
def held (s : Sys) (w : WorkerName) : List MsgId :=
  (s.procs.filter (fun p => p.worker = w)).map (·.id)

/-- The poll loop is left before `session.stopping` is set (worker.py:822), so that a stopping
worker takes no more messages, and leases are renewed by the loop only. -/
def allowed (l : Loop) : Op → Bool
  | .poll w _ => !(w = l.w && l.stopping)
  | .redeliver w _ => !(w = l.w && l.stopping)
  | .renew w _ => !(w = l.w)
  | _ => true

/-- XCLAIM of all active messages with `idle=0`, worker.py:912-921. -/
def renewAll (cfg : Cfg) (s : Sys) (w : WorkerName) : Sys :=
  (held s w).foldl (fun s id => step cfg s (.renew w id)) s

/-- One event.  A new session begins only after the tasks of the old one have ended, because
`_worker_loop` awaits them before it returns (worker.py:842-844). -/
def St.step (cfg : Cfg) (st : St) : Ev → St
  | .op o => if allowed st.loop o then { st with sys := Docket.step cfg st.sys o } else st
  | .wake ok =>
    if st.loop.stopping = false ∧ st.loop.due ≤ st.sys.r.now then
      { sys := if ok then renewAll cfg st.sys st.loop.w else st.sys
        loop := { st.loop with
          due := st.sys.r.now + st.loop.interval
          fails := if ok then 0 else st.loop.fails + 1 } }
    else st
  | .stop => { st with loop := { st.loop with stopping := true } }
  | .start =>
    if st.loop.stopping = true ∧ held st.sys st.loop.w = [] then
      { st with loop := { st.loop with
          stopping := false, fails := 0, due := st.sys.r.now + st.loop.interval } }
    else st

/-- All events in order. -/
def St.run (cfg : Cfg) (st : St) : List Ev → St
  | [] => st
  | e :: es => (st.step cfg e).run cfg es

/-- A worker `w` opens its first session. -/
def opened (s : Sys) (w : WorkerName) (interval : Nat) : St :=
  ⟨s, { w := w, interval := interval, due := s.r.now + interval }⟩

end Docket.Renewal
