import Verif.Worker.Execute
import Verif.Views.Results
/-
The execution of a task on a docket with a given `execution_ttl`: what becomes of storing its
result or its exception.
-/
namespace Docket.Execute

/-- `int(self.docket.execution_ttl.total_seconds())`, worker.py:1144, 1224; the argument is in
microseconds, the resolution of a `timedelta`.  Simplified: exact arithmetic, and times below
zero are not modelled. -/
def ttlSeconds (ttl : Nat) : Nat := ttl / 1000000

/-- `await self.docket.result_storage.put(key, ..., ttl=ttl_seconds)`, worker.py:1145-1147,
1225-1227: the exception it raises, if any.  The store is that of Verif/Views/Results.lean; the
one of py-key-value, used with a single server, refuses a time to live of zero as well. -/
def storing (ttl : Nat) : Option Err :=
  if (Results.put (Results.S.init (V := Unit)) [] [] () (some (1000 * ttlSeconds ttl))).2 then none
  else some (.other "ResponseError")

/-- The same execution on a docket with this `execution_ttl`: worker.py:1136 and 1217 ask
whether it is zero, worker.py:1144-1147 and 1224-1227 use its seconds. -/
def onDocket (ttl : Nat) (w : World) : World :=
  { w with
    ttl := decide (ttl ≠ 0)
    storeFails := match w.storeFails with
      | some e => some e
      | none => if ttl = 0 then none else storing ttl
    storeErrorFails := match w.storeErrorFails with
      | some e => some e
      | none => if ttl = 0 then none else storing ttl }

end Docket.Execute
