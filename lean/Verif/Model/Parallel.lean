import Verif.Model.Py

/-!
# parallel_execution

`src/sympc/utils/utils.py:32-128`
-/

namespace SyMPC

/-- What a worker runs: a sequence of atomic steps on the state `P` of its party, and at the end a result or an
exception.  (Simplified: a worker only touches the state of its own party; the parties are different machines.) -/
inductive Task (P α : Type) where
  | ret (r : Py α)
  | step (upd : P → P) (next : P → Task P α)

/-- one atomic step of a worker -/
def Task.advance {P α : Type} : Task P α × P → Task P α × P
  | (.ret r, p) => (.ret r, p)
  | (.step upd next, p) => (next p, upd p)

/-- Running the workers in the order given by a schedule, which lists the worker that makes the next step. -/
def runSchedule {P α : Type} : List Nat → List (Task P α × P) → List (Task P α × P)
  | [], ts => ts
  | i :: sched, ts => runSchedule sched (ts.modify i Task.advance)

/-- the result of a future, if its worker is done -/
def Task.result? {P α : Type} : Task P α → Option (Py α)
  | .ret r => some r
  | .step _ _ => none

/-- `wrapper`, `utils.py:75-128`: the answer and the states of the parties at the end.  `fn` is the function, `parties` the
functions of the parties (the list is empty if no parties are given), `args` the list of arguments (or `None`), `kwargs`
the dictionary that is passed to every call.  `sched` is the order in which the workers make their steps; the answer is
`none` as long as the workers are not done (leaving the `with` block waits for all of them).  The pool needs at least one
worker.  Submitting for a party that does not exist raises after the workers submitted before are done. -/
def parallelWrapper {P α A Kw : Type} (fn : A → Kw → Task P α) (parties : List (A → Kw → Task P α)) (emptyKw : Kw)
    (args : Option (List A)) (kwargs : Option Kw) (st : List P) (sched : List Nat) : Option (Py (List α) × List P) :=
  match args with
  | none => some (.error .typeError, st)
  | some args =>
    let kw := kwargs.getD emptyKw
    let funcs := if parties.isEmpty then List.replicate args.length fn else parties
    if args.length = 0 then some (.error .valueError, st)
    else
      let tasks := List.zipWith (fun f a => f a kw) funcs args
      let final := runSchedule sched (tasks.zip st)
      match final.mapM fun t => t.1.result? with
      | none => none
      | some rs => some (if funcs.length < args.length then .error .indexError else rs.mapM id, final.map (·.2))

end SyMPC
