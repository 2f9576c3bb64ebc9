import Verif.Model.System

/-!
# Batches on the event loop (`foundations/conceptual_item.py:212-216`)

`add_elements` and `remove_elements` hand generators to `asyncio.gather`.  Python 3.10: `asyncio.iscoroutine` holds of every
generator, so `gather` makes a task of each of them.  One step of a task advances its generator to the next `yield`: a
yielded `None` reschedules the task, any other yielded value is an error (`Task got bad yield`) that is thrown into the
generator in the next step; an exception that leaves the generator is the outcome of the task.  Nothing else runs during a
step.
-/
namespace Rei

/-- A task. -/
inductive Job
  /-- The generator `self.add_element(x) for x in elements` with the elements still to be taken. -/
  | adding (c : Ref) (todo : List Ref)
  /-- The generator `self.remove_element(name, uuid)`, not started. -/
  | removing (c : Ref) (name : Str) (uuid : Option Bytes)
  /-- The generator yielded an element: a `RuntimeError` is thrown into it next. -/
  | thrown
  /-- The task is done. -/
  | done (r : Except Err Unit)

/-- One step of a task (`asyncio.Task.__step`): every turn of the generator expression of `add_elements`
(`conceptual_item.py:213`) yields the `None` that `add_element` returns; `remove_element` (`:215-216`) yields the removed
element. -/
def Job.step (E : Env) : Job → Heap → Job × Heap
  | .adding _ [], h => (.done (.ok ()), h)
  | .adding c (x :: xs), h =>
    match addElement E c x h with
    | (.ok _, h') => (.adding c xs, h')
    | (.error e, h') => (.done (.error e), h')
  | .removing c nm u, h =>
    match removeElement E c nm u (some 1) h with
    | (.ok [], h') => (.done (.ok ()), h')
    | (.ok (_ :: _), h') => (.thrown, h')
    | (.error e, h') => (.done (.error e), h')
  | .thrown, h => (.done (.error .runtimeError), h)
  | .done r, h => (.done r, h)

/-- `add_elements(elements)`, `conceptual_item.py:212-213`: `gather` of one generator. -/
def addElementsJobs (c : Ref) (xs : List Ref) : List Job := [.adding c xs]

/-- `remove_elements(elements)`, `conceptual_item.py:215-216`: `gather` of one generator per pair. -/
def removeElementsJobs (c : Ref) (ps : List (Str × Option Bytes)) : List Job := ps.map fun p => .removing c p.1 p.2

/-- Any tasks on an event loop: the task with the given number takes a step. -/
def stepJob (E : Env) (i : Nat) (s : Heap × List Job) : Heap × List Job :=
  match s.2[i]? with
  | none => s
  | some j => ((j.step E s.1).2, s.2.set i (j.step E s.1).1)

/-- Tasks take steps in the order of a schedule. -/
def runJobs (E : Env) : List Nat → Heap × List Job → Heap × List Job
  | [], s => s
  | i :: is, s => runJobs E is (stepJob E i s)

/-! ## The event loop of asyncio -/

/-- What is ready to run: the start of the program, a step of a task, the callback of `gather` on a task that is done, the
program going on, the callback of `run_until_complete`. -/
inductive Handle
  | start | step (i : Nat) | settled (i : Nat) | wake | stop

/-- An event loop that runs a program `fut = await c.add_elements(...)` (or `remove_elements`), followed by `await fut` if it
`waits`.  `run_until_complete(c.add_elements(...))` is the program that does not wait. -/
structure Loop where
  heap : Heap
  jobs : List Job
  waits : Bool
  /-- `nfinished` of `gather`. -/
  finished : Nat := 0
  /-- The future `gather` returned: its outcome, if it has one. -/
  future : Option (Except Err Unit) := none
  ready : List Handle := [.start]
  stopped : Bool := false

/-- The future gets its outcome; if the program waits for it, it is scheduled. -/
def Loop.settle (L : Loop) (r : Except Err Unit) : Loop :=
  { L with future := some r, ready := L.ready ++ if L.waits then [.wake] else [] }

/-- Run one handle.  `start`: `gather` schedules the tasks; a program that does not wait, or waits for a future that is done
(`gather()` of nothing), ends, and the callback that stops the loop is scheduled.  `settled`: `_done_callback` of `gather`,
without `return_exceptions`. -/
def Loop.exec (E : Env) (L : Loop) : Handle → Loop
  | .start =>
    { L with
      future := if L.jobs = [] then some (.ok ()) else none
      ready := L.ready ++ (List.range L.jobs.length).map .step ++ if L.waits && !L.jobs.isEmpty then [] else [.stop] }
  | .step i =>
    match L.jobs[i]? with
    | none => L
    | some j =>
      let r := j.step E L.heap
      { L with heap := r.2, jobs := L.jobs.set i r.1,
               ready := L.ready ++ [match r.1 with | .done _ => .settled i | _ => .step i] }
  | .settled i =>
    match L.future, L.jobs[i]? with
    | none, some (.done (.error e)) => { L with finished := L.finished + 1 }.settle (.error e)
    | none, some (.done (.ok _)) =>
      if L.finished + 1 = L.jobs.length then { L with finished := L.finished + 1 }.settle (.ok ())
      else { L with finished := L.finished + 1 }
    | _, _ => { L with finished := L.finished + 1 }
  | .wake => { L with ready := L.ready ++ [.stop] }
  | .stop => { L with stopped := true }

/-- One iteration of the loop (`_run_once`): everything that is ready at its beginning. -/
def Loop.turn (E : Env) (L : Loop) : Loop := L.ready.foldl (Loop.exec E) { L with ready := [] }

/-- At most `n` iterations (`run_forever`), until the loop is stopped. -/
def Loop.run (E : Env) : Nat → Loop → Loop
  | 0, L => L
  | n + 1, L => if (L.turn E).stopped then L.turn E else Loop.run E n (L.turn E)

end Rei
