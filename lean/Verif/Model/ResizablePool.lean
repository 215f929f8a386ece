/-!
# Model of the resizable thread pool

`ResizeableParallelRunner` (lib/threads/resizable_parallel_runner.cc) as a transition system. One
action is one critical section of `state_mutex_`, one increment of the atomic `next_task_`, or the
end of one call of the task function (a call begins together with the increment that yields its
task). A wait on a condition variable may end at any time without a notification. The schedule is an
arbitrary list of actions. `SetNumThreads` and `Run` are called by one thread, one after the other.
-/
namespace Jxl.RPool

def u32 (x : Nat) : Nat := x % 4294967296

/-- Where a worker is in `WorkerBody` / `DequeueTasks` (resizable_parallel_runner.cc:93-127). -/
inductive WPc where
  /-- about to lock and decide -/
  | check
  /-- blocked in `workers_can_proceed_.wait` -/
  | waiting
  /-- about to take a task -/
  | dequeue
  /-- inside the call for a task -/
  | running (t : Nat)
  /-- found no task, about to lock and sign off -/
  | leaving
  | exited
deriving DecidableEq, Repr

/-- Where the calling thread is. -/
inductive MPc where
  | idle
  /-- inside the only call of a one-task run -/
  | single (t : Nat)
  | dequeue
  | running (t : Nat)
  | leaving
  /-- about to lock and look at `num_running_workers_` -/
  | waitCheck
  /-- blocked in `work_done_.wait` -/
  | waitingCv
  /-- in `SetNumThreads`, joining workers -/
  | joining
deriving DecidableEq, Repr

structure State where
  workers : List WPc
  main : MPc
  /-- `num_desired_workers_` -/
  desired : Nat
  /-- `max_running_workers_` -/
  maxRunning : Nat
  /-- `num_running_workers_` -/
  numRunning : Nat
  /-- `work_available_` -/
  avail : Bool
  /-- `next_task_` -/
  next : Nat
  /-- `end_task_` -/
  endTask : Nat
  /-- `func_`, `jxl_opaque_`: the number of the run -/
  func : Nat
  /-- log of all calls begun: run, task, thread -/
  calls : List (Nat × Nat × Nat)
  /-- log of the runs: range and the number of threads announced to `init` -/
  hist : List ((Nat × Nat) × Nat)
  /-- number of runs returned -/
  returned : Nat
deriving DecidableEq, Repr

def State.init : State :=
  { workers := [], main := .idle, desired := 0, maxRunning := 0, numRunning := 0, avail := false, next := 0, endTask := 0, func := 0, calls := [], hist := [], returned := 0 }

inductive Action where
  | run (b e : Nat)
  | setThreads (num : Nat)
  | joined
  /-- step of the calling thread -/
  | main
  /-- step of worker `i`; a waiting worker wakes up -/
  | worker (i : Nat)
deriving DecidableEq, Repr

/-- `notify_all` on `workers_can_proceed_`. -/
def wake : WPc → WPc
  | .waiting => .check
  | p => p

/-- `Run` up to `DequeueTasks` (resizable_parallel_runner.cc:53-82), with an `init` that succeeds. -/
def startRun (s : State) (b e : Nat) : State :=
  if u32 (b + 1) = e then
    { s with main := .single b, func := s.hist.length, hist := s.hist ++ [((b, e), 1)], calls := s.calls ++ [(s.hist.length, b, 0)] }
  else
    { s with
      main := .dequeue, maxRunning := u32 (e + 4294967296 - b + 4294967295), next := b, endTask := e, func := s.hist.length, avail := true, numRunning := s.numRunning + 1,
      hist := s.hist ++ [((b, e), min (s.workers.length + 1) (u32 (e + 4294967296 - b)))], workers := s.workers.map wake }

/-- `SetNumThreads` up to the joins (resizable_parallel_runner.cc:27-41). -/
def startResize (s : State) (num : Nat) : State :=
  { s with main := .joining, desired := num - 1, workers := s.workers.map wake ++ List.replicate (num - 1 - s.workers.length) .check }

/-- The critical section at the end of `DequeueTasks` (resizable_parallel_runner.cc:116-121). -/
def signOff (s : State) : State :=
  { s with numRunning := s.numRunning - 1, avail := false, main := if s.numRunning - 1 = 0 ∧ s.main = .waitingCv then .waitCheck else s.main }

def mainStep (s : State) : Option State :=
  match s.main with
  | .idle => none
  | .single _ => some { s with main := .idle, returned := s.returned + 1 }
  | .dequeue =>
    if s.next ≥ s.endTask then some { s with next := u32 (s.next + 1), main := .leaving }
    else some { s with next := u32 (s.next + 1), main := .running s.next, calls := s.calls ++ [(s.func, s.next, 0)] }
  | .running _ => some { s with main := .dequeue }
  | .leaving => some { signOff s with main := .waitCheck }
  | .waitCheck => if s.numRunning = 0 then some { s with main := .idle, returned := s.returned + 1 } else some { s with main := .waitingCv }
  | .waitingCv => some { s with main := .waitCheck }
  | .joining => none

def workerStep (s : State) (i : Nat) : WPc → Option State
  | .check =>
    if i ≥ s.desired then some { s with workers := s.workers.set i .exited }
    else if s.avail = false ∨ i ≥ s.maxRunning then some { s with workers := s.workers.set i .waiting }
    else some { s with workers := s.workers.set i .dequeue, numRunning := s.numRunning + 1 }
  | .waiting => some { s with workers := s.workers.set i .check }
  | .dequeue =>
    if s.next ≥ s.endTask then some { s with next := u32 (s.next + 1), workers := s.workers.set i .leaving }
    else some { s with next := u32 (s.next + 1), workers := s.workers.set i (.running s.next), calls := s.calls ++ [(s.func, s.next, i + 1)] }
  | .running _ => some { s with workers := s.workers.set i .dequeue }
  | .leaving => some { signOff s with workers := s.workers.set i .check }
  | .exited => none

def step (s : State) : Action → Option State
  | .run b e => if s.main = .idle ∧ b < 4294967296 ∧ e < 4294967296 then some (startRun s b e) else none
  | .setThreads num => if s.main = .idle then some (startResize s num) else none
  | .joined =>
    if s.main = .joining ∧ ∀ p ∈ s.workers.drop s.desired, p = WPc.exited then some { s with main := .idle, workers := s.workers.take s.desired } else none
  | .main => mainStep s
  | .worker i =>
    match s.workers[i]? with
    | none => none
    | some p => workerStep s i p

def exec : State → List Action → Option State
  | s, [] => some s
  | s, a :: as => (step s a).bind fun s' => exec s' as

end Jxl.RPool
