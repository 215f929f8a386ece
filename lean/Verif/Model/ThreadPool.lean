/-!
# Model of the fixed-size thread pool

`ThreadParallelRunner` (lib/threads/thread_parallel_runner_internal.cc, .h) as a transition system.
One action is one atomic step of one thread: a critical section of the mutex, one access to the
atomic counter, or the start or end of one call of the task function. The schedule is an arbitrary
list of actions; an action that is not possible in a state is `none`.

Simplifications: the relaxed load of the counter may return any value (this includes all stale
values); the counter's read-modify-write steps are linearised, as the memory model guarantees; the
re-entry counter `depth_` is unbounded (fewer than 2^32 refused calls).
-/
namespace Jxl.Pool

/-- 32-bit wrap-around. -/
def u32 (x : Nat) : Nat := x % 4294967296

/-- Where a worker is in `ThreadFunc` / `RunRange` (thread_parallel_runner_internal.cc:68-140). -/
inductive WPc where
  /-- about to lock, count itself ready and wait -/
  | leaving
  /-- blocked in `worker_start_cv_.wait` -/
  | waiting
  /-- woken up, about to read the command -/
  | woken
  /-- about to load the number of reserved tasks -/
  | loading (b e : Nat)
  /-- about to reserve `size` tasks -/
  | loaded (b e size : Nat)
  /-- inside the call for task `cur`; tasks up to `stop` (excluded) are reserved as well -/
  | running (b e cur stop : Nat)
deriving DecidableEq, Repr

/-- Where the calling thread is. -/
inductive MPc where
  | idle
  /-- command stored, `notify_all` not yet called -/
  | starting
  /-- in `WorkersReadyBarrier` -/
  | barrier
deriving DecidableEq, Repr

structure State where
  workers : List WPc
  main : MPc
  /-- `worker_start_command_`; `none` is `kWorkerWait` -/
  cmd : Option (Nat × Nat)
  /-- `workers_ready_` -/
  ready : Nat
  /-- `num_reserved_` -/
  reserved : Nat
  /-- `depth_` -/
  depth : Nat
  /-- `data_func_` and `jpegxl_opaque_`: the number of the run they belong to -/
  func : Nat
  /-- log of all calls begun: run, task, thread -/
  calls : List (Nat × Nat × Nat)
  /-- log of the runs begun: their ranges -/
  hist : List (Nat × Nat)
  /-- log of the return codes: true is success -/
  codes : List Bool
deriving DecidableEq, Repr

/-- After the constructor has created the threads (thread_parallel_runner_internal.cc:142-162); it
is in `WorkersReadyBarrier`. Nobody can call `Runner` yet, which `depth := 1` expresses. -/
def State.init (n : Nat) : State :=
  { workers := List.replicate n .leaving, main := .barrier, cmd := none, ready := 0, reserved := 0, depth := 1, func := 0, calls := [], hist := [], codes := [] }

inductive Action where
  /-- some thread calls `Runner` on `[b, e)` -/
  | call (b e : Nat)
  | notify
  | pass
  /-- step of worker `i`; `v` is the value loaded if the step is the load -/
  | worker (i v : Nat)
  /-- `wait` of worker `i` returns without a notification -/
  | spurious (i : Nat)
deriving DecidableEq, Repr

/-- `my_size` (thread_parallel_runner_internal.cc:88-96). -/
def mySize (n b e v : Nat) : Nat := max (((e - b) - min v (e - b)) / (n * 4)) 1

def wake : WPc → WPc
  | .waiting => .woken
  | p => p

/-- Enter the call for task `cur`, on worker `i`. -/
def enter (s : State) (i b e cur stop : Nat) : State :=
  { s with workers := s.workers.set i (.running b e cur stop), calls := s.calls ++ [(s.func, cur, i)] }

/-- Reserve tasks (thread_parallel_runner_internal.cc:97-106). -/
def reserve (s : State) (i b e size : Nat) : State :=
  let begin_ := u32 (b + s.reserved)
  let stop := min (u32 (begin_ + size)) e
  let s1 := { s with reserved := u32 (s.reserved + size) }
  if begin_ ≥ stop then { s1 with workers := s1.workers.set i .leaving } else enter s1 i b e begin_ stop

/-- One step of worker `i` at `p`. -/
def workerStep (s : State) (i v : Nat) : WPc → Option State
  | .leaving => some { s with workers := s.workers.set i .waiting, ready := s.ready + 1 }
  | .waiting => none
  | .woken =>
    match s.cmd with
    | none => some { s with workers := s.workers.set i .waiting }
    | some c => some { s with workers := s.workers.set i (.loading c.1 c.2) }
  | .loading b e => some { s with workers := s.workers.set i (.loaded b e (mySize s.workers.length b e v)) }
  | .loaded b e size => some (reserve s i b e size)
  | .running b e cur stop =>
    if cur + 1 < stop then some (enter s i b e (cur + 1) stop)
    else some { s with workers := s.workers.set i (.loading b e) }

/-- One step; `spur` says whether spurious wake-ups happen. -/
def step (spur : Bool) (s : State) : Action → Option State
  | .call b e =>
    if e ≤ b ∨ 4294967296 ≤ e then none
    else if s.depth ≠ 0 then some { s with depth := s.depth + 1 }
    else if s.main = .idle then
      some { s with depth := 1, main := .starting, cmd := some (b, e), reserved := 0, func := s.hist.length, hist := s.hist ++ [(b, e)] }
    else none
  | .notify => if s.main = .starting then some { s with main := .barrier, workers := s.workers.map wake } else none
  | .pass =>
    if s.main = .barrier ∧ s.ready = s.workers.length then
      if s.cmd = none then some { s with main := .idle, ready := 0, depth := s.depth - 1 }
      else some { s with main := .idle, ready := 0, cmd := none, depth := s.depth - 1, codes := s.codes ++ [decide (s.depth = 1)] }
    else none
  | .worker i v =>
    match s.workers[i]? with
    | none => none
    | some p => workerStep s i v p
  | .spurious i => if spur = true ∧ s.workers[i]? = some .waiting then some { s with workers := s.workers.set i .woken } else none

/-- A schedule. -/
def exec (spur : Bool) : State → List Action → Option State
  | s, [] => some s
  | s, a :: as => (step spur s a).bind fun s' => exec spur s' as

/-- With no worker threads the tasks run in order on the calling thread
(thread_parallel_runner_internal.cc:34-40). -/
def sequential (e : Nat) : Nat → Nat → List Nat
  | 0, _ => []
  | fuel + 1, task => if task < e then task :: sequential e fuel (task + 1) else []

/-- What `Runner` does before it starts the workers (thread_parallel_runner_internal.cc:26-40):
`none` is continue with the workers. -/
inductive Early where
  | error
  | success
  | initFailed
  | ranHere (tasks : List Nat)
deriving DecidableEq, Repr

def runnerEntry (n b e : Nat) (initOk : Bool) : Option Early :=
  if b > e then some .error
  else if b = e then some .success
  else if !initOk then some .initFailed
  else if n = 0 then some (.ranHere (sequential e (e - b + 1) b))
  else none

end Jxl.Pool
