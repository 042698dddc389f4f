/-!
# The pool of chunks of a journal

Models `ChunkPool` (`/repo/src/lib/device/device_manager.cpp:850-940`, `device.h:217-258`): the thread
that creates chunks in advance (`producer`, 873-899), `dequeue` (901-914), which journals call when
they need another chunk (`journal_vdev.cpp:208-210`), and `enqueue` (916-938), which they call when
they have truncated one (`journal_vdev.cpp:155-167`).

Any number of calls run at the same time.  What is done with the mutex held is one step; what is done
after releasing it, another.  The one condition variable is the set of those who wait; `notify_one`
takes one of them out of it, whichever (the caller of a step chooses), or nobody if nobody waits; the
one taken out must get the mutex again before it goes on, and others may be faster.  A wait may also
end without being notified (`spurious`).

Simplifications: chunks are numbers; the device always has room for another chunk (otherwise
`RELEASE_ASSERT`, 893); the pool has been started and is not destroyed while calls are made; the
private data of chunks is left out (C31–C33, C50).
-/
namespace HS.Pool

/-- A call, or what its caller has of it. -/
inductive Call where
  | start            -- `dequeue` was called
  | waiting          -- … in `m_pool_cv.wait` (906)
  | woken            -- … taken out of the waiting set
  | got (c : Nat)    -- … has taken a chunk, not yet notified (912)
  | has (c : Nat)    -- … has returned: the caller uses the chunk
  | give (c : Nat)   -- `enqueue` was called
  | gave             -- … has put the chunk into the pool, not yet notified (935)
  | back             -- … has returned true
  | full (c : Nat)   -- … has found the pool full
  | gone             -- … has removed the chunk and returned false
  deriving DecidableEq, Repr

/-- The producer. -/
inductive Prod where
  | run
  | waiting
  | woken
  deriving DecidableEq, Repr

/-- One of those who may wait. -/
inductive Who where
  | prod
  | call (i : Nat)
  deriving DecidableEq, Repr

/-- The pool, and everybody who uses it. -/
structure St where
  cap : Nat                 -- `pool_capacity`
  pool : List Nat           -- `m_pool`
  next : Nat                -- chunks created so far: `0 … next-1`
  prod : Prod
  calls : List Call
  removed : List Nat        -- chunks removed from the device
  deriving DecidableEq, Repr

/-- A pool just started (863-871), when the chunks `0 … n-1` are in use. -/
def St.init (cap n : Nat) : St :=
  { cap := cap, pool := [], next := n, prod := .run, calls := (List.range n).map .has, removed := [] }

/-- `notify_one`: `w` is the one taken out of the waiting set; nobody only if nobody waits. -/
def St.wake (s : St) : Option Who → Option St
  | none => if s.prod = .waiting ∨ .waiting ∈ s.calls then none else some s
  | some .prod => if s.prod = .waiting then some { s with prod := .woken } else none
  | some (.call i) =>
    if s.calls[i]? = some .waiting then some { s with calls := s.calls.set i .woken } else none

/-- What can happen. -/
inductive Op where
  | call                              -- somebody calls `dequeue`
  | deq (i : Nat)                     -- `dequeue` with the mutex (903-909)
  | deqNotify (i : Nat) (w : Option Who)
  | give (i : Nat)                    -- the user of a chunk calls `enqueue`
  | enq (i : Nat)                     -- `enqueue` with the mutex (918-927)
  | enqNotify (i : Nat) (w : Option Who)
  | enqRemove (i : Nat)               -- `remove_chunk` (932)
  | prod (w : Option Who)             -- the producer with the mutex (876-897)
  | spurious (w : Who)
  deriving DecidableEq, Repr

/-- One step; `none`: impossible. -/
def St.step (s : St) : Op → Option St
  | .call => some { s with calls := s.calls ++ [.start] }
  | .deq i =>
    match s.calls[i]? with
    | some .start | some .woken =>
      match s.pool.getLast? with
      | none => some { s with calls := s.calls.set i .waiting }
      | some c => some { s with calls := s.calls.set i (.got c), pool := s.pool.dropLast }
    | _ => none
  | .deqNotify i w =>
    match s.calls[i]? with
    | some (.got c) => { s with calls := s.calls.set i (.has c) }.wake w
    | _ => none
  | .give i =>
    match s.calls[i]? with
    | some (.has c) => some { s with calls := s.calls.set i (.give c) }
    | _ => none
  | .enq i =>
    match s.calls[i]? with
    | some (.give c) =>
      if s.pool.length < s.cap then
        some { s with calls := s.calls.set i .gave, pool := s.pool ++ [c] }
      else some { s with calls := s.calls.set i (.full c) }
    | _ => none
  | .enqNotify i w =>
    match s.calls[i]? with
    | some .gave => { s with calls := s.calls.set i .back }.wake w
    | _ => none
  | .enqRemove i =>
    match s.calls[i]? with
    | some (.full c) => some { s with calls := s.calls.set i .gone, removed := s.removed ++ [c] }
    | _ => none
  | .prod w =>
    if s.prod = .waiting then none
    else if s.pool.length < s.cap / 2 then
      { s with pool := s.pool ++ [s.next], next := s.next + 1, prod := .run }.wake w
    else if w = none then some { s with prod := .waiting }
    else none
  | .spurious .prod => if s.prod = .waiting then some { s with prod := .woken } else none
  | .spurious (.call i) =>
    if s.calls[i]? = some .waiting then some { s with calls := s.calls.set i .woken } else none

/-- A history. -/
def St.run (s : St) : List Op → Option St
  | [] => some s
  | op :: ops => (s.step op).bind (·.run ops)

end HS.Pool
