/-!
# Refusing new requests: `quiesce_reqs`, `init_req_ctx`, `resume_accepting_reqs`

The flag `m_in_quience` and the counter `m_pending_init_req_num` of a replicated device, used by any number of threads.
Stores to the flag are `memory_order_release`, reads of the counter `memory_order_acquire`: as on x86 (and as the C++
memory model allows), such a store is first seen by its own thread and reaches the others later, after reads that follow
it in the program (`buf`); additions to the counter and sequentially consistent stores wait for it.  One step is one
access to the flag or the counter.

Simplified: `rreq->init` is one step, which allocates blocks (`alloc`) or does not (`skip`); logging between the accesses is
left out.
-/
namespace HS.Quiesce

abbrev Tid := Nat

/-- Where a thread is (raft_repl_dev.cpp:2874-2898, 2935-2951). -/
inductive Pc where
  | idle
  | counted      -- in `init_req_ctx`, the counter is raised (2943)
  | admitted     -- the flag was read as false: in `rreq->init` (2950)
  | leaving      -- the counter is not yet lowered (common.h:126-128)
  | waiting      -- in `quiesce_reqs`, in the loop (2881-2888)
  | resuming     -- in `resume_accepting_reqs`, before `reset_latch_lsn` (2895)
  deriving DecidableEq, Repr

structure St where
  flag : Bool                -- `m_in_quience` in memory
  cnt : Nat                  -- `m_pending_init_req_num`
  buf : Tid → List Bool      -- stores to the flag that did not reach memory, oldest first
  pc : Tid → Pc

def St.init : St := { flag := false, cnt := 0, buf := fun _ => [], pc := fun _ => .idle }

def upd {α : Type} (f : Tid → α) (t : Tid) (x : α) : Tid → α := fun u => if u = t then x else f u

/-- The flag as a thread reads it: its own last store, or memory. -/
def St.read (s : St) (t : Tid) : Bool :=
  match (s.buf t).getLast? with
  | some b => b
  | none => s.flag

inductive Ev where
  | enter (t : Tid)      -- `init_req_counter counter(m_pending_init_req_num)` (2943, common.h:109-111)
  | check (t : Tid)      -- `is_in_quience()` (2944, raft_repl_dev.h:522)
  | alloc (t : Tid)      -- `rreq->init` allocates blocks (2950, common.cpp:33-56, 135-169)
  | skip (t : Tid)       -- `rreq->init` does not
  | leave (t : Tid)      -- the counter's destructor (common.h:126-128)
  | quiesce (t : Tid)    -- `m_in_quience.store(true, release)` (2879)
  | poll (t : Tid)       -- the counter is read and is not 0 (2882-2885)
  | ret (t : Tid)        -- the counter is read and is 0; `quiesce_reqs` returns (2886-2888)
  | resume (t : Tid)     -- `m_in_quience.store(false, release)` (2894)
  | resumed (t : Tid)    -- `m_latch_lsn.store(INT64_MAX)`, which waits for stores before it; returns (2895, 2891)
  | drain (t : Tid)      -- the oldest store of a thread reaches memory
  deriving DecidableEq, Repr

def step (s : St) : Ev → Option St
  | .enter t => if s.pc t = .idle ∧ s.buf t = [] then some { s with cnt := s.cnt + 1, pc := upd s.pc t .counted } else none
  | .check t =>
    if s.pc t = .counted then some { s with pc := upd s.pc t (if s.read t then .leaving else .admitted) } else none
  | .alloc t => if s.pc t = .admitted then some { s with pc := upd s.pc t .leaving } else none
  | .skip t => if s.pc t = .admitted then some { s with pc := upd s.pc t .leaving } else none
  | .leave t =>
    if s.pc t = .leaving ∧ s.buf t = [] then some { s with cnt := s.cnt - 1, pc := upd s.pc t .idle } else none
  | .quiesce t => if s.pc t = .idle then some { s with buf := upd s.buf t (s.buf t ++ [true]), pc := upd s.pc t .waiting } else none
  | .poll t => if s.pc t = .waiting ∧ s.cnt ≠ 0 then some s else none
  | .ret t => if s.pc t = .waiting ∧ s.cnt = 0 then some { s with pc := upd s.pc t .idle } else none
  | .resume t => if s.pc t = .idle then some { s with buf := upd s.buf t (s.buf t ++ [false]), pc := upd s.pc t .resuming } else none
  | .resumed t => if s.pc t = .resuming ∧ s.buf t = [] then some { s with pc := upd s.pc t .idle } else none
  | .drain t =>
    match s.buf t with
    | [] => none
    | b :: l => some { s with flag := b, buf := upd s.buf t l }

def run (s : St) : List Ev → Option St
  | [] => some s
  | e :: l => match step s e with | some s' => run s' l | none => none

end HS.Quiesce
