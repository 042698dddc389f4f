/-!
# Flushing the dirty index buffers of one checkpoint

Models `/repo/src/lib/index/wb_cache.cpp`: `async_cp_flush` (829-886), `do_flush_one_buf` (888-942),
`process_write_completion` (944-978), `on_buf_flush_done(_internal)` (980-1007), `get_next_bufs`
(1009-1016), `get_next_bufs_internal` (1018-1056); and `/repo/src/lib/index/index_cp.cpp`:
`add_to_dirty_list` (67-71), `prepare_flush_iteration`, `next_dirty` (75-82).

Simplifications.

* Buffers are numbers; contents are left out (see `Verif.Index.Cow`).  A buffer that is freed or is a
  superblock buffer completes at once in the code; here its completion is a step like any other, so
  the schedules of the code are among those of the model.
* One flush fiber (`generic.cache_flush_threads` = 1, the default): picking and handing out buffers and
  the completion of writes all run on that fiber.  With `multi := true` there are several: a buffer
  handed out by a completion is only marked FLUSHING in a later step of that fiber.
* Operations of the *next* checkpoint go on meanwhile: they may take any buffer that is CLEAN, mark it
  as dirtied by theirs, and link it as they like (step `reuse`).
-/
namespace HS.Index.Flush

/-- `index_buf_state_t` (index_internal.hpp:104-108). -/
inductive BState where
  | clean
  | dirty
  | flushing
  deriving DecidableEq, Repr

/-- The part of `IndexBuffer` (index_internal.hpp:115-163) that flushing uses. -/
structure Buf where
  state : BState
  mine : Bool            -- `m_dirtied_cp_id` is the id of the checkpoint being flushed
  up : Option Nat        -- `m_up_buffer`
  wait : Int             -- `m_wait_for_down_buffers`
  deriving DecidableEq, Repr

/-- The flush of one checkpoint. -/
structure Fl where
  buf : Nat → Buf
  rest : List Nat        -- what `m_dirty_buf_it` has not passed yet
  count : Int            -- `m_dirty_buf_count`
  hand : List Nat        -- picked by a fiber, not yet passed to `do_flush_one_buf`
  out : List Nat         -- being written
  written : List Nat     -- ghost: completed writes, oldest first
  done : Bool            -- `!has_more` was seen: the checkpoint of the index is completed

/-- One buffer replaced. -/
def Fl.set (f : Fl) (b : Nat) (x : Buf) : Nat → Buf := fun i => if i = b then x else f.buf i

/-- The test in `get_next_bufs_internal` (wb_cache.cpp:1048-1049). -/
def Buf.ready (x : Buf) : Bool := x.state = .dirty && x.mine && x.wait = 0

/-- The loop of `get_next_bufs_internal` (wb_cache.cpp:1041-1055) over what is left of the dirty list:
at most `max` ready buffers; others that are passed are left to the completion of their down buffers.
Returns the buffers and what is left. -/
def scan (buf : Nat → Buf) : (max : Nat) → List Nat → List Nat × List Nat
  | 0, l => ([], l)
  | _ + 1, [] => ([], [])
  | max + 1, b :: l =>
    if (buf b).ready then
      let r := scan buf max l
      (b :: r.1, r.2)
    else scan buf (max + 1) l

/-- `m_up_buffer->m_wait_for_down_buffers.decrement_testz()`, the decrement (wb_cache.cpp:1025). -/
def Fl.decUp (f : Fl) (b : Nat) : Fl :=
  match (f.buf b).up with
  | some u => { f with buf := f.set u { f.buf u with wait := (f.buf u).wait - 1 } }
  | none => f

/-- What `get_next_bufs_internal` (wb_cache.cpp:1023-1055) picks after `b` was written, the up
buffer's count being decremented: the up buffer if it waits no more, else the next from the list. -/
def Fl.next (f : Fl) (b : Nat) : List Nat × List Nat :=
  match (f.buf b).up with
  | some u => if (f.buf u).wait = 0 then ([u], f.rest) else scan f.buf 1 f.rest
  | none => scan f.buf 1 f.rest

/-- `do_flush_one_buf` (wb_cache.cpp:905): FLUSHING, and the write is submitted. -/
def Fl.submit (f : Fl) (b : Nat) : Fl :=
  { f with buf := f.set b { f.buf b with state := .flushing }, out := b :: f.out }

/-- `process_write_completion` of `b` (wb_cache.cpp:944-978). -/
def Fl.complete (multi : Bool) (f : Fl) (b : Nat) : Fl :=
  let f1 : Fl := { f with out := f.out.erase b, written := f.written ++ [b], count := f.count - 1 }
  if f1.count = 0 then
    -- wb_cache.cpp:999-1001
    { f1 with buf := f1.set b { f1.buf b with state := .clean }, done := true }
  else
    -- wb_cache.cpp:1003-1005
    let f2 := f1.decUp b
    let n := f2.next b
    let f3 : Fl := { f2 with buf := f2.set b { f2.buf b with up := none, state := .clean },
                             rest := n.2 }
    -- wb_cache.cpp:959-960
    match n.1 with
    | [] => f3
    | nb :: _ => if multi then { f3 with hand := f3.hand ++ [nb] } else f3.submit nb

/-- What can happen. -/
inductive Op where
  | start (max : Nat)     -- a fiber runs the lambda of `async_cp_flush`: `get_next_bufs`
  | begin                 -- `do_flush_one_buf` of the first picked buffer
  | complete (b : Nat)    -- the write of `b` completes
  | reuse (b : Nat) (up : Option Nat) (wait : Int)  -- the next checkpoint dirties a CLEAN buffer
  deriving DecidableEq, Repr

/-- One step. -/
def Fl.step (multi : Bool) (f : Fl) : Op → Option Fl
  | .start max =>
    let r := scan f.buf max f.rest
    some { f with rest := r.2, hand := f.hand ++ r.1 }
  | .begin =>
    match f.hand with
    | [] => none
    | b :: t => some (({ f with hand := t } : Fl).submit b)
  | .complete b => if b ∈ f.out then some (f.complete multi b) else none
  | .reuse b up wait =>
    if (f.buf b).state = .clean then
      some { f with buf := f.set b { state := .dirty, mine := false, up := up, wait := wait } }
    else none

/-- A schedule. -/
def Fl.run (multi : Bool) (f : Fl) : List Op → Option Fl
  | [] => some f
  | op :: ops => (f.step multi op).bind (fun f' => f'.run multi ops)

/-- The flush as it begins (`add_to_dirty_list`, `prepare_flush_iteration`): the dirty list and the
buffers as the checkpoint's operations left them. -/
def Fl.init (buf : Nat → Buf) (list : List Nat) : Fl :=
  { buf := buf, rest := list, count := list.length, hand := [], out := [], written := [],
    done := false }

/-- The buffers that the checkpoint's operations leave behind: the dirty list has no buffer twice; its
buffers are DIRTY and dirtied by this checkpoint; a buffer is linked only to buffers of the list; a
buffer waits for exactly the buffers linked to it; and links do not form a cycle. -/
structure Linked (buf : Nat → Buf) (list : List Nat) : Prop where
  nodup : list.Nodup
  dirty : ∀ b ∈ list, (buf b).state = .dirty ∧ (buf b).mine = true
  up : ∀ b ∈ list, ∀ u, (buf b).up = some u → u ∈ list
  wait : ∀ u ∈ list, (buf u).wait = ((list.filter (fun b => (buf b).up = some u)).length : Int)
  rank : ∃ r : Nat → Nat, ∀ b ∈ list, ∀ u, (buf b).up = some u → r b < r u

end HS.Index.Flush
