import Verif.Cp.Props
/-!
# Dirty memory of the indexes: the counter of the resource manager and the checkpoints it asks for

Models `ResourceMgr::inc_dirty_buf_size`, `dec_dirty_buf_size` and `get_dirty_buf_limit`
(/repo/src/lib/common/resource_mgr.cpp:97-115, 229-232), their callers `IndexWBCache::write_buf`
(/repo/src/lib/index/wb_cache.cpp:127-143) and `process_write_completion` (wb_cache.cpp:944-956), and the callback that the
checkpoint manager registers (/repo/src/lib/checkpoint/cp_mgr.cpp:42-45), over the model of the checkpoint manager in
`Cp/Model.lean`, whose steps are interleaved with those here.

Simplifications: a dirty buffer is known by the number of the checkpoint on whose list it is; the order in which they are
written is the subject of `Index/Flush.lean` (here any order); `add_to_dirty_list` and the `fetch_add` that follows it are one step
(the thread is inside the checkpoint the whole time, so that no flush of it is under way); the counter is a natural number
(`int64_t` in the code; that it never falls below zero is part of `dstep`: it refuses to); metrics and logging are left out;
writes during recovery do not use the counter (wb_cache.cpp:129-136) and are left out.
-/
namespace HS.Dirty
open HS.Cp

/-- `node`: `m_node_size`; `limit`: `get_dirty_buf_limit()`; `idx`: the index service as a consumer of checkpoints. -/
structure Cfg where
  node : Nat
  limit : Nat
  idx : Nat

/-- `get_dirty_buf_limit`, resource_mgr.cpp:229-232. -/
def dirtyLimit (percent ioMem : Nat) : Nat := percent * ioMem / 100

structure DSt where
  s : Cp.St
  cnt : Nat                -- `m_hs_dirty_buf_cnt`
  bufs : List Nat          -- the buffers on dirty lists that are not written yet: the checkpoint of each
  asking : List Nat        -- threads inside `m_dirty_buf_exceed_cb`, before `trigger_cp_flush`: the checkpoint each is in
  -- bookkeeping, read by no transition
  since : Bool             -- a buffer was dirtied since the last flush ended (and outside of any flush)
  during : Nat             -- buffers dirtied while the last flush was in progress

inductive DAct
  | cp (a : Cp.Act)        -- a step of the checkpoint manager or of a thread that uses it
  | dirty (c : Nat)        -- a thread inside checkpoint `c`: `write_buf` up to the callback
  | ask (c : Nat)          -- the callback calls `trigger_cp_flush(false)` inside its thread's guard
  | wrote (c : Nat)        -- `process_write_completion` of a buffer of checkpoint `c`
deriving DecidableEq

def dInit : DSt := { s := Cp.init, cnt := 0, bufs := [], asking := [], since := false, during := 0 }

/-- The bookkeeping when the checkpoint manager goes from `d.s` to `s'`. -/
def DSt.move (d : DSt) (s' : Cp.St) : DSt :=
  { d with s := s', during := if !d.s.inFlush && s'.inFlush then 0 else d.during,
           since := if d.s.inFlush && !s'.inFlush then false else d.since }

/-- What a thread does besides the resource manager.  It does not leave its checkpoint while it is inside the callback; the
index service completes its flush when no buffer of the checkpoint is left (wb_cache.cpp:961-976); a crash loses memory. -/
def cpStep (g : Cfg) (k : Conf) (d : DSt) : Cp.Act → Option DSt
  | .exitDec c => if d.asking.count c < (d.s.cp c).refs then (Cp.step k d.s (.exitDec c)).map d.move else none
  | .consDone c x ok => if x = g.idx ∧ c ∈ d.bufs then none else (Cp.step k d.s (.consDone c x ok)).map d.move
  | .crash => (Cp.step k d.s .crash).map fun s' => { dInit with s := s' }
  | a => (Cp.step k d.s a).map d.move

/-- `write_buf`, wb_cache.cpp:137-142, with `inc_dirty_buf_size`, resource_mgr.cpp:97-104. -/
def dirty (g : Cfg) (d : DSt) (c : Nat) : Option DSt :=
  if d.asking.count c < (d.s.cp c).refs then
    some { d with
      bufs := c :: d.bufs, cnt := d.cnt + g.node,
      asking := if d.cnt + g.node > g.limit then c :: d.asking else d.asking,
      since := d.since || !d.s.inFlush, during := if d.s.inFlush then d.during + 1 else d.during }
  else none

/-- The callback, cp_mgr.cpp:42-45: `trigger_cp_flush(false)`; the thread's guard is on its stack (cp_mgr.cpp:388-390). -/
def ask (d : DSt) (c : Nat) : Option DSt :=
  if c ∈ d.asking then
    (Cp.trigger d.s false false (some c)).map fun s' => { d.move s' with asking := d.asking.erase c }
  else none

/-- `process_write_completion`, wb_cache.cpp:956, with `dec_dirty_buf_size`, resource_mgr.cpp:106-112: during the flush of `c`. -/
def wrote (g : Cfg) (d : DSt) (c : Nat) : Option DSt :=
  if c ∈ d.bufs ∧ g.idx ∈ (d.s.cp c).running ∧ g.node ≤ d.cnt then
    some { d with bufs := d.bufs.erase c, cnt := d.cnt - g.node }
  else none

def dstep (g : Cfg) (k : Conf) (d : DSt) : DAct → Option DSt
  | .cp a => cpStep g k d a
  | .dirty c => dirty g d c
  | .ask c => ask d c
  | .wrote c => wrote g d c

/-- The schedules of `Cp.Quiet`. -/
def DQuiet (d : DSt) : DAct → Prop
  | .cp a => Cp.Quiet d.s a
  | _ => True

/-- States reached from the first start by steps that satisfy `ok`. -/
inductive DReach (g : Cfg) (k : Conf) (ok : DSt → DAct → Prop) : DSt → Prop
  | init : DReach g k ok dInit
  | step {d a d'} : DReach g k ok d → ok d a → dstep g k d a = some d' → DReach g k ok d'

end HS.Dirty
