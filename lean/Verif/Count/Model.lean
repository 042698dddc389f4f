import Verif.Btree.RangeProps

/-!
# What an index reports about itself: numbers of keys, nodes and levels

Sources: `/repo/src/include/homestore/btree/detail/btree_common.ipp` (`compute_node_count` 99-108,
`compute_btree_depth` 111-120, `get_child_node_count` 123-149, `count_keys` 229-250), `btree.ipp` 53-58
(`get_btree_depth`, `get_num_nodes`), `detail/btree_node_mgr.ipp` (`alloc_leaf_node` 235-243,
`alloc_interior_node` 246-253, `free_node` 298-314), and the places that call these;
`/repo/src/include/homestore/index/index_table.hpp` (`on_root_changed` 375-394, `update_sb` 396-405,
`load_metrics` 407-414); `/repo/src/lib/index/index_service.cpp` (`start` 92-124, `write_sb` 126-133);
`/repo/src/lib/index/wb_cache.cpp` (`refresh_meta_buf` 200-220, the writing of a superblock buffer 907-921, the end of
a flush 959-966).

The functions `…C` are those of `Verif.Btree.Tree` and `Verif.Btree.Remove`, with the counters beside; that they
compute the same trees is proved in `Verif.Count.Exact`.

Simplifications, besides those of `Verif.Btree.Tree`:
* The counters are integers.  In the code they have 64 bits and wrap; a counter below 0 is a number close to 2^64.
* Levels are numbers; `m_btree_depth` and the superblock keep 8 bits of them.
* Counters change when a single key is put or removed; range calls are left out of this part.
-/

namespace HS.Btree

section
variable {K V : Type}

/-! ## Walking the tree -/

/-- The children of an interior node, left to right, the edge last: the loops of `btree_common.ipp` 139-145, 237-243. -/
def kv {K A : Type} (t : Node K A) : List A := t.es.map (·.2) ++ t.edge.toList

/-- `count_keys` from a node on, `btree_common.ipp` 229-250.  Reading a node succeeds. -/
def countKeys : (n : Nat) → Tree K V n → Nat
  | 0, t => t.es.length
  | n + 1, t => ((kv t : List (Tree K V n)).map (countKeys n)).sum

/-- `get_child_node_count`, `btree_common.ipp` 123-149: interior nodes and leaves below and including a node.  Leaves
under a node of level 1 are counted without being read. -/
def nodeCount : (n : Nat) → Tree K V n → Nat × Nat
  | 0, _ => (0, 1)
  | 1, t => (1, t.es.length + if t.edge.isSome then 1 else 0)
  | n + 2, t =>
    (1 + ((kv t : List (Tree K V (n + 1))).map (fun x => (nodeCount (n + 1) x).1)).sum,
      ((kv t : List (Tree K V (n + 1))).map (fun x => (nodeCount (n + 1) x).2)).sum)

/-! ## The counters -/

/-- `m_total_interior_nodes`, `m_total_leaf_nodes`, `m_btree_depth` (btree.hpp:82-84), and the same three fields of the
superblock of an index. -/
structure Nums where
  int : Int
  leaf : Int
  depth : Nat
  deriving DecidableEq, Repr

/-- The counters during a call, and what the last `on_root_changed` of the call put into the superblock. -/
structure Cn where
  num : Nums
  root : Option Nums := none
  deriving DecidableEq, Repr

/-- `alloc_leaf_node`, `alloc_interior_node`, `btree_node_mgr.ipp` 235-253: a node of the given level. -/
def Cn.alloc (c : Cn) (lvl : Nat) : Cn :=
  { c with num := if lvl = 0 then { c.num with leaf := c.num.leaf + 1 } else { c.num with int := c.num.int + 1 } }

/-- `free_node`, `btree_node_mgr.ipp` 298-314. -/
def Cn.free (c : Cn) (lvl : Nat) : Cn :=
  { c with num := if lvl = 0 then { c.num with leaf := c.num.leaf - 1 } else { c.num with int := c.num.int - 1 } }

/-- Several nodes are allocated. -/
def Cn.allocs (c : Cn) (lvl : Nat) : Nat → Cn
  | 0 => c
  | k + 1 => (c.alloc lvl).allocs lvl k

/-- Several nodes are freed. -/
def Cn.frees (c : Cn) (lvl : Nat) : Nat → Cn
  | 0 => c
  | k + 1 => (c.free lvl).frees lvl k

/-- `on_root_changed`, `index_table.hpp` 375-384, for a new root of the given level: the counters as they are now go
into the superblock. -/
def Cn.onRoot (c : Cn) (lvl : Nat) : Cn :=
  { c with root := some { int := c.num.int, leaf := c.num.leaf, depth := lvl % 256 } }

/-- `this->m_btree_depth = root->level()`, `btree_mutate_impl.ipp` 244, `btree_remove_impl.ipp` 233. -/
def Cn.setDepth (c : Cn) (lvl : Nat) : Cn := { c with num := { c.num with depth := lvl % 256 } }

end

section
variable {K V : Type} [LinearOrder K]

/-! ## Put with counters -/

/-- `putLoop` with counters: `split_node` allocates one node of the level of the child, `btree_mutate_impl.ipp` 258-260. -/
def putLoopC (c : Cfg K V) (r : PutReq K V) (n : Nat)
    (rec : Tree K V n → Nat → Cn → Except Fault ((Tree K V n × Nat × Status × Option V) × Cn)) :
    Nat → Tree K V (n + 1) → Nat → Cn → Except Fault ((Tree K V (n + 1) × Nat × Status × Option V) × Cn)
  | 0, _, _, _ => .error .fuel
  | f + 1, t, nid, cn =>
    match bsearch t.es r.key with
    | none => .error .ub
    | some (_, idx) =>
      match t.valAt idx with
      | none => .error .assert
      | some (ch : Tree K V n) =>
        if splitNeeded c r n ch then do
          let t' ← splitIn (c.nk (n + 1)) (c.nk n) c.splitPct t idx ch nid
          putLoopC c r n rec f t' (nid + 1) (cn.alloc n)
        else do
          let ((ch', nid', st, ex), cn') ← rec ch nid cn
          pure ((t.setVal idx ch', nid', st, ex), cn')

/-- `doPut` with counters. -/
def doPutC (c : Cfg K V) (r : PutReq K V) (fuel : Nat) :
    (n : Nat) → Tree K V n → Nat → Cn → Except Fault ((Tree K V n × Nat × Status × Option V) × Cn)
  | 0, t, nid, cn => do
    let (es, st, ex) ← leafPut (c.nk 0) t.es r.key r.val r.type r.filter
    pure (({ t with es := es }, nid, st, ex), cn)
  | n + 1, t, nid, cn => putLoopC c r n (doPutC c r fuel n) fuel t nid cn

/-- `check_split_root` with counters, `btree_mutate_impl.ipp` 215-245: the new root is allocated, the superblock is
filled, then the old root is split. -/
def rootC (lvl : Nat) (cn : Cn) : Cn := (((cn.alloc (lvl + 1)).onRoot (lvl + 1)).alloc lvl).setDepth (lvl + 1)

/-- `put` with counters. -/
def putC (c : Cfg K V) (r : PutReq K V) : Nat → BT K V → Cn → Except Fault ((BT K V × Status × Option V) × Cn)
  | 0, _, _ => .error .fuel
  | f + 1, b, cn =>
    if splitNeeded c r b.lvl b.root then do
      let b' ← splitRoot c b
      putC c r f b' (rootC b.lvl cn)
    else do
      let ((t, nid, st, ex), cn') ← doPutC c r f b.lvl b.root b.nid cn
      pure (({ lvl := b.lvl, root := t, nid := nid }, st, ex), cn')

/-! ## Remove with counters -/

/-- `removeDown` with counters. -/
def removeDownC (n : Nat) (rec : Tree K V n → Nat → Cn → Except Fault ((Tree K V n × Nat × Option V) × Cn))
    (t : Tree K V (n + 1)) (idx : Nat) (ch : Tree K V n) (nid : Nat) (cn : Cn) :
    Except Fault ((Tree K V (n + 1) × Nat × Option V) × Cn) := do
  let ((ch', nid', ex), cn') ← rec ch nid cn
  pure ((t.setVal idx ch', nid', ex), cn')

/-- `removeLoop` with counters: a merge of the children `idx .. fin` allocates the new nodes (`nid' - nid` of them,
`btree_remove_impl.ipp` 437-445) and frees either the old ones (`index_table.hpp` 339-342) or, when it is given up, the
new ones (`btree_remove_impl.ipp` 632-641). -/
def removeLoopC (c : Cfg K V) (key : K) (n : Nat)
    (rec : Tree K V n → Nat → Cn → Except Fault ((Tree K V n × Nat × Option V) × Cn)) :
    Nat → Tree K V (n + 1) → Nat → Cn → Except Fault ((Tree K V (n + 1) × Nat × Option V) × Cn)
  | 0, _, _, _ => .error .fuel
  | f + 1, t, nid, cn =>
    match bsearch t.es key with
    | none => .error .ub
    | some (_, idx) =>
      match t.valAt idx with
      | none => .error .assert
      | some (ch : Tree K V n) =>
        if mergeNeeded c n ch.es && decide (idx < nodeEnd c.maxMergeNodes t idx) then do
          let (r, nid') ← mergeNodes c (c.nk (n + 1)) (c.nk n) f t idx (nodeEnd c.maxMergeNodes t idx) nid
          let cn' := cn.allocs n (nid' - nid)
          match r with
          | some t' => removeLoopC c key n rec f t' nid' (cn'.frees n (nodeEnd c.maxMergeNodes t idx - idx))
          | none => removeDownC n rec t idx ch nid' (cn'.frees n (nid' - nid))
        else removeDownC n rec t idx ch nid cn

/-- `doRemove` with counters. -/
def doRemoveC (c : Cfg K V) (key : K) (fuel : Nat) :
    (n : Nat) → Tree K V n → Nat → Cn → Except Fault ((Tree K V n × Nat × Option V) × Cn)
  | 0, t, nid, cn => do
    let (es, ex) ← leafRemoveOne t.es key
    pure (({ t with es := es }, nid, ex), cn)
  | n + 1, t, nid, cn => removeLoopC c key n (doRemoveC c key fuel n) fuel t nid cn

/-- `check_collapse_root` with counters, `btree_remove_impl.ipp` 221-233, for a root of the given level: the superblock
is filled, then the old root is freed. -/
def collapseC (lvl : Nat) (cn : Cn) : Cn := ((cn.onRoot (lvl - 1)).free lvl).setDepth (lvl - 1)

/-- `remove` with counters.  Without merging the root is not collapsed (`btree_remove_impl.ipp` 181). -/
def removeC (c : Cfg K V) (key : K) : Nat → BT K V → Cn → Except Fault ((BT K V × Option V) × Cn)
  | 0, _, _ => .error .fuel
  | f + 1, b, cn => do
    match ← collapse c b with
    | some none => pure ((b, none), cn)
    | some (some b') => removeC c key f b' (if c.mergeOn then collapseC b.lvl cn else cn)
    | none =>
      let ((t, nid, ex), cn') ← doRemoveC c key f b.lvl b.root b.nid cn
      pure (({ lvl := b.lvl, root := t, nid := nid }, ex), cn')

/-! ## An index with checkpoints and restarts -/

/-- One index.  `disk` is the tree that a restart finds: that this is the tree at the last checkpoint is the subject
of C67 to C75. -/
structure Idx (K V : Type) where
  zero : Bool              -- the ordinal of the index is 0
  b : BT K V
  num : Nums               -- the counters in memory
  buf : Option Nums        -- superblock on the dirty list of the checkpoint (`refresh_meta_buf`)
  disk : BT K V
  sb : Nums                -- the numbers in the superblock on disk

/-- A new index after its first checkpoint: `create_root_node` allocates a leaf and calls `on_root_changed`
(`btree_node_mgr.ipp` 30-51). -/
def Idx.init (zero : Bool) : Idx K V :=
  { zero, b := BT.empty, num := ⟨0, 1, 0⟩, buf := none, disk := BT.empty, sb := ⟨0, 1, 0⟩ }

inductive IOp (K V : Type) where
  | put (r : PutReq K V)
  | remove (k : K)
  | count        -- `compute_node_count`
  | depth        -- `compute_btree_depth`
  /-- A checkpoint with dirty buffers, of this or another index, from beginning to end.  `own`: one of the buffers was
  recovered from the journal of the cache for this index and has its ordinal (`index_cp.cpp` 354). -/
  | cp (own : Bool := false)
  | stop         -- the checkpoint of a shutdown, after `IndexService::stop`
  | restart      -- of the process, by a shutdown or a failure

/-- One step.  Simplification: no call is made while a checkpoint is being flushed. -/
def Idx.step (c : Cfg K V) (fuel : Nat) (s : Idx K V) : IOp K V → Except Fault (Idx K V)
  | .put r =>
    match putC c r fuel s.b { num := s.num } with
    | .error e => .error e
    | .ok ((b', _, _), cn) =>
      .ok { s with b := b', num := cn.num, buf := if cn.root.isSome then cn.root else s.buf }
  | .remove k =>
    match removeC c k fuel s.b { num := s.num } with
    | .error e => .error e
    | .ok ((b', _), cn) =>
      .ok { s with b := b', num := cn.num, buf := if cn.root.isSome then cn.root else s.buf }
  | .count =>                                                              -- btree_common.ipp 99-108
    .ok { s with num := { s.num with int := (nodeCount s.b.lvl s.b.root).1, leaf := (nodeCount s.b.lvl s.b.root).2 } }
  | .depth => .ok { s with num := { s.num with depth := s.b.lvl % 256 } }  -- btree_common.ipp 111-120
  | .cp own =>   -- wb_cache.cpp 907-921, 957-966: other buffers have ordinal 0; index_table.hpp 396-405
    .ok { s with disk := s.b, sb := if s.zero || own then s.num else s.buf.getD s.sb, buf := none }
  | .stop =>     -- index_service.cpp 127: `write_sb` does nothing
    .ok { s with disk := s.b, sb := s.buf.getD s.sb, buf := none }
  | .restart =>  -- index_service.cpp 101-105, index_table.hpp 407-410
    .ok { s with b := s.disk, num := s.sb, buf := none }

/-- A history of calls that all return. -/
def Idx.run (c : Cfg K V) (fuel : Nat) : Idx K V → List (IOp K V) → Except Fault (Idx K V)
  | s, [] => .ok s
  | s, op :: ops =>
    match s.step c fuel op with
    | .error e => .error e
    | .ok s' => s'.run c fuel ops

/-- `get_num_nodes`, `btree.ipp` 56-58: interior nodes and leaves. -/
def Idx.numNodes (s : Idx K V) : Int × Int := (s.num.int, s.num.leaf)

/-- `get_btree_depth`, `btree.ipp` 53. -/
def Idx.btreeDepth (s : Idx K V) : Nat := s.num.depth

/-! ## `count_keys` beside other calls -/

/-- The node with an id. -/
def findNode (i : Nat) : (n : Nat) → Tree K V n → Option (Sigma (Tree K V))
  | 0, t => if t.id = i then some ⟨0, t⟩ else none
  | n + 1, t => if t.id = i then some ⟨n + 1, t⟩ else (kv t : List (Tree K V n)).findSome? (findNode i n)

/-- `count_keys()`, `btree_common.ipp` 230-233: the id of the root is read without the lock of the tree; then its node
is read and locked.  `b` is the tree at the first moment, `b'` at the second; no call runs after that.  A node that
is gone gives 0. -/
def countLate (b b' : BT K V) : Nat :=
  match findNode b.root.id b'.lvl b'.root with
  | none => 0
  | some ⟨n, t⟩ => countKeys n t

end
end HS.Btree
