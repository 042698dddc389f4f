import Verif.Common
/-!
# Recovery of an index from the journal of a checkpoint that was not completed

Models `/repo/src/lib/index/index_cp.cpp`: `recover` (232-328: `modifyBuffer` 253-266, `sanityCheck` 285-324),
`process_txn_record` (330-404, the release build); `/repo/src/lib/index/wb_cache.cpp`: `load_buf` (459-465), `prune_up_buffers` (531-550), `recover` (552-762),
`update_up_buffer_counters` (772-785), `recover_buf` (787-811), `was_node_committed` (813-826), `write_buf` in recovery
(127-137); `/repo/src/include/homestore/index/index_table.hpp`: `repair_root_node` (199-237), `repair_node`
(255-284), `on_root_changed` (375-393) with `refresh_meta_buf` (wb_cache.cpp:199-220), `true_sibling_first_child`
(513-533), `update_root` (535-564), `repair_links` (567-986), `find_true_sibling` (988-1008), `sanity_check`
(120-132); and `/repo/src/include/homestore/btree/detail/btree_common.ipp`: `validate_node_child_relation` (252-325),
`validate_next_node_relation` (327-367), `validate_node` (369-414).

Simplifications.

* One table, and the nodes that the checkpoint freed (merges) are leaves: `parent_recover` and `delete_stale_links`, for
  the freed nodes above, are left out.
* The mark `node_deleted` of a block on disk is kept beside the disk, in `del`.
* Keys are numbers; `K{}`, the last key of a node without entries, is 0.  Keys have one size: a node has room for
  an entry if it has fewer than `cap`.
* A node on disk that is not valid (`is_valid_node`) is `none`; reading one as a node is the outcome `none` of the
  function that does so.
* The map of the journal's buffers is iterated in some order, which is given.
* The buffer of the superblock has no block; `load_buf` reads block 0 of chunk 0 in its place.  `mc` says whether
  that block looks like an index node written by this checkpoint.
* Walks along nodes and buffers have a bound on their length, which is given.
-/
namespace HS.Index.Recover

abbrev Id := Nat

/-- A node (btree_node.hpp:43-70).  In a leaf an entry is a key and its value, in an interior node a key and the
id of a child. -/
structure Node where
  leaf : Bool
  level : Nat
  ents : List (Nat × Nat)
  edge : Option Id
  next : Option Id
  cp : Nat               -- `modified_cp_id`
  deriving DecidableEq, Repr

abbrev Disk := Id → Option Node

def Disk.set (d : Disk) (i : Id) (n : Node) : Disk := fun x => if x = i then some n else d x

/-- Writing several nodes. -/
def Disk.setAll (d : Disk) : List (Id × Node) → Disk
  | [] => d
  | (i, n) :: l => (d.set i n).setAll l

/-- `get_last_key`, `get_first_key` (btree_node.hpp:298-308). -/
def Node.lastKey (n : Node) : Nat := match n.ents.getLast? with | some e => e.1 | none => 0
def Node.firstKey (n : Node) : Nat := match n.ents.head? with | some e => e.1 | none => 0

/-- `has_valid_edge` (btree_node.hpp:566-569). -/
def Node.hasEdge (n : Node) : Bool := !n.leaf && n.edge.isSome

/-- `get_nth_value(0)` of an interior node, or its edge. -/
def Node.firstChild (n : Node) : Option Id := match n.ents with | e :: _ => some e.2 | [] => n.edge

/-! ## `repair_links` -/

/-- The key that the parent had for a child (index_table.hpp:585-592). -/
def origKey (es : List (Nat × Nat)) (c : Id) : Option Nat := (es.find? (fun e => e.2 == c)).map (·.1)

/-- `find_true_sibling` (988-1008): the next node, without those that are deleted. -/
def trueSibling (d : Disk) (del : Id → Bool) : Nat → Option Id → Option (Option Id)
  | 0, _ => none
  | _ + 1, none => some none
  | f + 1, some q =>
    match d q with
    | none => some none
    | some qn => if del q then trueSibling d del f qn.next else some (some q)

/-- `true_sibling_first_child` (513-533). -/
def siblingFirstChild (d : Disk) (del : Id → Bool) (fuel : Nat) (p : Node) : Option (Option Id) :=
  if p.hasEdge then some none
  else match trueSibling d del fuel p.next with
    | none => none
    | some none => some none
    | some (some q) => some (match d q with | some qn => qn.firstChild | none => none)

/-- The walk to the last child (622-651): the last key of the last child with entries that is not deleted, and the node
after the last child if it is the sibling's first child. -/
def lastChild (d : Disk) (del : Id → Bool) (sfc : Option Id) : Nat → Id → Option Nat → Option (Option Nat × Option Id)
  | 0, _, _ => none
  | f + 1, c, found =>
    match d c with
    | none => none
    | some n =>
      let found' := if del c || n.ents.isEmpty then found else some n.lastKey
      match n.next with
      | none => some (found', none)
      | some nx => if sfc = some nx then some (found', some nx) else lastChild d del sfc f nx found'

/-- The next node of the parent without those that are deleted (776-790).  A node that cannot be read: the loop does not
end. -/
def skipDeleted (d : Disk) (del : Id → Bool) : Nat → Option Id → Option (Option Id)
  | 0, _ => none
  | _ + 1, none => some none
  | f + 1, some q =>
    match d q with
    | none => none
    | some qn => if del q then skipDeleted d del f qn.next else some (some q)

/-- What the loop (705-927) uses. -/
structure LoopArgs where
  cap : Nat
  fuel : Nat
  del : Id → Bool
  isEdge : Bool              -- `is_parent_edge_node`
  sib : Option Id            -- `sibling_node_id`
  orig : List (Nat × Nat)    -- `orig_child_infos`
  lastKey : Nat              -- `last_parent_key`
  stop : Option Id           -- `next_cur_child`

/-- The last entry becomes the edge (711-717). -/
def lastAsEdge (n : Node) : Node :=
  match n.ents.getLast? with
  | some e => { n with ents := n.ents.dropLast, edge := some e.2 }
  | none => n

/-- The loop (705-927).  `done`: the parents that are full, in order; `cur`: `cur_parent`; `pre`: `pre_child_node`;
`w`: the children written on the way.  The result: these, and the parents if there was no error. -/
def loop (a : LoopArgs) (d : Disk) : Nat → Id → List (Id × Node) → Id × Node → Option (Id × Node) → List (Id × Node) →
    List Id → List (Id × Node) × Option (List (Id × Node) × List Id)
  | 0, _, _, _, _, w, _ => (w, none)
  | f + 1, c, done, cur, pre, w, supply =>
    match d c with
    | none => (w, none)
    | some n =>
      if n.hasEdge || (n.leaf && n.next.isNone) then
        if a.del c then (w, some (done ++ [(cur.1, lastAsEdge cur.2)], supply))
        else if a.isEdge then (w, some (done ++ [(cur.1, { cur.2 with next := none, edge := some c })], supply))
        else (w, some (done ++ [(cur.1, { cur.2 with next := a.sib })], supply))
      else if !a.isEdge && (origKey a.orig c).isNone && decide (a.lastKey < n.lastKey) then
        (w, some (done ++ [cur], supply))
      else if !a.isEdge && (origKey a.orig c).isNone && n.ents.isEmpty then
        match skipDeleted d a.del a.fuel cur.2.next with
        | none => (w, none)
        | some nx => (w, some (done ++ [(cur.1, { cur.2 with next := nx })], supply))
      else
        -- 820-838: a new parent if there is no room
        match (if cur.2.ents.length < a.cap then some (done, cur, supply)
          else match supply with
            | [] => none
            | i :: supply' =>
              some (done ++ [(cur.1, { cur.2 with next := some i })],
                (i, { cur.2 with ents := [], edge := none }), supply')) with
        | none => (w, none)
        | some (done, cur, supply) =>
          if a.del c then
            -- 862-889: no entry, and the node before it gets its next
            let pre' := pre.map (fun x => (x.1, { x.2 with next := n.next }))
            let w' := w ++ pre'.toList
            match n.next with
            | none => (w', some (done ++ [cur], supply))
            | some nx => if a.stop = some nx then (w', some (done ++ [cur], supply)) else loop a d f nx done cur pre' w' supply
          else
            -- 842-860
            match (if n.ents.isEmpty then origKey a.orig c else some n.lastKey) with
            | none => (w, some (done ++ [cur], supply))
            | some k =>
              let cur : Id × Node := (cur.1, { cur.2 with ents := cur.2.ents ++ [(k, c)] })
              match n.next with
              | none => (w, none)
              | some nx =>
                if a.stop = some nx then (w, some (done ++ [cur], supply)) else loop a d f nx done cur (some (c, n)) w supply

/-- Raising the key of the last entry. -/
def setLastKey (es : List (Nat × Nat)) (k : Nat) : List (Nat × Nat) :=
  match es.getLast? with
  | some e => es.dropLast ++ [(k, e.2)]
  | none => []

/-- The end (938-968) for the last parent: its last key does not become smaller.  Above the leaves the last key of
its last child is raised to it. -/
def finishLast (d : Disk) (lastKey : Nat) (p : Id × Node) : Option ((Id × Node) × List (Id × Node)) :=
  if p.2.ents.isEmpty || p.2.hasEdge then some (p, [])
  else
    let p' : Id × Node := (p.1, { p.2 with ents := if p.2.lastKey < lastKey then setLastKey p.2.ents lastKey else p.2.ents })
    if p'.2.level ≤ 1 then some (p', [])
    else match p'.2.ents.getLast? with
      | none => some (p', [])
      | some e => match d e.2 with
        | none => none
        | some c =>
          if c.lastKey < p'.2.lastKey then some (p', [(e.2, { c with ents := setLastKey c.ents lastKey })])
          else some (p', [])

/-- The entries of a new root for the nodes `ps` (535-560). -/
def rootEnts : List (Id × Node) → List (Nat × Nat) × Option Id
  | [] => ([], none)
  | p :: ps =>
    let r := rootEnts ps
    if p.2.hasEdge then (r.1, some p.1) else ((p.2.lastKey, p.1) :: r.1, r.2)

/-- What `repair_links` writes, and the new root if it made one. -/
structure Repaired where
  writes : List (Id × Node)
  newRoot : Option (Id × Node)
  supply : List Id

/-- The key up to which the children belong to the parent, the node at which the loop stops, and whether the parent's
next node becomes its true sibling (616-693). -/
def parentKey (d : Disk) (del : Id → Bool) (fuel : Nat) (pn : Node) (sib : Option Id) (c0 : Id) :
    Option (Nat × Option Id × Bool) :=
  if pn.ents.isEmpty then some (pn.lastKey, none, false)
  else match siblingFirstChild d del fuel pn with
    | none => none
    | some sfc =>
      match lastChild d del sfc fuel c0 none with
      | none => none
      | some (none, nx) => some (pn.lastKey, nx, false)
      | some (some k, nx) =>
        if pn.lastKey < k then (if sib.isSome then some (k, nx, true) else some (pn.lastKey, nx, false))
        else some (pn.lastKey, none, false)

/-- `repair_links` (567-986).  `isRoot`: `m_sb->root_node` is this node; `cp`: the checkpoint.  The result: the children
written on the way, and what else it does if there is no error. -/
def repairLinks (cap fuel cp : Nat) (d : Disk) (del : Id → Bool) (isRoot : Bool) (p : Id) (pn : Node) (supply : List Id) :
    List (Id × Node) × Option Repaired :=
  match trueSibling d del fuel pn.next with
  | none => ([], none)
  | some sib =>
  if pn.ents.isEmpty && !sib.isNone then ([], none)
  else
  match pn.firstChild with
  | none => ([], none)
  | some c0 =>
    match parentKey d del fuel pn sib c0 with
    | none => ([], none)
    | some (lastKey, stop, raised) =>
      let r := loop { cap, fuel, del, isEdge := sib.isNone, sib, orig := pn.ents, lastKey, stop } d fuel c0 []
          (p, { pn with ents := [], edge := none, next := if raised then sib else pn.next }) none [] supply
      let w := r.1.map (fun x => (x.1, { x.2 with cp := cp }))
      match r.2 with
      | none => (w, none)
      | some (ps, supply) =>
        match ps.getLast? with
        | none => (w, none)
        | some last =>
          -- 932-937
          match (if isRoot && decide (2 ≤ ps.length) then
              match supply with
              | [] => none
              | r :: supply' =>
                let es := rootEnts ps
                some (some (r, ({ leaf := false, level := pn.level + 1, ents := es.1, edge := es.2, next := none, cp } : Node)), supply')
            else some (none, supply)) with
          | none => (w, none)
          | some (newRoot, supply) =>
            match finishLast (d.setAll w) lastKey last with
            | none => (w, none)
            | some (last', extra) =>
              (w, some { writes := (ps.dropLast ++ [last'] ++ extra ++ newRoot.toList).map (fun x => (x.1, { x.2 with cp := cp })),
                         newRoot, supply })

/-! ## The buffers of the journal -/

/-- A buffer: the superblock or a node. -/
inductive Ref where
  | super
  | node (i : Id)
  deriving DecidableEq, Repr

structure Buf where
  created : Bool           -- `m_created_cp_id` is this checkpoint
  freed : Bool             -- `m_node_freed`
  up : Option Ref          -- `m_up_buffer`
  wait : Int               -- `m_wait_for_down_buffers`
  deriving DecidableEq, Repr

/-- A record of the journal (`Verif.Index.Journal`). -/
structure Rec where
  parent : Option Ref
  child : Option Id
  new : List Id
  freed : List Id
  deriving DecidableEq, Repr

abbrev Bufs := Ref → Option Buf

def Bufs.set (m : Bufs) (r : Ref) (b : Buf) : Bufs := fun x => if x = r then some b else m x

/-- Changing the counter of a buffer (`add_down_buffer`, `remove_down_buffer`, index_service.cpp:306-333). -/
def Bufs.addWait (m : Bufs) (r : Ref) (k : Int) : Bufs :=
  match m r with
  | some b => m.set r { b with wait := b.wait + k }
  | none => m

/-- `rec_to_buf` (index_cp.cpp:333-376). -/
def Bufs.recToBuf (m : Bufs) (r : Ref) (upRef : Option Ref) (created : Bool) : Bufs :=
  let b := (m r).getD { created := false, freed := false, up := none, wait := 0 }
  let m1 := m.set r b
  match upRef with
  | none => m1.set r { b with created := b.created || created }
  | some u =>
    let real : Option Ref := match m1 u with | some ub => if ub.created || ub.freed then ub.up else some u | none => none
    let m2 := if b.up = real then m1
      else
        let m := match b.up with | some o => m1.addWait o (-1) | none => m1
        let m := match real with | some q => m.addWait q 1 | none => m
        match m r with | some b' => m.set r { b' with up := real } | none => m
    match m2 r with | some b' => m2.set r { b' with created := b'.created || created } | none => m2

/-- `freed_buf->m_node_freed = true` (index_cp.cpp:403). -/
def Bufs.markFreed (m : Bufs) (r : Ref) : Bufs :=
  match m r with
  | some b => m.set r { b with freed := true }
  | none => m

/-- `process_txn_record` (index_cp.cpp:378-404). -/
def Bufs.process (m : Bufs) (t : Rec) : Bufs :=
  let m := match t.parent with | some p => m.recToBuf p none false | none => m
  let m := match t.child with | some c => m.recToBuf (.node c) t.parent false | none => m
  let u := match t.child with | some c => some (Ref.node c) | none => t.parent
  let m := t.new.foldl (fun m i => m.recToBuf (.node i) u true) m
  t.freed.foldl (fun m i => (m.recToBuf (.node i) u false).markFreed (.node i)) m

/-- The first of a buffer and those above it that is not freed (index_cp.cpp:255-258). -/
def Bufs.realUp (m : Bufs) : Nat → Option Ref → Option (Option Ref)
  | 0, _ => none
  | _ + 1, none => some none
  | f + 1, some u =>
    match m u with
    | none => none
    | some b => if b.freed then m.realUp f b.up else some (some u)

/-- `modifyBuffer` (index_cp.cpp:253-266).  `none`: a null pointer is used. -/
def Bufs.modify (fuel : Nat) (m : Bufs) (r : Ref) : Option Bufs :=
  match m r with
  | none => some m
  | some b =>
    match m.realUp fuel b.up with
    | none => none
    | some real =>
      if real = b.up then some m
      else match b.up, real with
        | some o, some q => some (((m.addWait o (-1)).addWait q 1).set r { b with up := some q })
        | _, _ => none

/-- `modifyBuffer` for all buffers. -/
def Bufs.modifyAll (fuel : Nat) : List Ref → Bufs → Option Bufs
  | [], m => some m
  | r :: l, m => match m.modify fuel r with | none => none | some m => Bufs.modifyAll fuel l m

/-- `sanityCheck` (index_cp.cpp:285-324, the release build) for one buffer. -/
def Bufs.sane (m : Bufs) (r : Ref) : Bool :=
  match m r with
  | none => true
  | some b =>
    (match b.up with
      | none => true
      | some u => match m u with
        | none => false
        | some ub => !ub.freed && !ub.created && r != .super && ub.wait != 0) &&
    (!b.freed || b.wait == 0)

/-! ## `recover` -/

structure RS where
  d : Disk
  del : Id → Bool        -- the blocks marked as deleted
  bufs : Bufs
  sb : Id                -- `m_sb->root_node`
  sbDisk : Id            -- the root in the superblock on disk
  sbDirty : Bool         -- the superblock's buffer is of this checkpoint
  tree : Id              -- `m_root_node_info`
  supply : List Id       -- the blocks that the allocator gives next
  pending : List Ref
  pruned : List Ref
  skipped : List Ref     -- `bufs_to_skip_sanity_check`
  kept : List Id         -- blocks committed by recovery
  gone : List Id         -- `deleted_bufs`, whose blocks are freed at the end

/-- What recovery is started with. -/
structure Env where
  cap : Nat
  fuel : Nat
  cp : Nat
  mc : Bool
  del : Id → Bool := fun _ => false   -- blocks that a recovery before marked as deleted

/-- `was_node_committed` (wb_cache.cpp:813-826) of a buffer that is not freed. -/
def committed (e : Env) (d : Disk) : Option Ref → Bool
  | none => false
  | some .super => e.mc
  | some (.node i) => match d i with | some n => n.cp == e.cp | none => false

/-- `update_up_buffer_counters` (wb_cache.cpp:772-785). -/
def upCounters (m : Bufs) : Nat → Ref → Bufs
  | 0, _ => m
  | f + 1, r =>
    match m r with
    | none => m
    | some b =>
      if b.wait ≠ 0 then m
      else match b.up with
        | none => m
        | some g => upCounters ((m.addWait g (-1)).set r { b with up := none }) f g

def waitOf (m : Bufs) (r : Ref) : Int := match m r with | some b => b.wait | none => 0
def upOf (m : Bufs) (r : Ref) : Option Ref := match m r with | some b => b.up | none => none

/-- `prune_up_buffers` (wb_cache.cpp:531-550). -/
def RS.prune (s : RS) (fuel : Nat) (r : Ref) : RS :=
  match upOf s.bufs r with
  | none => s
  | some u =>
    let g := upOf s.bufs u
    if waitOf s.bufs u ≠ 0 then s
    else
      let m := upCounters s.bufs fuel u
      let more := match g with
        | some (.node i) => if waitOf m (.node i) = 0 then [Ref.node i] else []
        | _ => []
      { s with bufs := m, pruned := s.pruned ++ [u] ++ more }

/-- The first pass (wb_cache.cpp:610-672) for one buffer. -/
def RS.first (e : Env) (s : RS) (r : Ref) : RS :=
  match r, s.bufs r with
  | .node i, some b =>
    if b.freed then
      if committed e s.d b.up then
        { s with del := fun x => x == i || s.del x, gone := s.gone ++ [i], pending := s.pending ++ b.up.toList }
      else
        let s := if b.created then { s with gone := s.gone ++ [i] }
          else { s with bufs := s.bufs.set r { b with freed := false }, kept := s.kept ++ [i] }
        match b.up with
        | none => s
        | some u =>
          let s := { s with bufs := s.bufs.addWait u (-1) }
          let s := s.prune e.fuel r
          match s.bufs r with
          | some b' => { s with bufs := s.bufs.set r { b' with up := none } }
          | none => s
    else if b.created then
      if committed e s.d (some r) && committed e s.d b.up then
        { s with pending := s.pending ++ b.up.toList, kept := s.kept ++ [i] }
      else
        let s := match b.up with | some u => { s with bufs := s.bufs.addWait u (-1) } | none => s
        let s := s.prune e.fuel r
        { s with skipped := s.skipped ++ [r] }
    else s
  | _, _ => s

/-- `on_root_changed` in recovery. -/
def RS.rootChanged (s : RS) (i : Id) : RS :=
  { s with sb := i, sbDisk := if s.sbDirty then s.sbDisk else i, sbDirty := true }

/-- `repair_links`, and `update_root` in it.  An error leaves the parent as it is. -/
def RS.links (e : Env) (s : RS) (i : Id) (n : Node) : RS :=
  let o := repairLinks e.cap e.fuel e.cp s.d s.del (s.sb == i) i n s.supply
  let s := { s with d := s.d.setAll o.1 }
  match o.2 with
  | none => s
  | some r =>
    let s := match r.newRoot with
      | some (q, _) => { s.rootChanged q with tree := q, kept := s.kept ++ [q] }
      | none => s
    { s with d := s.d.setAll r.writes, supply := r.supply }

/-- `repair_node` (255-284). -/
def RS.repair (e : Env) (s : RS) : Ref → RS
  | .super => s
  | .node i =>
    match s.d i with
    | none => s
    | some n =>
      let s := if n.leaf then s else s.links e i n
      if upOf s.bufs (.node i) = some .super then s.rootChanged i else s

/-- `repair_root_node` (199-237). -/
def RS.repairRoot (e : Env) (s : RS) : Ref → RS
  | .super => s
  | .node i =>
    if s.sb = i then
      match s.d i with
      | none => s
      | some n => if n.hasEdge then s else { s with d := s.d.set i { n with next := none, edge := n.next, cp := e.cp } }
    else s

/-- `recover_buf` (787-811). -/
def RS.recoverBuf (e : Env) : Nat → RS → Ref → RS
  | 0, s, _ => s
  | f + 1, s, r =>
    let s := { s with bufs := s.bufs.addWait r (-1) }
    if waitOf s.bufs r ≠ 0 then s
    else
      let s := if committed e s.d (some r) then (if upOf s.bufs r = some .super then s.repairRoot e r else s)
        else s.repair e r
      match upOf s.bufs r with
      | some u => s.recoverBuf e f u
      | none => s

/-! ## The sanity check -/

/-- `validate_key_order` (btree_node.hpp:310-321). -/
def keyOrder : List (Nat × Nat) → Bool
  | a :: b :: l => decide (a.1 < b.1) && keyOrder (b :: l)
  | _ => true

/-- The children with the parent's keys: entries, then the edge. -/
def Node.kids (n : Node) : List (Option Nat × Id) :=
  n.ents.map (fun e => (some e.1, e.2)) ++ (if n.hasEdge then n.edge.toList.map (fun c => (none, c)) else [])

/-- `validate_node_child_relation` (252-325), the loop; `prev`: the previous child and the parent's key for it. -/
def validKids (d : Disk) (level : Nat) : Option (Node × Nat) → List (Option Nat × Id) → Bool
  | _, [] => true
  | prev, (k, c) :: l =>
    match d c with
    | none => false
    | some n =>
      decide (n.level + 1 = level) &&
      (if n.ents.isEmpty then n.leaf || n.hasEdge
        else match k with | some k => decide (n.firstKey ≤ k) && decide (n.lastKey ≤ k) | none => true) &&
      (match prev with
        | none => true
        | some (pc, pk) =>
          pc.next == some c && (n.ents.isEmpty || ((pc.ents.isEmpty || decide (pc.lastKey < n.firstKey)) && decide (pk < n.firstKey)))) &&
      validKids d level (match k with | some k => some (n, k) | none => none) l

/-- `validate_node` (369-414) with the end of `validate_node_child_relation` and `validate_next_node_relation`. -/
def validNode (d : Disk) (i : Id) : Bool :=
  match d i with
  | none => false
  | some n =>
    let lastKid : Option Node := if n.leaf then none else match n.kids.getLast? with | some c => d c.2 | none => none
    (n.leaf || !n.ents.isEmpty || n.hasEdge) &&
    keyOrder n.ents &&
    (n.leaf || (validKids d n.level none n.kids &&
      (match lastKid with
        | none => true
        | some c => if n.hasEdge then (if c.leaf then c.next.isNone else c.hasEdge) else (if c.leaf then c.next.isSome else !c.hasEdge)))) &&
    !(n.next.isSome && n.hasEdge) &&
    (n.leaf || n.next.isSome || n.hasEdge) &&
    n.next != some i &&
    (match n.next with
      | none => true
      | some q =>
        match d q with
        | none => false
        | some qn =>
          (match lastKid with
            | none => true
            | some c => if qn.ents.isEmpty && !qn.hasEdge then c.next.isNone else c.next.isSome) &&
          decide (qn.level = n.level) &&
          (qn.ents.isEmpty || decide (n.lastKey ≤ qn.firstKey)) &&
          (n.leaf || ((qn.hasEdge || !qn.ents.isEmpty) && (match lastKid with | some c => c.next == qn.firstChild | none => false))))

def freedOf (m : Bufs) (r : Ref) : Bool := match m r with | some b => b.freed | none => false

/-- What recovery ends with: `none` if the process aborts in the sanity check (wb_cache.cpp:727-757). -/
def RS.sanity (s : RS) (order : List Ref) : Option RS :=
  if s.pending.isEmpty then some s
  else if order.all (fun r => match r with
      | .super => true
      | .node i => freedOf s.bufs r || s.skipped.contains r || validNode s.d i) then some s
  else none

/-- The buffers of the journal (`IndexCPContext::recover`, index_cp.cpp:232-328). -/
def readBufs (fuel : Nat) (recs : List Rec) (order : List Ref) : Option Bufs :=
  match Bufs.modifyAll fuel order (recs.foldl Bufs.process (fun _ => none)) with
  | none => none
  | some m => if order.all m.sane then some m else none

/-- `recover` (552-762) with the journal's records, the order of the map of buffers, the disk, the root in the
superblock and the blocks that the allocator gives next.  `none`: the process aborts. -/
def recover (e : Env) (recs : List Rec) (order : List Ref) (d : Disk) (root : Id) (supply : List Id) : Option RS :=
  match readBufs e.fuel recs order with
  | none => none
  | some bufs =>
    let s : RS := { d, del := e.del, bufs, sb := root, sbDisk := root, sbDirty := false, tree := root, supply, pending := [],
                    pruned := [], skipped := [], kept := [], gone := [] }
    let s := order.foldl (RS.first e) s
    let s := s.pending.foldl (RS.recoverBuf e e.fuel) s
    let s := s.pruned.foldl (RS.repair e) s
    s.sanity order

/-! ## Looking up a key (specification) -/

/-- The child of an interior node for a key: the first whose key is not smaller, else the edge. -/
def Node.route (n : Node) (k : Nat) : Option Id :=
  match n.ents.find? (fun e => decide (k ≤ e.1)) with
  | some e => some e.2
  | none => n.edge

/-- The value of a key in a leaf. -/
def Node.value (n : Node) (k : Nat) : Option Nat := (n.ents.find? (fun e => e.1 == k)).map (·.2)

/-- The value of a key in the tree under a node. -/
def get (d : Disk) : Nat → Id → Nat → Option Nat
  | 0, _, _ => none
  | f + 1, i, k =>
    match d i with
    | none => none
    | some n => if n.leaf then n.value k else match n.route k with | some c => get d f c k | none => none

end HS.Index.Recover
