import Verif.Btree.Node

/-!
# The B-tree: put, get, remove, range operations and queries

Sources under `/repo/src/include/homestore/btree/`: `btree.ipp`, `detail/btree_mutate_impl.ipp`,
`detail/btree_get_impl.ipp`, `detail/btree_remove_impl.ipp`, `detail/btree_query_impl.ipp`,
`btree_kv.hpp` (traversal state of range requests), `detail/btree_internal.hpp` (configuration).

Simplifications, valid for the whole file:
* Operations run one at a time: node locks, lock upgrades and the `retry` status they produce are left
  out, and so are the root lock and its release on error paths.
* Node allocation, `write_node`, `transact_nodes` and `on_root_changed` succeed (they are the index
  layer's business); their effect here is the in-memory change only.
* Formats FIXED and VAR_*: the PREFIX format is not modelled.
* `_PRERELEASE` test limits (`max_keys_in_node`) are unset.
* Debug-only re-validation blocks (`#ifndef NDEBUG`) are left out; they change nothing.
* An interior node holds its children (see `Node`); a tree of level `n` has its leaves `n` links down.
-/

namespace HS.Btree

/-- What a node of level `n` stores as values: user values in a leaf, nodes of level `n` in a node of level
`n + 1`.  The level is `persistent_hdr_t::level`, set at `btree_mutate_impl.ipp` 221 and 267. -/
def Val (K V : Type) : Nat → Type
  | 0 => V
  | n + 1 => Node K (Val K V n)

/-- A subtree whose top node has level `n`. -/
abbrev Tree (K V : Type) (n : Nat) : Type := Node K (Val K V n)

/-- `BtreeConfig`, `btree_internal.hpp` 243-308, plus the key and value sizes of the instantiation. -/
structure Cfg (K V : Type) where
  nodeData : Nat
  leafFixed : Bool
  leafObj : Nat
  leafRec : Nat
  intFixed : Bool
  intObj : Nat
  intRec : Nat
  ksz : K → Nat
  vsz : V → Nat
  kmax : Nat
  keyFixed : Bool
  dfltKey : K
  splitPct : Nat := 50
  idealPct : Nat := 90
  minPct : Nat := 30
  maxMergeNodes : Nat := 3
  maxMergeLevel : Nat := 1
  mergeOn : Bool := true
  rebalOn : Bool := false

section
variable {K V : Type}

/-- `BtreeLinkInfo::get_fixed_size()`, `btree_kv.hpp` 247-250, 277: two 64-bit words. -/
def linkSize : Nat := 16

/-- `sizeof(var_node_header)`, `varlen_node.hpp` 32-43: three 16-bit words. -/
def varHdr : Nat := 6

/-- Size parameters of the nodes of level `n`: `btree_node_mgr.ipp` `init_node`. -/
def Cfg.nk (c : Cfg K V) : (n : Nat) → NK K (Val K V n)
  | 0 => { fixed := c.leafFixed, obj := c.leafObj, data := c.nodeData,
           hdr := if c.leafFixed then 0 else varHdr, recSz := c.leafRec, ksz := c.ksz, asz := c.vsz }
  | _ + 1 => { fixed := c.intFixed, obj := c.intObj, data := c.nodeData,
               hdr := if c.intFixed then 0 else varHdr, recSz := c.intRec, ksz := c.ksz,
               asz := fun _ => linkSize }

/-- `ideal_fill_size()`, `btree_internal.hpp` 284-288. -/
def Cfg.idealFill (c : Cfg K V) : Nat := c.nodeData * c.idealPct / 100

/-- `suggested_min_size()`, `btree_internal.hpp` 284-288. -/
def Cfg.minFill (c : Cfg K V) : Nat := c.nodeData * c.minPct / 100

/-- `BtreeNode::get_last_key`, `btree_node.hpp` 299-302: the default-constructed key if there is none. -/
def lastKey {A : Type} (dflt : K) (nd : Node K A) : K := (nd.es.getLast?.map (·.1)).getD dflt

end

/-! ## Split -/

section
variable {K V : Type} {A : Type}

/-- The part of `split_node` about the child, `btree_mutate_impl.ipp` 255-284: the left half, the new right
half and the split key. -/
def splitNode (p : NK K A) (splitPct : Nat) (nd : Node K A) (newId : Nat) :
    Except Fault (Node K A × Node K A × K) :=
  let filled := p.data - p.avail nd.es
  let m := p.numToMove nd.es (filled * splitPct / 100)
  if m = 0 then .error .assert                                             -- 274
  else
    match (nd.es.take (nd.es.length - m)).getLast? with
    | none => .error .assert                                               -- 276
    | some x =>
      .ok ({ nd with next := some newId, es := nd.es.take (nd.es.length - m), edge := none },
           { id := newId, next := nd.next, es := nd.es.drop (nd.es.length - m), edge := nd.edge },
           x.1)

/-- `split_node`, `btree_mutate_impl.ipp` 255-304: split the child at position `idx` of the parent. -/
def splitIn (p : NK K (Node K A)) (pc : NK K A) (splitPct : Nat) (t : Node K (Node K A)) (idx : Nat)
    (child : Node K A) (newId : Nat) : Except Fault (Node K (Node K A)) := do
  let (c1, c2, k) ← splitNode pc splitPct child newId
  let t1 ← p.updateVal t idx c2                                            -- 292
  p.insertNode t1 idx k c1                                                 -- 293

end

/-! ## Single put -/

section
variable {K V : Type} [LinearOrder K]

/-- `BtreeSinglePutRequest`, `btree_req.hpp` 86-101. -/
structure PutReq (K V : Type) where
  key : K
  val : V
  type : PutType
  filter : Option (K → V → V → Decision) := none

/-- `is_split_needed`, `btree_mutate_impl.ipp` 306-319, for a single put. -/
def splitNeeded (c : Cfg K V) (r : PutReq K V) : (n : Nat) → Tree K V n → Bool
  | 0, nd => !(c.nk 0).hasRoom r.type nd.es (c.ksz r.key) (c.vsz r.val)
  | n + 1, nd => !(c.nk (n + 1)).hasRoom .upsert nd.es c.kmax linkSize

/-- The interior part of `do_put`, `btree_mutate_impl.ipp` 34-169, for a single put: find the child, split
it and search again, or descend.  `rec` is `do_put` on a child.  Besides the subtree it threads the next
free node id.  One unit of fuel per `goto retry`. -/
def putLoop (c : Cfg K V) (r : PutReq K V) (n : Nat)
    (rec : Tree K V n → Nat → Except Fault (Tree K V n × Nat × Status × Option V)) :
    Nat → Tree K V (n + 1) → Nat → Except Fault (Tree K V (n + 1) × Nat × Status × Option V)
  | 0, _, _ => .error .fuel
  | f + 1, t, nid =>
    match bsearch t.es r.key with
    | none => .error .ub
    | some (_, idx) =>
      match t.valAt idx with
      | none => .error .assert
      | some (ch : Tree K V n) =>
        if splitNeeded c r n ch then do
          let t' ← splitIn (c.nk (n + 1)) (c.nk n) c.splitPct t idx ch nid
          putLoop c r n rec f t' (nid + 1)
        else do
          let (ch', nid', st, ex) ← rec ch nid
          pure (t.setVal idx ch', nid', st, ex)

/-- `do_put` for a single put; at a leaf `mutate_write_leaf_node`, `btree_mutate_impl.ipp` 171-193. -/
def doPut (c : Cfg K V) (r : PutReq K V) (fuel : Nat) :
    (n : Nat) → Tree K V n → Nat → Except Fault (Tree K V n × Nat × Status × Option V)
  | 0, t, nid => do
    let (es, st, ex) ← leafPut (c.nk 0) t.es r.key r.val r.type r.filter
    pure ({ t with es := es }, nid, st, ex)
  | n + 1, t, nid => putLoop c r n (doPut c r fuel n) fuel t nid

/-- A whole tree: the root (`m_root_node_info`) with its level, and the next free node id of the store. -/
structure BT (K V : Type) where
  lvl : Nat
  root : Tree K V lvl
  nid : Nat

/-- `create_root_node`, `btree_node_mgr.ipp` 30-51: one empty leaf. -/
def BT.empty : BT K V := { lvl := 0, root := { id := 0, next := none, es := [], edge := none }, nid := 1 }

/-- `check_split_root`, `btree_mutate_impl.ipp` 197-251: a new root above the two halves of the old one.
The node ids are taken in the order of allocation. -/
def splitRoot (c : Cfg K V) (b : BT K V) : Except Fault (BT K V) := do
  let (c1, c2, k) ← splitNode (c.nk b.lvl) c.splitPct b.root (b.nid + 1)
  let r0 : Tree K V (b.lvl + 1) := { id := b.nid, next := none, es := [], edge := none }
  let r1 ← (c.nk (b.lvl + 1)).updateVal r0 0 c2
  let r2 ← (c.nk (b.lvl + 1)).insertNode r1 0 k c1
  pure { lvl := b.lvl + 1, root := r2, nid := b.nid + 2 }

/-- `Btree::put` for a single put, `btree.ipp` 84-149.  Fuel: one unit per `goto retry`. -/
def put (c : Cfg K V) (r : PutReq K V) : Nat → BT K V → Except Fault (BT K V × Status × Option V)
  | 0, _ => .error .fuel
  | f + 1, b =>
    if splitNeeded c r b.lvl b.root then do
      let b' ← splitRoot c b
      put c r f b'
    else do
      let (t, nid, st, ex) ← doPut c r f b.lvl b.root b.nid
      pure ({ lvl := b.lvl, root := t, nid := nid }, st, ex)

/-! ## Single get -/

/-- `do_get` for a single get, `btree_get_impl.ipp` 20-63.  `none`: `not_found`. -/
def doGet : (n : Nat) → Tree K V n → K → Except Fault (Option V)
  | 0, t, k =>
    match bsearch t.es k with
    | none => .error .ub
    | some (found, idx) =>
      if found then
        match t.es[idx]? with
        | none => .error .ub
        | some x => .ok (some x.2)
      else .ok none
  | n + 1, t, k =>
    match bsearch t.es k with
    | none => .error .ub
    | some (_, idx) =>
      match t.valAt idx with
      | none => .error .assert
      | some (ch : Tree K V n) => doGet n ch k

/-- `Btree::get` for a single get, `btree.ipp` 152-174. -/
def get (b : BT K V) (k : K) : Except Fault (Option V) := doGet b.lvl b.root k

end

/-! ## Merge -/

section
variable {K A : Type}

/-- The children at `n` positions from `i` on, as `btree_remove_impl.ipp` 308-328 reads them; `none` when
one is missing. -/
def Node.childrenAt (t : Node K A) : Nat → Nat → Option (List A)
  | _, 0 => some []
  | i, n + 1 => do
    let c ← t.valAt i
    let cs ← t.childrenAt (i + 1) n
    pure (c :: cs)

/-- `copy_by_entries`, `simple_node.hpp` 164-186, `varlen_node.hpp` 340-364. -/
def copyByEntries (p : NK K A) (dst src : Node K A) (start n : Nat) : Except Fault (Node K A × Nat) :=
  let m0 := min n (src.es.length - start)
  let m := if p.fixed then min m0 (p.avail dst.es / p.obj) else m0
  let chunk := (src.es.drop start).take m
  if !p.fixed && decide (p.avail dst.es < p.used chunk) then .error .assert
  else
    .ok ({ dst with
            es := dst.es ++ chunk,
            edge := if src.edge.isSome ∧ start + m = src.es.length then src.edge else dst.edge }, m)

/-- `copy_by_size`, `simple_node.hpp` 159-162, `varlen_node.hpp` 312-338. -/
def copyBySize (p : NK K A) (dst src : Node K A) (start size : Nat) : Except Fault (Node K A × Nat) :=
  copyByEntries p dst src start (p.numBySize src.es start size)

/-- Result of the dry run over the nodes to be merged into the leftmost node. -/
structure LeftPlan where
  /-- `leftmost_src.ith_nodes` is `0 .. pushed - 1`. -/
  pushed : Nat
  /-- `leftmost_src.last_node_upto`. -/
  upto : Nat
  /-- `src_cursor`. -/
  ith : Nat
  nth : Nat
  /-- Sum of the `nentries`. -/
  moved : Nat
  deriving DecidableEq, Repr

/-- The dry run, `btree_remove_impl.ipp` 381-431, from old node `i` on with `avail` bytes left.
Simplification: `available_size` never becomes negative, because the entries of a node are only counted as
"entire node goes in" when their size fits (formats FIXED and VAR_*). -/
def leftPlan (p : NK K A) : List (Node K A) → Nat → Nat → LeftPlan
  | [], i, _ => { pushed := i, upto := 0, ith := i, nth := 0, moved := 0 }
  | o :: os, i, avail =>
    let ne := p.numBySize o.es 0 avail
    if o.es.length - ne = 0 then
      if os.isEmpty then { pushed := i + 1, upto := ne, ith := i + 1, nth := 0, moved := ne }
      else
        let r := leftPlan p os (i + 1) (avail - p.used o.es)
        { r with moved := r.moved + ne }
    else { pushed := i + 1, upto := ne, ith := i, nth := ne, moved := ne }

/-- State of the loop that copies what is left into new nodes. -/
structure NewSt (K A : Type) where
  ith : Nat
  nth : Nat
  avail : Int
  news : List (Node K A)
  totSize : Nat
  totEnt : Nat
  nid : Nat

/-- `available_size` passed as `uint32_t`. -/
def u32 (x : Int) : Nat := (x % 4294967296).toNat

/-- The loop of `merge_nodes` that fills new nodes, `btree_remove_impl.ipp` 434-478.  One unit of fuel per
iteration. -/
def newLoop (p : NK K A) (bal num : Nat) (olds : List (Node K A)) :
    Nat → NewSt K A → Except Fault (NewSt K A)
  | 0, _ => .error .fuel
  | f + 1, s =>
    match olds[s.ith]? with
    | none => .ok s                                                        -- 436
    | some old =>
      let alloc : Bool := s.avail = 0 && 0 < s.totEnt                      -- 437
      let news := if alloc then s.news ++ [{ id := s.nid, next := none, es := [], edge := none }] else s.news
      let avail : Int := if alloc then (bal : Int) else s.avail
      let nid := if alloc then s.nid + 1 else s.nid
      match news.getLast? with
      | none => if s.totEnt = 0 then .ok s else .error .assert             -- 447-451
      | some nn => do
        let (nn', m) ← copyBySize p nn old s.nth (u32 avail)               -- 455
        let news' := news.dropLast ++ [nn']
        let copied := p.used nn'.es - p.used nn.es
        let totSize := if copied < s.totSize then s.totSize - copied else 0
        let totEnt := s.totEnt - m
        if old.es.length = s.nth + m then                                  -- 459
          newLoop p bal num olds f
            { ith := s.ith + 1, nth := 0, avail := (bal : Int) - p.used nn'.es, news := news',
              totSize := totSize, totEnt := totEnt, nid := nid }
        else if news'.length = num - 1 ∧ totSize < p.avail nn'.es then     -- 468
          newLoop p bal num olds f
            { ith := s.ith, nth := s.nth + m, avail := p.avail nn'.es, news := news',
              totSize := totSize, totEnt := totEnt, nid := nid }
        else
          newLoop p bal num olds f
            { ith := s.ith, nth := s.nth + m, avail := 0, news := news',
              totSize := totSize, totEnt := totEnt, nid := nid }

/-- Copy the planned entries into the leftmost node, `btree_remove_impl.ipp` 530-536.  Simplification: the
code passes the largest 32-bit number for "all entries"; the number of entries is a 32-bit number itself. -/
def fillLeft (p : NK K A) (upto : Nat) : List (Node K A) → Node K A → Except Fault (Node K A)
  | [], l => .ok l
  | o :: os, l => do
    let (l', _) ← copyByEntries p l o 0 (if os.isEmpty then upto else o.es.length)
    fillLeft p upto os l'

/-- Set the sibling links of the new nodes from right to left, `btree_remove_impl.ipp` 552-564: the
nodes with their links, and the link for the node to their left. -/
def linkNews (next : Option Nat) : List (Node K A) → List (Node K A) × Option Nat
  | [] => ([], next)
  | x :: xs =>
    let (xs', nx) := linkNews next xs
    ({ x with next := nx } :: xs', some x.id)

end

section
variable {K A : Type} [LinearOrder K]

/-- Enter the new nodes into the parent at positions `s, s + 1, ...`, `btree_remove_impl.ipp` 555-564.
Simplification: left to right instead of right to left; the positions are different, and a variable-size
parent that has no room fails either way. -/
def enterNews (p : NK K (Node K A)) : List (Node K A) → Nat → Node K (Node K A) →
    Except Fault (Node K (Node K A))
  | [], _, t => .ok t
  | x :: xs, i, t =>
    match x.es.getLast? with
    | none => .error .assert                                               -- 558
    | some e => do
      let t' ← p.updateKV t i e.1 x
      enterNews p xs (i + 1) t'

/-- Check that a parent with keys of variable size has room for the new keys, `btree_remove_impl.ipp`
505-526, with the operator precedence of the code: the excess is 0 or 1, and the factor of the key size is
`new_nodes.size() - 1` in 64-bit arithmetic. -/
def parentRoom (kmax : Nat) (parentAvail parentTotal endIdx nOld nNew : Nat) : Bool :=
  let cond := if parentTotal = endIdx then 1 else 0
  let excess := if (nOld : Int) - nNew - cond ≠ 0 then 1 else 0
  let factor := if nNew = 0 then 18446744073709551615 else nNew - 1
  decide (factor * kmax % 18446744073709551616 ≤ parentAvail + excess * linkSize)

/-- Remove the children that are no longer needed, `btree_remove_impl.ipp` 539-543. -/
def dropExcess (t : Node K (Node K A)) (start excess : Nat) : Except Fault (Node K (Node K A)) :=
  if excess = 0 then .ok t else t.removeRange (start + 1) (start + excess)

/-- Update the leftmost node's key, `btree_remove_impl.ipp` 569-573; without entries its key stays. -/
def enterLeft (p : NK K (Node K A)) (t : Node K (Node K A)) (start : Nat) (left : Node K A) :
    Except Fault (Node K (Node K A)) :=
  match left.es.getLast? with
  | none => .ok (t.setVal start left)
  | some e => p.updateKV t start e.1 left

/-- A parent without an edge keeps its last key, `btree_remove_impl.ipp` 575-581. -/
def keepLastKey (p : NK K (Node K A)) (t : Node K (Node K A)) (plast : K) (last : Node K A) :
    Except Fault (Node K (Node K A)) :=
  match t.es.getLast? with
  | none => .ok t
  | some e =>
    if t.edge.isSome || e.1 = plast then .ok t
    else p.updateKV t (t.es.length - 1) plast last

/-- The last part of `merge_nodes`, `btree_remove_impl.ipp` 529-583.  `plast_key` is read at 271. -/
def mergeCommit (p : NK K (Node K A)) (pc : NK K A) (dflt : K) (t : Node K (Node K A))
    (left : Node K A) (olds news : List (Node K A)) (plan : LeftPlan) (start fin : Nat) :
    Except Fault (Node K (Node K A)) := do
  let left1 ← fillLeft pc plan.upto (olds.take plan.pushed) left
  let excess := olds.length - news.length
  let t1 ← dropExcess t start excess
  let ln := linkNews ((olds.getLast?).bind (·.next)) news
  let t2 ← enterNews p ln.1 (fin - excess + 1 - news.length) t1
  let left2 := { left1 with next := ln.2 }
  let t3 ← enterLeft p t2 start left2
  keepLastKey p t3 (lastKey dflt t) (ln.1.getLast?.getD left2)

/-- Number of nodes the entries of `total` bytes are to be spread over, `btree_remove_impl.ipp` 330. -/
def mergeNum (total ideal : Nat) : Nat := if total = 0 then 1 else (total - 1) / ideal + 1

/-- Bytes per node, `btree_remove_impl.ipp` 342. -/
def mergeBal (total num : Nat) : Nat := if total = 0 then 0 else (total - 1) / num + 1

/-- `merge_nodes` from the dry run on, `btree_remove_impl.ipp` 381-583. -/
def mergeBuild {V : Type} (c : Cfg K V) (p : NK K (Node K A)) (pc : NK K A) (fuel : Nat)
    (t : Node K (Node K A)) (left : Node K A) (olds : List (Node K A)) (total num bal start fin nid : Nat) :
    Except Fault (Option (Node K (Node K A)) × Nat) := do
  let plan := leftPlan pc olds 0 (bal - pc.used left.es)
  let s ← newLoop pc bal num olds fuel
    { ith := plan.ith, nth := plan.nth, avail := 0, news := [],
      totSize := total - pc.used left.es - (bal - pc.used left.es),
      totEnt := (olds.map (fun o => o.es.length)).sum - plan.moved, nid := nid }
  if s.totEnt ≠ 0 then .error .assert                                      -- 480
  else if olds.length < s.news.length then pure (none, s.nid)              -- 485
  else if s.news.length = olds.length ∧
      (olds.head?.map (fun o => pc.used o.es)) = (s.news.head?.map (fun o => pc.used o.es)) then
    pure (none, s.nid)                                                     -- 496
  else if !c.keyFixed &&
      !parentRoom c.kmax (p.avail t.es) t.es.length fin olds.length s.news.length then
    pure (none, s.nid)
  else do
    let t' ← mergeCommit p pc c.dfltKey t left olds s.news plan start fin
    pure (some t', s.nid)

/-- `merge_nodes`, `btree_remove_impl.ipp` 243-639: merge the children at positions `start + 1 .. fin` into
the one at `start` and new nodes.  `none`: `merge_not_required`.  `fuel` bounds the loop that fills the
new nodes. -/
def mergeNodes {V : Type} (c : Cfg K V) (p : NK K (Node K A)) (pc : NK K A) (fuel : Nat)
    (t : Node K (Node K A)) (start fin nid : Nat) :
    Except Fault (Option (Node K (Node K A)) × Nat) :=
  if !c.mergeOn then .ok (none, nid)                                       -- 245
  else
    match t.valAt start, t.childrenAt (start + 1) (fin - start) with
    | some left, some olds =>
      let total := pc.used left.es + (olds.map (fun o => pc.used o.es)).sum
      if total ≠ 0 ∧ c.idealFill = 0 then .error .ub
      else if olds.length + 1 ≤ mergeNum total c.idealFill ∧ !c.rebalOn then .ok (none, nid)         -- 333
      else if mergeBal total (mergeNum total c.idealFill) < pc.used left.es then .ok (none, nid)     -- 346
      else mergeBuild c p pc fuel t left olds total (mergeNum total c.idealFill)
        (mergeBal total (mergeNum total c.idealFill)) start fin nid
    | _, _ => .error .assert

end
end HS.Btree
