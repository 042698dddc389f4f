import Mathlib.Order.Defs.LinearOrder
import Mathlib.Data.List.Basic

/-!
# B-tree nodes

Model of one B-tree node as the tree code sees it: an ordered list of key/value entries, an optional
edge value, and the size arithmetic of the node formats.

Sources (all under `/repo/src/include/homestore/btree/detail/`): `btree_node.hpp` (search),
`variant_node.hpp` (batch operations on a leaf), `simple_node.hpp` (FIXED format) and
`varlen_node.hpp` (VAR_KEY, VAR_VALUE, VAR_OBJECT formats).

Simplifications, valid for the whole file:
* A node's bytes are represented by the list of its entries.  That the variable-size byte layout
  implements that list is the subject of `Verif/VarNode`.
* The generation number, link version, checksum and magic are left out: no function modelled here
  reads them when operations run one at a time.
* Node locks are left out: operations run one at a time.
* Sizes are `Nat` rather than `uint32_t`; a node is at most 64 KiB (`btree_node.hpp` 68), so no sum
  wraps, except where a wrap is possible and is then modelled.
-/

namespace HS.Btree

/-- How an operation can go wrong instead of returning a status. -/
inductive Fault where
  /-- One of the code's own assertions fails (`BT_NODE_REL_ASSERT`, `RELEASE_ASSERT`, `DEBUG_ASSERT`). -/
  | assert
  /-- Memory outside the node is accessed. -/
  | ub
  /-- The fuel of a loop of the model ran out: with every amount of fuel this means the code loops forever. -/
  | fuel
  deriving DecidableEq, Repr

/-- `btree_internal.hpp` `btree_status_t`, the members that operations below return. -/
inductive Status where
  | success | not_found | has_more | already_exists | filtered_out | not_supported
  | merge_not_required
  deriving DecidableEq, Repr

/-- `btree_kv.hpp` 33-37 `btree_put_type`. -/
inductive PutType where
  | insert | update | upsert
  deriving DecidableEq, Repr

/-- `btree_req.hpp` 83 `put_filter_decision`. -/
inductive Decision where
  | keep | replace | remove
  deriving DecidableEq, Repr

/-- `btree_kv.hpp` 26-31 `MultiMatchOption`. -/
inductive MultiMatch where
  | doNotCare | leftMost | rightMost | mid
  deriving DecidableEq, Repr

/-- `btree_kv.hpp` 86-134 `BtreeKeyRange`. -/
structure KeyRange (K : Type) where
  startKey : K
  startIncl : Bool
  endKey : K
  endIncl : Bool
  opt : MultiMatch := .doNotCare

/-- One node: `btree_node.hpp` 50-93 header fields `node_id`, `next_node`, `edge_info` (an edge id of
`empty_bnodeid` is `none`), plus the entries.  `A` is the value type: user values in a leaf, children in
an interior node.  Simplification: an interior node holds the child itself where the code holds the
child's id and reads it from the store; every node has exactly one parent link. -/
structure Node (K A : Type) where
  id : Nat
  next : Option Nat
  es : List (K × A)
  edge : Option A

/-- Size parameters of one node format.  `data` is `node_data_size()`, `hdr` is `sizeof(var_node_header)`
for the variable formats and 0 for FIXED, `recSz` is `get_record_size()`, `sz` the serialized size of a
key plus a value, `obj` the constant object size of FIXED. -/
structure NK (K A : Type) where
  fixed : Bool
  obj : Nat
  data : Nat
  hdr : Nat
  recSz : Nat
  ksz : K → Nat
  asz : A → Nat

section
variable {K A : Type}

/-- Bytes one entry takes: `simple_node.hpp` `get_nth_obj_size`, `varlen_node.hpp` 522-523
(`obj_size + get_record_size()`). -/
def NK.esz (p : NK K A) (e : K × A) : Nat :=
  if p.fixed then p.obj else p.ksz e.1 + p.asz e.2 + p.recSz

/-- `occupied_size()`: `btree_node.hpp` 544 with `simple_node.hpp` 188-190; `varlen_node.hpp` 74-76. -/
def NK.used (p : NK K A) (es : List (K × A)) : Nat := (es.map p.esz).sum

/-- `available_size()`: `simple_node.hpp` 188-190, `varlen_node.hpp` 453. -/
def NK.avail (p : NK K A) (es : List (K × A)) : Nat := p.data - p.hdr - p.used es

/-- `has_room_for_put`: `simple_node.hpp` 211-219, `varlen_node.hpp` 462-468. -/
def NK.hasRoom (p : NK K A) (t : PutType) (es : List (K × A)) (ksize vsize : Nat) : Bool :=
  if p.fixed then
    match t with
    | .update => true
    | _ => decide (0 < p.avail es / p.obj)
  else
    match t with
    | .update => decide (ksize + vsize ≤ p.avail es)
    | _ => decide (ksize + vsize + p.recSz ≤ p.avail es)

/-- Insert an entry at an index: `simple_node.hpp` 50-62 (`memmove` past the end of the node when it is
full), `varlen_node.hpp` 518-567 (release assertion when there is no room). -/
def NK.insertAt (p : NK K A) (es : List (K × A)) (i : Nat) (k : K) (a : A) :
    Except Fault (List (K × A)) :=
  if es.length < i then .error .ub
  else if p.fixed then
    if p.data < (es.length + 1) * p.obj then .error .ub
    else .ok (es.take i ++ (k, a) :: es.drop i)
  else if p.avail es < p.ksz k + p.asz a + p.recSz then .error .assert
  else .ok (es.take i ++ (k, a) :: es.drop i)

/-- Replace the entry at an index: `simple_node.hpp` 75-83, `varlen_node.hpp` 121-160 (in place when the
new object is not larger, otherwise remove and insert). -/
def NK.replaceAt (p : NK K A) (es : List (K × A)) (i : Nat) (k : K) (a : A) :
    Except Fault (List (K × A)) :=
  match es[i]? with
  | none => .error .ub
  | some cur =>
    if p.fixed then .ok (es.set i (k, a))
    else if p.ksz k + p.asz a ≤ p.ksz cur.1 + p.asz cur.2 then .ok (es.set i (k, a))
    else p.insertAt (es.eraseIdx i) i k a

/-- `update(ind, val)`: `simple_node.hpp` 64-73 with 394-405, `varlen_node.hpp` 108-118. -/
def NK.updateVal (p : NK K A) (nd : Node K A) (i : Nat) (a : A) : Except Fault (Node K A) :=
  if i = nd.es.length then .ok { nd with edge := some a }
  else match nd.es[i]? with
    | none => .error .ub
    | some cur => do
      let es ← p.replaceAt nd.es i cur.1 a
      pure { nd with es := es }

/-- `update(ind, key, val)`: `simple_node.hpp` 75-83, `varlen_node.hpp` 121-160. -/
def NK.updateKV (p : NK K A) (nd : Node K A) (i : Nat) (k : K) (a : A) : Except Fault (Node K A) :=
  if i = nd.es.length then .ok { nd with edge := some a }
  else do
    let es ← p.replaceAt nd.es i k a
    pure { nd with es := es }

/-- `insert(ind, key, val)` on a node. -/
def NK.insertNode (p : NK K A) (nd : Node K A) (i : Nat) (k : K) (a : A) : Except Fault (Node K A) := do
  let es ← p.insertAt nd.es i k a
  pure { nd with es := es }

/-- `remove(ind_s, ind_e)`, both inclusive: `simple_node.hpp` 86-109, `varlen_node.hpp` 163-191.  When
`ind_e` is the edge position, the value before `ind_s` becomes the edge. -/
def Node.removeRange (nd : Node K A) (s e : Nat) : Except Fault (Node K A) :=
  if nd.es.length < s ∨ nd.es.length < e then .error .assert
  else if e = nd.es.length then
    if nd.edge.isNone then .error .assert
    else match s with
      | 0 => .error .ub
      | s' + 1 =>
        match nd.es[s']? with
        | none => .error .ub
        | some x => .ok { nd with es := nd.es.take s', edge := some x.2 }
  else if e < s then .error .ub
  else .ok { nd with es := nd.es.take s ++ nd.es.drop (e + 1) }

/-- The child (or value) at a position, the edge value at position `total_entries()`:
`btree_node_mgr.ipp` 72-91 `get_child_and_lock_node`, `simple_node.hpp` 198-209. -/
def Node.valAt (nd : Node K A) (i : Nat) : Option A :=
  if i = nd.es.length then nd.edge else (nd.es[i]?).map (·.2)

/-- Put a (modified) child back at its position.  The code modifies the child in place in the store; the
model holds it inside its parent. -/
def Node.setVal (nd : Node K A) (i : Nat) (a : A) : Node K A :=
  if i = nd.es.length then { nd with edge := some a }
  else { nd with es := nd.es.modify i (fun e => (e.1, a)) }

/-- `num_entries_by_size`: `simple_node.hpp` 155-157, `varlen_node.hpp` 298-310 (running sum). -/
def countBySize (p : NK K A) : List (K × A) → Nat → Nat
  | [], _ => 0
  | e :: es, size => if size < p.esz e then 0 else countBySize p es (size - p.esz e) + 1

/-- `num_entries_by_size(start, size)`. -/
def NK.numBySize (p : NK K A) (es : List (K × A)) (start size : Nat) : Nat :=
  if p.fixed then min (size / p.obj) (es.length - start) else countBySize p (es.drop start) size

/-- Entries that `move_out_to_right_by_size` moves: `simple_node.hpp` 151-153 with 120-149 (the
destination is a new empty node), `varlen_node.hpp` 259-296 (from the right end, never the entry at
index 0). -/
def NK.numToMove (p : NK K A) (es : List (K × A)) (size : Nat) : Nat :=
  if p.fixed then min (min (size / p.obj) es.length) (p.data / p.obj)
  else countBySize p es.tail.reverse size

end

section
variable {K A : Type} [LinearOrder K]

/-- The binary search loop, `btree_node.hpp` 456-478, with `start` and `end` as in the code.
`compare_nth_key(key, mid)` is `nth_key.compare(key)` (`variant_node.hpp` 173-175); `compare` is taken to
be a total order on keys.  `none`: the loop reads an entry that does not exist. -/
def bsearchLoop (es : List (K × A)) (key : K) (start fin : Int) : Option (Bool × Nat) :=
  if h : fin - start > 1 then
    let mid := start + (fin - start) / 2
    match es[mid.toNat]? with
    | none => none
    | some e =>
      if e.1 = key then some (true, mid.toNat)
      else if key < e.1 then bsearchLoop es key start mid
      else bsearchLoop es key mid fin
  else some (false, fin.toNat)
termination_by (fin - start).toNat
decreasing_by all_goals omega

/-- `bsearch_node`, `btree_node.hpp` 448-454 and 461 (empty node: index 0). -/
def bsearch (es : List (K × A)) (key : K) : Option (Bool × Nat) :=
  bsearchLoop es key (-1) es.length

/-- `match_range`, `btree_node.hpp` 186-222.  `none`: bad access; otherwise the returned flag and the two
indices. -/
def matchRange (leaf : Bool) (nd : Node K A) (r : KeyRange K) : Option (Bool × Nat × Nat) := do
  let (sf, s0) ← bsearch nd.es r.startKey
  let s := if sf && !r.startIncl then s0 + 1 else s0
  let hasEdge := !leaf && nd.edge.isSome
  if s = nd.es.length then pure (hasEdge, s, s)
  else do
    let (ef, e0) ← bsearch nd.es r.endKey
    if leaf || (e0 = nd.es.length && !hasEdge) then
      if !ef || !r.endIncl then
        if e0 = 0 then pure (false, s, e0)
        else if s > e0 - 1 then pure (false, s, e0 - 1)
        else pure (true, s, e0 - 1)
      else if s > e0 then pure (false, s, e0) else pure (true, s, e0)
    else pure (true, s, e0)

end

/-! ## Operations on a leaf -/

section
variable {K V : Type} [LinearOrder K]

/-- The filter of a put rejects the update of an existing entry: `variant_node.hpp` 211-216. -/
def rejects (filter : Option (K → V → V → Decision)) (k : K) (old new : V) : Bool :=
  match filter with
  | some f => f k old new != .replace
  | none => false

/-- The filter of a range remove selects the entry: `variant_node.hpp` 307. -/
def selects (filter : Option (K → V → Bool)) (k : K) (v : V) : Bool :=
  match filter with
  | some f => f k v
  | none => true

/-- What a range put does with a matched entry: `variant_node.hpp` 279-289. -/
def decision (filter : Option (K → V → V → Decision)) (k : K) (old new : V) : Decision :=
  match filter with
  | some f => f k old new
  | none => .replace

/-- `VariantNode::put`, `variant_node.hpp` 198-234 (also reached through `BtreeNode::find`,
`btree_node.hpp` 169-184).  Returns the new entries, the status and what `existing_val` received. -/
def leafPut (p : NK K V) (es : List (K × V)) (k : K) (v : V) (t : PutType)
    (filter : Option (K → V → V → Decision)) : Except Fault (List (K × V) × Status × Option V) :=
  match bsearch es k with
  | none => .error .ub
  | some (found, idx) =>
    if found then
      match es[idx]? with
      | none => .error .ub
      | some cur =>
        if rejects filter cur.1 cur.2 v then
          .ok (es, .filtered_out, some cur.2)
        else match t with
          | .insert => .ok (es, .already_exists, some cur.2)
          | _ => do
            let es' ← p.replaceAt es idx k v
            pure (es', .success, some cur.2)
    else match t with
      | .update => .ok (es, .not_found, none)
      | _ => do
        let es' ← p.insertAt es idx k v
        pure (es', .success, none)

/-- `BtreeNode::remove_one`, `btree_node.hpp` 235-243. -/
def leafRemoveOne (es : List (K × V)) (k : K) : Except Fault (List (K × V) × Option V) :=
  match bsearch es k with
  | none => .error .ub
  | some (found, idx) =>
    if found then
      match es[idx]? with
      | none => .error .ub
      | some cur => .ok (es.eraseIdx idx, some cur.2)
    else .ok (es, none)

/-- `VariantNode::multi_get`, `variant_node.hpp` 59-80: the entries appended to `out_values`, and the
returned count. -/
def multiGet (nd : Node K V) (r : KeyRange K) (maxCount : Nat) (filter : Option (K → V → Bool)) :
    Except Fault (List (K × V) × Nat) :=
  match matchRange true nd r with
  | none => .error .ub
  | some (false, _, _) => .ok ([], 0)
  | some (true, s, e) =>
    let count := min (e - s + 1) maxCount
    let sel := (nd.es.drop s).take count
    let out := sel.filter (fun x => selects filter x.1 x.2)
    .ok (out, count - (sel.length - out.length))

/-- `VariantNode::get_any`, `variant_node.hpp` 101-165 (no filter: neither caller passes one,
`btree_get_impl.ipp` 30, `btree_node.hpp` 247).  `.error .ub` when the result index is past the end. -/
def getAny (es : List (K × V)) (r : KeyRange K) : Except Fault (Option (Nat × K × V)) :=
  match bsearch es r.startKey with
  | none => .error .ub
  | some (sf0, s0) =>
    let s := if sf0 && !r.startIncl then s0 + 1 else s0
    let sf := sf0 && r.startIncl
    let pick (i : Nat) : Except Fault (Option (Nat × K × V)) :=
      match es[i]? with
      | none => .error .ub
      | some x => .ok (some (i, x.1, x.2))
    if sf && (r.opt == .doNotCare || r.opt == .leftMost) then pick s
    else if s = es.length then .ok none
    else match bsearch es r.endKey with
      | none => .error .ub
      | some (ef0, e0) =>
        if ef0 && !r.endIncl && e0 == 0 then .ok none
        else
          let e := if ef0 && !r.endIncl then e0 - 1 else e0
          let ef := ef0 && r.endIncl
          if s < e then
            match r.opt with
            | .rightMost => pick e
            | .mid => pick ((e - s) / 2)
            | _ => pick s
          else if s = e && (sf || ef) then pick s
          else .ok none

/-- `VariantNode::multi_remove`, `variant_node.hpp` 303-313: the loop over `removed_count` entries. -/
def multiRemoveLoop (filter : Option (K → V → Bool)) :
    Nat → List (K × V) → Nat → Nat → Except Fault (List (K × V) × Nat)
  | 0, es, _, ret => .ok (es, ret)
  | cnt + 1, es, s, ret =>
    match es[s]? with
    | none => .error .ub
    | some x =>
      if selects filter x.1 x.2 then
        multiRemoveLoop filter cnt (es.eraseIdx s) s ret
      else multiRemoveLoop filter cnt es (s + 1) (ret - 1)

/-- `VariantNode::multi_remove`, `variant_node.hpp` 295-315. -/
def multiRemove (nd : Node K V) (r : KeyRange K) (filter : Option (K → V → Bool)) :
    Except Fault (List (K × V) × Nat) :=
  match matchRange true nd r with
  | none => .error .ub
  | some (false, _, _) => .ok (nd.es, 0)
  | some (true, s, e) => multiRemoveLoop filter (e - s + 1) nd.es s (e - s + 1)

/-- The loop of `VariantNode::multi_put`, `variant_node.hpp` 274-290, from index `idx` to `endIdx`.  A
`remove` decision removes the entry and looks at the same index again, while `endIdx` stays.  Fuel: one
unit per iteration. -/
def multiPutLoop (p : NK K V) (v : V) (filter : Option (K → V → V → Decision)) (endIdx : Nat) :
    Nat → List (K × V) → Nat → Except Fault (List (K × V) × Status × Option K)
  | 0, _, _ => .error .fuel
  | fuel + 1, es, idx =>
    if endIdx < idx then .ok (es, .success, none)
    else match es[idx]? with
      | none => .error .ub
      | some x =>
        if !p.hasRoom .update es (p.ksz x.1) (p.asz v) then .ok (es, .has_more, some x.1)
        else
          match decision filter x.1 x.2 v with
          | .replace => do
            let es' ← p.replaceAt es idx x.1 v
            multiPutLoop p v filter endIdx fuel es' (idx + 1)
          | .remove => multiPutLoop p v filter endIdx fuel (es.eraseIdx idx) idx
          | .keep => multiPutLoop p v filter endIdx fuel es (idx + 1)

/-- `VariantNode::multi_put`, `variant_node.hpp` 259-292. -/
def multiPut (p : NK K V) (nd : Node K V) (r : KeyRange K) (v : V) (t : PutType)
    (filter : Option (K → V → V → Decision)) : Except Fault (List (K × V) × Status × Option K) :=
  if t ≠ .update then .ok (nd.es, .not_supported, none)
  else match matchRange true nd r with
    | none => .error .ub
    | some (false, _, _) => .ok (nd.es, .not_found, none)
    | some (true, s, e) => multiPutLoop p v filter e (nd.es.length + 1) nd.es s

end
end HS.Btree
