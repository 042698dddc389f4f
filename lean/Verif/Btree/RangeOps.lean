import Verif.Btree.Query

/-!
# Range remove and range update on the tree

Sources: `btree_remove_impl.ipp` 20-176, `btree_mutate_impl.ipp` 32-195 and 306-319, `btree_kv.hpp` 178-239 (the
working range), `btree.ipp` 84-234.  The simplifications of `Tree.lean` apply.
-/

namespace HS.Btree

section
variable {K V A : Type} [LinearOrder K]

/-- `BtreeTraversalState` without the input range, `btree_kv.hpp` 182-186. -/
structure WS (K : Type) where
  range : KeyRange K
  trimmed : Bool := false
  exhausted : Bool := false

/-- `working_range()`, `btree_kv.hpp` 195-198: must not be asked for when exhausted. -/
def WS.get (w : WS K) : Except Fault (KeyRange K) := if w.exhausted then .error .assert else .ok w.range

/-- The trimming to the child's key before descending into a leaf, `btree_remove_impl.ipp` 128-141,
`btree_mutate_impl.ipp` 102-117, with `trim_working_range`, `btree_kv.hpp` 201-204.  `none`: the child is the
edge, or the root. -/
def WS.trimTo (w : WS K) : Option K → Except Fault (WS K)
  | none => .ok w
  | some k => do
    let r ← w.get
    if k < r.endKey then
      pure { range := { r with endKey := k, endIncl := true }, trimmed := true, exhausted := w.exhausted }
    else pure w

/-- `shift_working_range()`, `btree_kv.hpp` 207-216; `I` is the input range. -/
def WS.shift (I : KeyRange K) (w : WS K) : WS K :=
  if w.trimmed then
    { range := { w.range with startKey := w.range.endKey, startIncl := false, endKey := I.endKey, endIncl := I.endIncl },
      trimmed := false, exhausted := w.exhausted }
  else { w with exhausted := true }

/-- `shift_working_range(start_key, incl)`, `btree_kv.hpp` 219-226. -/
def WS.shiftTo (I : KeyRange K) (w : WS K) (k : K) : WS K :=
  if w.trimmed then
    { range := { w.range with startKey := k, startIncl := true, endKey := I.endKey, endIncl := I.endIncl },
      trimmed := false, exhausted := w.exhausted }
  else { w with range := { w.range with startKey := k, startIncl := true } }

/-- The parent's key of the child at a position; `none` at the edge. -/
def Node.keyAt (t : Node K A) (i : Nat) : Option K := (t.es[i]?).map (·.1)

/-! ## Range remove -/

/-- The leaf part of `do_remove` for a range, `btree_remove_impl.ipp` 25-55, with the trimming that the parent
does just before. -/
def rrLeaf (I : KeyRange K) (filter : Option (K → V → Bool)) (t : Node K V) (q : Option K) (w : WS K) :
    Except Fault (Node K V × WS K × Status) := do
  let w1 ← w.trimTo q
  let r ← w1.get
  let (es, cnt) ← multiRemove t r filter
  pure ({ t with es := es }, w1.shift I, if cnt ≠ 0 then .success else .not_found)

/-- The merge attempt before descending, `btree_remove_impl.ipp` 98-126.  `none`: no merge took place. -/
def tryMerge (c : Cfg K V) (n f : Nat) (t : Tree K V (n + 1)) (cur : Nat) (ch : Tree K V n) (nid : Nat) :
    Except Fault (Option (Tree K V (n + 1)) × Nat) :=
  if mergeNeeded c n ch.es && decide (cur < nodeEnd c.maxMergeNodes t cur) then
    mergeNodes c (c.nk (n + 1)) (c.nk n) f t cur (nodeEnd c.maxMergeNodes t cur) nid
  else .ok (none, nid)

/-- The interior part of `do_remove` for a range, `btree_remove_impl.ipp` 57-175.  The position is `none` at
`retry`, otherwise `(curr_idx, end_idx)`; `md` is `at_least_one_child_modified`, `last` is `ret`.  One unit of
fuel per retry and per child. -/
def rrLoop (c : Cfg K V) (n : Nat)
    (rec : Tree K V n → Option K → Nat → WS K → Except Fault (Tree K V n × Nat × WS K × Status)) :
    Nat → Tree K V (n + 1) → Nat → WS K → Option (Nat × Nat) → Bool → Status →
    Except Fault (Tree K V (n + 1) × Nat × WS K × Status)
  | 0, _, _, _, _, _, _ => .error .fuel
  | f + 1, t, nid, w, none, md, last => do
    let r ← w.get
    match matchRange false t r with
    | none => .error .ub
    | some (false, _, _) => pure (t, nid, w, if md then .success else .not_found)
    | some (true, s, e) => rrLoop c n rec f t nid w (some (s, e)) md last
  | f + 1, t, nid, w, some (cur, e), md, last =>
    if e < cur then pure (t, nid, w, if md then .success else last)
    else
      match t.valAt cur with
      | none => .error .assert
      | some (ch : Tree K V n) => do
        let (m, nid1) ← tryMerge c n f t cur ch nid
        match m with
        | some t' => rrLoop c n rec f t' nid1 w none md .success
        | none => do
          let (ch', nid2, w', st) ← rec ch (t.keyAt cur) nid1 w
          rrLoop c n rec f (t.setVal cur ch') nid2 w' (some (cur + 1, e)) (md || st == .success) st

/-- `do_remove` for a range.  `q` is the parent's key of this node. -/
def doRangeRemove (c : Cfg K V) (I : KeyRange K) (filter : Option (K → V → Bool)) (fuel : Nat) :
    (n : Nat) → Tree K V n → Option K → Nat → WS K → Except Fault (Tree K V n × Nat × WS K × Status)
  | 0, t, q, nid, w => do
    let (t', w', st) ← rrLeaf (V := V) I filter t q w
    pure (t', nid, w', st)
  | n + 1, t, _, nid, w => rrLoop c n (doRangeRemove c I filter fuel n) fuel t nid w none false .success

/-- `Btree::remove` for a range, `btree.ipp` 176-234. -/
def rangeRemove (c : Cfg K V) (I : KeyRange K) (filter : Option (K → V → Bool)) :
    Nat → BT K V → Except Fault (BT K V × Status)
  | 0, _ => .error .fuel
  | f + 1, b => do
    match ← collapse c b with
    | some none => pure (b, .not_found)
    | some (some b') => rangeRemove c I filter f b'
    | none =>
      let (t, nid, _, st) ← doRangeRemove c I filter f b.lvl b.root none b.nid { range := I }
      pure ({ lvl := b.lvl, root := t, nid := nid }, st)

/-! ## Range update -/

/-- `BtreeRangePutRequest`, `btree_req.hpp`, with put type `UPDATE`, the only one that `multi_put` supports. -/
structure UpdReq (K V : Type) where
  range : KeyRange K
  val : V
  filter : Option (K → V → V → Decision) := none

/-- `first_key_size()`, `btree_kv.hpp` 230-236. -/
def firstKeySize (c : Cfg K V) (I : KeyRange K) (w : WS K) : Nat :=
  if I.startIncl || c.keyFixed then c.ksz w.range.startKey else c.kmax

/-- `is_split_needed`, `btree_mutate_impl.ipp` 306-319, for a range put. -/
def updSplitNeeded (c : Cfg K V) (r : UpdReq K V) (w : WS K) : (n : Nat) → Tree K V n → Bool
  | 0, nd => !(c.nk 0).hasRoom .update nd.es (firstKeySize c r.range w) (c.vsz r.val)
  | n + 1, nd => !(c.nk (n + 1)).hasRoom .upsert nd.es c.kmax linkSize

/-- What `mutate_write_leaf_node` does with the working range, `btree_mutate_impl.ipp` 179-183. -/
def updShift (I : KeyRange K) (w : WS K) (st : Status) (failed : Option K) : WS K :=
  match st, failed with
  | .has_more, some k => w.shiftTo I k
  | .success, _ => w.shift I
  | _, _ => w

/-- `mutate_write_leaf_node` for a range, `btree_mutate_impl.ipp` 171-193, with the trimming that the parent
does just before. -/
def updLeaf (p : NK K V) (r : UpdReq K V) (t : Node K V) (q : Option K) (w : WS K) :
    Except Fault (Node K V × WS K × Status) := do
  let w1 ← w.trimTo q
  let wr ← w1.get
  let (es, st, kf) ← multiPut p t wr r.val .update r.filter
  pure ({ t with es := es }, updShift r.range w1 st kf, st)

/-- The interior part of `do_put` for a range, `btree_mutate_impl.ipp` 51-168.  Position as in `rrLoop`. -/
def updLoop (c : Cfg K V) (r : UpdReq K V) (n : Nat)
    (rec : Tree K V n → Option K → Nat → WS K → Except Fault (Tree K V n × Nat × WS K × Status)) :
    Nat → Tree K V (n + 1) → Nat → WS K → Option (Nat × Nat) →
    Except Fault (Tree K V (n + 1) × Nat × WS K × Status)
  | 0, _, _, _, _ => .error .fuel
  | f + 1, t, nid, w, none => do
    let rg ← w.get
    match matchRange false t rg with
    | none => .error .ub
    | some (false, _, _) => .error .assert                                  -- 59
    | some (true, s, e) => updLoop c r n rec f t nid w (some (s, e))
  | f + 1, t, nid, w, some (cur, e) =>
    if e < cur then pure (t, nid, w, .success)
    else
      match t.valAt cur with
      | none => .error .assert
      | some (ch : Tree K V n) =>
        if updSplitNeeded c r w n ch then do
          let t' ← splitIn (c.nk (n + 1)) (c.nk n) c.splitPct t cur ch nid
          updLoop c r n rec f t' (nid + 1) w none
        else do
          let (ch', nid2, w', st) ← rec ch (t.keyAt cur) nid w
          if st = .success then updLoop c r n rec f (t.setVal cur ch') nid2 w' (some (cur + 1, e))
          else pure (t.setVal cur ch', nid2, w', st)

/-- `do_put` for a range. -/
def doRangePut (c : Cfg K V) (r : UpdReq K V) (fuel : Nat) :
    (n : Nat) → Tree K V n → Option K → Nat → WS K → Except Fault (Tree K V n × Nat × WS K × Status)
  | 0, t, q, nid, w => do
    let (t', w', st) ← updLeaf (c.nk 0) r t q w
    pure (t', nid, w', st)
  | n + 1, t, _, nid, w => updLoop c r n (doRangePut c r fuel n) fuel t nid w none

/-- `Btree::put` for a range, `btree.ipp` 84-149: again from the root after a split and while `has_more`. -/
def rangePut (c : Cfg K V) (r : UpdReq K V) : Nat → BT K V → WS K → Except Fault (BT K V × Status)
  | 0, _, _ => .error .fuel
  | f + 1, b, w =>
    if updSplitNeeded c r w b.lvl b.root then do
      let b' ← splitRoot c b
      rangePut c r f b' w
    else do
      let (t, nid, w', st) ← doRangePut c r f b.lvl b.root none b.nid w
      if st = .has_more then rangePut c r f { lvl := b.lvl, root := t, nid := nid } w'
      else pure ({ lvl := b.lvl, root := t, nid := nid }, st)

/-- A range update as the caller issues it. -/
def rangeUpdate (c : Cfg K V) (r : UpdReq K V) (fuel : Nat) (b : BT K V) : Except Fault (BT K V × Status) :=
  rangePut c r fuel b { range := r.range }

/-! ## Any key of a range -/

/-- `do_get` for any key of a range, `btree_get_impl.ipp` 20-63: the search goes to the leaf of the start key
and no further. -/
def doGetAny (r : KeyRange K) : (n : Nat) → Tree K V n → Except Fault (Option (K × V))
  | 0, t =>
    match getAny (V := V) t.es r with
    | .error e => .error e
    | .ok none => .ok none
    | .ok (some (_, k, v)) => .ok (some (k, v))
  | n + 1, t =>
    match bsearch t.es r.startKey with
    | none => .error .ub
    | some (_, idx) =>
      match t.valAt idx with
      | none => .error .assert
      | some (ch : Tree K V n) => doGetAny r n ch

/-- `Btree::get` for any key of a range. -/
def getAnyKey (b : BT K V) (r : KeyRange K) : Except Fault (Option (K × V)) := doGetAny r b.lvl b.root

/-- `BtreeNode::remove_any`, `btree_node.hpp` 246-254. -/
def leafRemoveAny (es : List (K × V)) (r : KeyRange K) : Except Fault (List (K × V) × Option (K × V)) :=
  match getAny es r with
  | .error e => .error e
  | .ok none => .ok (es, none)
  | .ok (some (i, k, v)) => .ok (es.eraseIdx i, some (k, v))

/-- The interior part of `do_remove` for any key of a range, `btree_remove_impl.ipp` 57-175: the child at
`(end_idx - start_idx) / 2` (line 84; not offset by `start_idx`). -/
def raLoop (c : Cfg K V) (r : KeyRange K) (n : Nat)
    (rec : Tree K V n → Nat → Except Fault (Tree K V n × Nat × Option (K × V))) :
    Nat → Tree K V (n + 1) → Nat → Except Fault (Tree K V (n + 1) × Nat × Option (K × V))
  | 0, _, _ => .error .fuel
  | f + 1, t, nid =>
    match matchRange false t r with
    | none => .error .ub
    | some (false, _, _) => .ok (t, nid, none)
    | some (true, s, e) =>
      match t.valAt ((e - s) / 2) with
      | none => .error .assert
      | some (ch : Tree K V n) => do
        let (m, nid1) ← tryMerge c n f t ((e - s) / 2) ch nid
        match m with
        | some t' => raLoop c r n rec f t' nid1
        | none => do
          let (ch', nid2, out) ← rec ch nid1
          pure (t.setVal ((e - s) / 2) ch', nid2, out)

/-- `do_remove` for any key of a range. -/
def doRemoveAny (c : Cfg K V) (r : KeyRange K) (fuel : Nat) :
    (n : Nat) → Tree K V n → Nat → Except Fault (Tree K V n × Nat × Option (K × V))
  | 0, t, nid => do
    let (es, out) ← leafRemoveAny (V := V) t.es r
    pure ({ t with es := es }, nid, out)
  | n + 1, t, nid => raLoop c r n (doRemoveAny c r fuel n) fuel t nid

/-- `Btree::remove` for any key of a range, `btree.ipp` 176-234. -/
def removeAny (c : Cfg K V) (r : KeyRange K) : Nat → BT K V → Except Fault (BT K V × Option (K × V))
  | 0, _ => .error .fuel
  | f + 1, b => do
    match ← collapse c b with
    | some none => pure (b, none)
    | some (some b') => removeAny c r f b'
    | none =>
      let (t, nid, out) ← doRemoveAny c r f b.lvl b.root b.nid
      pure ({ lvl := b.lvl, root := t, nid := nid }, out)

end
end HS.Btree
