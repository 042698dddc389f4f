import Verif.Conc.Spec

/-!
# Threads on one B-tree: the model

The nodes are cells with a lock each; a step of a thread is what it does between two waits for a lock.  A step that needs
a lock that is taken is not enabled.  The number of threads, keys, nodes and levels is arbitrary.

Simplified (superset of behaviours unless said):
* a node is a list of entries; in an interior node the entry without key stands for the edge (`edge_info`), in the code kept
  beside the entries.  A node is a leaf iff its level is 0 (`is_leaf` flag in the code; alloc_leaf_node has level 0);
* whether a node must be split or merged (`is_split_needed`, `is_merge_needed`), where it is split, and how the entries
  of merged nodes are dealt out, is chosen freely at every step: what holds for all choices holds for those of the code;
* the locks of a thread are read off where it is (`Pc.locks`), and the lock of the tree (`m_btree_lock`) likewise (`Pc.shared`);
* reading a node from the cache or from disk succeeds (`read_node_impl`), `transact_nodes` succeeds;
  `next_bnode` and link versions are left out;
* of the checkpoints there are their numbers: a call that changes the tree belongs to the checkpoint it was begun in, and may not write
  a node that was written in a later one (`refresh_node`); it is then begun again;
* `lo`, `hi`, the range of keys a node is responsible for, are not in the code: they serve the proofs; no step looks at them.
-/

namespace HS.Conc

/-- One entry of a node: key and value (leaf), or key and child (interior; no key: the edge).
`simple_node.hpp` 30-420, `btree_node.hpp` 60-120. -/
abbrev Ent := Option Nat × Nat

/-- `btree_node.hpp` 60-130: a node.  `lo`, the first key it is responsible for, and `hi`, the first key beyond (`none`: there is none), are
not in the code. -/
structure Node where
  lev : Nat
  del : Bool
  gen : Nat
  lo : Option Nat
  hi : Option Nat
  es : List Ent
  deriving DecidableEq, Repr, Inhabited

/-- The first key beyond an entry with key `b`. -/
def cut (b : Option Nat) : Option Nat := b.map (· + 1)

/-- Does the entry with key `b` cover key `k`? -/
def covers (b : Option Nat) (k : Nat) : Bool :=
  match b with
  | none => true
  | some s => k ≤ s

/-- The entries from the one `find` yields on: `btree_node.hpp` 187-207 `find` in an interior node returns the first entry whose key is
not smaller, or the edge.  (Binary search there; C38 shows that it finds this entry in a sorted node.) -/
def rest (k : Nat) (es : List Ent) : List Ent := es.dropWhile fun e => !covers e.1 k

/-- The entries before. -/
def front (k : Nat) (es : List Ent) : List Ent := es.takeWhile fun e => !covers e.1 k

/-- The child for a key. -/
def child (k : Nat) (es : List Ent) : Option Nat := (rest k es).head?.map (·.2)

/-- `find` in a leaf. -/
def look (k : Nat) : List Ent → Option Nat
  | [] => none
  | e :: t => if e.1 = some k then some e.2 else look k t

/-- `simple_node.hpp` 66-82 `insert`, 58-64 `update` at the place `find` gives: the entry for `k` is set. -/
def ins (k v : Nat) : List Ent → List Ent
  | [] => [(some k, v)]
  | e :: t => if covers e.1 k then (if e.1 = some k then (some k, v) :: t else (some k, v) :: e :: t) else e :: ins k v t

/-- `btree_node.hpp` 320-345 `remove_one`. -/
def del (k : Nat) : List Ent → List Ent
  | [] => []
  | e :: t => if e.1 = some k then t else e :: del k t

/-- One call at the leaf: `btree_get_impl.ipp` 27-41, `btree_mutate_impl.ipp` 37-43 with `btree_node.hpp` 256-318 `put`,
`btree_remove_impl.ipp` 25-58.  Filters are left out. -/
def leafCall (es : List Ent) : Op → List Ent × Res
  | .get k => (es, .val (look k es))
  | .remove k =>
    match look k es with
    | some v => (del k es, .val (some v))
    | none => (es, .val none)
  | .put ty k v =>
    match look k es, ty with
    | some old, .insert => (es, .present old)
    | some old, .update => (ins k v es, .ok (some old))
    | some old, .upsert => (ins k v es, .ok (some old))
    | none, .insert => (ins k v es, .ok none)
    | none, .update => (es, .absent)
    | none, .upsert => (ins k v es, .ok none)

/-- Where a thread is.  `n` is the node it is at, `c` the child for its key. -/
inductive Pc where
  /-- outside of any call -/
  | idle
  /-- `btree.ipp` 91-101, 160, 185-189: holds the tree lock shared; about to lock the root (`w`: for writing) -/
  | start (o : Op) (w : Bool)
  /-- in `do_get`, `do_put`, `do_remove` at node `n`, which it holds -/
  | on (o : Op) (n : Nat) (w : Bool)
  /-- has also locked the child -/
  | both (o : Op) (n : Nat) (w : Bool) (c : Nat) (wc : Bool)
  /-- `btree_node_mgr.ipp` 134 `upgrade_node_locks`: has released both, about to lock `n` for writing -/
  | up1 (o : Op) (n c gn gc : Nat)
  /-- the same, 140: has `n`, about to lock `c` for writing -/
  | up2 (o : Op) (n c gn gc : Nat)
  /-- the same, 160: has both for writing -/
  | upd (o : Op) (n c : Nat)
  /-- `btree_remove_impl.ipp` 310-330 `merge_nodes`: has locked the siblings `olds` for writing too, about to lock the siblings `want` -/
  | mrg (o : Op) (n c : Nat) (olds want : List Nat)
  /-- `btree.ipp` 108-110, 203-206: has released all, about to take the tree lock exclusively -/
  | excl (o : Op)
  /-- `btree.ipp` 115, 213: has released all, about to take the tree lock shared again -/
  | again (o : Op)
  /-- `index_table.hpp` 158-189: `Btree::put` or `remove` has returned `cp_mismatch`, about to be called again -/
  | out (o : Op)
  /-- the call is done; the locks are released (the code releases the tree lock a moment later) -/
  | fin (r : Res)
  deriving DecidableEq, Repr

/-- The node locks held: node, for writing? -/
def Pc.locks : Pc → List (Nat × Bool)
  | .on _ n w => [(n, w)]
  | .both _ n w c wc => [(n, w), (c, wc)]
  | .up2 _ n _ _ _ => [(n, true)]
  | .upd _ n c => [(n, true), (c, true)]
  | .mrg _ n c olds _ => (n, true) :: (c, true) :: olds.map fun x => (x, true)
  | _ => []

/-- Is the tree lock held shared? -/
def Pc.shared : Pc → Bool
  | .idle => false
  | .excl _ => false
  | .again _ => false
  | .out _ => false
  | .fin _ => false
  | _ => true

/-- A tree, the threads `0 … nt - 1` and what has happened. -/
structure St where
  nodes : Nat → Node
  /-- ids from here on are not in use (`alloc_node`) -/
  fresh : Nat
  /-- `m_root_node_info` -/
  root : Nat
  nt : Nat
  pcs : Nat → Pc
  tr : List Ev
  /-- the current checkpoint -/
  cp : Nat
  /-- the checkpoint the call of a thread belongs to (`m_op_context`) -/
  tcp : Nat → Nat
  /-- the checkpoint a node was last locked for writing in (`m_dirtied_cp_id`) -/
  ncp : Nat → Nat
  /-- how often the tree lock has been locked shared and will not be released any more -/
  leaks : Nat

/-- Thread `t` may lock node `n` (`node->lock(type)`, `btree_node.hpp` 440-460, a `folly::SharedMutex`): for writing if no other holds it,
for reading if no other holds it for writing. -/
def St.canLock (s : St) (t n : Nat) (w : Bool) : Prop :=
  ∀ t' < s.nt, t' ≠ t → ∀ w', (n, w') ∈ (s.pcs t').locks → w = false ∧ w' = false

/-- Thread `t` may lock the tree exclusively: no other holds it shared.  The code then locks the root (and the child), which no one
holds. -/
def St.canExcl (s : St) (t : Nat) : Prop := s.leaks = 0 ∧ ∀ t' < s.nt, t' ≠ t → (s.pcs t').shared = false

instance (s : St) (t n : Nat) (w : Bool) : Decidable (s.canLock t n w) := by
  unfold St.canLock
  have : ∀ t' < s.nt, Decidable (t' ≠ t → ∀ w', (n, w') ∈ (s.pcs t').locks → w = false ∧ w' = false) := fun t' _ => inferInstance
  exact Nat.decidableBallLT s.nt _

instance (s : St) (t : Nat) : Decidable (s.canExcl t) := by
  unfold St.canExcl
  have : ∀ t' < s.nt, Decidable (t' ≠ t → (s.pcs t').shared = false) := fun t' _ => inferInstance
  have : Decidable (∀ t' < s.nt, t' ≠ t → (s.pcs t').shared = false) := Nat.decidableBallLT s.nt _
  exact inferInstance

/-- `index_table.hpp` 363-367 `refresh_node`, `wb_cache.cpp` 169-198 `get_writable_buf`: a node locked for writing was not written in a later
checkpoint; otherwise `cp_mismatch`. -/
def St.fits (s : St) (t n : Nat) (w : Bool) : Prop := w = true → s.ncp n ≤ s.tcp t

instance (s : St) (t n : Nat) (w : Bool) : Decidable (s.fits t n w) := by unfold St.fits; infer_instance

/-- `wb_cache.cpp` 196: the node now belongs to the checkpoint of the call. -/
def St.take (s : St) (t n : Nat) (w : Bool) : St := if w then { s with ncp := fun j => if j = n then s.tcp t else s.ncp j } else s

/-- The operation of a call in progress that belongs to a checkpoint. -/
def Pc.op? : Pc → Option Op
  | .start o _ => some o
  | .on o _ _ => some o
  | .both o _ _ _ _ => some o
  | .up1 o _ _ _ _ => some o
  | .up2 o _ _ _ _ => some o
  | .upd o _ _ => some o
  | .mrg o _ _ _ _ => some o
  | .excl o => some o
  | .again o => some o
  | _ => none

/-- A put or a remove. -/
def Op.writes : Op → Bool
  | .get _ => false
  | _ => true

/-- A put. -/
def Op.isPut : Op → Bool
  | .put _ _ _ => true
  | _ => false

/-- A remove. -/
def Op.isRemove : Op → Bool
  | .remove _ => true
  | _ => false

/-- `cp_mgr.cpp` 201-262 `do_trigger_cp_flush`, 174-195 `cp_ref`, `cp_io_exit`: a new checkpoint may be begun while calls of the current one go on, but not while
calls of the one before do: that one is not complete (`cp_guard`; C24, C25). -/
def St.canSwitch (s : St) : Prop := ∀ t < s.nt, ∀ o, (s.pcs t).op? = some o → o.writes = true → s.tcp t = s.cp

instance (s : St) : Decidable s.canSwitch := by
  unfold St.canSwitch
  have : ∀ t < s.nt, Decidable (∀ o, (s.pcs t).op? = some o → o.writes = true → s.tcp t = s.cp) := by
    intro t _
    cases h : (s.pcs t).op? with
    | none => exact isTrue fun o ho => by cases ho
    | some o =>
      by_cases hw : o.writes = true → s.tcp t = s.cp
      · exact isTrue fun o' ho => by cases ho; exact hw
      · exact isFalse fun hh => hw (hh o rfl)
  exact Nat.decidableBallLT s.nt _

/-- The thread moves on. -/
def St.goto (s : St) (t : Nat) (p : Pc) : St := { s with pcs := fun x => if x = t then p else s.pcs x }

/-- Something happened. -/
def St.emit (s : St) (e : Ev) : St := { s with tr := s.tr ++ [e] }

/-- A node is replaced. -/
def St.set (s : St) (i : Nat) (x : Node) : St := { s with nodes := fun j => if j = i then x else s.nodes j }

/-- The key of the last entry; `d` if there is none (`get_last_key`). -/
def lastKey (d : Option Nat) (es : List Ent) : Option Nat :=
  match es.getLast? with
  | some e => e.1
  | none => d

/-- `btree_mutate_impl.ipp` 284-291: the entry of the child split becomes two.  With the entry at `parent_ind`: `update` to the new
child, then `insert` of the split key with the old child; the same for the edge. -/
def splitEnt (k : Nat) (key : Option Nat) (d : Nat) (es : List Ent) : List Ent :=
  match rest k es with
  | e :: t => front k es ++ (key, e.2) :: (e.1, d) :: t
  | [] => es

/-- `btree_mutate_impl.ipp` 254-304 `split_node`: the child `c` keeps its first `i` entries, a new node gets the others and the edge. -/
def St.split (s : St) (k n c i : Nat) : St :=
  let p := s.nodes n
  let x := s.nodes c
  let key := lastKey none (x.es.take i)
  { s with
    fresh := s.fresh + 1
    nodes := fun j =>
      if j = n then { p with es := splitEnt k key s.fresh p.es, gen := p.gen + 1 }
      else if j = c then { x with es := x.es.take i, hi := cut key, gen := x.gen + 1 }
      else if j = s.fresh then { lev := x.lev, del := false, gen := 1, lo := cut key, hi := x.hi, es := x.es.drop i }
      else s.nodes j }

/-- `btree_mutate_impl.ipp` 197-252 `check_split_root`: a new root (id `fresh`) above the old one, which is split (new node `fresh + 1`). -/
def St.splitRoot (s : St) (i : Nat) : St :=
  let x := s.nodes s.root
  let key := lastKey none (x.es.take i)
  { s with
    fresh := s.fresh + 2
    root := s.fresh
    nodes := fun j =>
      if j = s.fresh then { lev := x.lev + 1, del := false, gen := 1, lo := x.lo, hi := x.hi, es := [(key, s.root), (none, s.fresh + 1)] }
      else if j = s.root then { x with es := x.es.take i, hi := cut key, gen := x.gen + 1 }
      else if j = s.fresh + 1 then { lev := x.lev, del := false, gen := 1, lo := cut key, hi := x.hi, es := x.es.drop i }
      else s.nodes j }

/-- `btree_remove_impl.ipp` 178-240 `check_collapse_root`: the only child becomes the root. -/
def St.collapse (s : St) (c : Nat) : St :=
  { s.set s.root { s.nodes s.root with del := true, gen := (s.nodes s.root).gen + 1 } with root := c }

/-- A list in pieces of the given lengths. -/
def chop : List Nat → List Ent → List (List Ent)
  | [], _ => []
  | m :: ms, l => l.take m :: chop ms (l.drop m)

/-- `btree_remove_impl.ipp` 545-574: the key the parent gets for each of the pieces: their last key; the last one is the edge if the last child
merged was, and keeps the last key of a parent without edge (`fix`).  `d` is the key the first child had: it keeps it if it is empty. -/
def label (d bm : Option Nat) (fix : Bool) : List (List Ent) → List (Option Nat × List Ent)
  | [] => []
  | [p] => [(if fix then bm else lastKey d p, p)]
  | p :: q :: ps => (lastKey d p, p) :: label none bm fix (q :: ps)

/-- The new nodes: each begins where the one before ends. -/
def mkNodes (lev : Nat) : Option Nat → List (Option Nat × List Ent) → List Node
  | _, [] => []
  | lo, (b, p) :: t => { lev := lev, del := false, gen := 1, lo := lo, hi := cut b, es := p } :: mkNodes lev (cut b) t

/-- What a merge computes. -/
structure Plan where
  /-- entries of the parent before the children merged -/
  pre : List Ent
  /-- and after them -/
  post : List Ent
  /-- key and entries of the leftmost node, afterwards -/
  first : Option Nat × List Ent
  /-- key and entries of the new nodes -/
  news : List (Option Nat × List Ent)

/-- `btree_remove_impl.ipp` 297-523 `merge_nodes`: the leftmost node takes the first `n0` of the entries of the siblings `olds`,
new nodes the following `ns`.  The code computes `n0` and `ns` from sizes; here they are chosen, such that
all entries go somewhere, no new node is empty and there are not more new nodes than old ones (482). -/
def St.plan (s : St) (k n c : Nat) (olds : List Nat) (n0 : Nat) (ns : List Nat) : Option Plan :=
  let p := s.nodes n
  let m := olds.length
  let tail := olds.flatMap fun x => (s.nodes x).es
  let mid := (rest k p.es).take (m + 1)
  let post := (rest k p.es).drop (m + 1)
  let bm := lastKey none mid
  let d := (mid.head?.map (·.1)).getD none
  let fix := bm.isNone || post.isEmpty
  if n0 + ns.sum = tail.length ∧ (∀ x ∈ ns, 0 < x) ∧ ns.length ≤ m then
    match label d bm fix (((s.nodes c).es ++ tail.take n0) :: chop ns (tail.drop n0)) with
    | f :: t => some { pre := front k p.es, post := post, first := f, news := t }
    | [] => none
  else none

/-- The entries of the parent for the new nodes. -/
def newEnts : Nat → List (Option Nat × List Ent) → List Ent
  | _, [] => []
  | i, (b, _) :: t => (b, i) :: newEnts (i + 1) t

/-- `btree_remove_impl.ipp` 525-628: the merge is carried out; the siblings are freed (`transact_nodes`, `free_node`). -/
def St.merge (s : St) (n c : Nat) (olds : List Nat) (q : Plan) : St :=
  let p := s.nodes n
  let x := s.nodes c
  let ends := lastKey q.first.1 (newEnts s.fresh q.news)
  { s with
    fresh := s.fresh + q.news.length
    nodes := fun j =>
      if j = n then { p with es := q.pre ++ (q.first.1, c) :: newEnts s.fresh q.news ++ q.post, gen := p.gen + 1 }
      else if j = c then { x with es := q.first.2, hi := cut q.first.1, gen := x.gen + 1 }
      else if j ∈ olds then { s.nodes j with del := true, gen := (s.nodes j).gen + 1 }
      else if s.fresh ≤ j then ((mkNodes x.lev (cut q.first.1) q.news)[j - s.fresh]?).getD (s.nodes j)
      else if q.post.head?.map (·.2) = some j then { s.nodes j with lo := cut ends }
      else s.nodes j }

/-- What a thread may choose. -/
inductive Act where
  | call (o : Op)
  | lockRoot
  | rootChange
  | leaf
  | lockAgain
  | child
  | descend
  | upgrade
  | lockParent
  | lockChild
  | split (i : Nat)
  | merge (m : Nat)
  | lockSibling
  | commit (n0 : Nat) (ns : List Nat)
  | notNeeded
  | fail
  | rootSplit (i : Nat)
  | rootCollapse
  | rootKeep
  | rootMismatch
  | reenter (w : Bool)
  | attempt
  | switchCp
  | ret
  deriving DecidableEq, Repr

/-- `wb_cache.cpp` 95-111 `alloc_buf`: nodes that are new in `s1` belong to the checkpoint of the call. -/
def St.stamp (s : St) (t : Nat) (s1 : St) : St := { s1 with ncp := fun j => if s.fresh ≤ j ∧ j < s1.fresh then s.tcp t else s1.ncp j }

/-- The call has its effect at leaf `n`; every change of a node bumps its generation (`simple_node.hpp` 63, 80, 98, 108, `inc_gen`). -/
def St.atLeaf (s : St) (t n : Nat) (o : Op) : St :=
  let x := s.nodes n
  let (es, r) := leafCall x.es o
  ((if es = x.es then s else s.set n { x with es := es, gen := x.gen + 1 }).emit (.point t o r)).goto t (.fin r)

/-- What thread `t` does; `none`: it must wait, or this is not what it does here. -/
def step (s : St) (t : Nat) (a : Act) : Option St :=
  if t < s.nt then
    match s.pcs t, a with
    -- the call
    | .idle, .call o => some { (s.emit (.call t o)).goto t (.start o false) with tcp := fun x => if x = t then s.cp else s.tcp x }
    -- btree.ipp 102, 163, 190: read_and_lock_node of the root; 103: put returns the mismatch, and releases the tree lock; 191, 228-230: remove
    -- jumps behind the release
    | .start o w, .lockRoot =>
      if s.canLock t s.root w then
        if s.fits t s.root w then some ((s.take t s.root w).goto t (.on o s.root w))
        else some { s.goto t (.out o) with leaks := s.leaks + if o.isRemove = true then 1 else 0 }
      else none
    -- btree.ipp 106-109: the root must be split; 193, 202-204: the root has no entry but the edge
    | .on o n _, .rootChange =>
      if n = s.root ∧ (o.isPut = true ∨ (o.isRemove = true ∧ (s.nodes n).lev ≠ 0 ∧ (s.nodes n).es.length = 1)) then
        some (s.goto t (.excl o))
      else none
    -- btree.ipp 122-126, 215-219: the root is a leaf: lock it for writing
    | .on o n w, .lockAgain =>
      if o.writes = true ∧ w = false ∧ n = s.root ∧ (s.nodes n).lev = 0 then some (s.goto t (.start o true)) else none
    -- at a leaf; btree.ipp 193-199: remove returns at once if the root is an empty leaf
    | .on o n w, .leaf =>
      if (s.nodes n).lev = 0 ∧ (w = true ∨ o.writes = false ∨ (o.isRemove = true ∧ (s.nodes n).es = [])) then some (s.atLeaf t n o) else none
    -- get_child_and_lock_node (btree_mutate_impl.ipp 80, btree_remove_impl.ipp 94), btree_get_impl.ipp 54
    | .on o n w, .child =>
      if (s.nodes n).lev = 0 then none
      else
        match child o.key (s.nodes n).es with
        | some c =>
          let wc := o.writes && (s.nodes c).lev == 0
          if s.canLock t c wc then
            if s.fits t c wc then some ((s.take t c wc).goto t (.both o n w c wc)) else some (s.goto t (.out o))
          else none
        | none => none
    -- btree_mutate_impl.ipp 156, btree_remove_impl.ipp 163, btree_get_impl.ipp 57
    | .both o _ _ c wc, .descend => some (s.goto t (.on o c wc))
    -- btree_mutate_impl.ipp 95-96, btree_remove_impl.ipp 99-109: btree_node_mgr.ipp 128-132
    | .both o n _ c _, .upgrade =>
      if o.writes = true then some (s.goto t (.up1 o n c (s.nodes n).gen (s.nodes c).gen)) else none
    -- btree_node_mgr.ipp 134
    | .up1 o n c gn gc, .lockParent =>
      if s.canLock t n true then
        if s.fits t n true then some ((s.take t n true).goto t (.up2 o n c gn gc)) else some (s.goto t (.out o))
      else none
    -- btree_node_mgr.ipp 140-160; retry: btree.ipp 129-135, 222-225
    | .up2 o n c gn gc, .lockChild =>
      if s.canLock t c true then
        if s.fits t c true then
          if (s.nodes n).del = true ∨ (s.nodes n).gen ≠ gn ∨ (s.nodes c).del = true ∨ (s.nodes c).gen ≠ gc then
            some ((s.take t c true).goto t (.start o false))
          else some ((s.take t c true).goto t (.upd o n c))
        else some (s.goto t (.out o))
      else none
    -- btree_mutate_impl.ipp 104-110
    | .upd o n c, .split i =>
      if o.isPut = true ∧ 0 < i ∧ i < (s.nodes c).es.length then some ((s.stamp t (s.split o.key n c i)).goto t (.on o n true)) else none
    -- btree_remove_impl.ipp 112; 101-107: the siblings to be merged are those to the right
    | .upd o n c, .merge m =>
      if o.isRemove = true ∧ 0 < m ∧ m < (rest o.key (s.nodes n).es).length then
        some (s.goto t (.mrg o n c [] ((((rest o.key (s.nodes n).es).drop 1).take m).map (·.2))))
      else none
    -- btree_remove_impl.ipp 245: merges are turned off
    | .upd o n c, .notNeeded => if o.isRemove = true then some (s.goto t (.both o n true c true)) else none
    -- btree_mutate_impl.ipp 106
    | .upd o _ _, .fail => some ((s.emit (.point t o .err)).goto t (.fin .err))
    -- btree_remove_impl.ipp 316-324
    | .mrg o n c olds (y :: want), .lockSibling =>
      if s.canLock t y true then
        if s.fits t y true then some ((s.take t y true).goto t (.mrg o n c (olds ++ [y]) want)) else some (s.goto t (.out o))
      else none
    -- btree_remove_impl.ipp 525-628, 116-120
    | .mrg o n c olds [], .commit n0 ns =>
      match s.plan o.key n c olds n0 ns with
      | some q => some ((s.stamp t (s.merge n c olds q)).goto t (.on o n true))
      | none => none
    -- btree_remove_impl.ipp 338, 357, 483, 494, 520 merge_not_required
    | .mrg o n c _ [], .notNeeded => some (s.goto t (.both o n true c true))
    -- btree_remove_impl.ipp 439 merge_failed
    | .mrg o _ _ _ [], .fail => some ((s.emit (.point t o .err)).goto t (.fin .err))
    -- btree_mutate_impl.ipp 206-250
    | .excl o, .rootSplit i =>
      if s.canExcl t ∧ o.isPut = true ∧ 0 < i ∧ i < (s.nodes s.root).es.length then
        if s.fits t s.root true then some ((s.stamp t ((s.take t s.root true).splitRoot i)).goto t (.again o)) else some (s.goto t (.out o))
      else none
    -- btree_remove_impl.ipp 186-240
    | .excl o, .rootCollapse =>
      if s.canExcl t ∧ o.isRemove = true ∧ (s.nodes s.root).lev ≠ 0 then
        match (s.nodes s.root).es with
        | [e] =>
          if s.fits t s.root true ∧ s.fits t e.2 true then some ((((s.take t s.root true).take t e.2 true).collapse e.2).goto t (.again o))
          else some (s.goto t (.out o))
        | _ => none
      else none
    -- btree_mutate_impl.ipp 210-213, btree_remove_impl.ipp 190-194: nothing to do any more
    | .excl o, .rootKeep =>
      if s.canExcl t then
        if s.fits t s.root true then some ((s.take t s.root true).goto t (.again o)) else some (s.goto t (.out o))
      else none
    -- index_table.hpp 386-389: the superblock belongs to a later checkpoint (always possible here)
    | .excl o, .rootMismatch => if s.canExcl t then some (s.goto t (.out o)) else none
    -- btree_mutate_impl.ipp 215-220, btree.ipp 116-119
    | .excl o, .fail => if s.canExcl t ∧ o.isPut = true then some ((s.emit (.point t o .err)).goto t (.fin .err)) else none
    -- btree.ipp 115-121, 213-214; the lock type is the one it had
    | .again o, .reenter w => some (s.goto t (.start o w))
    -- index_table.hpp 158-163, 176-181: once more, in the current checkpoint
    | .out o, .attempt => some { s.goto t (.start o false) with tcp := fun x => if x = t then s.cp else s.tcp x }
    -- the return
    | .fin r, .ret => some ((s.emit (.ret t r)).goto t .idle)
    -- a new checkpoint is begun
    | _, .switchCp => if s.canSwitch then some { s with cp := s.cp + 1 } else none
    | _, _ => none
  else none

/-- A run: who does what. -/
def run (s : St) : List (Nat × Act) → Option St
  | [] => some s
  | (t, a) :: l => match step s t a with | some s' => run s' l | none => none

/-- An empty tree: the root is an empty leaf (`btree_node_mgr.ipp` 31-51 `create_root_node`). -/
def St.init (nt : Nat) : St :=
  { nodes := fun i => { lev := 0, del := i != 0, gen := 0, lo := some 0, hi := none, es := [] }
    fresh := 1, root := 0, nt := nt, pcs := fun _ => .idle, tr := [], cp := 0, tcp := fun _ => 0, ncp := fun _ => 0, leaks := 0 }

end HS.Conc
