import Verif.Scan.Spec
import Verif.Conc.Progress

/-!
# Range queries beside other calls: the model

The tree and the threads that get, put and remove are those of `Verif.Conc`.  Beside them there are threads that query.  Here the
nodes also have their link to the next node of their level (`next_bnode`).

Simplified (superset of behaviours unless said):
* a thread either queries or gets, puts and removes;
* locking a child and then releasing its parent is one step: others may then do no more than in between;
* the entries of a node are a list, the edge an entry without key (see `Verif.Conc.Model`);
* `route_tracing`, metrics left out; the other two kinds of query are not supported by the code (`btree.ipp` 258-261).
-/

namespace HS.Scan

open HS.Conc (St Act Pc Ent step child rest covers lastKey)

/-- Where a query is.  `st`: the nodes above it holds, with the children still to be visited; `out`: what it has found. -/
inductive QPc where
  | idle
  /-- `btree.ipp` 244-246: holds the tree lock shared, about to lock the root -/
  | start (q : Query)
  /-- in `do_sweep_query` or `do_traversal_query` at node `n` -/
  | on (q : Query) (st : List (Nat × List Nat)) (n : Nat) (out : List (Nat × Nat))
  /-- `btree_query_impl.ipp` 56: in leaf `n`, about to lock the next one, `y` -/
  | next (q : Query) (n y : Nat) (out : List (Nat × Nat))
  /-- `btree_query_impl.ipp` 123: about to lock a child of the node on top of `st`; `r`: the last status (`ret`) -/
  | loop (q : Query) (st : List (Nat × List Nat)) (out : List (Nat × Nat)) (r : Status)
  /-- all locks are released -/
  | fin (out : List (Nat × Nat)) (r : Status)

/-- The nodes held, all for reading. -/
def QPc.locks : QPc → List Nat
  | .on _ st n _ => n :: st.map (·.1)
  | .next _ n _ _ => [n]
  | .loop _ st _ _ => st.map (·.1)
  | _ => []

/-- Is the tree lock held shared? -/
def QPc.shared : QPc → Bool
  | .idle => false
  | .fin _ _ => false
  | _ => true

/-- The tree with its threads, the links between nodes, the query threads `0 … nq - 1`, and what has happened. -/
structure Sys where
  s : St
  /-- `btree_node.hpp` 553-554 `next_bnode` -/
  link : Nat → Option Nat
  nq : Nat
  qs : Nat → QPc
  tr : List Ev

/-- Query `i` moves on. -/
def Sys.goto (y : Sys) (i : Nat) (p : QPc) : Sys := { y with qs := fun x => if x = i then p else y.qs x }

/-- Something happened. -/
def Sys.emit (y : Sys) (e : Ev) : Sys := { y with tr := y.tr ++ [e] }

/-- A query may lock node `n` for reading: no thread holds it for writing. -/
def Sys.canRead (y : Sys) (n : Nat) : Prop := ∀ t < y.s.nt, (n, true) ∉ (y.s.pcs t).locks

instance (y : Sys) (n : Nat) : Decidable (y.canRead n) := by unfold Sys.canRead; exact Nat.decidableBallLT y.s.nt _

/-- No query holds node `n`. -/
def Sys.unread (y : Sys) (n : Nat) : Prop := ∀ i < y.nq, n ∉ (y.qs i).locks

instance (y : Sys) (n : Nat) : Decidable (y.unread n) := by unfold Sys.unread; exact Nat.decidableBallLT y.nq _

/-- No query is in the tree. -/
def Sys.empty (y : Sys) : Prop := ∀ i < y.nq, (y.qs i).shared = false

instance (y : Sys) : Decidable y.empty := by unfold Sys.empty; exact Nat.decidableBallLT y.nq _

/-- `btree_mutate_impl.ipp` 265-266, `btree_remove_impl.ipp` 548-562: node `c` is followed by `m` new nodes `f`, `f + 1`, …, and then by what
followed `last`. -/
def relink (link : Nat → Option Nat) (c last f m : Nat) : Nat → Option Nat := fun j =>
  if j = c then (if m = 0 then link last else some f)
  else if f ≤ j ∧ j < f + m then (if j + 1 = f + m then link last else some (j + 1))
  else link j

/-- The links after thread `t` has done `a`. -/
def Sys.links (y : Sys) (t : Nat) (a : Act) : Nat → Option Nat :=
  match y.s.pcs t, a with
  | .upd _ _ c, .split _ => relink y.link c c y.s.fresh 1
  | .mrg _ _ c olds [], .commit _ ns => relink y.link c (olds.getLast?.getD c) y.s.fresh ns.length
  -- btree_mutate_impl.ipp 222-236: the new root (id `fresh`) has no next node; the old one is split
  | .excl _, .rootSplit _ =>
    if y.s.fits t y.s.root true then
      fun j => if j = y.s.fresh then none else relink y.link y.s.root y.s.root (y.s.fresh + 1) 1 j
    else y.link
  | _, _ => y.link

/-- The steps that lock a node. -/
def locking : Act → Bool
  | .lockRoot => true
  | .child => true
  | .lockParent => true
  | .lockChild => true
  | .lockSibling => true
  | _ => false

/-- Thread `t` must wait for a query: it wants a node for writing that a query holds, or the tree lock exclusively while a query
holds it shared. -/
def Sys.held (y : Sys) (t : Nat) (a : Act) : Prop :=
  (locking a = true ∧ ∃ n, y.s.awaits (y.s.pcs t) = some (n, true) ∧ ¬ y.unread n) ∨
  ((∃ o, y.s.pcs t = .excl o) ∧ a ≠ .switchCp ∧ ¬ y.empty)

/-- Thread `t` does `a`. -/
def Sys.opStep (y : Sys) (t : Nat) (a : Act) (s' : St) : Sys :=
  { y with s := s', link := y.links t a, tr := y.tr ++ (s'.tr.drop y.s.tr.length).map .op }

/-- The children a traversal visits: from the one for the first key to the one for the last (`btree_query_impl.ipp` 107-118). -/
def upTo (k : Nat) : List Ent → List Ent
  | [] => []
  | e :: t => if covers e.1 k then [e] else e :: upTo k t

/-- See `upTo`. -/
def kids (q : Query) (es : List Ent) : List Nat := (upTo q.hi (rest q.lo es)).map (·.2)

/-- The entries of a leaf in the range, in order: `btree_node.hpp` 187-222 `match_range`. -/
def inside (q : Query) (es : List Ent) : List (Nat × Nat) :=
  es.filterMap fun e => match e.1 with | some k => if q.has k then some (k, e.2) else none | none => none

/-- `variant_node.hpp` 59-79 `multi_get`: of the entries in the range the first `m`, and of those the ones the filter accepts. -/
def multiGet (q : Query) (m : Nat) (es : List Ent) : List (Nat × Nat) := ((inside q es).take m).filter fun p => q.keep p.1 p.2

/-- `btree.ipp` 264-273: if the last key found is the end of the range there is no more. -/
def finish (q : Query) (out : List (Nat × Nat)) (r : Status) : QPc :=
  match out.getLast? with
  | some p => if q.hi ≤ p.1 then .fin out .success else .fin out r
  | none => .fin out r

/-- The node on top of the stack stays there if it has children left. -/
def keepTop (n : Nat) (rem : List Nat) (st : List (Nat × List Nat)) : List (Nat × List Nat) := if rem = [] then st else (n, rem) :: st

/-- What a query may do. -/
inductive QAct where
  | ask (q : Query)
  | lockRoot
  /-- sweep: to the child -/
  | down
  /-- traversal: begin with the children -/
  | enter
  /-- traversal: the next child -/
  | visit
  /-- traversal: no children left -/
  | done
  | read
  | follow
  /-- the node to be locked cannot be read (`read_node_impl`) -/
  | fail
  | answer

/-- What query thread `i` does; `none`: it must wait, or this is not what it does here. -/
def Sys.qStep (y : Sys) (i : Nat) (a : QAct) : Option Sys :=
  if i < y.nq then
    match y.qs i, a with
    -- btree.ipp 242
    | .idle, .ask q => some ((y.emit (.ask i q)).goto i (if q.batch = 0 then .fin [] .success else .start q))
    -- btree.ipp 246
    | .start q, .lockRoot => if y.canRead y.s.root then some (y.goto i (.on q [] y.s.root [])) else none
    -- btree.ipp 247
    | .start _, .fail => some ((y.emit (.fail i)).goto i (.fin [] .failed))
    -- btree_query_impl.ipp 69-79
    | .on q st n out, .down =>
      if q.sweep = true ∧ (y.s.nodes n).lev ≠ 0 then
        match child q.lo (y.s.nodes n).es with
        | some c => if y.canRead c then some (y.goto i (.on q st c out)) else none
        | none => none
      else none
    -- btree_query_impl.ipp 107-121
    | .on q st n out, .enter =>
      if q.sweep = false ∧ (y.s.nodes n).lev ≠ 0 then some (y.goto i (.loop q (keepTop n (kids q (y.s.nodes n).es) st) out .success)) else none
    -- btree_query_impl.ipp 28-67, 87-105
    | .on q st n out, .read =>
      if (y.s.nodes n).lev = 0 then
        let es := (y.s.nodes n).es
        let out' := out ++ multiGet q (q.batch - out.length) es
        let y' := if q.batch - out.length < (inside q es).length then y.emit (.trim i) else y
        if out'.length < q.batch then
          if q.sweep = true then
            -- get_last_key of a leaf without entries is the default key
            if q.hi ≤ (lastKey (some 0) es).getD 0 then some (y'.goto i (finish q out' .success))
            else match y.link n with
              | none => some (y'.goto i (finish q out' .success))
              | some z => some (y'.goto i (.next q n z out'))
          else some (y'.goto i (.loop q st out' .success))
        else some (y'.goto i (finish q out' .more))
      else none
    -- btree_query_impl.ipp 74-78
    | .on q _ n out, .fail =>
      if q.sweep = true ∧ (y.s.nodes n).lev ≠ 0 then some ((y.emit (.fail i)).goto i (finish q out .failed)) else none
    -- btree_query_impl.ipp 56, 32-35
    | .next q _ z out, .follow => if y.canRead z then some (y.goto i (.on q [] z out)) else none
    -- btree_query_impl.ipp 58
    | .next q _ _ out, .fail => some ((y.emit (.fail i)).goto i (finish q out .failed))
    -- btree_query_impl.ipp 122-136
    | .loop q ((n, c :: rem) :: st) out _, .visit => if y.canRead c then some (y.goto i (.on q (keepTop n rem st) c out)) else none
    -- btree_query_impl.ipp 127: the loop is left; the caller goes on with its next child unless the status is has_more (138)
    | .loop q ((_, _ :: _) :: st) out _, .fail => some ((y.emit (.fail i)).goto i (.loop q st out .failed))
    | .loop q [] out r, .done => some (y.goto i (finish q out r))
    | .fin out r, .answer => some ((y.emit (.answer i out r)).goto i .idle)
    | _, _ => none
  else none

/-- A step of the whole: of a thread, or of a query. -/
inductive Move where
  | op (t : Nat) (a : Act)
  | query (i : Nat) (a : QAct)

/-- The steps. -/
inductive Sys.Step : Sys → Move → Sys → Prop where
  | op {y : Sys} {t a s'} : step y.s t a = some s' → ¬ y.held t a → Sys.Step y (.op t a) (y.opStep t a s')
  | query {y y' : Sys} {i a} : y.qStep i a = some y' → Sys.Step y (.query i a) y'

/-- What can be reached. -/
inductive Sys.Reach : Sys → List Move → Sys → Prop where
  | nil (y) : Sys.Reach y [] y
  | cons {y m y' l z} : Sys.Step y m y' → Sys.Reach y' l z → Sys.Reach y (m :: l) z

/-- An empty tree: a leaf, with no next node. -/
def Sys.init (nt nq : Nat) : Sys := { s := St.init nt, link := fun _ => none, nq := nq, qs := fun _ => .idle, tr := [] }

end HS.Scan
