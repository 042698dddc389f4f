import Mathlib.Logic.Relation
import Mathlib.Data.List.Dedup

/-!
# Order of superblock recovery

Models `hs_utils::topological_sort` (`src/lib/common/homestore_utils.cpp` lines 84-118) and the
parts of `MetaBlkService` that build its input and use its output
(`src/lib/meta/meta_blk_service.cpp` lines 359-398, 1119-1151).

`std::unordered_map` is an association list with distinct keys; where the code iterates over one, the
order is unspecified, and the model takes it from a parameter (`ord`) or proves independence of it.
-/
namespace HS.Topo

variable {V : Type} [DecidableEq V]

/-- `DAG`: key and the vertices that must come after it. -/
abbrev Dag (V : Type) := List (V × List V)

/-- `DAG[v]` (`homestore_utils.cpp` 111; a missing key yields an empty list; the insertion of
the key is accounted for in `sizeAfter`). -/
def edges (g : Dag V) (v : V) : List V := (g.lookup v).getD []

/-- Keys of `DAG`. -/
def keys (g : Dag V) : List V := g.map Prod.fst

/-- Keys of the map `in_degree` after lines 90-97: vertices and edge targets. -/
def verts (g : Dag V) : List V := (keys g ++ g.flatMap Prod.snd).dedup

/-- Values of `in_degree` after lines 90-97. -/
def indeg (g : Dag V) (v : V) : Int := ((g.flatMap Prod.snd).count v : Int)

/-- Lines 111-114: the loop over `DAG[vertex]`. -/
def relax : (V → Int) → List V → List V → (V → Int) × List V
  | deg, q, [] => (deg, q)
  | deg, q, e :: es =>
    let deg' := fun x => if x = e then deg x - 1 else deg x            -- line 112
    relax deg' (if deg' e = 0 then q ++ [e] else q) es                 -- line 113

/-- Lines 106-115: the loop over the queue (`fuel` bounds the number of iterations; `none` = not
finished). -/
def loop (g : Dag V) : Nat → (V → Int) → List V → List V → Option (List V)
  | _, _, [], out => some out
  | 0, _, _ :: _, _ => none
  | n + 1, deg, v :: q, out =>
    let r := relax deg q (edges g v)
    loop g n r.1 r.2 (out ++ [v])

/-- `DAG.size()` at line 118, after the lookups of line 111 inserted missing keys. -/
def sizeAfter (g : Dag V) (out : List V) : Nat := (keys g ++ out).dedup.length

/-- `topological_sort` (lines 84-118): `(cycle found, ordered_entries)`.  `ord` is the order in which
`in_degree` is iterated at line 100. -/
def sort (ord : List V → List V) (fuel : Nat) (g : Dag V) : Option (Bool × List V) :=
  (loop g fuel (indeg g) (ord ((verts g).filter (fun v => decide (indeg g v = 0)))) []).map
    (fun out => (decide (out.length ≠ sizeAfter g out), out))

/-- `m_sub_info` (only `has_deps` is modelled) and `m_dep_topo_graph`. -/
structure Reg (V : Type) where
  info : List (V × Bool)
  graph : Dag V

/-- `m_sub_info[t]` as an lvalue, then set `has_deps` to `b`. -/
def setInfo (l : List (V × Bool)) (t : V) (b : Bool) : List (V × Bool) :=
  if t ∈ l.map Prod.fst then l.map (fun x => if x.1 = t then (t, b) else x) else l ++ [(t, b)]

/-- `m_sub_info[t]` accessed without touching `has_deps` (default `false`). -/
def touchInfo (l : List (V × Bool)) (t : V) : List (V × Bool) :=
  if t ∈ l.map Prod.fst then l else l ++ [(t, false)]

/-- `m_dep_topo_graph[x].push_back(t)` (line 395). -/
def push (g : Dag V) (x t : V) : Dag V :=
  if x ∈ keys g then g.map (fun y => if y.1 = x then (y.1, y.2 ++ [t]) else y) else g ++ [(x, [t])]

/-- Lines 393-396. -/
def addDeps (r : Reg V) (t : V) : List V → Reg V
  | [] => r
  | x :: xs => addDeps { info := setInfo r.info x true, graph := push r.graph x t } t xs

/-- `register_handler` (lines 372-398); `deps = none` is `std::nullopt`. -/
def register (r : Reg V) (t : V) (deps : Option (List V)) : Reg V :=
  let r1 := { r with info := touchInfo r.info t }                       -- lines 388-390
  match deps with
  | none => r1
  | some ds => addDeps { r1 with info := setInfo r1.info t true } t ds  -- lines 391-396

/-- `deregister_handler` (lines 359-370). -/
def deregister (r : Reg V) (t : V) : Reg V :=
  if t ∈ r.info.map Prod.fst then
    { info := r.info.filter (fun x => x.1 ≠ t), graph := r.graph.filter (fun x => x.1 ≠ t) }
  else r

/-- `recover_meta_sub_type` on each of the list: the accesses `m_sub_info[sub_type]` (line 1142) may insert
entries. -/
def touchAll (l : List (V × Bool)) (ts : List V) : List (V × Bool) := ts.foldl touchInfo l

/-- `recover` (lines 1119-1139): the consumers in the order they are recovered; outer `none`: not
finished; inner `none`: the exception of line 1124. -/
def recover (ord : List V → List V) (fuel : Nat) (r : Reg V) : Option (Option (List V)) :=
  (sort ord fuel r.graph).map (fun s =>
    if s.1 then none
    else some (s.2 ++ ((touchAll r.info s.2).filter (fun x => !x.2)).map Prod.fst))   -- lines 1130-1138

end HS.Topo
