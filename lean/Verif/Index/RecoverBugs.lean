import Verif.Index.RecoverProps
/-!
# C74: cases that meet the hypotheses, and cases in which the process cannot start again
-/
namespace HS.Index.Recover

/-! ## Examples -/

def ofL (l : List (Id × Node)) : Disk := fun i => (l.find? (fun x => x.1 == i)).map (·.2)

/-- A leaf with the keys `ks`, each with its tenfold as value. -/
def leafOf (ks : List Nat) (nx : Option Id) (cp : Nat) : Node :=
  { leaf := true, level := 0, ents := ks.map (fun k => (k, k * 10)), edge := none, next := nx, cp }

/-- A node above leaves. -/
def aboveOf (es : List (Nat × Nat)) (edge nx : Option Id) (cp : Nat) : Node :=
  { leaf := false, level := 1, ents := es, edge, next := nx, cp }

def env7 : Env := { cap := 10, fuel := 20, cp := 7, mc := false }

/-- The last node of its level.  The leaf 1 was split into 1 and 3, then 3 into 3 and 5, all three written in
checkpoint 7; the leaf 2 was split into 2 and 6 and is as before. -/
def pEdge : Node := aboveOf [(10, 1), (20, 2)] (some 4) none 5
def gsEdge : List Grp :=
  [{ key := 10, head := (1, leafOf [1, 2] (some 3) 7), sibs := [(3, leafOf [3] (some 5) 7), (5, leafOf [5, 8] (some 2) 7)] },
   { key := 20, head := (2, leafOf [12, 14] (some 4) 6), sibs := [] }]
def lastEdge : Id × Node := (4, leafOf [30] none 3)
def dEdge : Disk := ofL ((10, pEdge) :: (6, leafOf [14] (some 4) 7) :: (nodesOf gsEdge ++ [lastEdge]))
def ssEdge : List Chg := [⟨1, [3], []⟩, ⟨2, [6], []⟩, ⟨3, [5], []⟩]
def orderEdge : List Ref := [.node 1, .node 2, .node 3, .node 5, .node 6, .node 10]

instance : DecidableRel below := fun _ _ => by unfold below; infer_instance

theorem ex_edge : SplitLeaves 10 dEdge (deletedAt env7 dEdge ssEdge) 10 pEdge (nodesOf gsEdge ++ [] ++ [lastEdge]) := by
  refine .edge gsEdge [] [] lastEdge ⟨rfl, rfl, ?_, ?_, ?_, ?_, ?_, ?_, ?_, ?_, ?_⟩ ⟨rfl, rfl, ?_, ?_, ?_, ?_, ?_, ?_⟩ ?_ ?_ ?_ ?_ ?_ ?_ ?_ rfl
  all_goals first
    | decide
    | (simp only [ascending, SplitsFull]; decide)
    | (refine ⟨rfl, rfl, rfl, rfl, rfl, rfl, rfl, rfl, rfl, rfl, trivial⟩)

/-- An inner node with the sibling 11.  The leaf 1 was split into 1 and 3. -/
def pInner : Node := aboveOf [(10, 1), (20, 2)] none (some 11) 5
def gsInner : List Grp :=
  [{ key := 10, head := (1, leafOf [1, 2] (some 3) 7), sibs := [(3, leafOf [5, 8] (some 2) 7)] },
   { key := 20, head := (2, leafOf [] (some 4) 6), sibs := [] }]
def afterInner : Id × Node := (4, leafOf [30] none 3)
def dInner : Disk := ofL ((10, pInner) :: (11, aboveOf [] (some 4) none 3) :: (nodesOf gsInner ++ [afterInner]))

theorem ex_inner : SplitLeaves 10 dInner (fun _ => false) 10 pInner (nodesOf gsInner) := by
  refine .inner gsInner afterInner ⟨rfl, rfl, ?_, ?_, ?_, ?_, ?_, ?_, ?_, ?_, ?_⟩
    ⟨by simp [gsInner], rfl, ⟨11, _, rfl, rfl, rfl, rfl, rfl, rfl, by simp [aboveOf]⟩, rfl, ?_, ?_, ?_, rfl⟩ ?_ ?_ ?_ ?_ ?_ rfl ?_ ?_ rfl
  all_goals first
    | decide
    | (simp only [ascending, SplitsFull]; decide)
    | (refine ⟨rfl, rfl, rfl, rfl, rfl, rfl, trivial⟩)

example : ∃ r, repairLinks 10 20 7 dEdge (deletedAt env7 dEdge ssEdge) true 10 pEdge [50] = ([], some r) ∧ r.newRoot = none ∧ r.supply = [50] ∧
    LeadsTo dEdge (dEdge.setAll r.writes) 10 pEdge (nodesOf gsEdge ++ [] ++ [lastEdge]) :=
  C74_repair_partial ex_edge (by decide)

example : ∃ r, repairLinks 10 20 7 dInner (fun _ => false) false 10 pInner [50] = ([], some r) ∧ r.newRoot = none ∧ r.supply = [50] ∧
    LeadsTo dInner (dInner.setAll r.writes) 10 pInner (nodesOf gsInner) :=
  C74_repair_partial ex_inner (by decide)

theorem ex_logged : Logged 10 [10, 1, 2, 4] ssEdge orderEdge := by
  refine ⟨by simp [ssEdge], by simp [Changes, ssEdge, Chg.own, Chg.owner, ownerOf], by simp, by decide, ?_⟩
  intro r
  rw [show origins [] ssEdge = [(5, 1), (6, 2), (3, 1)] from rfl]
  constructor
  · intro h
    simp only [orderEdge, List.mem_cons, List.not_mem_nil, or_false] at h
    rcases h with rfl | rfl | rfl | rfl | rfl | rfl <;> simp
  · rintro (rfl | ⟨o, ho, h⟩)
    · decide
    · simp only [List.mem_cons, List.not_mem_nil, or_false] at ho
      rcases ho with rfl | rfl | rfl <;> rcases h with rfl | rfl <;> decide

theorem ex_parentOld : ParentOld env7 dEdge 10 pEdge (nodesOf gsEdge ++ [] ++ [lastEdge]) ssEdge := by
  refine ⟨rfl, by decide, ex_edge, by decide, ?_, by decide⟩
  rw [show origins [] ssEdge = [(5, 1), (6, 2), (3, 1)] from rfl]
  intro o ho _ hw
  simp only [List.mem_cons, List.not_mem_nil, or_false] at ho
  rcases ho with rfl | rfl | rfl
  · exact ⟨leafOf [5, 8] (some 2) 7, by decide, rfl⟩
  · exact absurd hw (by decide)
  · exact ⟨leafOf [3] (some 5) 7, by decide, rfl⟩

example : ∃ s, recover env7 (journal 10 [] ssEdge) orderEdge dEdge 10 [50] = some s ∧
    LeadsTo dEdge s.d 10 pEdge (nodesOf gsEdge ++ [] ++ [lastEdge]) ∧
    s.sb = 10 ∧ s.sbDisk = 10 ∧ s.tree = 10 ∧ s.supply = [50] :=
  let ⟨s, h1, h2, h3, h4, h5, h6, _⟩ := C74_recover_partial ex_logged ex_parentOld (by decide)
  ⟨s, h1, h2, h3, h4, h5, h6⟩

/-- The node 10 has the leaves 1, 2, 7, 8, 9 and 4, the edge.  The leaf 2 was merged into 1, which was then split into 1
and 3: both were written in checkpoint 7, and so was the leaf 12 which was made from 1 and merged back.  The leaf 8 was
merged into 7, which was not written: the two are as before.  The edge was merged into 9, and the rest of both put
into the new leaf 6. -/
def pMerge : Node := aboveOf [(10, 1), (20, 2), (30, 7), (40, 8), (50, 9)] (some 4) none 5
def gsMerge : List Grp :=
  [{ key := 20, head := (1, leafOf [1, 2] (some 3) 7), sibs := [(3, leafOf [5, 15] (some 7) 7)], okey := 10, gone := [(20, 2)] },
   { key := 30, head := (7, leafOf [22] (some 8) 6), sibs := [] },
   { key := 40, head := (8, leafOf [33, 35] (some 9) 4), sibs := [] }]
def initMerge : List (Id × Node) := [(9, leafOf [41, 51] (some 6) 7)]
def lastMerge : Id × Node := (6, leafOf [60] none 7)
def leavesMerge : List (Id × Node) := nodesOf gsMerge ++ initMerge ++ [lastMerge]
def dMerge : Disk := ofL ((10, pMerge) :: (2, leafOf [15] (some 7) 5) :: (4, leafOf [51, 60] none 6) :: leavesMerge)
def csMerge : List Chg := [⟨1, [], [2]⟩, ⟨7, [], [8]⟩, ⟨1, [12], []⟩, ⟨1, [], [12]⟩, ⟨9, [6], [4]⟩, ⟨1, [3], []⟩]
def orderMerge : List Ref :=
  [.node 6, .node 12, .node 1, .node 2, .node 3, .node 4, .node 7, .node 10, .node 8, .node 9]

theorem ex_merge : SplitLeaves 10 dMerge (deletedAt env7 dMerge csMerge) 10 pMerge leavesMerge := by
  refine .edge gsMerge [(50, 9)] initMerge lastMerge ⟨rfl, rfl, ?_, ?_, ?_, ?_, ?_, ?_, ?_, ?_, ?_⟩ ⟨rfl, rfl, ?_, ?_, ?_, ?_, ?_, ?_⟩ ?_ ?_ ?_ ?_ ?_ ?_ ?_ rfl
  all_goals first
    | decide
    | (simp only [ascending, SplitsFull]; decide)
    | (refine ⟨rfl, rfl, rfl, rfl, rfl, rfl, rfl, rfl, rfl, rfl, rfl, rfl, trivial⟩)

theorem ex_mergeLogged : Logged 10 [10, 1, 2, 7, 8, 9, 4] csMerge orderMerge := by
  refine ⟨by simp [csMerge], by simp [Changes, csMerge, Chg.own, Chg.owner, ownerOf, addFreed], by simp, by decide, ?_⟩
  intro r
  rw [show origins [] csMerge = [(3, 1), (4, 9), (6, 9), (12, 1), (8, 7), (2, 1)] from rfl]
  constructor
  · intro h
    simp only [orderMerge, List.mem_cons, List.not_mem_nil, or_false] at h
    rcases h with rfl | rfl | rfl | rfl | rfl | rfl | rfl | rfl | rfl | rfl <;> simp
  · rintro (rfl | ⟨o, ho, h⟩)
    · decide
    · simp only [List.mem_cons, List.not_mem_nil, or_false] at ho
      rcases ho with rfl | rfl | rfl | rfl | rfl | rfl <;> rcases h with rfl | rfl <;> decide

theorem ex_mergeOld : ParentOld env7 dMerge 10 pMerge leavesMerge csMerge := by
  refine ⟨rfl, by decide, ex_merge, by decide, ?_, by decide⟩
  rw [show origins [] csMerge = [(3, 1), (4, 9), (6, 9), (12, 1), (8, 7), (2, 1)] from rfl]
  intro o ho hf hw
  simp only [List.mem_cons, List.not_mem_nil, or_false] at ho
  rcases ho with rfl | rfl | rfl | rfl | rfl | rfl
  · exact ⟨leafOf [5, 15] (some 7) 7, by decide, rfl⟩
  · exact absurd (by decide) hf
  · exact ⟨leafOf [60] none 7, by decide, rfl⟩
  · exact absurd (by decide) hf
  · exact absurd (by decide) hf
  · exact absurd (by decide) hf

/-- The blocks of 3, 6 and 8 stay in use, those of 2, 4 and 12 are free. -/
example : ∃ s, recover env7 (journal 10 [] csMerge) orderMerge dMerge 10 [50] = some s ∧
    LeadsTo dMerge s.d 10 pMerge leavesMerge ∧ (3 ∈ s.kept ∧ 6 ∈ s.kept ∧ 8 ∈ s.kept ∧ 2 ∉ s.kept) ∧
    (2 ∈ s.gone ∧ 4 ∈ s.gone ∧ 12 ∈ s.gone ∧ 8 ∉ s.gone) := by
  obtain ⟨s, h1, h2, -, -, -, -, h3, -, h4⟩ := C74_recover_partial (root := 10) (supply := [50]) ex_mergeLogged ex_mergeOld (by decide)
  refine ⟨s, h1, h2, ?_, ?_⟩
  · rw [h3, h3, h3, h3]
    refine ⟨⟨(3, 1), by decide⟩, ⟨(6, 9), by decide⟩, ⟨(8, 7), by decide⟩, ?_⟩
    rintro ⟨o, ho, h⟩
    revert o
    decide
  · rw [h4, h4, h4, h4]
    refine ⟨⟨(2, 1), by decide⟩, ⟨(4, 9), by decide⟩, ⟨(12, 1), by decide⟩, ?_⟩
    rintro ⟨o, ho, h⟩
    revert o
    decide

/-- All written: the leaf 1 was split into 1 and 3. -/
def dAll : Disk := ofL [(10, aboveOf [(2, 1), (10, 3)] (some 4) none 7), (1, leafOf [1, 2] (some 3) 7),
  (3, leafOf [5, 8] (some 4) 7), (4, leafOf [30] none 3)]

theorem logged_one {order : List Ref} (h : order = [.node 1, .node 3, .node 10]) :
    Logged 10 [10, 1, 4] [⟨1, [3], []⟩] order := by
  subst h
  refine ⟨by simp, by simp [Changes], by simp, by decide, ?_⟩
  intro r
  rw [show origins [] [⟨1, [3], []⟩] = [(3, 1)] from rfl]
  simp only [List.mem_cons, List.not_mem_nil, or_false]
  constructor
  · rintro (rfl | rfl | rfl) <;> simp
  · rintro (rfl | ⟨o, rfl, h⟩)
    · simp
    · rcases h with rfl | rfl <;> simp

example : ∃ s, recover env7 (journal 10 [] [⟨1, [3], []⟩]) [.node 1, .node 3, .node 10] dAll 10 [50] = some s ∧ s.d = dAll ∧
    s.sb = 10 ∧ s.sbDisk = 10 ∧ s.tree = 10 ∧ s.supply = [50] ∧ (∀ i, i ∈ s.kept ↔ i ∈ [3] ∧ i ∉ []) ∧ ∀ i, i ∈ s.gone ↔ i ∈ [] := by
  refine C74_all_written_partial (logged_one rfl) (by decide) ?_
  intro i hi _
  simp only [List.mem_cons, List.not_mem_nil, or_false, Ref.node.injEq] at hi
  rcases hi with rfl | rfl | rfl
  · exact ⟨_, rfl, rfl, by decide, fun _ => rfl⟩
  · exact ⟨_, rfl, rfl, by decide, fun _ => rfl⟩
  · exact ⟨_, rfl, rfl, by decide, fun h => absurd rfl h⟩

/-- All written: the leaf 3 was merged into 1. -/
def dAllMerged : Disk := ofL [(10, aboveOf [(10, 1)] (some 4) none 7), (1, leafOf [1, 2, 5, 8] (some 4) 7),
  (3, leafOf [5, 8] (some 4) 6), (4, leafOf [30] none 3)]

theorem logged_merge : Logged 10 [10, 1, 3, 4] [⟨1, [], [3]⟩] [.node 1, .node 3, .node 10] := by
  refine ⟨by simp, by simp [Changes], by simp, by decide, ?_⟩
  intro r
  rw [show origins [] [⟨1, [], [3]⟩] = [(3, 1)] from rfl]
  simp only [List.mem_cons, List.not_mem_nil, or_false]
  constructor
  · rintro (rfl | rfl | rfl) <;> simp
  · rintro (rfl | ⟨o, rfl, h⟩)
    · simp
    · rcases h with rfl | rfl <;> simp

example : ∃ s, recover env7 (journal 10 [] [⟨1, [], [3]⟩]) [.node 1, .node 3, .node 10] dAllMerged 10 [50] = some s ∧ s.d = dAllMerged ∧
    s.sb = 10 ∧ s.sbDisk = 10 ∧ s.tree = 10 ∧ s.supply = [50] ∧ (∀ i, i ∈ s.kept ↔ i ∈ [] ∧ i ∉ [3]) ∧ ∀ i, i ∈ s.gone ↔ i ∈ [3] := by
  refine C74_all_written_partial logged_merge (by decide) ?_
  intro i hi hnf
  simp only [List.mem_cons, List.not_mem_nil, or_false, Ref.node.injEq] at hi
  rcases hi with rfl | rfl | rfl
  · exact ⟨_, rfl, rfl, by decide, fun _ => rfl⟩
  · exact absurd (by decide) hnf
  · exact ⟨_, rfl, rfl, by decide, fun h => absurd rfl h⟩

/-! ## Where it does not hold -/

/-- What is on disk after leaf 1 was split into 1 and 3, keys were removed from one of the two, both leaves were
written, and the parent was not. -/
def dEmptied (a b : List Nat) : Disk := ofL [(10, aboveOf [(10, 1)] (some 4) none 5), (1, leafOf a (some 3) 7),
  (3, leafOf b (some 4) 7), (4, leafOf [30] none 3)]

/-- **C74 (violated)**.  If all keys of the leaf that a split made were removed in the same checkpoint, which writes
both leaves and then crashes, recovery ends the repair before that leaf, as it finds no key for it: the node before it
keeps no way to the next one, the sanity check fails and the process aborts, at every start (`HS_REL_ASSERT`).  The
keys in the leaves, here 1, 2 and 30, are on disk, but cannot be used. -/
theorem C74_new_leaf_emptied_violated :
    ∃ (e : Env) (d : Disk) (p : Id) (pn : Node) (used : List Id) (ss : List Chg) (order : List Ref)
      (leaves : List (Id × Node)),
      Logged p used ss order ∧ d p = some pn ∧ pn.cp ≠ e.cp ∧ Linked d leaves none ∧
      (∀ o ∈ origins [] ss, o.1 ∈ leaves.map (·.1) ∧ o.2 ∈ leaves.map (·.1)) ∧
      leaves.Pairwise below ∧ leaves.length + 1 < e.fuel ∧ leaves.length ≤ e.cap ∧
      (valueIn leaves 1 = some 10 ∧ valueIn leaves 2 = some 20 ∧ valueIn leaves 30 = some 300) ∧
      recover e (journal p [] ss) order d p [50, 51] = none := by
  refine ⟨env7, dEmptied [1, 2] [], 10, _, [10, 1, 4], [⟨1, [3], []⟩], [.node 1, .node 3, .node 10],
    [(1, leafOf [1, 2] (some 3) 7), (3, leafOf [] (some 4) 7), (4, leafOf [30] none 3)],
    logged_one rfl, rfl, by decide, ⟨rfl, rfl, rfl, rfl, rfl, rfl, trivial⟩, by decide, by decide, by decide, by decide,
    ⟨by decide, by decide, by decide⟩, ?_⟩
  decide +kernel

/-- **C74 (violated)**.  The same if all keys of the leaf that was split were removed: the parent gets the key it had for
it, which is not below the keys of the leaf after it. -/
theorem C74_split_leaf_emptied_violated :
    ∃ (e : Env) (d : Disk) (p : Id) (pn : Node) (used : List Id) (ss : List Chg) (order : List Ref)
      (leaves : List (Id × Node)),
      Logged p used ss order ∧ d p = some pn ∧ pn.cp ≠ e.cp ∧ Linked d leaves none ∧
      (∀ o ∈ origins [] ss, o.1 ∈ leaves.map (·.1) ∧ o.2 ∈ leaves.map (·.1)) ∧
      leaves.Pairwise below ∧ leaves.length + 1 < e.fuel ∧ leaves.length ≤ e.cap ∧
      (valueIn leaves 5 = some 50 ∧ valueIn leaves 8 = some 80 ∧ valueIn leaves 30 = some 300) ∧
      recover e (journal p [] ss) order d p [50, 51] = none := by
  refine ⟨env7, dEmptied [] [5, 8], 10, _, [10, 1, 4], [⟨1, [3], []⟩], [.node 1, .node 3, .node 10],
    [(1, leafOf [] (some 3) 7), (3, leafOf [5, 8] (some 4) 7), (4, leafOf [30] none 3)],
    logged_one rfl, rfl, by decide, ⟨rfl, rfl, rfl, rfl, rfl, rfl, trivial⟩, by decide, by decide, by decide, by decide,
    ⟨by decide, by decide, by decide⟩, ?_⟩
  decide +kernel

end HS.Index.Recover
