import Verif.Index.RootSplit
/-!
# C75: the theorems
-/
namespace HS.Index.Recover

theorem committed_iff {e : Env} {d : Disk} {i : Id} {n : Node} (h : d i = some n) :
    committed e d (some (.node i)) = true ↔ n.cp = e.cp := by
  simp [committed, h]

theorem not_committed {e : Env} {d : Disk} {i : Id} {n : Node} (h : d i = some n) (hn : n.cp ≠ e.cp) :
    committed e d (some (.node i)) = false := by
  simp [committed, h, hn]

/-- **C75**.  The root was a leaf and is on disk as before the split: the index is as before the split, whatever is on
disk of the new nodes. -/
theorem C75_leaf_not_written_partial {e : Env} {d : Disk} {p n p2 : Id} {pn : Node} {order : List Ref} {supply : List Id}
    (h : RootSplitLogged p n p2 order) (hf : 2 ≤ e.fuel) (hmc : e.mc = false)
    (hp : d p = some pn) (hl : pn.leaf = true) (hcp : pn.cp ≠ e.cp) :
    ∃ s, recover e (rootJournal p n p2) order d p supply = some s ∧ s.d = d ∧ s.sb = p ∧ s.sbDisk = p ∧ s.tree = p ∧
      s.supply = supply ∧ s.kept = [] := by
  refine recoverA h hf hmc (not_committed hp hcp) ?_
  intro s hd _ _ _ hu
  rw [repair_leaf (by rw [hd]; exact hp) hl hu, ← hd]

/-- **C75**.  The root was a node above leaves and is on disk as before the split: every key on disk in the leaves is
found through it, and no other; nothing else has changed. -/
theorem C75_interior_not_written_partial {e : Env} {d : Disk} {p n p2 : Id} {pn : Node} {leaves : List (Id × Node)}
    {order : List Ref} {supply : List Id}
    (h : RootSplitLogged p n p2 order) (hf : leaves.length + 1 < e.fuel) (hf2 : 2 ≤ e.fuel) (hmc : e.mc = false)
    (hp : d p = some pn) (hcp : pn.cp ≠ e.cp) (ht : SplitLeaves e.cap d e.del p pn leaves) :
    ∃ s, recover e (rootJournal p n p2) order d p supply = some s ∧ LeadsTo d s.d p pn leaves ∧
      s.sb = p ∧ s.sbDisk = p ∧ s.tree = p ∧ s.supply = supply ∧ s.kept = [] := by
  obtain ⟨r, hr1, hr2, hr3, hr4, -, -⟩ := repair_all (cp := e.cp) (isRoot := p == p) (supply := supply) ht hf
  obtain ⟨s, h1, h2, h3⟩ := recoverA (d2 := d.setAll r.writes) (root := p) (supply := supply) h hf2 hmc (not_committed hp hcp) (by
    intro s hd hdl hsb hsup hup
    have hl : s.links e p pn = { s with d := d.setAll r.writes } := by
      simp only [RS.links, hd, hdl, hsb, hsup, hr1, hr2, hr3]
      rfl
    simp only [RS.repair, hd, hp, splitLeaves_interior ht, Bool.false_eq_true, if_false, hl, hup]
    simp)
  exact ⟨s, h1, by rw [h2]; exact hr4, h3⟩

/-- **C75**.  The superblock was written, so all else: nothing on disk is changed, and the root is the new one. -/
theorem C75_superblock_written_partial {e : Env} {d : Disk} {p n p2 : Id} {pn p2n : Node} {order : List Ref} {supply : List Id}
    (h : RootSplitLogged p n p2 order) (hf : 2 ≤ e.fuel) (hmc : e.mc = false)
    (hp : d p = some pn) (hcp : pn.cp = e.cp) (hp2 : d p2 = some p2n) (hcp2 : p2n.cp = e.cp)
    (hv : validNode d p = true) (hv2 : validNode d p2 = true) :
    ∃ s, recover e (rootJournal p n p2) order d n supply = some s ∧ s.d = d ∧ s.sb = n ∧ s.sbDisk = n ∧ s.tree = n ∧
      s.supply = supply := by
  obtain ⟨s, h1, h2, h3, h4, h5, h6, h7⟩ := recoverB (d2 := d) (root := n) (supply := supply) h hf hmc ((committed_iff hp).2 hcp) ((committed_iff hp2).2 hcp2) (by
    intro s hd hsb
    subst hd
    subst hsb
    simp only [RS.repairRoot, Ne.symm h.pn, if_false])
  rw [hv, hv2] at h7
  exact ⟨s, h7, h1, h2, h3, h4, h5⟩

/-- **C75 (violated)**.  In every such crash, the block of the new root, which the superblock names, is not among those
that recovery marks as used.  It may be given to another node. -/
theorem C75_root_block_violated {e : Env} {d : Disk} {p n p2 : Id} {pn p2n : Node} {order : List Ref} {supply : List Id}
    (h : RootSplitLogged p n p2 order) (hf : 2 ≤ e.fuel) (hmc : e.mc = false)
    (hp : d p = some pn) (hcp : pn.cp = e.cp) (hp2 : d p2 = some p2n) (hcp2 : p2n.cp = e.cp)
    (hv : validNode d p = true) (hv2 : validNode d p2 = true) :
    ∃ s, recover e (rootJournal p n p2) order d n supply = some s ∧ s.sbDisk = n ∧ p2 ∈ s.kept ∧ n ∉ s.kept := by
  obtain ⟨s, h1, h2, h3, h4, h5, h6, h7⟩ := recoverB (d2 := d) (root := n) (supply := supply) h hf hmc ((committed_iff hp).2 hcp) ((committed_iff hp2).2 hcp2) (by
    intro s hd hsb
    subst hd
    subst hsb
    simp only [RS.repairRoot, Ne.symm h.pn, if_false])
  rw [hv, hv2] at h7
  exact ⟨s, h7, h3, by rw [h6]; simp, by rw [h6]; simp [h.np2]⟩

/-! ## A leaf: the keys in the new leaf are lost -/

/-- A leaf without a next node. -/
theorem valid_last {d : Disk} {i : Id} {n : Node} (h : d i = some n) (hl : n.leaf = true) (hn : n.next = none) (hs : ascending n) :
    validNode d i = true := by
  have := keyOrder_of hs
  simp [validNode, h, hl, hn, this, Node.hasEdge]

/-- **C75 (violated)**.  The root was a leaf; it and the leaf it was split into are on disk, and the superblock is not.
In every such crash the process starts, with the old root, and the keys that moved to the other leaf are gone. -/
theorem C75_leaf_keys_lost_violated {e : Env} {d : Disk} {p n p2 : Id} {pn p2n : Node} {order : List Ref} {supply : List Id}
    (h : RootSplitLogged p n p2 order) (hf : 2 ≤ e.fuel) (hmc : e.mc = false)
    (hp : d p = some pn) (hl : pn.leaf = true) (hcp : pn.cp = e.cp) (hs : ascending pn)
    (hp2 : d p2 = some p2n) (hl2 : p2n.leaf = true) (hcp2 : p2n.cp = e.cp) (hs2 : ascending p2n) (hnx2 : p2n.next = none)
    (hb : below (p, pn) (p2, p2n)) :
    ∃ s, recover e (rootJournal p n p2) order d p supply = some s ∧ s.sb = p ∧ s.sbDisk = p ∧ s.tree = p ∧
      (∀ k f, get s.d (f + 1) p k = pn.value k) ∧
      ∀ x ∈ p2n.ents, ∀ f, get s.d (f + 1) p x.1 = none := by
  have he : pn.hasEdge = false := by simp [Node.hasEdge, hl]
  obtain ⟨s, h1, h2, h3, h4, h5, h6, h7⟩ := recoverB (d2 := d.set p { pn with next := none, edge := pn.next, cp := e.cp }) (root := p) (supply := supply)
    h hf hmc ((committed_iff hp).2 hcp) ((committed_iff hp2).2 hcp2) (by
    intro s hd hsb
    simp only [RS.repairRoot, hsb, hd, hp, he, if_true, Bool.false_eq_true, if_false])
  have hv : validNode (d.set p { pn with next := none, edge := pn.next, cp := e.cp }) p = true :=
    valid_last set_same hl rfl hs
  have hv2 : validNode (d.set p { pn with next := none, edge := pn.next, cp := e.cp }) p2 = true :=
    valid_last (by rw [set_other (Ne.symm h.pp2)]; exact hp2) hl2 hnx2 hs2
  rw [hv, hv2] at h7
  have hget : ∀ k f, get s.d (f + 1) p k = pn.value k := by
    intro k f
    rw [h1]
    exact get_leaf (x := (p, { pn with next := none, edge := pn.next, cp := e.cp })) set_same hl k
  refine ⟨s, h7, h2, h3, h4, hget, ?_⟩
  intro x hx f
  rw [hget]
  refine value_none ?_
  intro a ha
  have := hb a ha x hx
  omega

/-! ## An interior node: the process cannot start -/

theorem validKids_level {d : Disk} {level : Nat} {k : Option Nat} {c : Id} {n : Node} (hc : d c = some n) (hn : n.level + 1 ≠ level) :
    ∀ (l : List (Option Nat × Id)) (prev : Option (Node × Nat)), validKids d level prev (l ++ [(k, c)]) = false
  | [], prev => by simp [validKids, hc, hn]
  | (k', c') :: l, prev => by
    have ih := validKids_level (k := k) hc hn l
    simp only [List.cons_append, validKids]
    split
    · rfl
    · rw [ih]; simp

/-- **C75 (violated)**.  The root was an interior node; it and the node it was split into are on disk, and the superblock
is not.  In every such crash the process aborts, at every start: the old root gets the other half, which is on its own
level, as its last child. -/
theorem C75_interior_abort_violated {e : Env} {d : Disk} {p n p2 : Id} {pn p2n : Node} {order : List Ref} {supply : List Id}
    (h : RootSplitLogged p n p2 order) (hf : 2 ≤ e.fuel) (hmc : e.mc = false)
    (hp : d p = some pn) (hl : pn.leaf = false) (hcp : pn.cp = e.cp) (hed : pn.edge = none) (hnx : pn.next = some p2)
    (hp2 : d p2 = some p2n) (hcp2 : p2n.cp = e.cp) (hlv : p2n.level = pn.level) :
    recover e (rootJournal p n p2) order d p supply = none := by
  have he : pn.hasEdge = false := by simp [Node.hasEdge, hed]
  obtain ⟨s, h1, h2, h3, h4, h5, h6, h7⟩ := recoverB (d2 := d.set p { pn with next := none, edge := pn.next, cp := e.cp }) (root := p) (supply := supply)
    h hf hmc ((committed_iff hp).2 hcp) ((committed_iff hp2).2 hcp2) (by
    intro s hd hsb
    simp only [RS.repairRoot, hsb, hd, hp, he, if_true, Bool.false_eq_true, if_false])
  have hv : validNode (d.set p { pn with next := none, edge := pn.next, cp := e.cp }) p = false := by
    have hk : validKids (d.set p { pn with next := none, edge := pn.next, cp := e.cp }) pn.level none
        (Node.kids { pn with next := none, edge := pn.next, cp := e.cp }) = false := by
      have hkids : Node.kids { pn with next := none, edge := pn.next, cp := e.cp } = pn.ents.map (fun e => (some e.1, e.2)) ++ [(none, p2)] := by
        simp [Node.kids, Node.hasEdge, hl, hnx, hed]
      rw [hkids]
      exact validKids_level (n := p2n) (by rw [set_other (Ne.symm h.pp2)]; exact hp2) (by omega) _ _
    simp only [validNode, set_same, hk]
    simp [hl]
  rw [hv] at h7
  simpa using h7

/-! ## Cases that meet the hypotheses -/

def orderRoot : List Ref := [.super, .node 1, .node 3, .node 10]

theorem ex_root_logged : RootSplitLogged 1 10 3 orderRoot := by
  refine ⟨by decide, by decide, by decide, by decide, ?_⟩
  intro r
  simp only [orderRoot, List.mem_cons, List.not_mem_nil, or_false]
  constructor
  · rintro (rfl | rfl | rfl | rfl) <;> simp
  · rintro (rfl | rfl | rfl | rfl) <;> simp

example : ∃ s, recover env7 (rootJournal 1 10 3) orderRoot (ofL [(1, leafOf [1, 2, 5, 8] none 6), (3, leafOf [5, 8] none 7)]) 1 [50] = some s ∧
    s.d = ofL [(1, leafOf [1, 2, 5, 8] none 6), (3, leafOf [5, 8] none 7)] ∧ s.sb = 1 ∧ s.sbDisk = 1 ∧ s.tree = 1 ∧ s.supply = [50] ∧ s.kept = [] :=
  C75_leaf_not_written_partial ex_root_logged (by decide) rfl rfl rfl (by decide)

theorem ex_edge_none : deletedAt env7 dEdge ssEdge = env7.del := by
  funext i
  simp [deletedAt, freedBy, ssEdge]

/-- The root 10 above leaves was to be split into 10 and 20 under 30. -/
example : ∃ s, recover env7 (rootJournal 10 30 20) [.node 10, .super, .node 20, .node 30] dEdge 10 [50] = some s ∧
    LeadsTo dEdge s.d 10 pEdge (nodesOf gsEdge ++ [] ++ [lastEdge]) ∧ s.sb = 10 ∧ s.sbDisk = 10 ∧ s.tree = 10 ∧ s.supply = [50] ∧ s.kept = [] := by
  refine C75_interior_not_written_partial ⟨by decide, by decide, by decide, by decide, ?_⟩ (by decide) (by decide) rfl rfl (by decide)
    (by rw [← ex_edge_none]; exact ex_edge)
  intro r
  simp only [List.mem_cons, List.not_mem_nil, or_false]
  constructor
  · rintro (rfl | rfl | rfl | rfl) <;> simp
  · rintro (rfl | rfl | rfl | rfl) <;> simp

/-- The leaf 1 was split into 1 and 3 under 10, and all written. -/
def dRoot : Disk := ofL [(1, leafOf [1, 2] (some 3) 7), (3, leafOf [5, 8] none 7), (10, aboveOf [(2, 1)] (some 3) none 7)]

example : ∃ s, recover env7 (rootJournal 1 10 3) orderRoot dRoot 10 [50] = some s ∧ s.d = dRoot ∧ s.sb = 10 ∧ s.sbDisk = 10 ∧ s.tree = 10 ∧
    s.supply = [50] :=
  C75_superblock_written_partial ex_root_logged (by decide) rfl rfl rfl rfl rfl (by decide) (by decide)

example : ∃ s, recover env7 (rootJournal 1 10 3) orderRoot dRoot 10 [50] = some s ∧ s.sbDisk = 10 ∧ 3 ∈ s.kept ∧ 10 ∉ s.kept :=
  C75_root_block_violated ex_root_logged (by decide) rfl rfl rfl rfl rfl (by decide) (by decide)

/-- With the superblock naming 1 still, the keys 5 and 8 are lost. -/
example : ∃ s, recover env7 (rootJournal 1 10 3) orderRoot dRoot 1 [50] = some s ∧ get s.d 2 1 5 = none ∧ get dRoot 2 10 5 = some 50 := by
  obtain ⟨s, h1, -, -, -, -, h6⟩ := C75_leaf_keys_lost_violated (e := env7) (d := dRoot) (supply := [50]) ex_root_logged (by decide) rfl rfl rfl rfl
    (by simp only [ascending]; decide) rfl rfl rfl (by simp only [ascending]; decide) rfl (by decide)
  exact ⟨s, h1, h6 (5, 50) (by decide) 1, by decide⟩

/-- An interior root. -/
example : recover env7 (rootJournal 1 10 3) orderRoot
    (ofL [(1, aboveOf [(2, 21), (4, 22)] none (some 3) 7), (3, aboveOf [(6, 23)] (some 24) none 7),
      (21, leafOf [1] (some 22) 3), (22, leafOf [3] (some 23) 3), (23, leafOf [5] (some 24) 3), (24, leafOf [8] none 3)]) 1 [50] = none :=
  C75_interior_abort_violated ex_root_logged (by decide) rfl rfl rfl rfl rfl rfl rfl rfl rfl

end HS.Index.Recover
