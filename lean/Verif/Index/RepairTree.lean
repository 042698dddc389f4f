import Verif.Index.RepairValid
/-!
# C74: the repair of a node whose children were split and merged
-/
namespace HS.Index.Recover

/-! ## Specification -/

/-- What a crash leaves of a node `p` above the leaves and of the leaves under it, in order (`leaves`), if some of
them were split or merged, all of them are on disk, and `p` is as it was before.  `del` are the nodes that recovery has
deleted; none of `leaves` is among them.  `gs` are the leaves that `p` has keys for, each with the siblings it was split
into and the entries of `p` for leaves that were merged into them; `init` and `last` are the edge leaf and its siblings,
and `ee` are the entries of `p` for leaves that were merged with the edge.  `fits`: there is room for all in the parent;
`full`: no leaf that was split, and no leaf made by a split but the last, is empty. -/
inductive SplitLeaves (cap : Nat) (d : Disk) (del : Id → Bool) (p : Id) (pn : Node) : List (Id × Node) → Prop
  | edge (gs : List Grp) (ee : List (Nat × Nat)) (init : List (Id × Node)) (last : Id × Node)
      (splits : AfterSplits p pn gs ee) (edge : EdgeSplits p pn gs ee init last)
      (linked : Linked d (nodesOf gs ++ init ++ [last]) none)
      (alive : ∀ x ∈ nodesOf gs ++ init ++ [last], del x.1 = false)
      (distinct : ((nodesOf gs ++ init ++ [last]).map (·.1)).Nodup)
      (fits : (nodesOf gs ++ init).length ≤ cap)
      (full : SplitsFull gs) (fullEdge : ∀ x ∈ init, x.2.ents ≠ [])
      (leaves : ∀ x ∈ nodesOf gs ++ init ++ [last], x.2.leaf = true ∧ x.2.level = 0)
      (level : pn.level = 1) :
      SplitLeaves cap d del p pn (nodesOf gs ++ init ++ [last])
  | inner (gs : List Grp) (after : Id × Node)
      (splits : AfterSplits p pn gs []) (inner : InnerSplits d del pn gs after)
      (linked : Linked d (nodesOf gs) (some after.1))
      (alive : ∀ x ∈ nodesOf gs, del x.1 = false)
      (distinct : ((nodesOf gs).map (·.1)).Nodup)
      (fits : (nodesOf gs).length ≤ cap)
      (full : SplitsFull gs)
      (onDisk : d p = some pn) (notSelf : pn.next ≠ some p)
      (leaves : ∀ x ∈ nodesOf gs ++ [after], x.2.leaf = true ∧ x.2.level = 0)
      (level : pn.level = 1) :
      SplitLeaves cap d del p pn (nodesOf gs)

/-- The disk `d'` is `d` with a parent that leads to all of `leaves`: nothing but `p` has changed, `p` has its place
among its neighbours and the range of keys that it had, each key is found through it in its leaf, and a
lookup under it gives what the leaves hold. -/
structure LeadsTo (d d' : Disk) (p : Id) (pn : Node) (leaves : List (Id × Node)) : Prop where
  others : ∀ i, i ≠ p → d' i = d i
  parent : ∃ pn', d' p = some pn' ∧ pn'.leaf = false ∧ pn'.level = pn.level ∧ pn'.next = pn.next ∧
    pn'.edge.isSome = pn.next.isNone ∧ (pn.next ≠ none → pn'.lastKey = pn.lastKey) ∧
    ∀ x ∈ leaves, ∀ e ∈ x.2.ents, pn'.route e.1 = some x.1
  lookup : ∀ k, get d' 2 p k = valueIn leaves k

/-! ## The repair -/

theorem linked_mem {d : Disk} : ∀ {l : List (Id × Node)} {nx : Option Id}, Linked d l nx → ∀ x ∈ l, d x.1 = some x.2
  | z :: l, nx, h, x, hx => by
    rcases List.mem_cons.1 hx with rfl | hx
    · exact h.1
    · exact linked_mem h.2.2 x hx

theorem set_other {d : Disk} {p : Id} {n : Node} {i : Id} (h : i ≠ p) : d.set p n i = d i := by
  simp [Disk.set, h]

theorem set_same {d : Disk} {p : Id} {n : Node} : d.set p n p = some n := by simp [Disk.set]

theorem get_interior {d : Disk} {f : Nat} {i : Id} {n : Node} (h : d i = some n) (hn : n.leaf = false) (k : Nat) :
    get d (f + 1) i k = match n.route k with | some c => get d f c k | none => none := by
  show (match d i with | none => none | some n => if n.leaf then n.value k else match n.route k with | some c => get d f c k | none => none) = _
  rw [h]
  simp only [hn, Bool.false_eq_true, if_false]

theorem get_leaf {d : Disk} {f : Nat} {x : Id × Node} (h : d x.1 = some x.2) (hl : x.2.leaf = true) (k : Nat) :
    get d (f + 1) x.1 k = x.2.value k := by
  simp [get, h, hl]

theorem findSome_append {l m : List (Id × Node)} {k : Nat} :
    valueIn (l ++ m) k = (valueIn l k).or (valueIn m k) := by
  simp [valueIn, List.findSome?_append]

/-- Lookup and routing in a parent with the entries of `items`, and the edge `last` if there is one. -/
theorem leads_edge {d : Disk} {p : Id} {n : Node} {items : List (Nat × Id × Node)} {last : Id × Node}
    (hin : InOrder items) (hgt : ∀ x ∈ items, ∀ e ∈ last.2.ents, x.1 < e.1)
    (hn : n.leaf = false) (hents : n.ents = entsOf items) (hedge : n.edge = some last.1)
    (hd : ∀ x ∈ items.map (·.2) ++ [last], d x.1 = some x.2) (hp : ∀ x ∈ items.map (·.2) ++ [last], x.1 ≠ p)
    (hl : ∀ x ∈ items.map (·.2) ++ [last], x.2.leaf = true) :
    (∀ x ∈ items.map (·.2) ++ [last], ∀ e ∈ x.2.ents, n.route e.1 = some x.1) ∧
    ∀ k, get (d.set p n) 2 p k = valueIn (items.map (·.2) ++ [last]) k := by
  have hgo : ∀ x ∈ items.map (·.2) ++ [last], ∀ k, get (d.set p n) 1 x.1 k = x.2.value k := by
    intro x hx k
    exact get_leaf (by rw [set_other (hp x hx)]; exact hd x hx) (hl x hx) k
  constructor
  · intro x hx e he
    rcases List.mem_append.1 hx with hx | hx
    · obtain ⟨y, hy, rfl⟩ := List.mem_map.1 hx
      simp [Node.route, hents, route_items hin y hy ⟨e, he, rfl⟩]
    · simp only [List.mem_singleton] at hx
      subst hx
      have : (entsOf items).find? (fun a => decide (e.1 ≤ a.1)) = none := by
        rw [List.find?_eq_none]
        intro a ha
        obtain ⟨y, hy, rfl⟩ := List.mem_map.1 ha
        have := hgt y hy e he
        simpa using this
      simp [Node.route, hents, this, hedge]
  · intro k
    have e0 : get (d.set p n) 2 p k = match n.route k with | some c => get (d.set p n) 1 c k | none => none := by
      exact get_interior set_same hn k
    rw [e0, findSome_append, valueIn_items]
    rcases find_items (k := k) hin with ⟨x, hx, h1, hk, h2⟩ | ⟨h1, h2⟩
    · have hr : n.route k = some x.2.1 := by simp [Node.route, hents, h1]
      rw [hr]
      show get (d.set p n) 1 x.2.1 k = _
      rw [hgo x.2 (by simp; left; exact ⟨x.1, hx⟩) k, h2]
      have : valueIn [last] k = none := by
        simp only [valueIn, List.findSome?_cons, List.findSome?_nil]
        rw [value_none]
        intro e he
        have := hgt x hx e he
        omega
      rw [this]
      simp
    · have hr : n.route k = some last.1 := by simp [Node.route, hents, h1, hedge]
      rw [hr]
      show get (d.set p n) 1 last.1 k = _
      rw [hgo last (by simp) k, h2]
      simp only [valueIn, List.findSome?_cons, List.findSome?_nil, Option.none_or]
      cases last.2.value k <;> rfl

theorem leads_inner {d : Disk} {p : Id} {n : Node} {items : List (Nat × Id × Node)}
    (hin : InOrder items) (hn : n.leaf = false) (hents : n.ents = entsOf items) (hedge : n.edge = none)
    (hd : ∀ x ∈ items.map (·.2), d x.1 = some x.2) (hp : ∀ x ∈ items.map (·.2), x.1 ≠ p)
    (hl : ∀ x ∈ items.map (·.2), x.2.leaf = true) :
    (∀ x ∈ items.map (·.2), ∀ e ∈ x.2.ents, n.route e.1 = some x.1) ∧
    ∀ k, get (d.set p n) 2 p k = valueIn (items.map (·.2)) k := by
  have hgo : ∀ x ∈ items.map (·.2), ∀ k, get (d.set p n) 1 x.1 k = x.2.value k := by
    intro x hx k
    exact get_leaf (by rw [set_other (hp x hx)]; exact hd x hx) (hl x hx) k
  constructor
  · intro x hx e he
    obtain ⟨y, hy, rfl⟩ := List.mem_map.1 hx
    simp [Node.route, hents, route_items hin y hy ⟨e, he, rfl⟩]
  · intro k
    have e0 : get (d.set p n) 2 p k = match n.route k with | some c => get (d.set p n) 1 c k | none => none := by
      exact get_interior set_same hn k
    rw [e0, valueIn_items]
    rcases find_items (k := k) hin with ⟨x, hx, h1, hk, h2⟩ | ⟨h1, h2⟩
    · have hr : n.route k = some x.2.1 := by simp [Node.route, hents, h1]
      rw [hr]
      show get (d.set p n) 1 x.2.1 k = _
      rw [hgo x.2 (List.mem_map.2 ⟨x, hx, rfl⟩) k, h2]
    · have hr : n.route k = none := by simp [Node.route, hents, h1, hedge]
      rw [hr, h2]

/-- What `C74_repair_partial` says, and that the sanity check accepts the node and its leaves. -/
theorem repair_all {cap fuel cp : Nat} {d : Disk} {del : Id → Bool} {isRoot : Bool} {p : Id} {pn : Node}
    {leaves : List (Id × Node)} {supply : List Id} (h : SplitLeaves cap d del p pn leaves) (hf : leaves.length + 1 < fuel) :
    ∃ r, repairLinks cap fuel cp d del isRoot p pn supply = ([], some r) ∧ r.newRoot = none ∧ r.supply = supply ∧
      LeadsTo d (d.setAll r.writes) p pn leaves ∧ validNode (d.setAll r.writes) p = true ∧
      ∀ x ∈ leaves, validNode (d.setAll r.writes) x.1 = true := by
  cases h with
  | edge gs ee init last splits edge linked alive distinct fits full fullEdge lvs level =>
    have hr := repair_edge (cap := cap) (fuel := fuel) (cp := cp) (d := d) (isRoot := isRoot) (supply := supply)
      splits full edge fullEdge linked alive fits
      (by simp at hf ⊢; omega)
    have hnodes : (itemsOf gs ++ initItems init).map (·.2) = nodesOf gs ++ init := by
      rw [List.map_append, itemsOf_nodes, initItems, List.map_map]
      congr 1
      exact List.map_id _
    have ho := inOrder_edge splits full edge fullEdge
    have hns : ∀ x ∈ nodesOf gs ++ init ++ [last], x.1 ≠ p := by
      intro x hx
      rw [List.append_assoc] at hx
      rcases List.mem_append.1 hx with hx | hx
      · exact splits.notSelf x hx
      · exact edge.notSelf x hx
    have hle := leads_edge (d := d) (p := p) (n := edgeResult cp pn gs init last) ho.1 ho.2 splits.interior rfl rfl
      (by rw [hnodes]; exact linked_mem linked) (by rw [hnodes]; exact hns)
      (by rw [hnodes]; exact fun x hx => (lvs x hx).1)
    rw [hnodes] at hle
    have hset : d.setAll [(p, edgeResult cp pn gs init last)] = d.set p (edgeResult cp pn gs init last) := rfl
    have hlk := linked_set (n := edgeResult cp pn gs init last) hns linked
    refine ⟨_, hr, rfl, rfl, ⟨?_, ?_, hle.2⟩, ?_, ?_⟩
    · intro i hi
      exact set_other hi
    · refine ⟨edgeResult cp pn gs init last, by simp [Disk.setAll, Disk.set], splits.interior, rfl, edge.next.symm, ?_, ?_, hle.1⟩
      · rw [edge.next]; rfl
      · intro e; exact absurd edge.next e
    · show validNode (d.setAll [(p, edgeResult cp pn gs init last)]) p = true
      rw [hset]
      refine valid_edge set_same ho.1 (sep_pairwise_edge splits full edge fullEdge) ho.2 splits.interior rfl rfl rfl
        (by rw [hnodes]; exact hlk) ?_
      rw [hnodes]
      intro x hx
      obtain ⟨h1, h2⟩ := lvs x hx
      exact ⟨h1, by rw [h2]; exact level.symm⟩
    · show ∀ x ∈ nodesOf gs ++ init ++ [last], validNode (d.set p (edgeResult cp pn gs init last)) x.1 = true
      refine valid_leaves (nx := none) hlk (fun _ h => by cases h) (by simpa using distinct) (by simpa using lvs) ?_ ?_
      · intro x hx
        rw [List.append_assoc] at hx
        rcases List.mem_append.1 hx with hx | hx
        · exact splits.sorted x hx
        · exact edge.sorted x hx
      · rw [Option.toList_none, List.append_nil, List.append_assoc, List.pairwise_append]
        refine ⟨below_groups splits, edge.inOrder, ?_⟩
        intro x hx y hy a ha b hb
        simp only [nodesOf, List.mem_flatMap] at hx
        obtain ⟨g, hg, hx⟩ := hx
        have h1 := splits.atMost g hg x hx a ha
        have h2 := edge.above g hg y hy b hb
        omega
  | inner gs after splits inner linked alive distinct fits full hdp nself lvs level =>
    obtain ⟨I, x, hix, hx⟩ := items_split splits inner.nonempty
    obtain ⟨r, hr, h1, h2, h3⟩ := repair_inner (cap := cap) (fuel := fuel) (cp := cp) (d := d) (isRoot := isRoot)
      (supply := supply) splits full inner linked alive fits hf hix hx
    rw [if_pos (Or.inl (by omega))] at h3
    have ho : InOrder (I ++ [(pn.lastKey, x.2)]) := inOrder_raise (hix ▸ inOrder_items splits full) hx
    have hnodes : (I ++ [(pn.lastKey, x.2)]).map (·.2) = nodesOf gs := by
      rw [← itemsOf_nodes, hix]; simp
    have hle := leads_inner (d := d) (p := p) (n := innerResult cp pn I x) ho splits.interior rfl inner.edge
      (by rw [hnodes]; exact linked_mem linked) (by rw [hnodes]; exact splits.notSelf)
      (by rw [hnodes]; exact fun x hx => (lvs x (List.mem_append_left _ hx)).1)
    rw [hnodes] at hle
    obtain ⟨q, qn, hq, hqd, -, hqf, hql, hqv, hqk⟩ := inner.next
    have hqp : q ≠ p := fun e => nself (by rw [hq, e])
    have hset : d.setAll r.writes = d.set p (innerResult cp pn I x) := by rw [h3]; rfl
    have hlk := linked_set (n := innerResult cp pn I x) splits.notSelf linked
    have hap : after.1 ≠ p → d.set p (innerResult cp pn I x) after.1 = some after.2 := by
      intro e; rw [set_other e]; exact inner.onDisk
    have hafter : after.1 ≠ p := by
      intro e
      have hl := (lvs after (by simp)).1
      have hd := inner.onDisk
      rw [e, hdp] at hd
      injection hd with hd
      rw [← hd, splits.interior] at hl
      cases hl
    refine ⟨r, hr, h1, h2, ?_⟩
    rw [hset]
    refine ⟨⟨?_, ?_, hle.2⟩, ?_, ?_⟩
    · intro i hi
      exact set_other hi
    · refine ⟨innerResult cp pn I x, by simp [Disk.set], splits.interior, rfl, rfl, ?_, ?_, hle.1⟩
      · show pn.edge.isSome = _
        rw [inner.edge, hq]; rfl
      · intro _
        simp [Node.lastKey, innerResult, entsOf]
    · refine valid_inner (q := q) (qn := qn) (after := after.1) set_same ho (raise_pairwise (hix ▸ sep_pairwise splits full) hx)
        splits.interior rfl inner.edge hq (by rw [hnodes]; exact hlk) ?_ (by rw [set_other hqp]; exact hqd) hqp hqf hql hqv hqk
      rw [hnodes]
      intro x hx
      obtain ⟨h1, h2⟩ := lvs x (List.mem_append_left _ hx)
      exact ⟨h1, by rw [h2]; exact level.symm⟩
    · refine valid_leaves (nx := some after) hlk (fun y h => by cases h; exact hap hafter) ?_ lvs splits.sorted ?_
      · rw [List.nodup_append]
        refine ⟨distinct, by simp, ?_⟩
        intro a ha b hb
        obtain ⟨y, hy, rfl⟩ := List.mem_map.1 ha
        simp only [Option.map_some, Option.toList_some, List.mem_singleton] at hb
        subst hb
        exact inner.notIn y hy
      · rw [Option.toList_some, List.pairwise_append]
        refine ⟨below_groups splits, by simp, ?_⟩
        intro x hx y hy a ha b hb
        simp only [List.mem_singleton] at hy
        subst hy
        simp only [nodesOf, List.mem_flatMap] at hx
        obtain ⟨g, hg, hx⟩ := hx
        have h1 := splits.atMost g hg x hx a ha
        have h2 := inner.above g hg b hb
        omega

/-- **C74**.  Repairing a node above the leaves after a crash, when leaves under it were split, merged and written and it
was not: it gets an entry for each leaf that is left; every key in them is found, with its value, and no other; all other nodes,
and the place of the node in the tree, are as they were. -/
theorem C74_repair_partial {cap fuel cp : Nat} {d : Disk} {del : Id → Bool} {isRoot : Bool} {p : Id} {pn : Node}
    {leaves : List (Id × Node)} {supply : List Id} (h : SplitLeaves cap d del p pn leaves) (hf : leaves.length + 1 < fuel) :
    ∃ r, repairLinks cap fuel cp d del isRoot p pn supply = ([], some r) ∧ r.newRoot = none ∧ r.supply = supply ∧
      LeadsTo d (d.setAll r.writes) p pn leaves := by
  obtain ⟨r, h1, h2, h3, h4, -⟩ := repair_all (cp := cp) (isRoot := isRoot) (supply := supply) h hf
  exact ⟨r, h1, h2, h3, h4⟩

end HS.Index.Recover
