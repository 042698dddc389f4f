import Verif.Index.RepairLemmas
/-!
# C74: the repair of a node whose children were split and merged before a crash
-/
namespace HS.Index.Recover

/-! ## Specification -/

/-- An old child (`head`) with the key that the parent has for it (`okey`), the siblings it was split into since, and
the parent's entries for old children that were merged into them since (`gone`); `key` is the last of the parent's keys
for them. -/
structure Grp where
  key : Nat
  head : Id × Node
  sibs : List (Id × Node)
  okey : Nat := key
  gone : List (Nat × Id) := []

/-- The parent's entries for these children. -/
def Grp.ents (g : Grp) : List (Nat × Nat) := (g.okey, g.head.1) :: g.gone

def Grp.nodes (g : Grp) : List (Id × Node) := g.head :: g.sibs

/-- All nodes of several groups. -/
def nodesOf (gs : List Grp) : List (Id × Node) := gs.flatMap Grp.nodes

def ascending (n : Node) : Prop := n.ents.Pairwise (fun a b => a.1 < b.1)

/-- All keys of `x` are below those of `y`. -/
def below (x y : Id × Node) : Prop := ∀ a ∈ x.2.ents, ∀ b ∈ y.2.ents, a.1 < b.1

/-- What a crash leaves of the children of `p`, if they were split and merged, written, and `p` was not: `p` has an entry
for each old child, the keys of the children that are left and of the siblings they were split into are between the keys of
the parent, and in order.  `ee`: the entries of `p` for its last children, if these were merged with the edge. -/
structure AfterSplits (p : Id) (pn : Node) (gs : List Grp) (ee : List (Nat × Nat)) : Prop where
  interior : pn.leaf = false
  entries : pn.ents = gs.flatMap Grp.ents ++ ee
  ordered : ascending pn
  once : (pn.ents.map (·.2)).Nodup
  bound : ∀ g ∈ gs, (∀ e ∈ g.ents, e.1 ≤ g.key) ∧ ∃ e ∈ g.ents, e.1 = g.key
  atMost : ∀ g ∈ gs, ∀ x ∈ g.nodes, ∀ e ∈ x.2.ents, e.1 ≤ g.key
  above : gs.Pairwise (fun g g' => g.key < g'.okey ∧ ∀ x ∈ g'.nodes, ∀ e ∈ x.2.ents, g.key < e.1)
  inOrder : ∀ g ∈ gs, g.nodes.Pairwise below
  sorted : ∀ x ∈ nodesOf gs, ascending x.2
  noEdge : ∀ x ∈ nodesOf gs, x.2.hasEdge = false
  notSelf : ∀ x ∈ nodesOf gs, x.1 ≠ p

/-- A node that was split, or made by a split, is not empty. -/
def SplitsFull (gs : List Grp) : Prop := ∀ g ∈ gs, g.sibs ≠ [] → ∀ x ∈ g.nodes, x.2.ents ≠ []

/-- The value of a key in the first leaf that has it. -/
def valueIn (l : List (Id × Node)) (k : Nat) : Option Nat := l.findSome? (fun x => x.2.value k)

/-! ## The items -/

def sep (g : Grp) (x : Id × Node) : Nat := if x.2.ents.isEmpty then g.okey else x.2.lastKey

def Grp.items (g : Grp) : List (Nat × Id × Node) := g.nodes.map (fun x => (sep g x, x))

def itemsOf (gs : List Grp) : List (Nat × Id × Node) := gs.flatMap Grp.items

theorem itemsOf_nodes (gs : List Grp) : (itemsOf gs).map (·.2) = nodesOf gs := by
  induction gs with
  | nil => rfl
  | cons g gs ih =>
    show ((g.items ++ itemsOf gs).map (·.2)) = g.nodes ++ nodesOf gs
    rw [List.map_append, ih, Grp.items, List.map_map]
    congr 1
    exact List.map_id _

theorem mem_itemsOf {gs : List Grp} {x : Nat × Id × Node} (h : x ∈ itemsOf gs) :
    ∃ g ∈ gs, x.2 ∈ g.nodes ∧ x.1 = sep g x.2 := by
  simp only [itemsOf, List.mem_flatMap, Grp.items, List.mem_map] at h
  obtain ⟨g, hg, y, hy, rfl⟩ := h
  exact ⟨g, hg, hy, rfl⟩

theorem mem_nodesOf {gs : List Grp} {g : Grp} (hg : g ∈ gs) {x : Id × Node} (hx : x ∈ g.nodes) : x ∈ nodesOf gs := by
  simp only [nodesOf, List.mem_flatMap]; exact ⟨g, hg, hx⟩

theorem sep_le {g : Grp} {x : Id × Node} (hb : ∀ e ∈ g.ents, e.1 ≤ g.key) (h : ∀ e ∈ x.2.ents, e.1 ≤ g.key) : sep g x ≤ g.key := by
  unfold sep
  by_cases e : x.2.ents = []
  · have : g.okey ≤ g.key := hb (g.okey, g.head.1) (by simp [Grp.ents])
    simpa [e] using this
  · obtain ⟨a, ha, hk⟩ := lastKey_mem e
    have := h a ha
    simp [e]; omega

theorem le_sep {g : Grp} {x : Id × Node} (h : ascending x.2) : ∀ e ∈ x.2.ents, e.1 ≤ sep g x := by
  intro e he
  have hne : x.2.ents ≠ [] := by intro h; rw [h] at he; cases he
  have := le_lastKey h e he
  simpa [sep, hne] using this

theorem inOrder_group {g : Grp} (hf : g.sibs ≠ [] → ∀ x ∈ g.nodes, x.2.ents ≠ []) (ho : g.nodes.Pairwise below)
    (hs : ∀ x ∈ g.nodes, ascending x.2) : InOrder g.items := by
  constructor
  · intro x hx e he
    simp only [Grp.items, List.mem_map] at hx
    obtain ⟨y, hy, rfl⟩ := hx
    exact le_sep (hs y hy) e he
  · by_cases hsib : g.sibs = []
    · simp [Grp.items, Grp.nodes, hsib]
    · rw [Grp.items, List.pairwise_map]
      refine List.Pairwise.imp_of_mem ?_ ho
      intro x y hx hy hb e he
      have hne := hf hsib x hx
      obtain ⟨a, ha, hk⟩ := lastKey_mem hne
      have := hb a ha e he
      simp [sep, hne]; omega

theorem inOrder_items {p : Id} {pn : Node} {gs : List Grp} {ee : List (Nat × Nat)} (h : AfterSplits p pn gs ee) (hf : SplitsFull gs) :
    InOrder (itemsOf gs) := by
  have hgen : ∀ l : List Grp, (∀ g ∈ l, g ∈ gs) →
      l.Pairwise (fun g g' => g.key < g'.okey ∧ ∀ x ∈ g'.nodes, ∀ e ∈ x.2.ents, g.key < e.1) → InOrder (itemsOf l) := by
    intro l
    induction l with
    | nil => intro _ _; exact ⟨by simp [itemsOf], by simp [itemsOf]⟩
    | cons g l ih =>
      intro hm hp
      obtain ⟨hp1, hp2⟩ := List.pairwise_cons.1 hp
      have i2 := ih (fun g' hg' => hm g' (by simp [hg'])) hp2
      have hg := hm g (by simp)
      have i1 := inOrder_group (hf g hg) (h.inOrder g hg) (fun x hx => h.sorted x (mem_nodesOf hg hx))
      constructor
      · intro x hx
        rcases List.mem_append.1 (show x ∈ g.items ++ itemsOf l from hx) with hx | hx
        · exact i1.le x hx
        · exact i2.le x hx
      · show (g.items ++ itemsOf l).Pairwise _
        rw [List.pairwise_append]
        refine ⟨i1.lt, i2.lt, ?_⟩
        intro x hx y hy e he
        simp only [Grp.items, List.mem_map] at hx
        obtain ⟨x, hx, rfl⟩ := hx
        obtain ⟨g', hg', hy', -⟩ := mem_itemsOf hy
        have h1 := sep_le (h.bound g hg).1 (h.atMost g hg x hx)
        have h2 := (hp1 g' hg').2 y.2 hy' e he
        show sep g x < e.1
        omega
  exact hgen gs (fun _ h => h) h.above

theorem valueIn_items (l : List (Nat × Id × Node)) (k : Nat) :
    valueIn (l.map (·.2)) k = l.findSome? (fun x => x.2.2.value k) := by
  induction l with
  | nil => rfl
  | cons x l ih =>
    simp only [valueIn, List.map_cons, List.findSome?_cons] at ih ⊢
    rw [ih]

theorem find_id {es : List (Nat × Nat)} {e : Nat × Nat} (he : e ∈ es) (hnd : (es.map (·.2)).Nodup) :
    origKey es e.2 = some e.1 := by
  induction es with
  | nil => cases he
  | cons a es ih =>
    simp only [List.map_cons, List.nodup_cons] at hnd
    by_cases h : a.2 = e.2
    · rcases List.mem_cons.1 he with rfl | he'
      · simp [origKey]
      · exact absurd (List.mem_map.2 ⟨e, he', rfl⟩) (h ▸ hnd.1)
    · rcases List.mem_cons.1 he with rfl | he'
      · exact absurd rfl h
      · have := ih he' hnd.2
        simp only [origKey, List.find?_cons] at this ⊢
        rw [show (a.2 == e.2) = false by simpa using h]
        exact this

theorem mem_ents {p : Id} {pn : Node} {gs : List Grp} {ee : List (Nat × Nat)} (h : AfterSplits p pn gs ee) {g : Grp} (hg : g ∈ gs)
    {e : Nat × Nat} (he : e ∈ g.ents) : e ∈ pn.ents := by
  rw [h.entries, List.mem_append]
  left
  exact List.mem_flatMap.2 ⟨g, hg, he⟩

theorem origKey_of {p : Id} {pn : Node} {gs : List Grp} {ee : List (Nat × Nat)} (h : AfterSplits p pn gs ee) {g : Grp} (hg : g ∈ gs) :
    origKey pn.ents g.head.1 = some g.okey :=
  find_id (e := (g.okey, g.head.1)) (mem_ents h hg (by simp [Grp.ents])) h.once

theorem item_of {p : Id} {pn : Node} {gs : List Grp} {ee : List (Nat × Nat)} (h : AfterSplits p pn gs ee) (hf : SplitsFull gs)
    {a : LoopArgs} (hdel : ∀ x ∈ nodesOf gs, a.del x.1 = false) (ho : a.orig = pn.ents)
    (hl : a.isEdge = true ∨ ∀ g ∈ gs, g.key ≤ a.lastKey) : ∀ x ∈ itemsOf gs, Item a x.1 x.2 := by
  intro x hx
  obtain ⟨g, hg, hxg, hsep⟩ := mem_itemsOf hx
  have hno := h.noEdge x.2 (mem_nodesOf hg hxg)
  have hal := hdel x.2 (mem_nodesOf hg hxg)
  have hok : x.2.1 = g.head.1 → origKey a.orig x.2.1 = some g.okey := by
    intro e; rw [ho, e]; exact origKey_of h hg
  by_cases hs : g.sibs = []
  · have e : x.2 = g.head := by simpa [Grp.nodes, hs] using hxg
    have hk := hok (by rw [e])
    refine ⟨hno, ?_, Or.inr (Or.inl (by rw [hk]; rfl)), hal⟩
    rw [hsep, hk]; unfold sep
    by_cases e : x.2.2.ents.isEmpty = true
    · rw [if_pos e, if_pos e]
    · rw [if_neg e, if_neg e]
  · have hne := hf g hg hs x.2 hxg
    refine ⟨hno, by rw [hsep]; simp [sep, hne], ?_, hal⟩
    rcases hl with e | e
    · exact Or.inl e
    · right; right
      obtain ⟨b, hb, hk⟩ := lastKey_mem hne
      have := h.atMost g hg x.2 hxg b hb
      have := e g hg
      exact ⟨by omega, hne⟩

/-! ## The repair of a node with an edge -/

theorem firstChild_chain {p : Id} {pn : Node} {gs : List Grp} {ee : List (Nat × Nat)} (h : AfterSplits p pn gs ee) (hne : gs ≠ []) :
    ∃ c l, nodesOf gs = c :: l ∧ pn.firstChild = some c.1 := by
  cases gs with
  | nil => exact absurd rfl hne
  | cons g gs =>
    refine ⟨g.head, g.sibs ++ nodesOf gs, rfl, ?_⟩
    rw [Node.firstChild, h.entries]
    rfl

theorem linked_append {d : Disk} : ∀ {l m : List (Id × Node)} {nx : Option Id},
    Linked d (l ++ m) nx ↔ Linked d l (firstId m nx) ∧ Linked d m nx
  | [], m, nx => by simp [Linked]
  | x :: l, m, nx => by
    have : firstId (l ++ m) nx = firstId l (firstId m nx) := by cases l <;> rfl
    show (_ ∧ x.2.next = firstId (l ++ m) nx ∧ Linked d (l ++ m) nx) ↔ (_ ∧ _ ∧ _) ∧ _
    rw [linked_append, this]
    constructor
    · rintro ⟨a, b, c, e⟩; exact ⟨⟨a, b, c⟩, e⟩
    · rintro ⟨⟨a, b, c⟩, e⟩; exact ⟨a, b, c, e⟩

/-- The last children and the siblings they were split into: `init` are all but the last.  The first of them is the edge,
or, if others up to the edge were merged into it, the child that the parent has the first key of `ee` for. -/
structure EdgeSplits (p : Id) (pn : Node) (gs : List Grp) (ee : List (Nat × Nat)) (init : List (Id × Node)) (last : Id × Node) : Prop where
  next : pn.next = none
  edge : (match ee with | [] => pn.edge | e :: _ => some e.2) = firstId init (some last.1)
  above : ∀ g ∈ gs, ∀ x ∈ init ++ [last], ∀ e ∈ x.2.ents, g.key < e.1
  inOrder : (init ++ [last]).Pairwise below
  sorted : ∀ x ∈ init ++ [last], ascending x.2
  noEdge : ∀ x ∈ init, x.2.hasEdge = false
  isEdge : last.2.next = none ∧ (last.2.leaf = true ∨ last.2.hasEdge = true)
  notSelf : ∀ x ∈ init ++ [last], x.1 ≠ p

def initItems (l : List (Id × Node)) : List (Nat × Id × Node) := l.map (fun x => (x.2.lastKey, x))

theorem inOrder_edge {p : Id} {pn : Node} {gs : List Grp} {ee : List (Nat × Nat)} {init : List (Id × Node)} {last : Id × Node}
    (h : AfterSplits p pn gs ee) (hf : SplitsFull gs) (he : EdgeSplits p pn gs ee init last)
    (hi : ∀ x ∈ init, x.2.ents ≠ []) :
    InOrder (itemsOf gs ++ initItems init) ∧
    ∀ x ∈ itemsOf gs ++ initItems init, ∀ e ∈ last.2.ents, x.1 < e.1 := by
  have h1 := inOrder_items h hf
  have ho := he.inOrder
  rw [List.pairwise_append] at ho
  have hkey : ∀ x ∈ init, ∀ y, below x y → ∀ e ∈ y.2.ents, x.2.lastKey < e.1 := by
    intro x hx y hb e hey
    obtain ⟨a, ha, hk⟩ := lastKey_mem (hi x hx)
    have := hb a ha e hey
    omega
  have hsep : ∀ x ∈ itemsOf gs, ∀ y ∈ init ++ [last], ∀ e ∈ y.2.ents, x.1 < e.1 := by
    intro x hx y hy e hey
    obtain ⟨g, hg, hxg, hs⟩ := mem_itemsOf hx
    have := sep_le (h.bound g hg).1 (h.atMost g hg x.2 hxg)
    have := he.above g hg y hy e hey
    omega
  refine ⟨⟨?_, ?_⟩, ?_⟩
  · intro x hx e hex
    rcases List.mem_append.1 hx with hx | hx
    · exact h1.le x hx e hex
    · simp only [initItems, List.mem_map] at hx
      obtain ⟨y, hy, rfl⟩ := hx
      exact le_lastKey (he.sorted y (by simp [hy])) e hex
  · rw [List.pairwise_append]
    refine ⟨h1.lt, ?_, ?_⟩
    · rw [initItems, List.pairwise_map]
      refine List.Pairwise.imp_of_mem ?_ ho.1
      intro x y hx _ hb e hey
      exact hkey x hx y hb e hey
    · intro x hx y hy e hey
      simp only [initItems, List.mem_map] at hy
      obtain ⟨y, hy, rfl⟩ := hy
      exact hsep x hx y (by simp [hy]) e hey
  · intro x hx e hex
    rcases List.mem_append.1 hx with hx | hx
    · exact hsep x hx last (by simp) e hex
    · simp only [initItems, List.mem_map] at hx
      obtain ⟨y, hy, rfl⟩ := hx
      exact hkey y hy last (ho.2.2 y hy last (by simp)) e hex

theorem loop_edge {a : LoopArgs} {d : Disk} {f : Nat} {done : List (Id × Node)} {cur : Id × Node} {supply : List Id}
    {pre : Option (Id × Node)} {w : List (Id × Node)}
    {n : Id × Node} (hd : d n.1 = some n.2) (hn : n.2.next = none) (he : n.2.leaf = true ∨ n.2.hasEdge = true)
    (ha : a.isEdge = true) (hdel : a.del n.1 = false) :
    loop a d (f + 1) n.1 done cur pre w supply = (w, some (done ++ [(cur.1, { cur.2 with next := none, edge := some n.1 })], supply)) := by
  have h2 : (n.2.hasEdge || (n.2.leaf && n.2.next.isNone)) = true := by
    rcases he with e | e <;> simp [e, hn]
  simp only [loop, hd]
  rw [if_pos h2, if_neg (by simp [hdel]), if_pos ha]

/-- The node that the repair writes. -/
def edgeResult (cp : Nat) (pn : Node) (gs : List Grp) (init : List (Id × Node)) (last : Id × Node) : Node :=
  { pn with ents := entsOf (itemsOf gs ++ initItems init), edge := some last.1, next := none, cp }

theorem repair_edge {cap fuel cp : Nat} {d : Disk} {del : Id → Bool} {isRoot : Bool} {p : Id} {pn : Node} {gs : List Grp}
    {ee : List (Nat × Nat)} {init : List (Id × Node)} {last : Id × Node} {supply : List Id}
    (h : AfterSplits p pn gs ee) (hf : SplitsFull gs) (he : EdgeSplits p pn gs ee init last) (hi : ∀ x ∈ init, x.2.ents ≠ [])
    (hl : Linked d (nodesOf gs ++ init ++ [last]) none) (hdel : ∀ x ∈ nodesOf gs ++ init ++ [last], del x.1 = false)
    (hcap : (nodesOf gs ++ init).length ≤ cap) (hfuel : (nodesOf gs ++ init).length + 1 < fuel) :
    repairLinks cap fuel cp d del isRoot p pn supply =
      ([], some { writes := [(p, edgeResult cp pn gs init last)], newRoot := none, supply }) := by
  have hnodes : (itemsOf gs ++ initItems init).map (·.2) = nodesOf gs ++ init := by
    rw [List.map_append, itemsOf_nodes, initItems, List.map_map]
    congr 1
    exact List.map_id _
  have hlen : (itemsOf gs ++ initItems init).length = (nodesOf gs ++ init).length := by
    rw [← hnodes, List.length_map]
  obtain ⟨c0, hc0, hc0'⟩ : ∃ c0, firstId (nodesOf gs ++ init) (some last.1) = some c0 ∧ pn.firstChild = some c0 := by
    by_cases hg : gs = []
    · subst hg
      have : pn.firstChild = firstId init (some last.1) := by
        rw [← he.edge]
        simp only [Node.firstChild, h.entries, List.flatMap_nil, List.nil_append]
        cases ee <;> rfl
      rw [this]
      cases init with
      | nil => exact ⟨_, rfl, rfl⟩
      | cons x l => exact ⟨_, rfl, rfl⟩
    · obtain ⟨c, l, h1, h2⟩ := firstChild_chain h hg
      exact ⟨c.1, by rw [h1]; rfl, h2⟩
  -- the first walk
  obtain ⟨f0, hf0⟩ : ∃ f0, fuel = f0 + 1 := ⟨fuel - 1, by omega⟩
  have hts : trueSibling d del fuel pn.next = some none := by rw [he.next, hf0]; rfl
  have hwalk : ∃ stop, parentKey d del fuel pn none c0 = some (pn.lastKey, stop, false) ∧ stop = none := by
    unfold parentKey
    by_cases hp : pn.ents.isEmpty = true
    · rw [if_pos hp]; exact ⟨none, rfl, rfl⟩
    · rw [if_neg hp]
      obtain ⟨c, l, hcl⟩ : ∃ c l, nodesOf gs ++ init ++ [last] = c :: l := by
        cases e : nodesOf gs ++ init ++ [last] with
        | nil => simp at e
        | cons c l => exact ⟨c, l, rfl⟩
      have hcc : c.1 = c0 := by
        have e : firstId (nodesOf gs ++ init ++ [last]) none = some c0 := by
          rw [← hc0]; cases nodesOf gs ++ init <;> rfl
        rw [hcl] at e
        simpa [firstId] using e
      have hsfc : siblingFirstChild d del fuel pn = some none := by
        unfold siblingFirstChild
        rw [hts]
        split <;> rfl
      have hll : (c :: l).length = (nodesOf gs ++ init).length + 1 := by rw [← hcl]; simp; omega
      obtain ⟨r, hr, -⟩ := lastChild_spec (sfc := none) (nx := none) (Or.inl rfl) l fuel none c (hcl ▸ hl)
        (by simp only [List.length_cons] at hll; omega) (fun _ _ => by simp) (hcl ▸ hdel)
      refine ⟨none, ?_, rfl⟩
      rw [hsfc, ← hcc]
      simp only [hr]
      cases r with
      | none => rfl
      | some k => simp only [Option.isSome_none]; split <;> rfl
  obtain ⟨stop, hwalk, hstop⟩ := hwalk
  subst hstop
  -- the loop
  obtain ⟨f, hfe⟩ : ∃ f, fuel = (f + 1) + (itemsOf gs ++ initItems init).length :=
    ⟨fuel - 1 - (nodesOf gs ++ init).length, by rw [hlen]; omega⟩
  have hl' := linked_append.1 hl
  have hloop := loop_items (a := { cap, fuel, del, isEdge := true, sib := none, orig := pn.ents, lastKey := pn.lastKey, stop := none })
    (d := d) rfl (itemsOf gs ++ initItems init) (f + 1) c0 last.1 [] (p, { pn with ents := [], edge := none }) none [] supply
    (by rw [hnodes]; exact hl'.1) (by rw [hnodes]; exact hc0)
    (by
      intro x hx
      rcases List.mem_append.1 hx with hx | hx
      · exact item_of h hf (fun x hx => hdel x (by simp [hx])) rfl (Or.inl rfl) x hx
      · simp only [initItems, List.mem_map] at hx
        obtain ⟨y, hy, rfl⟩ := hx
        exact ⟨he.noEdge y hy, by simp [hi y hy], Or.inl rfl, hdel y (by simp [hy])⟩)
    (by rw [hlen]; simpa using hcap)
  rw [← hfe, loop_edge hl'.2.1 he.isEdge.1 he.isEdge.2 rfl (hdel last (by simp))] at hloop
  unfold repairLinks
  simp only [hts, hc0', Option.isNone_none, Bool.not_true, Bool.and_false, Bool.false_eq_true, if_false]
  simp only [hwalk, Bool.false_eq_true, if_false]
  simp only [hloop]
  simp [finishLast, Node.hasEdge, h.interior, edgeResult]

/-! ## The repair of a node without an edge -/

/-- The right neighbour of the parent and its first child, which comes after the children of the parent. -/
structure InnerSplits (d : Disk) (del : Id → Bool) (pn : Node) (gs : List Grp) (after : Id × Node) : Prop where
  nonempty : gs ≠ []
  edge : pn.edge = none
  next : ∃ q qn, pn.next = some q ∧ d q = some qn ∧ del q = false ∧ qn.firstChild = some after.1 ∧ qn.leaf = false ∧
    qn.level = pn.level ∧ ∀ e ∈ qn.ents, pn.lastKey ≤ e.1
  onDisk : d after.1 = some after.2
  above : ∀ g ∈ gs, ∀ e ∈ after.2.ents, g.key < e.1
  notIn : ∀ x ∈ nodesOf gs, x.1 ≠ after.1
  notChild : ∀ e ∈ pn.ents, e.2 ≠ after.1
  alive : del after.1 = false

theorem lastKey_entries {p : Id} {pn : Node} {gs : List Grp} {ee : List (Nat × Nat)} (h : AfterSplits p pn gs ee) :
    ∀ g ∈ gs, g.key ≤ pn.lastKey := by
  intro g hg
  obtain ⟨e, he, hk⟩ := (h.bound g hg).2
  have := le_lastKey h.ordered e (mem_ents h hg he)
  omega

theorem origKey_none {es : List (Nat × Nat)} {i : Id} (h : ∀ e ∈ es, e.2 ≠ i) : origKey es i = none := by
  have : es.find? (fun e => e.2 == i) = none := by
    rw [List.find?_eq_none]
    intro e he
    simpa using h e he
  simp [origKey, this]

theorem loop_after {a : LoopArgs} {d : Disk} {f : Nat} {cur : Id × Node} {supply : List Id}
    {pre : Option (Id × Node)} {w : List (Id × Node)} {q : Id} {qn : Node}
    {n : Id × Node} (hd : d n.1 = some n.2) (ha : a.isEdge = false) (ho : origKey a.orig n.1 = none)
    (hk : ∀ e ∈ n.2.ents, a.lastKey < e.1) (hs : a.sib = cur.2.next) (hdel : a.del n.1 = false)
    (hq : cur.2.next = some q) (hqd : d q = some qn) (hqa : a.del q = false) (hfu : 0 < a.fuel) :
    loop a d (f + 1) n.1 [] cur pre w supply = (w, some ([cur], supply)) := by
  simp only [loop, hd]
  by_cases h2 : (n.2.hasEdge || (n.2.leaf && n.2.next.isNone)) = true
  · rw [if_pos h2, if_neg (by simp [hdel]), if_neg (by simp [ha]), hs]
    rfl
  · rw [if_neg h2]
    by_cases e : n.2.ents = []
    · by_cases e2 : (!a.isEdge && (origKey a.orig n.1).isNone && decide (a.lastKey < n.2.lastKey)) = true
      · rw [if_pos e2]; rfl
      · rw [if_neg e2, if_pos (by simp [ha, ho, e])]
        obtain ⟨f', hf'⟩ : ∃ f', a.fuel = f' + 1 := ⟨a.fuel - 1, by omega⟩
        have : skipDeleted d a.del a.fuel cur.2.next = some (some q) := by
          rw [hf', hq]; simp [skipDeleted, hqd, hqa]
        rw [this, ← hq]
        rfl
    · rw [if_pos]
      · rfl
      · obtain ⟨b, hb, hk'⟩ := lastKey_mem e
        have := hk b hb
        simp [ha, ho]; omega

/-- The node that the repair writes: the last key is the one it had. -/
def innerResult (cp : Nat) (pn : Node) (I : List (Nat × Id × Node)) (x : Nat × Id × Node) : Node :=
  { pn with ents := entsOf (I ++ [(pn.lastKey, x.2)]), cp }

theorem items_split {p : Id} {pn : Node} {gs : List Grp} {ee : List (Nat × Nat)} (h : AfterSplits p pn gs ee) (hne : gs ≠ []) :
    ∃ I x, itemsOf gs = I ++ [x] ∧ x.1 ≤ pn.lastKey := by
  have hn : itemsOf gs ≠ [] := by
    intro e
    have e2 := itemsOf_nodes gs
    obtain ⟨c, l, h1, -⟩ := firstChild_chain h hne
    rw [e, h1] at e2
    cases e2
  refine ⟨_, _, (List.dropLast_concat_getLast hn).symm, ?_⟩
  obtain ⟨g, hg, hx, hs⟩ := mem_itemsOf (List.getLast_mem hn)
  have h1 := sep_le (h.bound g hg).1 (h.atMost g hg _ hx)
  have h2 := lastKey_entries h g hg
  omega

theorem entsOf_append (l m : List (Nat × Id × Node)) : entsOf (l ++ m) = entsOf l ++ entsOf m := by simp [entsOf]

theorem repair_inner {cap fuel cp : Nat} {d : Disk} {del : Id → Bool} {isRoot : Bool} {p : Id} {pn : Node} {gs : List Grp}
    {after : Id × Node} {supply : List Id} {I : List (Nat × Id × Node)} {x : Nat × Id × Node}
    (h : AfterSplits p pn gs []) (hf : SplitsFull gs) (hin : InnerSplits d del pn gs after)
    (hl : Linked d (nodesOf gs) (some after.1)) (hdel : ∀ x ∈ nodesOf gs, del x.1 = false)
    (hcap : (nodesOf gs).length ≤ cap) (hfuel : (nodesOf gs).length + 1 < fuel)
    (hix : itemsOf gs = I ++ [x]) (hx : x.1 ≤ pn.lastKey) :
    ∃ r, repairLinks cap fuel cp d del isRoot p pn supply = ([], some r) ∧ r.newRoot = none ∧ r.supply = supply ∧
      r.writes = (p, innerResult cp pn I x) ::
        (if pn.level ≤ 1 ∨ pn.lastKey ≤ x.2.2.lastKey then []
         else [(x.2.1, { x.2.2 with ents := setLastKey x.2.2.ents pn.lastKey, cp })]) := by
  obtain ⟨q, qn, hq, hqd, hqa, hqf, -⟩ := hin.next
  obtain ⟨f0, hf0⟩ : ∃ f0, fuel = f0 + 1 := ⟨fuel - 1, by omega⟩
  have hts : trueSibling d del fuel pn.next = some (some q) := by rw [hq, hf0]; exact trueSibling_some hqd hqa
  have hlen : (itemsOf gs).length = (nodesOf gs).length := by rw [← itemsOf_nodes, List.length_map]
  obtain ⟨c, l, hcl, hc0'⟩ := firstChild_chain h hin.nonempty
  have hpe : pn.ents ≠ [] := by
    obtain ⟨g, hg⟩ := List.exists_mem_of_ne_nil _ hin.nonempty
    have := mem_ents h hg (e := (g.okey, g.head.1)) (by simp [Grp.ents])
    intro e; rw [e] at this; cases this
  have hnoe : pn.hasEdge = false := by simp [Node.hasEdge, hin.edge]
  have hsfc : siblingFirstChild d del fuel pn = some (some after.1) := by
    simp only [siblingFirstChild, hnoe, hts, hqd, hqf, Bool.false_eq_true, if_false]
  -- the first walk
  have hwalk : ∃ stop, parentKey d del fuel pn (some q) c.1 = some (pn.lastKey, stop, false) ∧ (stop = none ∨ stop = some after.1) := by
    obtain ⟨r, hr, hr'⟩ := lastChild_spec (sfc := some after.1) (nx := some after.1) (Or.inr rfl) l fuel none c (hcl ▸ hl)
      (by rw [hcl] at hfuel; simp only [List.length_cons] at hfuel; omega)
      (fun y hy e => hin.notIn y (by rw [hcl]; simp [hy]) (by simpa using e.symm)) (hcl ▸ hdel)
    unfold parentKey
    rw [if_neg (by simpa using hpe), hsfc]
    simp only [hr]
    cases r with
    | none => exact ⟨_, rfl, Or.inr rfl⟩
    | some k =>
      have hk : k ≤ pn.lastKey := by
        rcases hr' with e | ⟨y, hy, hye, e⟩
        · cases e
        · injection e with e
          rw [← hcl] at hy
          simp only [nodesOf, List.mem_flatMap] at hy
          obtain ⟨g, hg, hyg⟩ := hy
          obtain ⟨b, hb, hbk⟩ := lastKey_mem hye
          have h1 := h.atMost g hg y hyg b hb
          have h2 := lastKey_entries h g hg
          omega
      refine ⟨none, ?_, Or.inl rfl⟩
      show (if pn.lastKey < k then (if (some q).isSome then some (k, some after.1, true) else some (pn.lastKey, some after.1, false)) else some (pn.lastKey, none, false)) = _
      rw [if_neg (by omega)]
  obtain ⟨stop, hwalk, hstop⟩ := hwalk
  -- the loop
  have hloop : loop { cap, fuel, del, isEdge := false, sib := some q, orig := pn.ents, lastKey := pn.lastKey, stop } d fuel c.1 []
      (p, { pn with ents := [], edge := none }) none [] supply =
      ([], some ([(p, { pn with ents := entsOf (itemsOf gs), edge := none })], supply)) := by
    have hitem : ∀ y ∈ itemsOf gs, Item { cap, fuel, del, isEdge := false, sib := some q, orig := pn.ents, lastKey := pn.lastKey, stop } y.1 y.2 :=
      item_of h hf hdel rfl (Or.inr (lastKey_entries h))
    rcases hstop with e | e
    · subst e
      obtain ⟨f, hfe⟩ : ∃ f, fuel = (f + 1) + (itemsOf gs).length :=
        ⟨fuel - 1 - (nodesOf gs).length, by rw [hlen]; omega⟩
      have hli := loop_items (d := d) rfl (itemsOf gs) (f + 1) c.1 after.1 [] (p, { pn with ents := [], edge := none }) none [] supply
        (by rw [itemsOf_nodes]; exact hl) (by rw [itemsOf_nodes, hcl]; rfl) hitem (by rw [hlen]; simpa using hcap)
      rw [← hfe] at hli
      rw [hli]
      rw [loop_after hin.onDisk rfl (origKey_none hin.notChild) ?_ hq.symm hin.alive hq hqd hqa (by show 0 < fuel; omega)]
      · rfl
      · intro e he
        obtain ⟨g, hg, hle⟩ : ∃ g, g ∈ gs ∧ pn.lastKey ≤ g.key := by
          obtain ⟨b, hb, hbk⟩ := lastKey_mem hpe
          rw [h.entries, List.append_nil] at hb
          obtain ⟨g, hg, hbg⟩ := List.mem_flatMap.1 hb
          have := (h.bound g hg).1 b hbg
          exact ⟨g, hg, by omega⟩
        have := hin.above g hg e he
        show pn.lastKey < e.1
        omega
    · subst e
      obtain ⟨y, m, hym⟩ : ∃ y m, itemsOf gs = y :: m := by
        cases e : itemsOf gs with
        | nil => rw [e] at hix; simp at hix
        | cons y m => exact ⟨y, m, rfl⟩
      have hyc : y.2.1 = c.1 := by
        have := itemsOf_nodes gs
        rw [hym, hcl] at this
        simp only [List.map_cons, List.cons.injEq] at this
        rw [this.1]
      have hml : m.length + 1 = (nodesOf gs).length := by rw [← hlen, hym]; rfl
      rw [← hyc, loop_items_stop rfl m y fuel [] (p, { pn with ents := [], edge := none }) none [] supply
        (by rw [← hym, itemsOf_nodes]; exact hl) (by omega)
        (fun z hz => by
          refine hin.notIn z.2 ?_
          rw [← itemsOf_nodes, hym]
          exact List.mem_map.2 ⟨z, by simp [hz], rfl⟩)
        (by rw [← hym]; exact hitem) (by show 0 + m.length < cap; omega)]
      rw [hym]
      rfl
  have hx2 : x.2 ∈ nodesOf gs := by
    rw [← itemsOf_nodes, hix]; simp
  have hxd : d x.2.1 = some x.2.2 := by
    have : ∀ (l : List (Id × Node)) nx, Linked d l nx → ∀ y ∈ l, d y.1 = some y.2 := by
      intro l
      induction l with
      | nil => intro nx _ y hy; cases hy
      | cons z l ih =>
        intro nx hz y hy
        rcases List.mem_cons.1 hy with rfl | hy
        · exact hz.1
        · exact ih nx hz.2.2 y hy
    exact this _ _ hl x.2 hx2
  have hlk : ({ pn with ents := entsOf (itemsOf gs), edge := none } : Node).lastKey = x.1 := by
    simp [Node.lastKey, hix, entsOf]
  have hset : setLastKey (entsOf (itemsOf gs)) pn.lastKey = entsOf (I ++ [(pn.lastKey, x.2)]) := by
    simp [setLastKey, hix, entsOf]
  have hents : (if x.1 < pn.lastKey then setLastKey (entsOf (itemsOf gs)) pn.lastKey else entsOf (itemsOf gs)) =
      entsOf (I ++ [(pn.lastKey, x.2)]) := by
    split
    · exact hset
    · have : x.1 = pn.lastKey := by omega
      rw [hix, ← this]
  have hfin : finishLast d pn.lastKey (p, { pn with ents := entsOf (itemsOf gs), edge := none }) =
      some ((p, { pn with ents := entsOf (I ++ [(pn.lastKey, x.2)]), edge := none }),
        if pn.level ≤ 1 ∨ pn.lastKey ≤ x.2.2.lastKey then []
        else [(x.2.1, { x.2.2 with ents := setLastKey x.2.2.ents pn.lastKey })]) := by
    unfold finishLast
    rw [if_neg (by simp [Node.hasEdge, hix, entsOf])]
    simp only [hlk, hents]
    by_cases hlv : pn.level ≤ 1
    · rw [if_pos hlv, if_pos (Or.inl hlv)]
    · rw [if_neg hlv]
      have e2 : (entsOf (I ++ [(pn.lastKey, x.2)])).getLast? = some (pn.lastKey, x.2.1) := by simp [entsOf]
      have e3 : ({ pn with ents := entsOf (I ++ [(pn.lastKey, x.2)]), edge := none } : Node).lastKey = pn.lastKey := by
        simp [Node.lastKey, entsOf]
      simp only [e2, hxd, e3]
      by_cases hc : x.2.2.lastKey < pn.lastKey
      · rw [if_pos hc, if_neg (by omega)]
      · rw [if_neg hc, if_pos (Or.inr (by omega))]
  unfold repairLinks
  simp only [hts, hc0', Option.isNone_some, show (pn.ents.isEmpty && !false) = false by simp [hpe], Bool.false_eq_true, if_false]
  simp only [hwalk, Bool.false_eq_true, if_false]
  simp only [hloop]
  simp only [List.getLast?_singleton, List.length_singleton, show decide (2 ≤ 1) = false from rfl, Bool.and_false,
    Bool.false_eq_true, if_false]
  have hfin' := hfin
  rw [show d = d.setAll (([] : List (Id × Node)).map (fun x => (x.1, { x.2 with cp := cp }))) from rfl] at hfin'
  simp only [hfin']
  refine ⟨_, rfl, rfl, rfl, ?_⟩
  by_cases hc : pn.level ≤ 1 ∨ pn.lastKey ≤ x.2.2.lastKey
  · simp [hc, innerResult, hin.edge]
  · simp [hc, innerResult, hin.edge]

end HS.Index.Recover
