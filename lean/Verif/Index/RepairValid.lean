import Verif.Index.RepairProps
/-!
# The sanity check accepts repaired nodes
-/
namespace HS.Index.Recover

theorem keyOrder_of {l : List (Nat × Nat)} (h : l.Pairwise (fun a b => a.1 < b.1)) : keyOrder l = true := by
  induction l with
  | nil => rfl
  | cons a l ih =>
    obtain ⟨h1, h2⟩ := List.pairwise_cons.1 h
    cases l with
    | nil => rfl
    | cons b l =>
      simp only [keyOrder, Bool.and_eq_true, decide_eq_true_eq]
      exact ⟨h1 b (by simp), ih h2⟩

theorem firstKey_mem {n : Node} (h : n.ents ≠ []) : ∃ e ∈ n.ents, e.1 = n.firstKey := by
  cases e : n.ents with
  | nil => exact absurd e h
  | cons a l => exact ⟨a, by simp, by simp [Node.firstKey, e]⟩

theorem valid_leaf {d : Disk} {i : Id} {n : Node} (hd : d i = some n) (hl : n.leaf = true) (hs : ascending n)
    (hnx : n.next = none ∨ ∃ q qn, n.next = some q ∧ q ≠ i ∧ d q = some qn ∧ qn.level = n.level ∧
      ∀ e ∈ qn.ents, n.lastKey ≤ e.1) : validNode d i = true := by
  have hk := keyOrder_of hs
  unfold validNode
  rw [hd]
  rcases hnx with e | ⟨q, qn, e1, e2, e3, e4, e5⟩
  · simp [hl, hk, e, Node.hasEdge]
  · have : (qn.ents.isEmpty || decide (n.lastKey ≤ qn.firstKey)) = true := by
      by_cases he : qn.ents = []
      · simp [he]
      · obtain ⟨a, ha, hf⟩ := firstKey_mem he
        have := e5 a ha
        simp [← hf, this]
    simp only [hl, hk, e1, e3, e4, this, Node.hasEdge]
    simpa using e2

/-- The children of a node in the sense of `validKids`. -/
theorem validKids_of {d : Disk} {level : Nat} : ∀ (L : List (Option Nat × Id × Node)) (prev : Option (Node × Nat)) (nx : Option Id),
    Linked d (L.map (·.2)) nx →
    (∀ x ∈ L, x.2.2.leaf = true ∧ x.2.2.level + 1 = level) →
    (∀ x ∈ L, ∀ k, x.1 = some k → ∀ e ∈ x.2.2.ents, e.1 ≤ k) →
    L.Pairwise (fun x y => ∀ k, x.1 = some k → ∀ e ∈ y.2.2.ents, k < e.1) →
    (∀ pc pk, prev = some (pc, pk) → L ≠ [] → pc.next = firstId (L.map (·.2)) nx ∧ (∀ e ∈ pc.ents, e.1 ≤ pk) ∧
      ∀ x ∈ L, ∀ e ∈ x.2.2.ents, pk < e.1) →
    validKids d level prev (L.map (fun x => (x.1, x.2.1))) = true
  | [], _, _, _, _, _, _, _ => by simp [validKids]
  | (k, c, n) :: L, prev, nx, hl, hlv, hle, hlt, hp => by
    obtain ⟨h1, h2, h3⟩ := hl
    obtain ⟨hlf, hlev⟩ := hlv (k, c, n) (by simp)
    obtain ⟨ht1, ht2⟩ := List.pairwise_cons.1 hlt
    simp only [List.map_cons, validKids]
    have h1' : d c = some n := h1
    rw [h1']
    simp only [Bool.and_eq_true, decide_eq_true_eq]
    refine ⟨⟨⟨hlev, ?_⟩, ?_⟩, ?_⟩
    · by_cases he : n.ents = []
      · have : n.leaf = true := hlf
        simp [he, this]
      · rw [if_neg (by simpa using he)]
        cases k with
        | none => rfl
        | some k =>
          obtain ⟨a, ha, hf⟩ := firstKey_mem he
          obtain ⟨b, hb, hb'⟩ := lastKey_mem he
          have h5 := hle _ List.mem_cons_self k rfl a ha
          have h6 := hle _ List.mem_cons_self k rfl b hb
          simp only [Bool.and_eq_true, decide_eq_true_eq]
          omega
    · cases prev with
      | none => rfl
      | some pp =>
        obtain ⟨pc, pk⟩ := pp
        obtain ⟨q1, q2, q3⟩ := hp pc pk rfl (by simp)
        simp only [List.map_cons, firstId] at q1
        simp only [q1, Bool.and_eq_true, Bool.or_eq_true, beq_self_eq_true, true_and, decide_eq_true_eq]
        by_cases he : n.ents = []
        · simp [he]
        · right
          obtain ⟨a, ha, hf⟩ := firstKey_mem he
          have h5 := q3 _ List.mem_cons_self a ha
          refine ⟨?_, by omega⟩
          by_cases hpe : pc.ents = []
          · simp [hpe]
          · right
            obtain ⟨b, hb, hb'⟩ := lastKey_mem hpe
            have := q2 b hb
            omega
    · refine validKids_of L _ nx h3 (fun x hx => hlv x (by simp [hx])) (fun x hx => hle x (by simp [hx])) ht2 ?_
      intro pc pk e hne
      cases k with
      | none => cases e
      | some k =>
        simp only [Option.some.injEq, Prod.mk.injEq] at e
        obtain ⟨rfl, rfl⟩ := e
        exact ⟨h2, hle _ List.mem_cons_self k rfl, fun x hx => ht1 x hx k rfl⟩

theorem linked_set {d : Disk} {p : Id} {n : Node} : ∀ {l : List (Id × Node)} {nx : Option Id}, (∀ x ∈ l, x.1 ≠ p) →
    Linked d l nx → Linked (d.set p n) l nx
  | [], _, _, _ => trivial
  | x :: l, nx, hp, h => by
    refine ⟨?_, h.2.1, linked_set (fun y hy => hp y (by simp [hy])) h.2.2⟩
    show (if x.1 = p then some n else d x.1) = some x.2
    rw [if_neg (hp x (by simp))]
    exact h.1

theorem linked_snoc {d : Disk} {l : List (Id × Node)} {x : Id × Node} {nx : Option Id} (h : Linked d (l ++ [x]) nx) :
    d x.1 = some x.2 ∧ x.2.next = nx := by
  have := (linked_append.1 h).2
  exact ⟨this.1, this.2.1⟩

/-- A repaired node with an edge. -/
theorem valid_edge {d : Disk} {p : Id} {n : Node} {items : List (Nat × Id × Node)} {last : Id × Node}
    (hd : d p = some n) (hin : InOrder items) (hsep : items.Pairwise (fun x y => x.1 < y.1))
    (hgt : ∀ x ∈ items, ∀ e ∈ last.2.ents, x.1 < e.1)
    (hn : n.leaf = false) (hents : n.ents = entsOf items) (hedge : n.edge = some last.1) (hnext : n.next = none)
    (hl : Linked d (items.map (·.2) ++ [last]) none)
    (hlv : ∀ x ∈ items.map (·.2) ++ [last], x.2.leaf = true ∧ x.2.level + 1 = n.level) : validNode d p = true := by
  have hE : n.hasEdge = true := by simp [Node.hasEdge, hn, hedge]
  have hkids : n.kids = (items.map (fun x : Nat × Id × Node => ((some x.1 : Option Nat), x.2)) ++ [((none : Option Nat), last)]).map (fun x : Option Nat × Id × Node => (x.1, x.2.1)) := by
    simp [Node.kids, hE, hedge, hents, entsOf]
  have hk : keyOrder n.ents = true := by
    refine keyOrder_of ?_
    rw [hents, entsOf, List.pairwise_map]
    exact hsep
  have hmap : (items.map (fun x : Nat × Id × Node => ((some x.1 : Option Nat), x.2)) ++ [((none : Option Nat), last)]).map (fun x : Option Nat × Id × Node => x.2) = items.map (·.2) ++ [last] := by
    simp
  have hv : validKids d n.level none n.kids = true := by
    rw [hkids]
    refine validKids_of _ none none (by rw [hmap]; exact hl) ?_ ?_ ?_ (fun _ _ h => by cases h)
    · intro x hx
      exact hlv x.2 (by rw [← hmap]; exact List.mem_map.2 ⟨x, hx, rfl⟩)
    · intro x hx k hk e he
      rcases List.mem_append.1 hx with hx | hx
      · obtain ⟨y, hy, rfl⟩ := List.mem_map.1 hx
        simp only [Option.some.injEq] at hk
        subst hk
        exact hin.le y hy e he
      · simp only [List.mem_singleton] at hx
        subst hx
        cases hk
    · rw [List.pairwise_append, List.pairwise_map]
      refine ⟨?_, by simp, ?_⟩
      · refine hin.lt.imp ?_
        intro x y h k hk
        simp only [Option.some.injEq] at hk
        subst hk
        exact h
      · intro x hx y hy k hk e he
        obtain ⟨z, hz, rfl⟩ := List.mem_map.1 hx
        simp only [List.mem_singleton] at hy
        subst hy
        simp only [Option.some.injEq] at hk
        subst hk
        exact hgt z hz e he
  have hlast : n.kids.getLast? = some (none, last.1) := by rw [hkids]; simp
  obtain ⟨hld, hln⟩ := linked_snoc hl
  have hll := (hlv last (by simp)).1
  unfold validNode
  rw [hd]
  simp [hn, hE, hk, hv, hlast, hld, hll, hln, hnext]

/-- A repaired node without an edge. -/
theorem valid_inner {d : Disk} {p : Id} {n : Node} {I : List (Nat × Id × Node)} {x : Nat × Id × Node} {after q : Id} {qn : Node}
    (hd : d p = some n) (hin : InOrder (I ++ [x])) (hsep : (I ++ [x]).Pairwise (fun x y => x.1 < y.1))
    (hn : n.leaf = false) (hents : n.ents = entsOf (I ++ [x])) (hedge : n.edge = none) (hnext : n.next = some q)
    (hl : Linked d ((I ++ [x]).map (·.2)) (some after))
    (hlv : ∀ y ∈ (I ++ [x]).map (·.2), y.2.leaf = true ∧ y.2.level + 1 = n.level)
    (hq : d q = some qn) (hqp : q ≠ p) (hqf : qn.firstChild = some after) (hql : qn.leaf = false) (hqv : qn.level = n.level)
    (hqk : ∀ e ∈ qn.ents, x.1 ≤ e.1) : validNode d p = true := by
  have hE : n.hasEdge = false := by simp [Node.hasEdge, hedge]
  have hkids : n.kids = ((I ++ [x]).map (fun x : Nat × Id × Node => ((some x.1 : Option Nat), x.2))).map (fun x : Option Nat × Id × Node => (x.1, x.2.1)) := by
    simp [Node.kids, hE, hents, entsOf]
  have hk : keyOrder n.ents = true := by
    refine keyOrder_of ?_
    rw [hents, entsOf, List.pairwise_map]
    exact hsep
  have hmap : ((I ++ [x]).map (fun x : Nat × Id × Node => ((some x.1 : Option Nat), x.2))).map (fun x : Option Nat × Id × Node => x.2) = (I ++ [x]).map (·.2) := by
    simp
  have hv : validKids d n.level none n.kids = true := by
    rw [hkids]
    refine validKids_of _ none (some after) (by rw [hmap]; exact hl) ?_ ?_ ?_ (fun _ _ h => by cases h)
    · intro y hy
      exact hlv y.2 (by rw [← hmap]; exact List.mem_map.2 ⟨y, hy, rfl⟩)
    · intro y hy k hk e he
      obtain ⟨z, hz, rfl⟩ := List.mem_map.1 hy
      simp only [Option.some.injEq] at hk
      subst hk
      exact hin.le z hz e he
    · rw [List.pairwise_map]
      refine hin.lt.imp ?_
      intro y z h k hk
      simp only [Option.some.injEq] at hk
      subst hk
      exact h
  have hlast : n.kids.getLast? = some (some x.1, x.2.1) := by rw [hkids]; simp
  have hl' : Linked d (I.map (·.2) ++ [x.2]) (some after) := by simpa using hl
  obtain ⟨hld, hln⟩ := linked_snoc hl'
  have hll := (hlv x.2 (by simp)).1
  have hlk : n.lastKey = x.1 := by simp [Node.lastKey, hents, entsOf]
  have hne : n.ents ≠ [] := by simp [hents, entsOf]
  have hqe : (qn.ents.isEmpty && !qn.hasEdge) = false ∧ (qn.hasEdge || !qn.ents.isEmpty) = true := by
    by_cases he : qn.ents = []
    · have : qn.edge = some after := by simpa [Node.firstChild, he] using hqf
      simp [Node.hasEdge, hql, this]
    · simp [he]
  have hqk' : (qn.ents.isEmpty || decide (x.1 ≤ qn.firstKey)) = true := by
    by_cases he : qn.ents = []
    · simp [he]
    · obtain ⟨a, ha, hf⟩ := firstKey_mem he
      have := hqk a ha
      simp [← hf, this]
  have hqp' : (some q != some p) = true := by simpa using hqp
  unfold validNode
  rw [hd]
  simp only [hn, hE, hk, hv, hlast, hld, hnext, hq, hqf, hlk, hqv, hqe.1, hqe.2, hqk', hqp']
  simp [hne, hll, hln]

/-! ## The separators increase -/

theorem sep_gt {g : Grp} {x : Id × Node} {k : Nat} (h : ∀ e ∈ x.2.ents, k < e.1) (hg : k < g.okey) : k < sep g x := by
  unfold sep
  by_cases e : x.2.ents = []
  · simpa [e] using hg
  · obtain ⟨a, ha, hk⟩ := lastKey_mem e
    have := h a ha
    simp [e]; omega

theorem sep_pairwise {p : Id} {pn : Node} {gs : List Grp} {ee : List (Nat × Nat)} (h : AfterSplits p pn gs ee) (hf : SplitsFull gs) :
    (itemsOf gs).Pairwise (fun x y => x.1 < y.1) := by
  have hgen : ∀ l : List Grp, (∀ g ∈ l, g ∈ gs) →
      l.Pairwise (fun g g' => g.key < g'.okey ∧ ∀ x ∈ g'.nodes, ∀ e ∈ x.2.ents, g.key < e.1) →
      (itemsOf l).Pairwise (fun x y => x.1 < y.1) := by
    intro l
    induction l with
    | nil => intro _ _; simp [itemsOf]
    | cons g l ih =>
      intro hm hp
      obtain ⟨hp1, hp2⟩ := List.pairwise_cons.1 hp
      have i2 := ih (fun g' hg' => hm g' (by simp [hg'])) hp2
      have hg := hm g (by simp)
      show (g.items ++ itemsOf l).Pairwise _
      rw [List.pairwise_append]
      refine ⟨?_, i2, ?_⟩
      · by_cases hsib : g.sibs = []
        · simp [Grp.items, Grp.nodes, hsib]
        · rw [Grp.items, List.pairwise_map]
          refine List.Pairwise.imp_of_mem ?_ (h.inOrder g hg)
          intro x y hx hy hb
          have hnx := hf g hg hsib x hx
          have hny := hf g hg hsib y hy
          obtain ⟨a, ha, hk⟩ := lastKey_mem hnx
          obtain ⟨b, hb', hk'⟩ := lastKey_mem hny
          have := hb a ha b hb'
          simp [sep, hnx, hny]; omega
      · intro x hx y hy
        simp only [Grp.items, List.mem_map] at hx
        obtain ⟨x, hx, rfl⟩ := hx
        obtain ⟨g', hg', hy', hys⟩ := mem_itemsOf hy
        have h1 := sep_le (h.bound g hg).1 (h.atMost g hg x hx)
        rw [hys]
        have := sep_gt (g := g') (x := y.2) ((hp1 g' hg').2 y.2 hy') (hp1 g' hg').1
        show sep g x < _
        omega
  exact hgen gs (fun _ h => h) h.above

theorem sep_pairwise_edge {p : Id} {pn : Node} {gs : List Grp} {ee : List (Nat × Nat)} {init : List (Id × Node)} {last : Id × Node}
    (h : AfterSplits p pn gs ee) (hf : SplitsFull gs) (he : EdgeSplits p pn gs ee init last)
    (hi : ∀ x ∈ init, x.2.ents ≠ []) : (itemsOf gs ++ initItems init).Pairwise (fun x y => x.1 < y.1) := by
  have ho := he.inOrder
  rw [List.pairwise_append] at ho
  rw [List.pairwise_append]
  refine ⟨sep_pairwise h hf, ?_, ?_⟩
  · rw [initItems, List.pairwise_map]
    refine List.Pairwise.imp_of_mem ?_ ho.1
    intro x y hx hy hb
    obtain ⟨a, ha, hk⟩ := lastKey_mem (hi x hx)
    obtain ⟨b, hb', hk'⟩ := lastKey_mem (hi y hy)
    have := hb a ha b hb'
    show x.2.lastKey < y.2.lastKey
    omega
  · intro x hx y hy
    obtain ⟨g, hg, hxg, hs⟩ := mem_itemsOf hx
    simp only [initItems, List.mem_map] at hy
    obtain ⟨y, hy, rfl⟩ := hy
    obtain ⟨b, hb', hk'⟩ := lastKey_mem (hi y hy)
    have h1 := sep_le (h.bound g hg).1 (h.atMost g hg x.2 hxg)
    have h2 := he.above g hg y (by simp [hy]) b hb'
    show x.1 < y.2.lastKey
    omega

theorem raise_pairwise {I : List (Nat × Id × Node)} {x : Nat × Id × Node} {k : Nat}
    (h : (I ++ [x]).Pairwise (fun x y => x.1 < y.1)) (hk : x.1 ≤ k) :
    (I ++ [(k, x.2)]).Pairwise (fun x y => x.1 < y.1) := by
  rw [List.pairwise_append] at h ⊢
  refine ⟨h.1, by simp, ?_⟩
  intro y hy z hz
  simp only [List.mem_singleton] at hz
  subst hz
  have := h.2.2 y hy x (by simp)
  show y.1 < k
  omega

/-! ## The leaves -/

theorem valid_leaves {d : Disk} {nx : Option (Id × Node)} :
    ∀ {l : List (Id × Node)}, Linked d l (nx.map (·.1)) → (∀ y, nx = some y → d y.1 = some y.2) →
      (l.map (·.1) ++ (nx.map (·.1)).toList).Nodup →
      (∀ x ∈ l ++ nx.toList, x.2.leaf = true ∧ x.2.level = 0) → (∀ x ∈ l, ascending x.2) →
      (l ++ nx.toList).Pairwise below → ∀ x ∈ l, validNode d x.1 = true
  | x :: l, hl, hnx, hnd, hlv, hs, hb, y, hy => by
    obtain ⟨h1, h2, h3⟩ := hl
    obtain ⟨hb1, hb2⟩ := List.pairwise_cons.1 hb
    have hnd' := List.nodup_cons.1 hnd
    rcases List.mem_cons.1 hy with rfl | hy
    · refine valid_leaf h1 (hlv y (by simp)).1 (hs y (by simp)) ?_
      have hgo : ∀ z : Id × Node, z ∈ l ++ nx.toList → d z.1 = some z.2 → y.2.next = some z.1 →
          ∃ q qn, y.2.next = some q ∧ q ≠ y.1 ∧ d q = some qn ∧ qn.level = y.2.level ∧ ∀ e ∈ qn.ents, y.2.lastKey ≤ e.1 := by
        intro z hz hdz hny
        refine ⟨z.1, z.2, hny, ?_, hdz, ?_, ?_⟩
        · intro e
          refine hnd'.1 ?_
          show y.1 ∈ l.map (·.1) ++ (nx.map (·.1)).toList
          rw [← e]
          have : z.1 ∈ (l ++ nx.toList).map (·.1) := List.mem_map.2 ⟨z, hz, rfl⟩
          cases nx <;> simpa using this
        · rw [(hlv z (by simp only [List.cons_append, List.mem_cons]; exact Or.inr hz)).2, (hlv y (by simp)).2]
        · intro e he
          by_cases hye : y.2.ents = []
          · simp [Node.lastKey, hye]
          · obtain ⟨a, ha, hk⟩ := lastKey_mem hye
            have := hb1 z hz a ha e he
            omega
      cases l with
      | nil =>
        cases nx with
        | none => left; exact h2
        | some z => right; exact hgo z (by simp) (hnx z rfl) h2
      | cons z l => right; exact hgo z (by simp) h3.1 h2
    · exact valid_leaves h3 hnx hnd'.2 (fun z hz => hlv z (by simp only [List.cons_append, List.mem_cons]; exact Or.inr hz))
        (fun z hz => hs z (by simp [hz])) hb2 y hy

theorem below_groups {p : Id} {pn : Node} {gs : List Grp} {ee : List (Nat × Nat)} (h : AfterSplits p pn gs ee) : (nodesOf gs).Pairwise below := by
  have hgen : ∀ l : List Grp, (∀ g ∈ l, g ∈ gs) →
      l.Pairwise (fun g g' => g.key < g'.okey ∧ ∀ x ∈ g'.nodes, ∀ e ∈ x.2.ents, g.key < e.1) →
      (nodesOf l).Pairwise below := by
    intro l
    induction l with
    | nil => intro _ _; simp [nodesOf]
    | cons g l ih =>
      intro hm hp
      obtain ⟨hp1, hp2⟩ := List.pairwise_cons.1 hp
      have hg := hm g (by simp)
      show (g.nodes ++ nodesOf l).Pairwise below
      rw [List.pairwise_append]
      refine ⟨h.inOrder g hg, ih (fun g' hg' => hm g' (by simp [hg'])) hp2, ?_⟩
      intro x hx y hy a ha b hb
      simp only [nodesOf, List.mem_flatMap] at hy
      obtain ⟨g', hg', hy⟩ := hy
      have h1 := h.atMost g hg x hx a ha
      have h2 := (hp1 g' hg').2 y hy b hb
      omega
  exact hgen gs (fun _ h => h) h.above

end HS.Index.Recover
