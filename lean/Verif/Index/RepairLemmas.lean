import Verif.Index.Recover
/-!
# Lemmas on `repair_links`
-/
namespace HS.Index.Recover

/-- The first node of a list, or what comes after the list. -/
def firstId (l : List (Id × Node)) (nx : Option Id) : Option Id := match l with | [] => nx | x :: _ => some x.1

/-- The nodes are on disk, each linked to the next and the last to `nx`. -/
def Linked (d : Disk) : List (Id × Node) → Option Id → Prop
  | [], _ => True
  | x :: l, nx => d x.1 = some x.2 ∧ x.2.next = firstId l nx ∧ Linked d l nx

theorem lastChild_spec {d : Disk} {del : Id → Bool} {sfc nx : Option Id} (hnx : nx = none ∨ sfc = nx) :
    ∀ (l : List (Id × Node)) (f : Nat) (found : Option Nat) (c : Id × Node), Linked d (c :: l) nx → l.length < f →
      (∀ x ∈ l, sfc ≠ some x.1) → (∀ x ∈ c :: l, del x.1 = false) →
      ∃ r, lastChild d del sfc f c.1 found = some (r, nx) ∧
        (r = found ∨ ∃ x ∈ c :: l, x.2.ents ≠ [] ∧ r = some x.2.lastKey) := by
  intro l
  induction l with
  | nil =>
    intro f found c hl hf _ hdel
    have hdc := hdel c (by simp)
    obtain ⟨f, rfl⟩ : ∃ f', f = f' + 1 := ⟨f - 1, by simp at hf; omega⟩
    obtain ⟨h1, h2, -⟩ := hl
    simp only [firstId] at h2
    refine ⟨if c.2.ents.isEmpty then found else some c.2.lastKey, ?_, ?_⟩
    · simp only [lastChild, h1, h2, hdc, Bool.false_or]
      rcases hnx with e | e
      · subst e; rfl
      · cases nx with
        | none => rfl
        | some n => simp [e]
    · by_cases e : c.2.ents = []
      · left; simp [e]
      · right; exact ⟨c, by simp, e, by simp [e]⟩
  | cons y l ih =>
    intro f found c hl hf hs hdel
    have hdc := hdel c (by simp)
    obtain ⟨f, rfl⟩ : ∃ f', f = f' + 1 := ⟨f - 1, by simp at hf; omega⟩
    obtain ⟨h1, h2, h3⟩ := hl
    simp only [firstId] at h2
    obtain ⟨r, hr, hr'⟩ := ih f (if c.2.ents.isEmpty then found else some c.2.lastKey) y h3
      (by simp at hf; omega) (fun x hx => hs x (by simp [hx])) (fun x hx => hdel x (List.mem_cons_of_mem _ hx))
    refine ⟨r, ?_, ?_⟩
    · simp only [lastChild, h1, h2, hdc, Bool.false_or]
      rw [if_neg (hs y (by simp))]
      exact hr
    · rcases hr' with e | ⟨x, hx, e⟩
      · by_cases e' : c.2.ents = []
        · left; simpa [e'] using e
        · right; exact ⟨c, by simp, e', by simpa [e'] using e⟩
      · right; exact ⟨x, List.mem_cons_of_mem _ hx, e⟩

theorem trueSibling_none {d : Disk} {del : Id → Bool} {f : Nat} : trueSibling d del (f + 1) none = some none := rfl

theorem trueSibling_some {d : Disk} {del : Id → Bool} {f : Nat} {q : Id} {qn : Node} (h : d q = some qn) (hd : del q = false) :
    trueSibling d del (f + 1) (some q) = some (some q) := by
  simp [trueSibling, h, hd]

/-- A child that the loop puts into the parent with the key `k`. -/
structure Item (a : LoopArgs) (k : Nat) (n : Id × Node) : Prop where
  noEdge : n.2.hasEdge = false
  key : (if n.2.ents.isEmpty then origKey a.orig n.1 else some n.2.lastKey) = some k
  go : a.isEdge = true ∨ (origKey a.orig n.1).isSome ∨ (n.2.lastKey ≤ a.lastKey ∧ n.2.ents ≠ [])
  alive : a.del n.1 = false

/-- An entry for each item. -/
def entsOf (l : List (Nat × Id × Node)) : List (Nat × Nat) := l.map (fun x => (x.1, x.2.1))

theorem loop_one {a : LoopArgs} {d : Disk} {f : Nat} {done : List (Id × Node)} {cur : Id × Node} {supply : List Id}
    {pre : Option (Id × Node)} {w : List (Id × Node)}
    {k : Nat} {n : Id × Node} {nx : Id} (hd : d n.1 = some n.2) (hn : n.2.next = some nx) (hi : Item a k n)
    (hc : cur.2.ents.length < a.cap) :
    loop a d (f + 1) n.1 done cur pre w supply =
      if a.stop = some nx then (w, some (done ++ [(cur.1, { cur.2 with ents := cur.2.ents ++ [(k, n.1)] })], supply))
      else loop a d f nx done (cur.1, { cur.2 with ents := cur.2.ents ++ [(k, n.1)] }) (some n) w supply := by
  have h2 : ¬ ((n.2.hasEdge || (n.2.leaf && n.2.next.isNone)) = true) := by simp [hi.noEdge, hn]
  have h3 : ¬ ((!a.isEdge && (origKey a.orig n.1).isNone && decide (a.lastKey < n.2.lastKey)) = true) := by
    rcases hi.go with e | e | ⟨e, e'⟩
    · simp [e]
    · obtain ⟨y, hy⟩ := Option.isSome_iff_exists.1 e
      simp [hy]
    · simp [e]
  have h4 : ¬ ((!a.isEdge && (origKey a.orig n.1).isNone && n.2.ents.isEmpty) = true) := by
    rcases hi.go with e | e | ⟨e, e'⟩
    · simp [e]
    · obtain ⟨y, hy⟩ := Option.isSome_iff_exists.1 e
      simp [hy]
    · simp [e']
  have h5 : ¬ (a.del n.1 = true) := by simp [hi.alive]
  simp only [loop, hd]
  rw [if_neg h2, if_neg h3, if_neg h4, if_pos hc]
  simp only []
  rw [if_neg h5]
  simp only [hi.key, hn]

/-- The node before the next one. -/
def preOf (pre : Option (Id × Node)) (l : List (Nat × Id × Node)) : Option (Id × Node) :=
  match l.getLast? with
  | some x => some x.2
  | none => pre

theorem preOf_cons (pre : Option (Id × Node)) (x : Nat × Id × Node) (l : List (Nat × Id × Node)) :
    preOf pre (x :: l) = preOf (some x.2) l := by
  cases l with
  | nil => rfl
  | cons y l =>
    simp only [preOf, List.getLast?_cons_cons]
    rw [List.getLast?_eq_some_getLast (List.cons_ne_nil y l)]

theorem loop_items {a : LoopArgs} {d : Disk} (hs : a.stop = none) :
    ∀ (l : List (Nat × Id × Node)) (f : Nat) (c after : Id) (done : List (Id × Node)) (cur : Id × Node)
      (pre : Option (Id × Node)) (w : List (Id × Node)) (supply : List Id),
      Linked d (l.map (·.2)) (some after) → firstId (l.map (·.2)) (some after) = some c →
      (∀ x ∈ l, Item a x.1 x.2) → cur.2.ents.length + l.length ≤ a.cap →
      loop a d (f + l.length) c done cur pre w supply =
        loop a d f after done (cur.1, { cur.2 with ents := cur.2.ents ++ entsOf l }) (preOf pre l) w supply := by
  intro l
  induction l with
  | nil =>
    intro f c after done cur pre w supply _ hc _ _
    simp only [List.map_nil, firstId, Option.some.injEq] at hc
    subst hc
    simp [entsOf, preOf]
  | cons x l ih =>
    intro f c after done cur pre w supply hl hc hi hcap
    simp only [List.map_cons, firstId, Option.some.injEq] at hc
    subst hc
    obtain ⟨h1, h2, h3⟩ := hl
    obtain ⟨nx, hnx⟩ : ∃ nx, firstId (l.map (·.2)) (some after) = some nx := by
      cases l with
      | nil => exact ⟨_, rfl⟩
      | cons y l => exact ⟨_, rfl⟩
    rw [hnx] at h2
    simp only [List.length_cons] at hcap
    have e : f + (x :: l).length = (f + l.length) + 1 := by simp; omega
    rw [e, loop_one h1 h2 (hi x (by simp)) (by omega), hs, if_neg (by simp)]
    rw [ih f nx after done _ _ w supply h3 hnx (fun y hy => hi y (by simp [hy])) (by simp; omega), preOf_cons]
    simp [entsOf]

theorem loop_items_stop {a : LoopArgs} {d : Disk} {after : Id} (hs : a.stop = some after) :
    ∀ (l : List (Nat × Id × Node)) (x : Nat × Id × Node) (f : Nat) (done : List (Id × Node)) (cur : Id × Node)
      (pre : Option (Id × Node)) (w : List (Id × Node)) (supply : List Id),
      Linked d ((x :: l).map (·.2)) (some after) → l.length < f → (∀ y ∈ l, y.2.1 ≠ after) →
      (∀ y ∈ x :: l, Item a y.1 y.2) → cur.2.ents.length + l.length < a.cap →
      loop a d f x.2.1 done cur pre w supply =
        (w, some (done ++ [(cur.1, { cur.2 with ents := cur.2.ents ++ entsOf (x :: l) })], supply)) := by
  intro l
  induction l with
  | nil =>
    intro x f done cur pre w supply hl hf _ hi hcap
    obtain ⟨f, rfl⟩ : ∃ f', f = f' + 1 := ⟨f - 1, by simp at hf; omega⟩
    obtain ⟨h1, h2, h3⟩ := hl
    simp only [List.map_nil, firstId] at h2
    rw [loop_one h1 h2 (hi x (by simp)) (by simpa using hcap), if_pos hs]
    simp [entsOf]
  | cons y l ih =>
    intro x f done cur pre w supply hl hf hy hi hcap
    obtain ⟨f, rfl⟩ : ∃ f', f = f' + 1 := ⟨f - 1, by simp at hf; omega⟩
    obtain ⟨h1, h2, h3⟩ := hl
    simp only [List.map_cons, firstId] at h2
    simp only [List.length_cons] at hcap hf
    rw [loop_one h1 h2 (hi x (by simp)) (by omega), hs, if_neg (by simpa using (hy y (by simp)).symm)]
    rw [ih y f done _ _ w supply h3 (by omega) (fun z hz => hy z (by simp [hz])) (fun z hz => hi z (List.mem_cons_of_mem _ hz))
      (by simp; omega)]
    simp [entsOf]

/-! ## Routing -/

/-- The items are in order: the keys of each are at most its separator, and above the separators before. -/
structure InOrder (l : List (Nat × Id × Node)) : Prop where
  le : ∀ x ∈ l, ∀ e ∈ x.2.2.ents, e.1 ≤ x.1
  lt : l.Pairwise (fun x y => ∀ e ∈ y.2.2.ents, x.1 < e.1)

theorem value_none {n : Node} {k : Nat} (h : ∀ e ∈ n.ents, e.1 ≠ k) : n.value k = none := by
  have : n.ents.find? (fun e => e.1 == k) = none := by
    rw [List.find?_eq_none]; intro e he; simpa using h e he
  simp [Node.value, this]

theorem findSome_none {l : List (Nat × Id × Node)} {k : Nat} (h : ∀ x ∈ l, ∀ e ∈ x.2.2.ents, e.1 ≠ k) :
    l.findSome? (fun x => x.2.2.value k) = none := by
  rw [List.findSome?_eq_none_iff]
  intro x hx
  exact value_none (h x hx)

theorem find_items {k : Nat} : ∀ {l : List (Nat × Id × Node)}, InOrder l →
    (∃ x ∈ l, (entsOf l).find? (fun e => decide (k ≤ e.1)) = some (x.1, x.2.1) ∧ k ≤ x.1 ∧
      l.findSome? (fun x => x.2.2.value k) = x.2.2.value k) ∨
    ((entsOf l).find? (fun e => decide (k ≤ e.1)) = none ∧ l.findSome? (fun x => x.2.2.value k) = none)
  | [], _ => Or.inr ⟨rfl, rfl⟩
  | x :: l, h => by
    have hl := List.pairwise_cons.1 h.lt
    by_cases hk : k ≤ x.1
    · left
      refine ⟨x, by simp, ?_, hk, ?_⟩
      · simp [entsOf, hk]
      · have := findSome_none (l := l) (k := k) (fun y hy e he => by have := hl.1 y hy e he; omega)
        rw [List.findSome?_cons]
        cases e : x.2.2.value k with
        | some v => rfl
        | none => exact this
    · have hx : x.2.2.value k = none := value_none (fun e he => by have := h.le x (by simp) e he; omega)
      have ih := find_items (k := k) (l := l) ⟨fun y hy => h.le y (by simp [hy]), hl.2⟩
      have e1 : (entsOf (x :: l)).find? (fun e => decide (k ≤ e.1)) = (entsOf l).find? (fun e => decide (k ≤ e.1)) := by
        simp [entsOf, hk]
      have e2 : (x :: l).findSome? (fun x => x.2.2.value k) = l.findSome? (fun x => x.2.2.value k) := by
        rw [List.findSome?_cons, hx]
      rw [e1, e2]
      rcases ih with ⟨y, hy, h1⟩ | h1
      · exact Or.inl ⟨y, by simp [hy], h1⟩
      · exact Or.inr h1

/-- Each key of an item is routed to it. -/
theorem route_items {k : Nat} : ∀ {l : List (Nat × Id × Node)}, InOrder l → ∀ x ∈ l, (∃ e ∈ x.2.2.ents, e.1 = k) →
    (entsOf l).find? (fun e => decide (k ≤ e.1)) = some (x.1, x.2.1)
  | y :: l, h, x, hx, ⟨e, he, hk⟩ => by
    have hl := List.pairwise_cons.1 h.lt
    rcases List.mem_cons.1 hx with rfl | hx'
    · have := h.le x (by simp) e he
      subst hk
      simp [entsOf, this]
    · have := hl.1 x hx' e he
      have ih := route_items (k := k) (l := l) ⟨fun y hy => h.le y (by simp [hy]), hl.2⟩ x hx' ⟨e, he, hk⟩
      simp only [entsOf, List.map_cons, List.find?_cons]
      rw [show decide (k ≤ y.1) = false by simp; omega]
      exact ih

/-- Raising the separator of the last item. -/
theorem inOrder_raise {l : List (Nat × Id × Node)} {x : Nat × Id × Node} {k : Nat} (h : InOrder (l ++ [x])) (hk : x.1 ≤ k) :
    InOrder (l ++ [(k, x.2)]) := by
  obtain ⟨h1, h2⟩ := h
  rw [List.pairwise_append] at h2
  obtain ⟨h3, -, h4⟩ := h2
  constructor
  · intro y hy e he
    rcases List.mem_append.1 hy with hy | hy
    · exact h1 y (by simp [hy]) e he
    · simp only [List.mem_singleton] at hy
      subst hy
      have := h1 x (by simp) e he
      show e.1 ≤ k
      omega
  · rw [List.pairwise_append]
    refine ⟨h3, by simp, ?_⟩
    intro y hy z hz e he
    simp only [List.mem_singleton] at hz
    subst hz
    exact h4 y hy x (by simp) e he

theorem lastKey_mem {n : Node} (h : n.ents ≠ []) : ∃ e ∈ n.ents, e.1 = n.lastKey := by
  refine ⟨n.ents.getLast h, List.getLast_mem h, ?_⟩
  simp [Node.lastKey, List.getLast?_eq_some_getLast h]

/-- The keys of a sorted node are at most the last. -/
theorem le_lastKey {n : Node} (hs : n.ents.Pairwise (fun a b => a.1 < b.1)) : ∀ e ∈ n.ents, e.1 ≤ n.lastKey := by
  intro e he
  have hne : n.ents ≠ [] := by intro h; rw [h] at he; cases he
  have e1 : n.lastKey = (n.ents.getLast hne).1 := by simp [Node.lastKey, List.getLast?_eq_some_getLast hne]
  rw [e1]
  rw [← List.dropLast_concat_getLast hne] at hs he
  rw [List.pairwise_append] at hs
  rcases List.mem_append.1 he with he | he
  · exact Nat.le_of_lt (hs.2.2 e he _ (by simp))
  · simp only [List.mem_singleton] at he; exact Nat.le_of_eq (by rw [he])

end HS.Index.Recover
