import Verif.Btree.Hang

/-!
# C38, C39, C40: the B-tree as an ordered map

The specification is `Verif/Btree/Spec.lean` (maps from keys to values) and `Spec.run` in `Api.lean`.
`Asc es`: the keys of the entry list `es` strictly increase.  `look es k`: the value that the list holds for
`k`.
-/

namespace HS.Btree

variable {K V A : Type} [LinearOrder K]

/-! ## Configurations for the examples -/

/-- Nodes of 128 bytes: four entries in a leaf, five keys in an interior node. -/
def c0 : Cfg Nat Nat :=
  { nodeData := 128, leafFixed := true, leafObj := 32, leafRec := 0, intFixed := true, intObj := 24, intRec := 0,
    ksz := fun _ => 8, vsz := fun _ => 24, kmax := 8, keyFixed := true, dfltKey := 0 }

/-- Its leaf format. -/
def p0 : NK Nat Nat := c0.nk 0

/-- The same with node merging turned off. -/
def c1 : Cfg Nat Nat := { c0 with mergeOn := false }

/-- Variable-size values: the value is its own size. -/
def cv : Cfg Nat Nat :=
  { c0 with nodeData := 200, leafFixed := false, leafRec := 4, intFixed := false, intRec := 4, vsz := id }

def insertOp (k v : Nat) : Op Nat Nat := .put { key := k, val := v, type := .insert }
def upsertOp (k v : Nat) : Op Nat Nat := .put { key := k, val := v, type := .upsert }
def updateOp (k v : Nat) : Op Nat Nat := .put { key := k, val := v, type := .update }

/-- A history that splits leaves, the root and an interior node, and merges leaves again. -/
def demoOps : List (Op Nat Nat) :=
  (List.range 20).map (fun i => insertOp (7 * i % 20) i) ++ [updateOp 3 27, insertOp 3 78, .get 3, upsertOp 30 1,
    .remove 4, .remove 5, .remove 6, .remove 7, .remove 8, .remove 8, .remove 9, .remove 10, .remove 12, .remove 2, .remove 1, .get 7, .get 11]

/-- Did the history complete? -/
def completes (c : Cfg K V) (fuel : Nat) (ops : List (Op K V)) : Bool :=
  match run c fuel BT.empty ops with
  | .ok _ => true
  | .error _ => false

theorem completes_iff {c : Cfg K V} {fuel : Nat} {ops : List (Op K V)} (h : completes c fuel ops = true) :
    ∃ b os, run c fuel BT.empty ops = .ok (b, os) := by
  unfold completes at h
  split at h
  · rename_i x hx; exact ⟨x.1, x.2, hx⟩
  · cases h

/-! ## C38: one node -/

/-- C38, put: a put on a leaf keeps its keys strictly increasing and does to its contents what the ordered map
does, with the same status and reported old value. -/
theorem C38_leaf_put {p : NK K V} {es es' : List (K × V)} {k : K} {v : V} {t : PutType}
    {f : Option (K → V → V → Decision)} {st : Status} {ex : Option V} (hs : Asc es)
    (h : leafPut p es k v t f = .ok (es', st, ex)) :
    Asc es' ∧ (look es', st, ex) = Spec.put (look es) k v t f :=
  ⟨(leafPut_spec hs h).1, (leafPut_spec hs h).2.2⟩

/-- A put with room: inserting into the middle, and replacing. -/
example : leafPut p0 [(1, 10), (5, 50)] 3 30 .insert none = .ok ([(1, 10), (3, 30), (5, 50)], .success, none) ∧
    leafPut p0 [(1, 10), (5, 50)] 5 51 .upsert none = .ok ([(1, 10), (5, 51)], .success, some 50) := by
  constructor <;> decide +kernel

/-- C38, remove: a remove on a leaf always completes, keeps the keys strictly increasing and removes exactly
that key. -/
theorem C38_leaf_remove {es : List (K × V)} {k : K} (hs : Asc es) :
    ∃ es' ex, leafRemoveOne es k = .ok (es', ex) ∧ Asc es' ∧ (look es', ex) = Spec.remove (look es) k := by
  have h : ∃ es' ex, leafRemoveOne es k = .ok (es', ex) := by
    unfold leafRemoveOne
    rcases bsearch_split hs k with ⟨a, w, b, he, hb, ha, hbb⟩ | ⟨a, b, he, hb, ha, hbb⟩
    · have hget : es[a.length]? = some (k, w) := by rw [he]; simp
      rw [hb]; simp [hget]
    · rw [hb]; simp
  obtain ⟨es', ex, h⟩ := h
  exact ⟨es', ex, h, (leafRemoveOne_spec hs h).1, (leafRemoveOne_spec hs h).2.2⟩

example : Asc [(1, 10), (5, 50)] ∧ leafRemoveOne [(1, 10), (5, 50)] 5 = .ok ([(1, 10)], some 50) := by
  constructor
  · simp [Asc]
  · decide +kernel

/-- C38, search: on a node with strictly increasing keys the binary search always completes, returns the number
of smaller keys, and says "found" exactly when the key is there. -/
theorem C38_search {es : List (K × A)} (hs : Asc es) (k : K) :
    ∃ b i, bsearch es k = some (b, i) ∧ i ≤ es.length ∧ (∀ j x, es[j]? = some x → (j < i ↔ x.1 < k)) ∧
      (b = true ↔ ∃ x ∈ es, x.1 = k) := by
  rcases bsearch_split hs k with ⟨a, w, b, rfl, hb, ha, hbb⟩ | ⟨a, b, rfl, hb, ha, hbb⟩
  · refine ⟨true, a.length, hb, by simp, fun j x hj => ?_, by simpa using ⟨w, Or.inr (Or.inl rfl)⟩⟩
    rcases Nat.lt_trichotomy j a.length with h | h | h
    · rw [List.getElem?_append_left h] at hj
      exact ⟨fun _ => ha x (List.mem_of_getElem? hj), fun _ => h⟩
    · subst h
      simp at hj
      subst hj
      simp
    · obtain ⟨d, rfl⟩ : ∃ d, j = a.length + (d + 1) := ⟨j - a.length - 1, by omega⟩
      rw [List.getElem?_append_right (by omega)] at hj
      simp at hj
      have := hbb x (List.mem_of_getElem? hj)
      exact ⟨fun h => by omega, fun h => absurd (h.trans this) (lt_irrefl _)⟩
  · refine ⟨false, a.length, hb, by simp, fun j x hj => ?_, ?_⟩
    · rcases Nat.lt_or_ge j a.length with h | h
      · rw [List.getElem?_append_left h] at hj
        exact ⟨fun _ => ha x (List.mem_of_getElem? hj), fun _ => h⟩
      · rw [List.getElem?_append_right h] at hj
        have := hbb x (List.mem_of_getElem? hj)
        exact ⟨fun h' => by omega, fun h' => absurd (h'.trans this) (lt_irrefl _)⟩
    · constructor
      · intro h; cases h
      · rintro ⟨x, hx, rfl⟩
        rcases List.mem_append.mp hx with h | h
        · exact absurd (ha x h) (lt_irrefl _)
        · exact absurd (hbb x h) (lt_irrefl _)

/-- C38, range remove: on a leaf it always completes, keeps the keys strictly increasing, removes exactly the
selected keys of the interval and returns their number. -/
theorem C38_leaf_range_remove {nd : Node K V} (hs : Asc nd.es) (r : KeyRange K) (f : Option (K → V → Bool)) :
    ∃ es' n, multiRemove nd r f = .ok (es', n) ∧ Asc es' ∧
      look es' = Spec.removeRange (look nd.es) r (selects f) ∧ es'.length + n = nd.es.length := by
  refine ⟨_, _, multiRemove_spec hs r f, List.Pairwise.filter _ hs, look_multiRemove hs r f, ?_⟩
  have h1 := List.length_eq_length_filter_add (l := nd.es) (fun x => Spec.inRange r x.1 && selects f x.1 x.2)
  have h2 : (hits r nd.es).filter (fun x => selects f x.1 x.2) =
      nd.es.filter (fun x => Spec.inRange r x.1 && selects f x.1 x.2) := by
    unfold hits
    rw [List.filter_filter]
    congr 1
    funext x
    exact Bool.and_comm _ _
  rw [h2]
  omega

example : (multiRemove { id := 0, next := none, es := [(1, 10), (3, 30), (5, 50)], edge := none }
    { startKey := 1, startIncl := false, endKey := 9, endIncl := true } (some fun _ v => decide (v = 30))).toOption =
      some ([(1, 10), (5, 50)], 1) := by
  decide +kernel

/-- C38, range get: on a leaf it returns the first `max` keys of the interval, in order, without those the
filter rejects. -/
theorem C38_leaf_range_get {nd : Node K V} (hs : Asc nd.es) (r : KeyRange K) (max : Nat)
    (f : Option (K → V → Bool)) :
    multiGet nd r max f =
      .ok ((((nd.es.filter (fun x => Spec.inRange r x.1)).take max).filter (fun x => selects f x.1 x.2)),
        (((nd.es.filter (fun x => Spec.inRange r x.1)).take max).filter (fun x => selects f x.1 x.2)).length) := by
  obtain ⟨out, h1, h2⟩ := multiGet_spec hs r max f
  rw [h1, h2]
  rfl

/-- C38, split: the two halves of a split node are its entries in order, both non-empty, both strictly
increasing, the separator is the last key of the left half and lies below every key of the right half.  The
right half takes over the edge value and the right sibling. -/
theorem C38_split {p : NK K A} {pct nid : Nat} {nd c1 c2 : Node K A} {k : K} (hs : Asc nd.es)
    (h : splitNode p pct nd nid = .ok (c1, c2, k)) :
    c1.es ++ c2.es = nd.es ∧ c1.es ≠ [] ∧ c2.es ≠ [] ∧ Asc c1.es ∧ Asc c2.es ∧
      (∀ x ∈ c1.es, x.1 ≤ k) ∧ (∃ x ∈ c1.es, x.1 = k) ∧ (∀ x ∈ c2.es, k < x.1) ∧
      c1.id = nd.id ∧ c1.next = some c2.id ∧ c2.next = nd.next ∧ c1.edge = none ∧ c2.edge = nd.edge := by
  obtain ⟨a, b, x, h1, h2, rfl, h4, rfl, rfl⟩ := splitNode_ok h
  unfold Asc at hs
  rw [h1, List.pairwise_append] at hs
  obtain ⟨s1, s2, s3⟩ := hs
  have hx := List.mem_of_getLast? h2
  have hne : a ≠ [] := fun h => by rw [h] at hx; cases hx
  refine ⟨h1.symm, hne, h4, s1, s2, fun y hy => ?_, ⟨x, hx, rfl⟩,
    fun y hy => s3 x hx y hy, rfl, rfl, rfl, rfl, rfl⟩
  obtain ⟨l, hl⟩ := List.getLast?_eq_some_iff.mp h2
  rw [hl] at hy s1
  rcases List.mem_append.mp hy with hy | hy
  · exact ((List.pairwise_append.mp s1).2.2 y hy x (by simp)).le
  · simp at hy; rw [hy]

example : (splitNode p0 50 { id := 4, next := some 9, es := [(1, 1), (2, 2), (3, 3), (4, 4)], edge := none } 7).toOption.map
    (fun x => (x.1.es, x.2.1.es, x.2.2)) = some ([(1, 1), (2, 2)], [(3, 3), (4, 4)], 2) := by
  decide +kernel

/-- C38, merge-move: copying entries from the right sibling appends a consecutive run of its entries, at most as
many as asked for; if the sibling's keys are larger, the keys stay strictly increasing. -/
theorem C38_copy {p : NK K A} {dst src dst' : Node K A} {start n m : Nat} (hd : Asc dst.es) (hs : Asc src.es)
    (hlt : ∀ x ∈ dst.es, ∀ y ∈ src.es, x.1 < y.1) (h : copyByEntries p dst src start n = .ok (dst', m)) :
    m ≤ n ∧ dst'.es = dst.es ++ (src.es.drop start).take m ∧ start + m ≤ max start src.es.length ∧ Asc dst'.es := by
  unfold copyByEntries at h
  simp only at h
  generalize hM : (if p.fixed then min (min n (src.es.length - start)) (p.avail dst.es / p.obj)
    else min n (src.es.length - start)) = M at h
  have hM' : M ≤ n ∧ M ≤ src.es.length - start := by
    rw [← hM]; split <;> omega
  split at h
  · cases h
  · simp only [Except.ok.injEq, Prod.mk.injEq] at h
    obtain ⟨h1, h2⟩ := h
    subst h1 h2
    refine ⟨?_, rfl, ?_, ?_⟩
    · exact hM'.1
    · omega
    · refine List.pairwise_append.mpr ⟨hd, ?_, fun x hx y hy => hlt x hx y ?_⟩
      · exact hs.sublist ((List.take_sublist _ _).trans (List.drop_sublist _ _))
      · exact List.mem_of_mem_drop (List.mem_of_mem_take hy)

example : (copyByEntries p0 { id := 1, next := none, es := [(1, 1), (2, 2)], edge := none }
      { id := 2, next := none, es := [(3, 3), (4, 4), (5, 5)], edge := none } 0 3).toOption.map
    (fun x => (x.1.es, x.2)) = some ([(1, 1), (2, 2), (3, 3), (4, 4)], 2) := by
  decide +kernel

theorem look_mapVal {g : K × V → K × V} (hg : ∀ x, (g x).1 = x.1) (es : List (K × V)) (k : K) :
    look (es.map g) k = (look es k).map (fun v => (g (k, v)).2) := by
  induction es with
  | nil => rfl
  | cons x es ih =>
    rw [List.map_cons, look_cons, look_cons, hg, ih]
    by_cases h : x.1 = k
    · subst h; simp
    · simp [h]

/-- C38, range update (filters that never decide `remove`): the entries of the interval are updated from the left
up to some point; keys stay the same.  Missing: the `remove` decision, for which the property is false
(`C51_update_filter_remove_violated`). -/
theorem C38_leaf_range_update_partial {p : NK K V} {nd : Node K V} (hs : Asc nd.es) (r : KeyRange K) (v : V)
    (f : Option (K → V → V → Decision))
    (hd : ∀ x ∈ nd.es, Spec.inRange r x.1 = true → decision f x.1 x.2 v ≠ .remove) :
    ∃ es' st kf, multiPut p nd r v .update f = .ok (es', st, kf) ∧ es'.map (·.1) = nd.es.map (·.1) ∧
      ((st = .not_found ∧ es' = nd.es ∧ ∀ x ∈ nd.es, Spec.inRange r x.1 = false) ∨
       (st = .success ∧ look es' = Spec.updateRange (look nd.es) r (decision f) v) ∨
       (st = .has_more ∧ ∃ k, kf = some k ∧ Spec.inRange r k = true ∧
          look es' = Spec.updateRange (look nd.es) { r with endKey := k, endIncl := false } (decision f) v)) := by
  have hk : ∀ x : K × V, (updOne f v x).1 = x.1 := by
    intro x; unfold updOne; split <;> rfl
  have hmap : ∀ (es : List (K × V)) (r' : KeyRange K),
      (∀ x ∈ es, Spec.inRange r' x.1 = true → decision f x.1 x.2 v ≠ .remove) → Asc es →
      look (es.map (fun x => if Spec.inRange r' x.1 then updOne f v x else x)) =
        Spec.updateRange (look es) r' (decision f) v := by
    intro es r' hd' hs'
    funext k
    rw [look_mapVal (fun x => by split <;> simp [hk])]
    unfold Spec.updateRange
    cases hl : look es k with
    | none => rfl
    | some w =>
      have hm := (look_mem hs').mp hl
      simp only [Option.map_some]
      by_cases hr : Spec.inRange r' k = true
      · have := hd' _ hm hr
        simp only [hr, if_true]
        unfold updOne
        cases hdd : decision f k w v <;> simp_all
      · simp [hr]
  rcases multiPut_spec (p := p) hs r v f hd with ⟨h1, h2⟩ | ⟨a, m1, m2, b, h1, h2, h3, h4, h5, h6⟩
  · refine ⟨_, _, _, h2, rfl, Or.inl ⟨rfl, rfl, fun x hx => ?_⟩⟩
    unfold hits at h1
    rw [List.filter_eq_nil_iff] at h1
    simpa using h1 x hx
  · have hin : ∀ x ∈ m1 ++ m2, Spec.inRange r x.1 = true := by
      intro x hx
      rw [← h2] at hx
      exact (List.mem_filter.mp hx).2
    refine ⟨_, _, _, h6, ?_, ?_⟩
    · rw [h1]
      simp [Function.comp_def, hk]
    · right
      cases m2 with
      | nil =>
        left
        refine ⟨rfl, ?_⟩
        rw [← hmap nd.es r hd hs, h1]
        congr 1
        simp only [List.append_nil, List.map_append]
        congr 1
        · congr 1
          · exact (List.map_id' a |>.symm.trans (List.map_congr_left fun x hx => by
              simp [not_inRange_of_below (h4 x hx)]))
          · exact List.map_congr_left fun x hx => by simp [hin x (by simp [hx])]
        · exact (List.map_id' b |>.symm.trans (List.map_congr_left fun x hx => by
              simp [not_inRange_of_above (h5 x hx)]))
      | cons y m2 =>
        right
        refine ⟨by simp, y.1, rfl, hin y (by simp), ?_⟩
        have hs2 : Asc (a ++ (m1 ++ y :: m2) ++ b) := h1 ▸ hs
        unfold Asc at hs2
        rw [List.append_assoc, List.append_assoc, List.pairwise_append, List.pairwise_append, List.cons_append,
          List.pairwise_cons] at hs2
        obtain ⟨-, ⟨-, ⟨hy, -⟩, hm⟩, ha⟩ := hs2
        have hlt : ∀ k, Spec.inRange { r with endKey := y.1, endIncl := false } k = true ↔
            ¬ Below r k ∧ k < y.1 := by
          intro k
          rw [inRange_iff]
          simp [Below, Above]
        rw [← hmap nd.es { r with endKey := y.1, endIncl := false } ?_ hs, h1]
        · congr 1
          simp only [List.map_append, List.append_assoc]
          congr 1
          · exact (List.map_id' a |>.symm.trans (List.map_congr_left fun x hx => by
              rw [if_neg]; rw [hlt]; exact fun h => h.1 (h4 x hx)))
          congr 1
          · exact List.map_congr_left fun x hx => by
              rw [if_pos]; rw [hlt]
              exact ⟨((inRange_iff r x.1).mp (hin x (by simp [hx]))).1, hm x hx y (by simp)⟩
          · rw [← List.map_append]
            exact (List.map_id' _ |>.symm.trans (List.map_congr_left fun x hx => by
              rw [if_neg]; rw [hlt]
              intro h
              rcases List.mem_cons.mp hx with rfl | hx
              · exact lt_irrefl _ h.2
              · exact lt_irrefl _ (h.2.trans (hy x hx))))
        · intro x hx hr
          refine hd x hx ((inRange_iff r x.1).mpr ⟨((hlt _).mp hr).1, fun hab => ?_⟩)
          have := ((inRange_iff r y.1).mp (hin y (by simp))).2
          unfold Above at this hab
          split at this
          · rename_i he; rw [if_pos he] at hab
            exact this (hab.trans ((hlt _).mp hr).2)
          · rename_i he; rw [if_neg he] at hab
            exact this (hab.trans ((hlt _).mp hr).2.le)

example : (multiPut p0 { id := 0, next := none, es := [(1, 10), (3, 30), (5, 50)], edge := none }
    { startKey := 1, startIncl := false, endKey := 9, endIncl := true } 99 .update
      (some fun _ v _ => if v = 30 then .keep else .replace)).toOption =
      some ([(1, 10), (3, 30), (5, 99)], .success, none) := by
  decide +kernel

/-! ## C39: histories of puts, gets and removes -/

/-- C39: every history of puts (insert, update, upsert, with or without filter), gets and removes on a tree
returns, call by call, exactly what an ordered map returns, and afterwards every get sees that map, whatever the
node capacities and however often nodes were split and merged.  The hypothesis is that the calls return; see
`C39_fixed_no_merge_completes_partial` for when they do and the violations below for when they do not. -/
theorem C39_history_partial {c : Cfg K V} (hc : c.Good) {fuel : Nat} {ops : List (Op K V)} {b : BT K V}
    {outs : List (Out V)} (h : run c fuel BT.empty ops = .ok (b, outs)) :
    outs = (Spec.run (fun _ => none) ops).2 ∧
      ∀ k, get b k = .ok ((Spec.run (fun _ => none) ops).1 k) := by
  obtain ⟨h1, h2⟩ := run_ok hc ops empty_inv h
  rw [empty_map] at h2
  refine ⟨congrArg Prod.snd h2, fun k => ?_⟩
  rw [get_ok h1, ← congrArg Prod.fst h2]

/-- The demo history completes on fixed-size and on variable-size nodes and ends with a tree of three levels. -/
example : c0.Good ∧ cv.Good ∧ completes c0 20 demoOps = true ∧ completes cv 20 demoOps = true ∧
    ((run c0 20 BT.empty demoOps).toOption.map (fun x => x.1.lvl)) = some 2 := by
  refine ⟨⟨by decide, by decide, by decide⟩, ⟨by decide, by decide, by decide⟩, ?_, ?_, ?_⟩ <;> decide +kernel

/-- C39 without a completion hypothesis, for FIXED nodes that hold at least two entries, the default split
percentage and node merging turned off: every history completes and equals the ordered map's.  Missing:
variable-size nodes and merging, where a call can abort or hang (the violations below). -/
theorem C39_fixed_no_merge_completes_partial {c : Cfg K V} (hc : c.Fixed) (hg : c.Good) (hm : c.mergeOn = false)
    {fuel : Nat} (hf : 4 ≤ fuel) (ops : List (Op K V)) :
    ∃ b, run c fuel BT.empty ops = .ok (b, (Spec.run (fun _ => none) ops).2) ∧
      ∀ k, get b k = .ok ((Spec.run (fun _ => none) ops).1 k) := by
  obtain ⟨b, outs, h⟩ := run_total hc hg hm hf ops empty_inv empty_fits
  obtain ⟨h1, h2⟩ := C39_history_partial hg h
  exact ⟨b, by rw [h, h1], h2⟩

example : c1.Fixed ∧ c1.Good ∧ c1.mergeOn = false ∧
    ((run c1 4 BT.empty demoOps).toOption.map (fun x => (x.1.lvl, x.2.getLast?))) = some (2, some (.get (some 13))) := by
  refine ⟨⟨rfl, rfl, by decide, by decide, by decide, by decide, rfl⟩, ⟨by decide, by decide, by decide⟩, rfl, ?_⟩
  decide +kernel

/-- C39 is false in general (1): with 4 KiB nodes, entries of 1026 bytes and default settings, ten inserts and
a remove lead to a tree on which removing an existing key never returns. -/
theorem C39_merge_hangs_violated :
    run Hang.cH 8 BT.empty Hang.ops =
      .ok (Hang.bH, List.replicate 10 (.put .success none) ++ [.remove (some 10)]) ∧
    get Hang.bH 20 = .ok (some 20) ∧ ∀ fuel, remove Hang.cH 20 fuel Hang.bH = .error .fuel :=
  ⟨Hang.reach, by decide +kernel, Hang.hang⟩

/-- C39 is false in general (2): with variable-size values, updating a key twice with a value larger than half a
node aborts the process. -/
theorem C39_var_update_aborts_violated :
    (run cv 20 BT.empty [insertOp 1 10, updateOp 1 150]).toOption.map (·.2) =
      some [.put .success none, .put .success (some 10)] ∧
    (match run cv 20 BT.empty [insertOp 1 10, updateOp 1 150, updateOp 1 150] with
      | .error .assert => true
      | _ => false) = true := by
  constructor <;> decide +kernel

/-! ## C40: range queries -/

theorem mem_entries {b : BT K V} (hb : b.Inv) {k : K} {v : V} : (k, v) ∈ b.entries ↔ b.map k = some v :=
  (look_mem hb.asc).symm

/-- C40: reading a range page by page, with any page size, either query type and on any tree that a history of
calls builds, returns the keys of the interval with their current values: ascending, each once, none missing.
All pages but the last are full.  Missing: filters together with a page size (C53); key types whose default
value is larger than a key and not below the end of the interval; a caller that passes the same vector
again (the violations below). -/
theorem C40_pages_partial {c : Cfg K V} (hc : c.Good) {fuel0 : Nat} {ops : List (Op K V)} {b : BT K V}
    {outs : List (Out V)} (h : run c fuel0 BT.empty ops = .ok (b, outs)) {q : QReq K V} (hq : 0 < q.batch)
    (h32 : q.batch < 4294967296) (hse : q.range.startKey ≤ q.range.endKey) (hf : q.filter = none)
    (hd : (∀ k, c.dfltKey ≤ k) ∨ c.dfltKey < q.range.endKey) :
    ∃ F, ∀ fuel f, F ≤ fuel → F ≤ f → ∃ ps, pages c b fuel f q = .ok ps ∧
      ps.flatten.Pairwise (fun x y => x.1 < y.1) ∧
      (∀ k v, (k, v) ∈ ps.flatten ↔
        (Spec.run (fun _ => none) ops).1 k = some v ∧ Spec.inRange q.range k = true) ∧
      (∀ p ∈ ps.dropLast, p.length = q.batch) ∧ ∀ p ∈ ps, p.length ≤ q.batch := by
  obtain ⟨hb, h2⟩ := run_ok hc ops empty_inv h
  rw [empty_map] at h2
  have hM : b.map = (Spec.run (fun _ => none) ops).1 := congrArg Prod.fst h2
  refine ⟨max b.leaves.length ((hits q.range b.entries).length / q.batch + 1), fun fuel f hfu hff => ?_⟩
  obtain ⟨ps, p1, p2, p3, p4⟩ := pages_ok (c := c) (fuel := fuel) hb (by omega) f hq h32 hse hd hf
    (show (hits q.range b.entries).length / q.batch < f by omega)
  refine ⟨ps, p1, ?_, ?_, p3, p4⟩
  · rw [p2]
    exact List.Pairwise.filter _ hb.asc
  · intro k v
    rw [p2, ← hM]
    unfold hits
    rw [List.mem_filter, mem_entries hb]

/-- The tree that the demo history leaves. -/
def runTree (c : Cfg K V) (fuel : Nat) (ops : List (Op K V)) : BT K V :=
  match run c fuel BT.empty ops with
  | .ok (b, _) => b
  | .error _ => BT.empty

theorem runTree_ok {c : Cfg K V} {fuel : Nat} {ops : List (Op K V)} (h : completes c fuel ops = true) :
    ∃ outs, run c fuel BT.empty ops = .ok (runTree c fuel ops, outs) := by
  obtain ⟨b, outs, hr⟩ := completes_iff h
  exact ⟨outs, by rw [hr]; unfold runTree; rw [hr]⟩

/-- Pages of three keys over `(3, 19)`, sweeping and traversing, across empty leaves. -/
example : completes c0 20 demoOps = true ∧
    ∀ ty ∈ [QueryType.sweep, QueryType.traversal],
      pages c0 (runTree c0 20 demoOps) 9 9
        { range := { startKey := 3, startIncl := false, endKey := 19, endIncl := false }, type := ty, batch := 3 } =
        .ok [[(11, 13), (13, 19), (14, 2)], [(15, 5), (16, 8), (17, 11)], [(18, 14)]] := by
  refine ⟨by decide +kernel, ?_⟩
  intro ty hty
  simp only [List.mem_cons, List.not_mem_nil, or_false] at hty
  rcases hty with rfl | rfl <;> with_unfolding_all rfl

/-- Integer keys, whose default value 0 lies above the negative keys. -/
def ci : Cfg Int Nat :=
  { nodeData := 128, leafFixed := true, leafObj := 32, leafRec := 0, intFixed := true, intObj := 24, intRec := 0,
    ksz := fun _ => 8, vsz := fun _ => 24, kmax := 8, keyFixed := true, dfltKey := 0, mergeOn := false }

def iOps : List (Op Int Nat) :=
  [-9, -8, -7, -6, -5, -4].map (fun k => .put { key := k, val := k.toNat, type := .insert }) ++
    [.remove (-9), .remove (-8)]

/-- C40 is false in general (1): with signed keys a sweep query stops at an emptied leaf, because it takes the
leaf's last key to be the default key.  The interval `[-10, -1]` holds four keys; the query returns none and
reports success. -/
theorem C40_sweep_default_key_violated :
    completes ci 20 iOps = true ∧
    (∀ k ∈ [-7, -6, -5, -4], get (runTree ci 20 iOps) k = .ok (some 0)) ∧
    pages ci (runTree ci 20 iOps) 20 20
      { range := { startKey := -10, startIncl := true, endKey := -1, endIncl := true }, type := .sweep,
        batch := 100 } = .ok [[]] := by
  refine ⟨by decide +kernel, ?_, by with_unfolding_all rfl⟩
  intro k hk
  simp only [List.mem_cons, List.not_mem_nil, or_false] at hk
  rcases hk with rfl | rfl | rfl | rfl <;> with_unfolding_all rfl

/-- C40 is false in general (2): a traversal query counts what the caller's vector held before.  A caller that
collects pages in one vector never gets past the first one: the second call adds nothing, reports `has_more`
and leaves the request as it was. -/
theorem C40_traversal_same_vector_violated :
    let b := runTree c0 20 demoOps
    let q : QReq Nat Nat := { range := { startKey := 0, startIncl := true, endKey := 19, endIncl := true },
                              type := .traversal, batch := 3 }
    let q' : QReq Nat Nat := { q with range := { startKey := 11, startIncl := false, endKey := 19, endIncl := true } }
    completes c0 20 demoOps = true ∧
    query c0 b q [] 20 = .ok ([(0, 0), (3, 27), (11, 13)], .has_more, q') ∧
    query c0 b q' [(0, 0), (3, 27), (11, 13)] 20 = .ok ([(0, 0), (3, 27), (11, 13)], .has_more, q') := by
  refine ⟨by decide +kernel, by with_unfolding_all rfl, by with_unfolding_all rfl⟩

/-! ## C53: filtered queries -/

/-- C53: a query with a filter returns exactly the selected keys of the interval, in order, if the interval holds
at most one page of keys, selected or not.  Missing: larger intervals, for which the property is false. -/
theorem C53_filtered_query_partial {c : Cfg K V} (hc : c.Good) {fuel0 : Nat} {ops : List (Op K V)} {b : BT K V}
    {outs : List (Out V)} (h : run c fuel0 BT.empty ops = .ok (b, outs)) {q : QReq K V} {sel : K → V → Bool}
    (h32 : q.batch < 4294967296) (hse : q.range.startKey ≤ q.range.endKey) (hf : q.filter = some sel)
    (hd : (∀ k, c.dfltKey ≤ k) ∨ c.dfltKey < q.range.endKey) {all : List (K × V)}
    (hall : all.Pairwise (fun x y => x.1 < y.1))
    (hmem : ∀ k v, (k, v) ∈ all ↔
      (Spec.run (fun _ => none) ops).1 k = some v ∧ Spec.inRange q.range k = true)
    (hfit : all.length < q.batch) :
    ∃ F, ∀ fuel, F ≤ fuel → ∃ q', query c b q [] fuel =
      .ok (all.filter (fun x => sel x.1 x.2), .success, q') := by
  obtain ⟨hb, h2⟩ := run_ok hc ops empty_inv h
  rw [empty_map] at h2
  have hM : b.map = (Spec.run (fun _ => none) ops).1 := congrArg Prod.fst h2
  have hh : all = hits q.range b.entries := by
    have hs' : Asc (hits q.range b.entries) := List.Pairwise.filter _ hb.asc
    refine List.Perm.eq_of_pairwise (le := fun x y : K × V => x.1 < y.1)
      (fun x y _ _ h1 h2 => absurd (lt_trans (a := x.1) (b := y.1) h1 h2) (lt_irrefl _))
      hall hs' ?_
    refine (List.perm_ext_iff_of_nodup ?_ ?_).mpr fun x => ?_
    · exact hall.imp fun {x y} h => fun e => by subst e; exact lt_irrefl _ h
    · exact hs'.imp fun {x y} h => fun e => by subst e; exact lt_irrefl _ h
    · obtain ⟨k, v⟩ := x
      rw [hmem]
      unfold hits
      rw [List.mem_filter, mem_entries hb, hM]
  refine ⟨b.leaves.length, fun fuel hfu => ?_⟩
  have hq : 0 < q.batch := by omega
  rw [query_ok hb hq h32 hse hfu hd (Or.inr (by rw [← hh]; omega))]
  have hpg : page q b.entries = all.filter (fun x => sel x.1 x.2) := by
    unfold page
    rw [← hh, hf, List.take_of_length_le (by omega)]
    rfl
  rw [hpg]
  have hlt : (all.filter (fun x => sel x.1 x.2)).length ≤ all.length := List.length_filter_le _ _
  rw [if_neg (by omega)]
  unfold queryEnd
  split
  · exact ⟨q, rfl⟩
  · exact ⟨_, by rw [ite_self]⟩

example : query c0 (runTree c0 20 demoOps)
    { range := { startKey := 3, startIncl := false, endKey := 19, endIncl := false }, type := .sweep, batch := 10,
      filter := some (fun k _ => k % 2 = 0) } [] 20 =
    .ok ([(14, 2), (16, 8), (18, 14)], .success,
      { range := { startKey := 18, startIncl := false, endKey := 19, endIncl := false }, type := .sweep, batch := 10,
        filter := some (fun k _ => k % 2 = 0) }) := by
  with_unfolding_all rfl

/-- C53 is false in general: entries that the filter rejects use up the page, and the rest of the leaf is
skipped.  Of the selected keys 14, 15, 16 in `[13, 16]` a query for pages of two returns 14 and then goes on
behind 16; with both query types. -/
theorem C53_filter_skips_violated :
    completes c0 20 demoOps = true ∧
    (∀ k ∈ [14, 15, 16], (match get (runTree c0 20 demoOps) k with | .ok (some _) => true | _ => false) = true) ∧
    ∀ ty ∈ [QueryType.sweep, QueryType.traversal],
      pages c0 (runTree c0 20 demoOps) 20 20
        { range := { startKey := 13, startIncl := true, endKey := 16, endIncl := true }, type := ty, batch := 2,
          filter := some (fun k _ => decide (k ≠ 13)) } = .ok [[(14, 2)]] := by
  refine ⟨by decide +kernel, by decide +kernel, ?_⟩
  intro ty hty
  simp only [List.mem_cons, List.not_mem_nil, or_false] at hty
  rcases hty with rfl | rfl <;> with_unfolding_all rfl

end HS.Btree
