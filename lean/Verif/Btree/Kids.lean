import Verif.Btree.Inv

/-!
# Children of an interior node as one list

`Node.kids` lists the children with their keys, the edge last and without a key.  The node operations are
restated on that list.
-/

namespace HS.Btree

section
variable {K A : Type}

/-- Children with their upper bounds; the edge child has none. -/
def Node.kids (nd : Node K A) : List (Option K × A) :=
  nd.es.map (fun x => (some x.1, x.2)) ++ (nd.edge.map (fun c => (none, c))).toList

theorem kids_length (nd : Node K A) :
    nd.kids.length = nd.es.length + if nd.edge.isSome then 1 else 0 := by
  cases h : nd.edge <;> simp [Node.kids, h]

theorem kids_lt (nd : Node K A) {i : Nat} (h : i < nd.es.length) :
    nd.kids[i]? = some (some nd.es[i].1, nd.es[i].2) := by
  rw [Node.kids, List.getElem?_append_left (by simpa using h)]
  simp [h]

theorem kids_edge (nd : Node K A) {c : A} (h : nd.edge = some c) :
    nd.kids[nd.es.length]? = some (none, c) := by
  rw [Node.kids, List.getElem?_append_right (by simp)]
  simp [h]

theorem kids_ge (nd : Node K A) {i : Nat} (h : nd.es.length < i) : nd.kids[i]? = none := by
  apply List.getElem?_eq_none
  rw [kids_length]
  split <;> omega

theorem valAt_kids (nd : Node K A) (i : Nat) : nd.valAt i = (nd.kids[i]?).map (·.2) := by
  unfold Node.valAt
  by_cases h : i = nd.es.length
  · rw [if_pos h, h]
    cases he : nd.edge with
    | none =>
      have : nd.kids[nd.es.length]? = none := List.getElem?_eq_none (by rw [kids_length, he]; simp)
      rw [this]; rfl
    | some c => rw [kids_edge nd he]; rfl
  · rw [if_neg h]
    rcases Nat.lt_or_gt_of_ne h with h | h
    · rw [kids_lt nd h, List.getElem?_eq_getElem h]; rfl
    · rw [kids_ge nd h, List.getElem?_eq_none (by omega)]; rfl

/-- Keys are present exactly below the position of the edge. -/
theorem kids_key (nd : Node K A) {i : Nat} {y : Option K × A} (h : nd.kids[i]? = some y) :
    (y.1 = none ↔ i = nd.es.length) ∧ i ≤ nd.es.length := by
  rcases lt_trichotomy i nd.es.length with hi | hi | hi
  · rw [kids_lt nd hi] at h
    cases h
    simp; omega
  · subst hi
    cases he : nd.edge with
    | none =>
      have : nd.kids[nd.es.length]? = none := List.getElem?_eq_none (by rw [kids_length, he]; simp)
      rw [this] at h; cases h
    | some c =>
      rw [kids_edge nd he] at h
      cases h; simp
  · rw [kids_ge nd hi] at h; cases h

theorem modify_append_edge {B : Type} (l r : List B) (i : Nat) (f : B → B) (h : i < l.length) :
    (l ++ r).modify i f = l.modify i f ++ r := by
  induction l generalizing i with
  | nil => simp at h
  | cons x l ih =>
    cases i with
    | zero => simp
    | succ i => simp at h; simp [ih i h]

theorem modify_at {B : Type} (a : List B) (y : B) (b : List B) (f : B → B) :
    (a ++ y :: b).modify a.length f = a ++ f y :: b := by
  induction a with
  | nil => simp
  | cons x a ih => simp [ih]

theorem modify_congr {B : Type} (l : List B) (i : Nat) (f g : B → B)
    (h : ∀ x, l[i]? = some x → f x = g x) : l.modify i f = l.modify i g := by
  induction l generalizing i with
  | nil => simp
  | cons y l ih =>
    cases i with
    | zero => simp [h y (by simp)]
    | succ i => simp; exact ih i (fun x hx => h x (by simpa using hx))

theorem set_modify {B : Type} (l : List B) (i : Nat) (x : B) : l.set i x = l.modify i (fun _ => x) := by
  induction l generalizing i with
  | nil => simp
  | cons y l ih => cases i <;> simp [ih]

theorem map_modify {B C : Type} (g : B → C) (f : B → B) (f' : C → C) (h : ∀ x, g (f x) = f' (g x))
    (l : List B) (i : Nat) : (l.modify i f).map g = (l.map g).modify i f' := by
  induction l generalizing i with
  | nil => simp
  | cons x l ih => cases i <;> simp [h, ih]

theorem kids_setVal (nd : Node K A) {i : Nat} (h : i < nd.kids.length) (c : A) :
    (nd.setVal i c).kids = nd.kids.modify i (fun y => (y.1, c)) := by
  unfold Node.setVal
  by_cases hi : i = nd.es.length
  · rw [if_pos hi]
    cases he : nd.edge with
    | none => rw [kids_length, he] at h; simp at h; omega
    | some d =>
      have : nd.kids = nd.es.map (fun x => (some x.1, x.2)) ++ (none, d) :: [] := by simp [Node.kids, he]
      rw [this, show i = (nd.es.map (fun x => (some x.1, x.2))).length by simpa using hi, modify_at]
      simp [Node.kids]
  · rw [if_neg hi]
    have hlt : i < nd.es.length := by
      rw [kids_length] at h
      split at h <;> omega
    unfold Node.kids
    rw [modify_append_edge _ _ _ _ (by simpa using hlt)]
    rw [map_modify (fun x : K × A => (some x.1, x.2)) _ (fun y => (y.1, c)) (fun x => rfl)]

theorem replaceAt_ok {p : NK K A} {es es' : List (K × A)} {i : Nat} {k : K} {c : A}
    (h : p.replaceAt es i k c = .ok es') : i < es.length ∧ es' = es.modify i (fun _ => (k, c)) := by
  unfold NK.replaceAt at h
  cases hc : es[i]? with
  | none => rw [hc] at h; cases h
  | some cur =>
    rw [hc] at h
    have hi : i < es.length := (List.getElem?_eq_some_iff.mp hc).1
    have hset : es.set i (k, c) = es.modify i (fun _ => (k, c)) := set_modify _ _ _
    refine ⟨hi, ?_⟩
    simp only at h
    by_cases h1 : p.fixed
    · rw [if_pos h1] at h; cases h; exact hset
    · rw [if_neg h1] at h
      by_cases h2 : p.ksz k + p.asz c ≤ p.ksz cur.1 + p.asz cur.2
      · rw [if_pos h2] at h; cases h; exact hset
      · rw [if_neg h2] at h
        unfold NK.insertAt at h
        rw [if_neg (by rw [List.length_eraseIdx_of_lt hi]; omega), if_neg h1] at h
        split at h
        · cases h
        · cases h
          rw [← hset]
          have h3 : (es.eraseIdx i).take i = es.take i := by
            rw [List.eraseIdx_eq_take_drop_succ, List.take_append_of_le_length (by simp; omega)]
            rw [List.take_take]; simp
          have h4 : (es.eraseIdx i).drop i = es.drop (i + 1) := by
            rw [List.eraseIdx_eq_take_drop_succ, List.drop_append]
            simp
            have : i - min i es.length = 0 := by omega
            rw [this]
          rw [h3, h4, List.set_eq_take_append_cons_drop, if_pos hi]

theorem insertAt_ok {p : NK K A} {es es' : List (K × A)} {i : Nat} {k : K} {c : A}
    (h : p.insertAt es i k c = .ok es') : i ≤ es.length ∧ es' = es.take i ++ (k, c) :: es.drop i := by
  unfold NK.insertAt at h
  split at h
  · cases h
  · refine ⟨by omega, ?_⟩
    split at h <;> split at h <;> cases h <;> rfl

theorem updateVal_ok {p : NK K A} {nd nd' : Node K A} {i : Nat} {c : A}
    (h : p.updateVal nd i c = .ok nd') : nd' = nd.setVal i c := by
  unfold NK.updateVal at h
  unfold Node.setVal
  by_cases hl : i = nd.es.length
  · rw [if_pos hl] at h ⊢; cases h; rfl
  · rw [if_neg hl] at h ⊢
    cases hc : nd.es[i]? with
    | none => rw [hc] at h; cases h
    | some cur =>
      rw [hc] at h
      simp only [bind, Except.bind] at h
      split at h
      · cases h
      · rename_i es he
        cases h
        obtain ⟨h1, rfl⟩ := replaceAt_ok he
        congr 1
        apply modify_congr
        intro x hx
        rw [hc] at hx; cases hx; rfl

theorem kids_updateVal {p : NK K A} {nd nd' : Node K A} {i : Nat} {c : A}
    (hi : i < nd.kids.length) (h : p.updateVal nd i c = .ok nd') :
    nd'.kids = nd.kids.modify i (fun y => (y.1, c)) := by
  rw [updateVal_ok h, kids_setVal nd hi]

theorem kids_updateKV {p : NK K A} {nd nd' : Node K A} {i : Nat} {k : K} {c : A}
    (hi : i < nd.kids.length) (h : p.updateKV nd i k c = .ok nd') :
    nd'.kids = nd.kids.modify i (fun y => (y.1.map (fun _ => k), c)) := by
  unfold NK.updateKV at h
  by_cases hl : i = nd.es.length
  · rw [if_pos hl] at h
    cases h
    cases he : nd.edge with
    | none => rw [kids_length, he] at hi; simp at hi; omega
    | some d =>
      have : nd.kids = nd.es.map (fun x => (some x.1, x.2)) ++ (none, d) :: [] := by simp [Node.kids, he]
      rw [this, show i = (nd.es.map (fun x => (some x.1, x.2))).length by simpa using hl, modify_at]
      simp [Node.kids]
  · rw [if_neg hl] at h
    simp only [bind, Except.bind] at h
    split at h
    · cases h
    · rename_i es he
      cases h
      obtain ⟨h1, rfl⟩ := replaceAt_ok he
      unfold Node.kids
      simp only
      rw [modify_append_edge _ _ _ _ (by simpa using h1)]
      rw [map_modify (fun x : K × A => (some x.1, x.2)) _ (fun y => (y.1.map (fun _ => k), c)) (fun x => rfl)]

theorem kids_insertNode {p : NK K A} {nd nd' : Node K A} {i : Nat} {k : K} {c : A}
    (h : p.insertNode nd i k c = .ok nd') :
    i ≤ nd.es.length ∧ nd'.kids = nd.kids.take i ++ (some k, c) :: nd.kids.drop i := by
  unfold NK.insertNode at h
  simp only [bind, Except.bind] at h
  split at h
  · cases h
  · rename_i es he
    cases h
    obtain ⟨h1, rfl⟩ := insertAt_ok he
    refine ⟨h1, ?_⟩
    unfold Node.kids
    simp only [List.map_append, List.map_cons, List.map_take, List.map_drop]
    rw [List.take_append_of_le_length (by simpa using h1), List.drop_append_of_le_length (by simpa using h1)]
    simp

theorem kids_removeRange {nd nd' : Node K A} {s d : Nat} (hd : 0 < d)
    (h : nd.removeRange (s + 1) (s + d) = .ok nd') :
    (s + d < nd.es.length ∧ nd'.kids = nd.kids.take (s + 1) ++ nd.kids.drop (s + d + 1)) ∨
    (s + d = nd.es.length ∧ ∃ y, nd.kids[s]? = some y ∧ nd'.kids = nd.kids.take s ++ [(none, y.2)]) := by
  unfold Node.removeRange at h
  split at h
  · cases h
  · rename_i hb
    split at h
    · rename_i he
      right
      refine ⟨he, ?_⟩
      split at h
      · cases h
      · split at h
        · rename_i heq; omega
        · rename_i s' heq
          obtain rfl : s = s' := by omega
          have hs : s < nd.es.length := by omega
          rw [List.getElem?_eq_getElem hs] at h
          cases h
          refine ⟨_, kids_lt nd hs, ?_⟩
          unfold Node.kids
          simp only [List.map_take]
          rw [List.take_append_of_le_length (by simp; omega)]
          simp
    · left
      rename_i he
      rw [if_neg (by omega)] at h
      cases h
      refine ⟨by omega, ?_⟩
      unfold Node.kids
      simp only [List.map_append, List.map_take, List.map_drop]
      rw [List.take_append_of_le_length (by simp; omega), List.drop_append_of_le_length (by simp; omega)]
      simp

end

/-! ## Covering, on the list of children -/

section
variable {K V A : Type} [LinearOrder K]

/-- The children cover `(lo, hi]` one after the other. -/
def USeg (P : A → Option K → Option K → Prop) : Option K → List (Option K × A) → Option K → Prop
  | lo, [], hi => lo = hi
  | lo, (some k, c) :: r, hi => ltLo lo k ∧ P c lo (some k) ∧ USeg P (some k) r hi
  | lo, (none, c) :: r, hi => r = [] ∧ hi = none ∧ P c lo none

theorem USeg_map {P : A → Option K → Option K → Prop} {lo hi : Option K} {es : List (K × A)}
    {b : List (Option K × A)} :
    USeg P lo (es.map (fun x => (some x.1, x.2)) ++ b) hi ↔ ∃ m, Seg P lo es m ∧ USeg P m b hi := by
  induction es generalizing lo with
  | nil => simp [Seg]
  | cons x r ih => simp [Seg, USeg, ih, and_assoc]

theorem Kids_iff {P : A → Option K → Option K → Prop} {lo hi : Option K} {nd : Node K A} :
    Kids P lo nd.es nd.edge hi ↔ nd.kids ≠ [] ∧ USeg P lo nd.kids hi := by
  unfold Node.kids
  cases he : nd.edge with
  | none =>
    simp only [Kids, Option.map_none, Option.toList_none]
    rw [USeg_map]
    simp [USeg]
  | some c =>
    simp only [Kids, Option.map_some, Option.toList_some]
    rw [USeg_map]
    simp only [USeg, true_and]
    constructor
    · rintro ⟨h1, m, h2, h3⟩
      exact ⟨by simp, m, h2, h1, h3⟩
    · rintro ⟨-, m, h2, h1, h3⟩
      exact ⟨h1, m, h2, h3⟩

theorem USeg.split {P : A → Option K → Option K → Prop} {lo hi : Option K} {a b : List (Option K × A)}
    (hb : b ≠ []) (h : USeg P lo (a ++ b) hi) :
    ∃ m, USeg P lo a m ∧ USeg P m b hi ∧ (∀ y ∈ a, y.1 ≠ none) := by
  induction a generalizing lo with
  | nil => exact ⟨lo, rfl, h, by simp⟩
  | cons y r ih =>
    obtain ⟨k, c⟩ := y
    cases k with
    | none => exact absurd h.1 (by simp [hb])
    | some k =>
      obtain ⟨h1, h2, h3⟩ := h
      obtain ⟨m, h4, h5, h6⟩ := ih h3
      exact ⟨m, ⟨h1, h2, h4⟩, h5, by simpa using fun a b hab => h6 (a, b) hab⟩

theorem USeg.join {P : A → Option K → Option K → Prop} {lo m hi : Option K} {a b : List (Option K × A)}
    (ha : USeg P lo a m) (hs : ∀ y ∈ a, y.1 ≠ none) (hb : USeg P m b hi) : USeg P lo (a ++ b) hi := by
  induction a generalizing lo with
  | nil => cases ha; exact hb
  | cons y r ih =>
    obtain ⟨k, c⟩ := y
    cases k with
    | none => exact absurd rfl (hs (none, c) (by simp))
    | some k => exact ⟨ha.1, ha.2.1, ih ha.2.2 (fun y hy => hs y (by simp [hy]))⟩

theorem USeg.last {P : A → Option K → Option K → Prop} {lo hi : Option K} {a : List (Option K × A)}
    {y : Option K × A} (h : USeg P lo (a ++ [y]) hi) : hi = y.1 := by
  obtain ⟨m, -, h2, -⟩ := h.split (by simp)
  obtain ⟨k, c⟩ := y
  cases k with
  | none => exact h2.2.1
  | some k => exact h2.2.2.symm

/-- Leaves below a list of children. -/
def lvs (L : Lvl K V A) (ks : List (Option K × Node K A)) : List (Node K V) := ks.flatMap (fun y => L.lv y.2)

@[simp] theorem lvs_nil (L : Lvl K V A) : lvs L [] = [] := rfl
@[simp] theorem lvs_cons (L : Lvl K V A) (x) (r) : lvs L (x :: r) = L.lv x.2 ++ lvs L r := by simp [lvs]
@[simp] theorem lvs_append (L : Lvl K V A) (a b) : lvs L (a ++ b) = lvs L a ++ lvs L b := by simp [lvs]

theorem lv_kids (L : Lvl K V A) (nd : Node K (Node K A)) : (intLvl L).lv nd = lvs L nd.kids := by
  unfold Node.kids
  rw [lvs_append]
  show kidLeaves L nd.es ++ edgeLeaves L nd.edge = _
  congr 1
  · simp [kidLeaves, lvs, List.flatMap_map]
  · cases nd.edge <;> simp [edgeLeaves]

end
end HS.Btree
