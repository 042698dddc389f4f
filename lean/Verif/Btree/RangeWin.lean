import Verif.Btree.RangeOps

/-!
# The children that a range operation visits

`match_range` on an interior node, and how the working range moves from child to child.
-/

namespace HS.Btree

section
variable {K V A : Type} [LinearOrder K]

/-- The interval is not empty for lack of room between its bounds. -/
def Proper (r : KeyRange K) : Prop := r.startKey < r.endKey ∨ r.startKey = r.endKey ∧ r.startIncl = true

/-- The interval after the key `h`. -/
def after (r : KeyRange K) (h : K) : KeyRange K := { r with startKey := h, startIncl := false }

theorem Proper.after {r : KeyRange K} {h : K} (hh : h < r.endKey) : Proper (after r h) := Or.inl hh

theorem Proper.below {r : KeyRange K} (hp : Proper r) {k : K} (h : Below r k) : k < r.endKey := by
  unfold Below at h
  rcases hp with hp | ⟨hp, hi⟩
  · split at h
    · exact h.trans hp
    · exact lt_of_le_of_lt h hp
  · rw [if_pos hi] at h
    rw [← hp]
    exact h

theorem below_after (r : KeyRange K) (h k : K) : Below (after r h) k ↔ k ≤ h := by simp [Below, after]

theorem inRange_after_le {r : KeyRange K} {h k : K} (hk : k ≤ h) : Spec.inRange (after r h) k = false :=
  not_inRange_of_below ((below_after r h k).mpr hk)

theorem inRange_after_gt {r : KeyRange K} {h k : K} (hh : ¬ Below r h) (hk : h < k) :
    Spec.inRange (after r h) k = Spec.inRange r k := by
  rw [Bool.eq_iff_iff, inRange_iff, inRange_iff]
  have h1 : ¬ Below (after r h) k := by rw [below_after]; exact not_le.mpr hk
  have h2 : ¬ Below r k := fun hc => hh (hc.mono hk.le)
  have h3 : Above (after r h) k ↔ Above r k := Iff.rfl
  simp [h1, h2, h3]

/-- The children from `cur` to `e` are those that the interval can meet: the keys before are before the
interval, the keys up to `e` are before its end, and the key at `e` is not, if there is a child after it. -/
structure Win (r : KeyRange K) (ks : List (Option K)) (cur e : Nat) : Prop where
  lt : e < ks.length
  le : cur ≤ e
  pre : ∀ i q, ks[i]? = some q → i < cur → ∃ k, q = some k ∧ Below r k
  post : ∀ i k, ks[i]? = some (some k) → cur ≤ i → ¬ Below r k
  inner : ∀ i q, ks[i]? = some q → i < e → ∃ k, q = some k ∧ k < r.endKey
  last : ∀ q, ks[e]? = some q → e + 1 < ks.length → ∃ k, q = some k ∧ r.endKey ≤ k

omit [LinearOrder K] in
theorem keys_lt (t : Node K A) {i : Nat} (h : i < t.es.length) :
    (t.kids.map (·.1))[i]? = some (some t.es[i].1) := by
  rw [List.getElem?_map, kids_lt t h]; rfl

omit [LinearOrder K] in
theorem keys_edge (t : Node K A) {c : A} (h : t.edge = some c) :
    (t.kids.map (·.1))[t.es.length]? = some none := by
  rw [List.getElem?_map, kids_edge t h]; rfl

theorem keys_asc {t : Node K A} (hs : Asc t.es) {i j : Nat} {a b : K} (hij : i < j)
    (h1 : (t.kids.map (·.1))[i]? = some (some a)) (h2 : (t.kids.map (·.1))[j]? = some (some b)) : a < b := by
  rw [List.getElem?_map] at h1 h2
  cases hk1 : t.kids[i]? with
  | none => rw [hk1] at h1; cases h1
  | some y1 =>
    cases hk2 : t.kids[j]? with
    | none => rw [hk2] at h2; cases h2
    | some y2 =>
      have g1 := kids_key t hk1
      have g2 := kids_key t hk2
      rw [hk1] at h1
      rw [hk2] at h2
      simp only [Option.map_some, Option.some.injEq] at h1 h2
      rw [h1] at g1
      rw [h2] at g2
      simp at g1 g2
      have l1 : i < t.es.length := by omega
      have l2 : j < t.es.length := by omega
      rw [kids_lt t l1] at hk1
      rw [kids_lt t l2] at hk2
      cases hk1
      cases hk2
      simp at h1 h2
      rw [← h1, ← h2]
      exact List.pairwise_iff_getElem.mp hs i j l1 l2 hij

/-- `match_range` on an interior node finds the window, unless the interval is past the node's last key. -/
theorem match_win {L : Lvl K V A} {t : Node K (Node K A)} {lo hi : Option K} {r : KeyRange K}
    (h : (intLvl L).P t lo hi) (hp : Proper r) (hhi : ∀ x, hi = some x → ¬ Below r x) :
    ∃ s e, matchRange false t r = some (true, s, e) ∧ Win r (t.kids.map (·.1)) s e := by
  have hasc : Asc t.es := (intLvl L).asc h
  obtain ⟨hne, hu⟩ := Kids_iff.mp (show Kids L.P lo t.es t.edge hi from h)
  obtain ⟨sf, s0, hb1, a, b, he, hal, ha, hb⟩ := start_split hasc r
  obtain ⟨ef, hb2, hef⟩ := bsearch_spec hasc r.endKey
  have hlb := lb_le t.es r.endKey
  have hlen := kids_length t
  have halen : a.length ≤ t.es.length := by rw [he]; simp
  have hpre : ∀ i q, (t.kids.map (·.1))[i]? = some q → i < a.length → ∃ k, q = some k ∧ Below r k := by
    intro i q hq hi
    rw [keys_lt t (by omega)] at hq
    cases hq
    refine ⟨_, rfl, ha _ ?_⟩
    have : t.es[i]'(by omega) = a[i] := by
      simp only [he]
      rw [List.getElem_append_left hi]
    rw [this]
    exact List.getElem_mem hi
  have hpost : ∀ i k, (t.kids.map (·.1))[i]? = some (some k) → a.length ≤ i → ¬ Below r k := by
    intro i k hq hi
    rw [List.getElem?_map] at hq
    cases hk1 : t.kids[i]? with
    | none => rw [hk1] at hq; cases hq
    | some y1 =>
      have g1 := kids_key t hk1
      rw [hk1] at hq
      simp only [Option.map_some, Option.some.injEq] at hq
      rw [hq] at g1
      simp at g1
      have l1 : i < t.es.length := by omega
      rw [kids_lt t l1] at hk1
      cases hk1
      simp at hq
      rw [← hq]
      apply hb
      have hget : t.es[i] = b[i - a.length]'(by rw [he] at l1; simp at l1; omega) := by
        simp only [he]
        rw [List.getElem_append_right hi]
      rw [hget]
      exact List.getElem_mem _
  unfold matchRange
  rw [hb1]
  simp only [Option.bind_eq_bind, Option.bind_some, Bool.not_false, Bool.true_and, Bool.false_or]
  rw [← hal]
  by_cases hsl : a.length = t.es.length
  · rw [if_pos hsl]
    cases hed : t.edge with
    | none =>
      exfalso
      have hes : t.es ≠ [] := by
        intro hc; apply hne; simp [Node.kids, hc, hed]
      have hk : t.kids = (t.es.map (fun x => (some x.1, x.2))).dropLast ++
          [(some (t.es.getLast hes).1, (t.es.getLast hes).2)] := by
        have hk0 : t.kids = t.es.map (fun x => (some x.1, x.2)) := by simp [Node.kids, hed]
        rw [hk0]
        have hne' : t.es.map (fun x => ((some x.1 : Option K), x.2)) ≠ [] := by simpa using hes
        conv_lhs => rw [← List.dropLast_append_getLast hne']
        rw [List.getLast_map]
      rw [hk] at hu
      have := hu.last
      apply hhi _ this
      apply ha
      have hb0 : b = [] := by
        have := congrArg List.length he
        rw [List.length_append] at this
        exact List.eq_nil_of_length_eq_zero (by omega)
      rw [hb0, List.append_nil] at he
      have hm := List.getLast_mem hes
      rw [← he]
      exact hm
    | some c =>
      refine ⟨_, _, rfl, ?_⟩
      rw [hed] at hlen
      simp only [Option.isSome_some, if_true] at hlen
      refine ⟨by rw [List.length_map]; omega, le_rfl, hpre, hpost, ?_, ?_⟩
      · intro i q hq hi
        obtain ⟨k, h1, h2⟩ := hpre i q hq hi
        exact ⟨k, h1, hp.below h2⟩
      · intro q _ hlt
        rw [List.length_map] at hlt
        omega
  · rw [if_neg hsl, hb2]
    have hslt : a.length < t.es.length := by omega
    simp only [Option.bind_some]
    have hin : ∀ i q, (t.kids.map (·.1))[i]? = some q → i < lb t.es r.endKey → ∃ k, q = some k ∧ k < r.endKey := by
      intro i q hq hi
      rw [keys_lt t (by omega)] at hq
      cases hq
      exact ⟨_, rfl, lb_lt t.es r.endKey (List.getElem?_eq_getElem (by omega)) hi⟩
    have hse : a.length ≤ lb t.es r.endKey := by
      by_contra hc
      have hl : lb t.es r.endKey < t.es.length := by omega
      obtain ⟨k, h1, h2⟩ := hpre (lb t.es r.endKey) _ (keys_lt t hl) (by omega)
      cases h1
      exact absurd (hp.below h2) (not_lt.mpr (lb_ge hasc r.endKey (List.getElem?_eq_getElem hl) le_rfl))
    by_cases hcase : lb t.es r.endKey = t.es.length ∧ t.edge.isSome = false
    · rw [if_pos (by simp [hcase.1, hcase.2])]
      have heff : ef = false := by
        rw [Bool.eq_false_iff]
        intro hc
        obtain ⟨x, hx, -⟩ := hef.mp hc
        have := (List.getElem?_eq_some_iff.mp hx).1
        omega
      rw [heff]
      simp only [Bool.not_false, Bool.true_or, if_true]
      rw [if_neg (by omega), if_neg (by omega)]
      refine ⟨_, _, rfl, ?_⟩
      rw [hcase.2] at hlen
      simp only [Bool.false_eq_true, if_false] at hlen
      refine ⟨by rw [List.length_map]; omega, by omega, hpre, hpost, ?_, ?_⟩
      · intro i q hq hi
        exact hin i q hq (by omega)
      · intro q _ hlt
        rw [List.length_map] at hlt
        omega
    · rw [if_neg (by
        intro hc
        simp only [Bool.and_eq_true, decide_eq_true_eq, Bool.not_eq_true'] at hc
        exact hcase hc)]
      refine ⟨_, _, rfl, ?_⟩
      have hl : lb t.es r.endKey < t.kids.length := by
        rw [hlen]
        by_cases hs : t.edge.isSome = true
        · rw [if_pos hs]; omega
        · rw [if_neg hs]
          have : lb t.es r.endKey ≠ t.es.length := fun hc => hcase ⟨hc, by simpa using hs⟩
          omega
      refine ⟨by rw [List.length_map]; exact hl, hse, hpre, hpost, hin, ?_⟩
      intro q hq hlt
      rw [List.length_map] at hlt
      have hl2 : lb t.es r.endKey < t.es.length := by
        rw [hlen] at hlt
        split at hlt <;> omega
      rw [keys_lt t hl2] at hq
      cases hq
      exact ⟨_, rfl, lb_ge hasc r.endKey (List.getElem?_eq_getElem hl2) le_rfl⟩

/-- After the child at `cur` the window is one shorter. -/
theorem Win.step {t : Node K A} {r : KeyRange K} {cur e : Nat} {h : K} (hs : Asc t.es)
    (hw : Win r (t.kids.map (·.1)) cur e) (hlt : cur < e) (hk : (t.kids.map (·.1))[cur]? = some (some h)) :
    Win (after r h) (t.kids.map (·.1)) (cur + 1) e := by
  refine ⟨hw.lt, hlt, ?_, ?_, hw.inner, hw.last⟩
  · intro i q hq hi
    obtain ⟨k, rfl, -⟩ := hw.inner i q hq (by omega)
    refine ⟨k, rfl, (below_after r h k).mpr ?_⟩
    rcases Nat.lt_or_ge i cur with hi' | hi'
    · exact (keys_asc hs hi' hq hk).le
    · obtain rfl : i = cur := by omega
      rw [hk] at hq
      cases hq
      exact le_rfl
  · intro i k hq hi hb
    exact absurd ((below_after r h k).mp hb) (not_le.mpr (keys_asc hs (by omega) hk hq))

omit [LinearOrder K] in
theorem keys_setVal (t : Node K A) {i : Nat} {ch : A} {a z : List (Option K × A)} {q : Option K} {c : A}
    (hk : t.kids = a ++ (q, c) :: z) (ha : a.length = i) :
    (t.setVal i ch).kids.map (·.1) = t.kids.map (·.1) := by
  rw [kids_setVal t (by rw [hk]; simp; omega), hk, ← ha, modify_at]
  simp

omit [LinearOrder K] in
theorem keyAt_kids (t : Node K A) {i : Nat} {a z : List (Option K × A)} {q : Option K} {c : A}
    (hk : t.kids = a ++ (q, c) :: z) (ha : a.length = i) : t.keyAt i = q := by
  have h1 : t.kids[i]? = some (q, c) := by rw [hk, ← ha]; simp
  have h2 := kids_key t h1
  unfold Node.keyAt
  by_cases hi : i < t.es.length
  · rw [kids_lt t hi] at h1
    cases h1
    rw [List.getElem?_eq_getElem hi]
    rfl
  · rw [List.getElem?_eq_none (by omega)]
    have : i = t.es.length := by omega
    simpa using (h2.1.mpr this).symm

/-! ## The effect of a range operation on a list of entries -/

/-- Apply `g` to the entries whose key `p` holds of. -/
def eff (p : K → Bool) (g : K × V → Option (K × V)) (l : List (K × V)) : List (K × V) :=
  l.filterMap (fun x => if p x.1 then g x else some x)

omit [LinearOrder K] in
@[simp] theorem eff_append (p : K → Bool) (g : K × V → Option (K × V)) (a b : List (K × V)) :
    eff p g (a ++ b) = eff p g a ++ eff p g b := by simp [eff]

omit [LinearOrder K] in
theorem eff_none {p : K → Bool} {g : K × V → Option (K × V)} {l : List (K × V)}
    (h : ∀ x ∈ l, p x.1 = false) : eff p g l = l := by
  unfold eff
  induction l with
  | nil => rfl
  | cons x r ih =>
    have := h x (by simp)
    rw [List.filterMap_cons, this]
    simp only [Bool.false_eq_true, if_false]
    rw [ih (fun y hy => h y (by simp [hy]))]

omit [LinearOrder K] in
theorem eff_congr {p p' : K → Bool} {g : K × V → Option (K × V)} {l : List (K × V)}
    (h : ∀ x ∈ l, p x.1 = p' x.1) : eff p g l = eff p' g l := by
  unfold eff
  apply List.filterMap_congr
  intro x hx
  rw [h x hx]

omit [LinearOrder K] in
theorem eff_key {p : K → Bool} {g : K × V → Option (K × V)} (hg : ∀ x y, g x = some y → y.1 = x.1)
    {l : List (K × V)} {y : K × V} (h : y ∈ eff p g l) : ∃ x ∈ l, x.1 = y.1 := by
  unfold eff at h
  rw [List.mem_filterMap] at h
  obtain ⟨x, hx, h1⟩ := h
  refine ⟨x, hx, ?_⟩
  split at h1
  · exact (hg x y h1).symm
  · cases h1; rfl

omit [LinearOrder K] in
/-- One effect after another on other keys. -/
theorem eff_eff {p1 p2 p : K → Bool} {g : K × V → Option (K × V)} (hg : ∀ x y, g x = some y → y.1 = x.1)
    {l : List (K × V)} (h : ∀ x ∈ l, p x.1 = (p1 x.1 || p2 x.1) ∧ ¬ (p1 x.1 = true ∧ p2 x.1 = true)) :
    eff p2 g (eff p1 g l) = eff p g l := by
  unfold eff
  rw [List.filterMap_filterMap]
  apply List.filterMap_congr
  intro x hx
  obtain ⟨h1, h2⟩ := h x hx
  rw [h1]
  cases hp1 : p1 x.1 with
  | true =>
    have hp2 : p2 x.1 = false := by
      rw [Bool.eq_false_iff]; intro hc; exact h2 ⟨hp1, hc⟩
    simp only [if_true, Bool.true_or]
    cases hgx : g x with
    | none => rfl
    | some y =>
      simp only [Option.bind_some]
      rw [hg x y hgx, hp2]
      simp
  | false => simp

end
end HS.Btree
