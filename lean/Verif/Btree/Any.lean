import Verif.Btree.RangePut

/-! # Any key of an interval -/

namespace HS.Btree

section
variable {K V A : Type} [LinearOrder K]

/-- The interval contains its bounds where it says so. -/
def NonEmpty (r : KeyRange K) : Prop :=
  r.startKey < r.endKey ∨ r.startKey = r.endKey ∧ r.startIncl = true ∧ r.endIncl = true

/-- The options under which the answer of a node is a key of the interval. -/
def Left (r : KeyRange K) : Prop := r.opt = .doNotCare ∨ r.opt = .leftMost

/-- `get_any` on a leaf, for the two options that take the first entry: it finds the first key of the interval;
if it finds none, there is none, except for the last key before an end that is not included. -/
theorem getAny_ok {es : List (K × V)} (hs : Asc es) {r : KeyRange K} (hr : NonEmpty r) (ho : Left r) :
    ∃ o, getAny es r = .ok o ∧
      (∀ i k v, o = some (i, k, v) → es[i]? = some (k, v) ∧ Spec.inRange r k = true ∧
        ∀ x ∈ es, x.1 < k → Below r x.1) ∧
      (o = none → (r.endIncl = true → ∀ x ∈ es, Spec.inRange r x.1 = false) ∧
        (r.startIncl = true → ∀ x ∈ es, x.1 ≠ r.startKey)) := by
  have hse : r.startKey ≤ r.endKey := by
    rcases hr with h | ⟨h, -⟩
    · exact h.le
    · exact h.le
  have hopt : (r.opt == .doNotCare || r.opt == .leftMost) = true := by
    rcases ho with h | h <;> rw [h] <;> rfl
  obtain ⟨sf, s0, hb1, a, b, he, hal, ha, hb⟩ := start_split hs r
  obtain ⟨sf', hb1', hsf⟩ := bsearch_spec hs r.startKey
  rw [hb1] at hb1'
  cases hb1'
  obtain ⟨ef, hb2, hef⟩ := bsearch_spec hs r.endKey
  unfold getAny
  rw [hb1]
  simp only [hopt, Bool.and_true]
  rw [← hal]
  have hlen : es.length = a.length + b.length := by rw [he]; simp
  have hbelow : ∀ x ∈ es, ∀ y, b.head? = some y → x.1 < y.1 → Below r x.1 := by
    intro x hx y hy hlt
    rw [he] at hx
    rcases List.mem_append.mp hx with h | h
    · exact ha x h
    · exfalso
      obtain ⟨b', rfl⟩ : ∃ b', b = y :: b' := by
        cases b with
        | nil => cases hy
        | cons z b' => cases hy; exact ⟨b', rfl⟩
      rw [he] at hs
      rcases List.mem_cons.mp h with rfl | h
      · exact lt_irrefl _ hlt
      · exact absurd ((Asc_cons.mp (Asc_append.mp hs).2.1).1 x h) (not_lt.mpr hlt.le)
  by_cases h1 : (sf && r.startIncl) = true
  · rw [if_pos h1]
    simp only [Bool.and_eq_true] at h1
    obtain ⟨e, he1, he2⟩ := hsf.mp h1.1
    have hal' : a.length = lb es r.startKey := by rw [hal]; simp [h1.2]
    rw [hal', he1]
    refine ⟨_, rfl, ?_, by simp⟩
    rintro i k v ⟨⟩
    refine ⟨he1, ?_, ?_⟩
    · rw [he2, inRange_iff]
      unfold Below Above
      rw [if_pos h1.2]
      refine ⟨lt_irrefl _, ?_⟩
      rcases hr with h | ⟨h, h3, h4⟩
      · split
        · exact not_lt.mpr h.le
        · exact not_le.mpr h
      · rw [if_pos h4, h]; exact lt_irrefl _
    · intro x hx hlt
      unfold Below
      rw [if_pos h1.2, ← he2]
      exact hlt
  · rw [if_neg h1]
    have hnostart : r.startIncl = true → ∀ x ∈ es, x.1 ≠ r.startKey := by
      intro hi x hx hxe
      apply h1
      rw [hi, Bool.and_true, hsf]
      obtain ⟨i, hi1, hi2⟩ := List.mem_iff_getElem.mp hx
      refine ⟨x, ?_, hxe⟩
      have hge : lb es r.startKey ≤ i := by
        by_contra hc
        have := lb_lt es r.startKey (List.getElem?_eq_getElem hi1) (by omega)
        rw [hi2, hxe] at this
        exact lt_irrefl _ this
      rcases Nat.lt_or_ge (lb es r.startKey) i with h | h
      · have h2 : lb es r.startKey < es.length := by omega
        have h3 := List.pairwise_iff_getElem.mp hs _ _ h2 hi1 h
        have h4 := lb_ge hs r.startKey (List.getElem?_eq_getElem h2) le_rfl
        rw [hi2, hxe] at h3
        exact absurd h3 (not_lt.mpr h4)
      · have : lb es r.startKey = i := by omega
        rw [this, List.getElem?_eq_getElem hi1, hi2]
    by_cases h2 : a.length = es.length
    · rw [if_pos h2]
      refine ⟨none, rfl, by simp, fun _ => ⟨fun _ x hx => ?_, hnostart⟩⟩
      have : b = [] := List.eq_nil_of_length_eq_zero (by omega)
      rw [this, List.append_nil] at he
      rw [he] at hx
      exact not_inRange_of_below (ha x hx)
    · rw [if_neg h2, hb2]
      simp only
      have hlt : a.length < es.length := by have : 0 ≤ b.length := by omega
                                            omega
      obtain ⟨y, b', rfl⟩ : ∃ y b', b = y :: b' := by
        cases b with
        | nil => simp at hlen; omega
        | cons y b' => exact ⟨y, b', rfl⟩
      have hy : es[a.length]? = some y := by rw [he]; simp
      have hnb : ¬ Below r y.1 := hb y (by simp)
      have hfirst : ∀ x ∈ es, x.1 < y.1 → Below r x.1 := fun x hx => hbelow x hx y rfl
      by_cases h3 : (ef && !r.endIncl && lb es r.endKey == 0) = true
      · rw [if_pos h3]
        refine ⟨none, rfl, by simp, fun _ => ⟨fun hi => ?_, hnostart⟩⟩
        rw [hi] at h3
        simp at h3
      · rw [if_neg h3]
        have hpick : (match es[a.length]? with
            | none => Except.error Fault.ub
            | some x => Except.ok (some (a.length, x.1, x.2))) = .ok (some (a.length, y.1, y.2)) := by rw [hy]
        have hgood : y.1 < r.endKey ∨ y.1 = r.endKey ∧ r.endIncl = true → 
            ∀ i k v, some (a.length, y.1, y.2) = some (i, k, v) → es[i]? = some (k, v) ∧
              Spec.inRange r k = true ∧ ∀ x ∈ es, x.1 < k → Below r x.1 := by
          rintro hye i k v ⟨⟩
          refine ⟨hy, (inRange_iff _ _).mpr ⟨hnb, ?_⟩, hfirst⟩
          unfold Above
          rcases hye with h | ⟨h, h'⟩
          · split
            · exact not_lt.mpr h.le
            · exact not_le.mpr h
          · rw [if_pos h', h]; exact lt_irrefl _
        by_cases h4 : a.length < (if (ef && !r.endIncl) = true then lb es r.endKey - 1 else lb es r.endKey)
        · rw [if_pos h4]
          have hlt : a.length < lb es r.endKey := by
            split at h4 <;> omega
          have hye : y.1 < r.endKey := lb_lt es r.endKey hy hlt
          have hm : (match r.opt with
              | .rightMost => (match es[(if (ef && !r.endIncl) = true then lb es r.endKey - 1 else lb es r.endKey)]? with
                | none => Except.error Fault.ub
                | some x => Except.ok (some ((if (ef && !r.endIncl) = true then lb es r.endKey - 1 else lb es r.endKey), x.1, x.2)))
              | .mid => (match es[((if (ef && !r.endIncl) = true then lb es r.endKey - 1 else lb es r.endKey) - a.length) / 2]? with
                | none => Except.error Fault.ub
                | some x => Except.ok (some (((if (ef && !r.endIncl) = true then lb es r.endKey - 1 else lb es r.endKey) - a.length) / 2, x.1, x.2)))
              | _ => (match es[a.length]? with
                | none => Except.error Fault.ub
                | some x => Except.ok (some (a.length, x.1, x.2)))) = Except.ok (some (a.length, y.1, y.2)) := by
            rcases ho with h | h <;> rw [h] <;> exact hpick
          refine ⟨some (a.length, y.1, y.2), hm, hgood (Or.inl hye), by simp⟩
        · rw [if_neg h4]
          by_cases h5 : (decide (a.length = if (ef && !r.endIncl) = true then lb es r.endKey - 1 else lb es r.endKey) &&
              (sf && r.startIncl || ef && r.endIncl)) = true
          · have h5' := h5
            simp only [Bool.and_eq_true, Bool.or_eq_true, decide_eq_true_eq] at h5
            have h6 : ef = true ∧ r.endIncl = true := by
              rcases h5.2 with h | h
              · exact absurd (by simpa using h) h1
              · exact h
            have h7 : a.length = lb es r.endKey := by
              have := h5.1
              rw [h6.1, h6.2] at this
              simpa using this
            obtain ⟨e, he1, he2⟩ := hef.mp h6.1
            rw [← h7, hy] at he1
            cases he1
            refine ⟨some (a.length, y.1, y.2), ?_, hgood (Or.inr ⟨he2, h6.2⟩), by simp⟩
            rw [if_pos h5']
            exact hpick
          · refine ⟨none, by rw [if_neg h5], by simp, fun _ => ⟨fun hi x hx => ?_, hnostart⟩⟩
            rw [hi] at h4 h5
            simp only [Bool.not_true, Bool.and_false, Bool.false_eq_true, if_false, Bool.and_true] at h4 h5
            have hge : r.endKey ≤ y.1 := lb_ge hs r.endKey hy (by omega)
            have hgt : r.endKey < y.1 := by
              rcases lt_or_eq_of_le hge with h | h
              · exact h
              · exfalso
                have hlb : lb es r.endKey = a.length := by
                  rcases Nat.lt_or_ge (lb es r.endKey) a.length with h6 | h6
                  · have h7 : lb es r.endKey < es.length := by omega
                    have h8 := List.pairwise_iff_getElem.mp hs _ _ h7 hlt h6
                    have h9 := lb_ge hs r.endKey (List.getElem?_eq_getElem h7) le_rfl
                    have h10 : es[a.length] = y := by
                      have := List.getElem?_eq_getElem hlt
                      rw [hy] at this
                      exact (Option.some.inj this).symm
                    rw [h10, ← h] at h8
                    exact absurd h8 (not_lt.mpr h9)
                  · omega
                have hef1 : ef = true := hef.mpr ⟨y, by rw [hlb]; exact hy, h.symm⟩
                apply h5
                rw [hlb, hef1]
                simp
            rw [he] at hx
            rcases List.mem_append.mp hx with h | h
            · exact not_inRange_of_below (ha x h)
            · apply not_inRange_of_above
              apply Above_of_lt
              rcases List.mem_cons.mp h with rfl | h
              · exact hgt
              · rw [he] at hs
                exact hgt.trans ((Asc_cons.mp (Asc_append.mp hs).2.1).1 x h)

theorem doGetAny_eq (r : KeyRange K) (n : Nat) : ∀ t : Tree K V n,
    doGetAny r n t = match sweepDown r.startKey n t with
      | .error e => .error e
      | .ok nd => (match getAny (V := V) nd.es r with
        | .error e => .error e
        | .ok none => .ok none
        | .ok (some (_, k, v)) => .ok (some (k, v))) := by
  induction n with
  | zero => intro t; rfl
  | succ n ih =>
    intro t
    unfold doGetAny sweepDown
    cases bsearch t.es r.startKey with
    | none => rfl
    | some p =>
      simp only
      cases t.valAt p.2 with
      | none => rfl
      | some ch => exact ih ch

/-- `get` for any key of an interval: what it finds is the first key of the interval with its value. -/
theorem getAnyKey_ok {b : BT K V} (hb : b.Inv) {r : KeyRange K} (hr : NonEmpty r) (ho : Left r) :
    ∃ o, getAnyKey b r = .ok o ∧
      (∀ k v, o = some (k, v) → b.map k = some v ∧ Spec.inRange r k = true ∧
        ∀ k', b.map k' ≠ none → Spec.inRange r k' = true → k ≤ k') ∧
      (o = none → r.startIncl = true → b.map r.startKey = none) := by
  obtain ⟨l1, nd, l2, h1, h2, h3, h4⟩ := sweepDown_ok b.lvl (k := r.startKey) hb.cover (by simp) (by simp)
  replace h2 : b.leaves = l1 ++ nd :: l2 := h2
  have hasc := hb.asc
  have hent : b.entries = cont l1 ++ (nd.es ++ cont l2) := by
    unfold BT.entries; rw [h2, cont_append, cont_cons]
  rw [hent] at hasc
  obtain ⟨a1, a2, a3⟩ := Asc_append.mp hasc
  obtain ⟨a4, a5, a6⟩ := Asc_append.mp a2
  have hmem : ∀ k v, b.map k = some v ↔ (k, v) ∈ b.entries := fun k v => look_mem hb.asc
  obtain ⟨o, g1, g2, g3⟩ := getAny_ok a4 hr ho
  unfold getAnyKey
  rw [doGetAny_eq, h1]
  simp only
  rw [g1]
  cases o with
  | none =>
    refine ⟨none, rfl, by simp, fun _ hi => ?_⟩
    rw [BT.map, look_eq_none]
    intro x hx
    have hx' : x ∈ b.entries := hx
    rw [hent] at hx'
    rcases List.mem_append.mp hx' with h | h
    · exact (h3 x h).ne
    · rcases List.mem_append.mp h with h | h
      · exact (g3 rfl).2 hi x h
      · exact (h4 x h).ne'
  | some p =>
    obtain ⟨i, k, v⟩ := p
    obtain ⟨f1, f2, f3⟩ := g2 i k v rfl
    have hkm : (k, v) ∈ nd.es := List.mem_of_getElem? f1
    refine ⟨some (k, v), rfl, ?_, by simp⟩
    rintro k' v' ⟨⟩
    refine ⟨(hmem k v).mpr (by rw [hent]; simp [hkm]), f2, ?_⟩
    intro k' hk' hin
    obtain ⟨v', hv'⟩ := Option.ne_none_iff_exists'.mp hk'
    have hx := (hmem k' v').mp hv'
    rw [hent] at hx
    by_contra hlt
    have hlt := not_le.mp hlt
    rcases List.mem_append.mp hx with h | h
    · rw [not_inRange_of_below (Below_of_lt (h3 _ h))] at hin
      cases hin
    · rcases List.mem_append.mp h with h | h
      · rw [not_inRange_of_below (f3 _ h hlt)] at hin
        cases hin
      · exact absurd (a6 _ hkm _ h) (not_lt.mpr hlt.le)

/-! ## Remove any key -/

/-- What removing any key must do to a subtree. -/
def RAOk (L : Lvl K V A) (r : KeyRange K) (lo hi : Option K) (t : Node K A) (nid : Nat)
    (res : Node K A × Nat × Option (K × V)) : Prop :=
  L.P res.1 lo hi ∧ Step (L.lv t) (L.lv res.1) nid res.2.1 ∧
    (res.2.2 = none → cont (L.lv res.1) = cont (L.lv t)) ∧
    ∀ x, res.2.2 = some x → (∃ a b, cont (L.lv t) = a ++ x :: b ∧ cont (L.lv res.1) = a ++ b) ∧
      (NonEmpty r → Left r → Spec.inRange r x.1 = true)

theorem getAny_get {es : List (K × V)} {r : KeyRange K} {i : Nat} {k : K} {v : V}
    (h : getAny es r = .ok (some (i, k, v))) : es[i]? = some (k, v) := by
  have pick : ∀ j, (match es[j]? with
      | none => (Except.error Fault.ub : Except Fault (Option (Nat × K × V)))
      | some (x : K × V) => Except.ok (some (j, x.1, x.2))) = .ok (some (i, k, v)) → es[i]? = some (k, v) := by
    intro j hj
    cases hg : es[j]? with
    | none => rw [hg] at hj; cases hj
    | some x => rw [hg] at hj; cases hj; exact hg
  unfold getAny at h
  cases hb : bsearch es r.startKey with
  | none => rw [hb] at h; cases h
  | some p =>
    rw [hb] at h
    simp only at h
    rcases ite_cases h with ⟨-, h⟩ | ⟨-, h⟩
    · exact pick _ h
    · rcases ite_cases h with ⟨-, h⟩ | ⟨-, h⟩
      · cases h
      · cases hb2 : bsearch es r.endKey with
        | none => rw [hb2] at h; cases h
        | some q =>
          rw [hb2] at h
          simp only at h
          rcases ite_cases h with ⟨-, h⟩ | ⟨-, h⟩
          · cases h
          · rcases ite_cases h with ⟨-, h⟩ | ⟨-, h⟩
            · cases ho : r.opt <;> rw [ho] at h <;> exact pick _ h
            · rcases ite_cases h with ⟨-, h⟩ | ⟨-, h⟩
              · exact pick _ h
              · cases h

theorem leafRemoveAny_ok {r : KeyRange K} {lo hi : Option K} {t : Node K V} {nid : Nat}
    {res : Node K V × Nat × Option (K × V)} (hP : leafLvl.P t lo hi)
    (h : (do
      let (es, out) ← leafRemoveAny t.es r
      return ({ t with es := es }, nid, out)) = (.ok res : Except Fault _)) : RAOk leafLvl r lo hi t nid res := by
  obtain ⟨⟨es, out⟩, h1, h2⟩ := bind_ok h
  cases h2
  obtain ⟨q1, q2, q3⟩ : t.edge = none ∧ Asc t.es ∧ ∀ x ∈ t.es, ltLo lo x.1 ∧ leHi x.1 hi := hP
  have hc' : ∀ u : Node K V, cont (leafLvl.lv u) = u.es := fun u => by show cont [u] = _; simp
  have hstep : ∀ es', Step [t] [{ t with es := es' }] nid nid := fun es' =>
    ⟨le_rfl, fun nx => rfl, fun nx h => h, fun i hi => Or.inl hi, fun h _ => h⟩
  unfold leafRemoveAny at h1
  cases hg : getAny (V := V) t.es r with
  | error e => rw [hg] at h1; cases h1
  | ok o =>
    rw [hg] at h1
    cases o with
    | none =>
      cases h1
      exact ⟨⟨q1, q2, q3⟩, hstep _, fun _ => rfl, by simp⟩
    | some p =>
      obtain ⟨i, k, v⟩ := p
      cases h1
      have hi := getAny_get hg
      obtain ⟨a, z, e1, e2⟩ := split_at hi
      have her : t.es.eraseIdx i = a ++ z := by
        rw [e1, ← e2]; simp [List.eraseIdx_append_of_length_le]
      have hsub : (t.es.eraseIdx i).Sublist t.es := List.eraseIdx_sublist _ _
      refine ⟨⟨q1, q2.sublist hsub, fun x hx => q3 x (hsub.mem hx)⟩, hstep _, by simp, ?_⟩
      rintro x ⟨⟩
      refine ⟨⟨a, z, ?_, ?_⟩, ?_⟩
      · show cont [t] = _
        simpa using e1
      · show cont [{ t with es := t.es.eraseIdx i }] = _
        simpa using her
      · intro hne hle
        obtain ⟨o, g1, g2, -⟩ := getAny_ok (V := V) q2 hne hle
        rw [hg] at g1
        cases g1
        exact (g2 i k v rfl).2.1

theorem doRemoveAny_ok {c : Cfg K V} (hc : c.Good) {r : KeyRange K} {fu : Nat} (n : Nat) :
    ∀ {lo hi : Option K} {t : Tree K V n} {nid : Nat} {res}, (levels K V n).P t lo hi →
      doRemoveAny c r fu n t nid = .ok res → RAOk (levels K V n) r lo hi t nid res := by
  induction n with
  | zero =>
    intro lo hi t nid res hP h
    unfold doRemoveAny at h
    exact leafRemoveAny_ok (V := V) hP h
  | succ n ih =>
    intro lo hi t nid res hP h
    unfold doRemoveAny at h
    have loop : ∀ (f : Nat) {t : Tree K V (n + 1)} {nid : Nat}, (levels K V (n + 1)).P t lo hi →
        raLoop c r n (doRemoveAny c r fu n) f t nid = .ok res → RAOk (levels K V (n + 1)) r lo hi t nid res := by
      intro f
      induction f with
      | zero => intro t nid _ h; cases h
      | succ f ihf =>
        intro t nid hP h
        unfold raLoop at h
        cases hm : matchRange false t r with
        | none => rw [hm] at h; cases h
        | some p =>
          obtain ⟨ok, s, e⟩ := p
          rw [hm] at h
          cases ok with
          | false =>
            cases h
            exact ⟨hP, Step.refl _ le_rfl, fun _ => rfl, by simp⟩
          | true =>
            simp only at h
            cases hv : t.valAt ((e - s) / 2) with
            | none => simp only [hv] at h; cases h
            | some ch =>
              simp only [hv] at h
              obtain ⟨⟨m, nid1⟩, h1, h2⟩ := bind_ok h
              obtain ⟨g1, g2⟩ := tryMerge_ok hc hP h1
              cases m with
              | some t' =>
                obtain ⟨g3, g4, g5⟩ := g2 t' rfl
                obtain ⟨k1, k2, k3, k4⟩ := ihf g3 h2
                rw [g5] at k3 k4
                exact ⟨k1, g4.trans k2, k3, k4⟩
              | none =>
                simp only at h2
                obtain ⟨⟨ch', nid2, out⟩, h3, h4⟩ := bind_ok h2
                cases h4
                obtain ⟨a, q, z, m0, hk, ha, hq, u1, u3, u2⟩ := kid_parts (L := levels K V n) hP hv
                obtain ⟨c1, c2, c3, c4⟩ := ih u2.head h3
                have hl : (levels K V (n + 1)).lv t =
                    lvs (levels K V n) a ++ ((levels K V n).lv ch ++ lvs (levels K V n) z) := lv_split hk
                obtain ⟨hP', hl'⟩ := set_kid (L := levels K V n) hk ha u1 u3 u2 c1
                replace hl' : (levels K V (n + 1)).lv (t.setVal ((e - s) / 2) ch') =
                    lvs (levels K V n) a ++ ((levels K V n).lv ch' ++ lvs (levels K V n) z) := hl'
                simp only at c2 c3 c4
                refine ⟨hP', ?_, ?_, ?_⟩
                · simp only
                  rw [hl, hl']
                  have := ((Step.refl _ g1).trans c2).ctx (lvs (levels K V n) a) (lvs (levels K V n) z)
                  simpa [List.append_assoc] using this
                · intro ho
                  simp only
                  rw [hl, hl']
                  simp only [cont_append]
                  rw [c3 ho]
                · intro x hx
                  obtain ⟨⟨p1, p2, p3, p4⟩, p5⟩ := c4 x hx
                  refine ⟨⟨cont (lvs (levels K V n) a) ++ p1, p2 ++ cont (lvs (levels K V n) z), ?_, ?_⟩, p5⟩
                  · rw [hl]
                    simp only [cont_append]
                    rw [p3]; simp
                  · simp only
                    rw [hl']
                    simp only [cont_append]
                    rw [p4]; simp
    exact loop fu hP h

/-- `remove` for any key of an interval: it removes what it returns, and nothing else. -/
theorem removeAny_ok {c : Cfg K V} (hc : c.Good) {r : KeyRange K} (f : Nat) :
    ∀ {b b' : BT K V} {o : Option (K × V)}, b.Inv → removeAny c r f b = .ok (b', o) →
      b'.Inv ∧ (o = none → b'.map = b.map) ∧
      ∀ k v, o = some (k, v) → b.map k = some v ∧ b'.map = Spec.del b.map k ∧
        (NonEmpty r → Left r → Spec.inRange r k = true) := by
  induction f with
  | zero => intro b b' o _ h; cases h
  | succ f ih =>
    intro b b' o hb h
    unfold removeAny at h
    obtain ⟨x, h1, h2⟩ := bind_ok h
    obtain ⟨g1, g2⟩ := collapse_ok hb h1
    cases x with
    | none =>
      simp only at h2
      obtain ⟨⟨t, nid, out⟩, h3, h4⟩ := bind_ok h2
      cases h4
      obtain ⟨h5, h6, h7, h8⟩ := doRemoveAny_ok hc (n := b.lvl) hb.cover h3
      refine ⟨hb.step h5 h6, fun ho => ?_, fun k v ho => ?_⟩
      · show look (cont ((levels K V b.lvl).lv t)) = _
        have := h7 ho
        simp only at this
        rw [this]
        rfl
      · obtain ⟨⟨p, q, e1, e2⟩, e3⟩ := h8 (k, v) ho
        have hasc : Asc (cont ((levels K V b.lvl).lv b.root)) := (levels K V b.lvl).cont_asc hb.cover
        rw [e1] at hasc
        have ha : ∀ y ∈ p, y.1 < k := fun y hy => (Asc_append.mp hasc).2.2 y hy (k, v) (by simp)
        have hq : ∀ y ∈ q, k < y.1 := fun y hy => (Asc_cons.mp (Asc_append.mp hasc).2.1).1 y hy
        have hb' : b.map = look (p ++ (k, v) :: q) := by
          show look (cont ((levels K V b.lvl).lv b.root)) = _
          rw [e1]
        refine ⟨?_, ?_, e3⟩
        · rw [hb', look_mid ha, if_pos rfl]
        · show look (cont ((levels K V b.lvl).lv t)) = _
          simp only at e2
          rw [e2, hb']
          funext x
          unfold Spec.del
          by_cases hx : x = k
          · rw [if_pos hx, hx, look_gap ha hq]
          · rw [if_neg hx, look_mid ha, if_neg hx]
    | some x =>
      cases x with
      | none => cases h2; exact ⟨hb, fun _ => rfl, by simp⟩
      | some b1 =>
        obtain ⟨g3, g4⟩ := g2 b1 rfl
        rw [← g4]
        exact ih g3 h2

end
end HS.Btree
