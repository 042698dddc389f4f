import Verif.Btree.Remove

/-!
# The operations of a leaf on an interval of keys

`match_range`, `multi_get`, `multi_remove` and `multi_put`.
-/

namespace HS.Btree

section
variable {K V A : Type} [LinearOrder K]

/-- The key is before the interval. -/
def Below (r : KeyRange K) (k : K) : Prop := if r.startIncl then k < r.startKey else k ≤ r.startKey

/-- The key is after the interval. -/
def Above (r : KeyRange K) (k : K) : Prop := if r.endIncl then r.endKey < k else r.endKey ≤ k

theorem inRange_iff (r : KeyRange K) (k : K) : Spec.inRange r k = true ↔ ¬ Below r k ∧ ¬ Above r k := by
  unfold Spec.inRange Below Above
  cases r.startIncl <;> cases r.endIncl <;> simp

theorem Below.mono {r : KeyRange K} {a b : K} (h : Below r b) (hab : a ≤ b) : Below r a := by
  unfold Below at *
  split at h <;> simp_all
  · exact lt_of_le_of_lt hab h
  · exact le_trans hab h

theorem Above.mono {r : KeyRange K} {a b : K} (h : Above r a) (hab : a ≤ b) : Above r b := by
  unfold Above at *
  split at h <;> simp_all
  · exact lt_of_lt_of_le h hab
  · exact le_trans h hab

instance (r : KeyRange K) (k : K) : Decidable (Below r k) := by unfold Below; infer_instance
instance (r : KeyRange K) (k : K) : Decidable (Above r k) := by unfold Above; infer_instance

/-- Index of the first entry that is not before the interval. -/
theorem start_split {es : List (K × A)} (hs : Asc es) (r : KeyRange K) :
    ∃ sf s0, bsearch es r.startKey = some (sf, s0) ∧
      ∃ a b, es = a ++ b ∧ a.length = (if sf && !r.startIncl then s0 + 1 else s0) ∧
        (∀ x ∈ a, Below r x.1) ∧ ∀ x ∈ b, ¬ Below r x.1 := by
  rcases bsearch_split hs r.startKey with ⟨a, w, b, he, hb, ha, hbb⟩ | ⟨a, b, he, hb, ha, hbb⟩
  · refine ⟨_, _, hb, ?_⟩
    unfold Below
    cases hi : r.startIncl with
    | true =>
      refine ⟨a, (r.startKey, w) :: b, he, by simp, by simpa using ha, ?_⟩
      intro x hx
      rcases List.mem_cons.mp hx with rfl | hx
      · simp
      · simpa using (hbb x hx).le
    | false =>
      refine ⟨a ++ [(r.startKey, w)], b, by simp [he], by simp, ?_, ?_⟩
      · intro x hx
        rcases List.mem_append.mp hx with hx | hx
        · simpa using (ha x hx).le
        · simp at hx; simp [hx]
      · intro x hx; simpa using hbb x hx
  · refine ⟨_, _, hb, a, b, he, by simp, ?_, ?_⟩
    · intro x hx
      unfold Below
      split
      · exact ha x hx
      · exact (ha x hx).le
    · intro x hx
      unfold Below
      split
      · exact not_lt.mpr (hbb x hx).le
      · exact not_le.mpr (hbb x hx)

/-- Number of entries that are not after the interval. -/
theorem end_split {es : List (K × A)} (hs : Asc es) (r : KeyRange K) :
    ∃ ef e0, bsearch es r.endKey = some (ef, e0) ∧
      ∃ a b, es = a ++ b ∧ a.length = (if !ef || !r.endIncl then e0 else e0 + 1) ∧
        (∀ x ∈ a, ¬ Above r x.1) ∧ ∀ x ∈ b, Above r x.1 := by
  rcases bsearch_split hs r.endKey with ⟨a, w, b, he, hb, ha, hbb⟩ | ⟨a, b, he, hb, ha, hbb⟩
  · refine ⟨_, _, hb, ?_⟩
    unfold Above
    cases hi : r.endIncl with
    | false =>
      refine ⟨a, (r.endKey, w) :: b, he, by simp, by simpa using ha, ?_⟩
      intro x hx
      rcases List.mem_cons.mp hx with rfl | hx
      · simp
      · simpa using (hbb x hx).le
    | true =>
      refine ⟨a ++ [(r.endKey, w)], b, by simp [he], by simp, ?_, ?_⟩
      · intro x hx
        rcases List.mem_append.mp hx with hx | hx
        · simpa using (ha x hx).le
        · simp at hx; simp [hx]
      · intro x hx; simpa using hbb x hx
  · refine ⟨_, _, hb, a, b, he, by simp, ?_, ?_⟩
    · intro x hx
      unfold Above
      split
      · exact not_lt.mpr (ha x hx).le
      · exact not_le.mpr (ha x hx)
    · intro x hx
      unfold Above
      split
      · exact hbb x hx
      · exact (hbb x hx).le

/-- `match_range` on a leaf finds exactly the entries of the interval. -/
theorem matchRange_spec {nd : Node K A} (hs : Asc nd.es) (r : KeyRange K) :
    ∃ ok s e, matchRange true nd r = some (ok, s, e) ∧
      ((ok = false ∧ ∀ x ∈ nd.es, Spec.inRange r x.1 = false) ∨
       (ok = true ∧ ∃ a m b, nd.es = a ++ m ++ b ∧ a.length = s ∧ s ≤ e ∧ m.length = e - s + 1 ∧
          (∀ x ∈ a, Below r x.1) ∧ (∀ x ∈ m, Spec.inRange r x.1 = true) ∧ ∀ x ∈ b, Above r x.1)) := by
  obtain ⟨sf, s0, h1, a, b, he, hal, ha, hb⟩ := start_split hs r
  obtain ⟨ef, e0, h2, a', b', he', hal', ha', hb'⟩ := end_split hs r
  unfold matchRange
  rw [h1]
  simp only [Option.bind_eq_bind, Option.bind_some]
  rw [← hal]
  have none_if : a'.length ≤ a.length → ∀ x ∈ nd.es, Spec.inRange r x.1 = false := by
    intro hle x hx
    rw [Bool.eq_false_iff]
    intro hc
    obtain ⟨c1, c2⟩ := (inRange_iff r x.1).mp hc
    rw [he] at hx
    rcases List.mem_append.mp hx with hx | hx
    · exact c1 (ha x hx)
    · have : x ∈ b' := by
        have h3 : b' = nd.es.drop a'.length := by rw [he']; simp
        have h4 : b = nd.es.drop a.length := by rw [he]; simp
        rw [h3]
        rw [h4] at hx
        have : nd.es.drop a.length = (nd.es.drop a'.length).drop (a.length - a'.length) := by
          rw [List.drop_drop]; congr 1; omega
        rw [this] at hx
        exact List.mem_of_mem_drop hx
      exact c2 (hb' x this)
  have some_if : a.length < a'.length → ∃ m b, nd.es = a ++ m ++ b ∧ m.length = a'.length - 1 - a.length + 1 ∧
          (∀ x ∈ m, Spec.inRange r x.1 = true) ∧ ∀ x ∈ b, Above r x.1 := by
    intro hlt
    have h5 : a ++ b = a' ++ b' := by rw [← he, ← he']
    obtain ⟨m, hm⟩ : ∃ m, a' = a ++ m := by
      have h6 : a = a'.take a.length := by
        have := congrArg (List.take a.length) h5
        simpa [List.take_append_of_le_length hlt.le] using this
      exact ⟨a'.drop a.length, by
        conv_lhs => rw [← List.take_append_drop a.length a']
        rw [← h6]⟩
    refine ⟨m, b', by rw [he', hm], by rw [hm]; simp at hlt ⊢; rw [hm] at hlt; simp at hlt; omega, ?_, hb'⟩
    intro x hx
    rw [inRange_iff]
    have h7 : b = m ++ b' := by
      rw [hm, List.append_assoc] at h5
      exact List.append_cancel_left h5
    exact ⟨hb x (by rw [h7]; exact List.mem_append_left _ hx), ha' x (by rw [hm]; exact List.mem_append_right _ hx)⟩
  have hlen : nd.es.length = a.length + b.length := by rw [he]; simp
  have hlen' : nd.es.length = a'.length + b'.length := by rw [he']; simp
  by_cases hend : a.length = nd.es.length
  · rw [if_pos hend]
    exact ⟨_, _, _, rfl, Or.inl ⟨rfl, none_if (by omega)⟩⟩
  · rw [if_neg hend, h2]
    simp only [Option.bind_some, Bool.true_or, if_true]
    by_cases hc : (!ef || !r.endIncl) = true
    · rw [if_pos hc]
      rw [if_pos hc] at hal'
      by_cases h0 : e0 = 0
      · rw [if_pos h0]
        exact ⟨_, _, _, rfl, Or.inl ⟨rfl, none_if (by omega)⟩⟩
      · rw [if_neg h0]
        by_cases hgt : a.length > e0 - 1
        · rw [if_pos hgt]
          exact ⟨_, _, _, rfl, Or.inl ⟨rfl, none_if (by omega)⟩⟩
        · rw [if_neg hgt]
          obtain ⟨m, b2, h8, h9, h10, h11⟩ := some_if (by omega)
          exact ⟨_, _, _, rfl, Or.inr ⟨rfl, a, m, b2, h8, rfl, by omega, by omega, ha, h10, h11⟩⟩
    · rw [if_neg hc]
      rw [if_neg hc] at hal'
      by_cases hgt : a.length > e0
      · rw [if_pos hgt]
        exact ⟨_, _, _, rfl, Or.inl ⟨rfl, none_if (by omega)⟩⟩
      · rw [if_neg hgt]
        obtain ⟨m, b2, h8, h9, h10, h11⟩ := some_if (by omega)
        exact ⟨_, _, _, rfl, Or.inr ⟨rfl, a, m, b2, h8, rfl, by omega, by omega, ha, h10, h11⟩⟩

/-- The entries of a list whose key lies in the interval. -/
def hits (r : KeyRange K) (es : List (K × A)) : List (K × A) := es.filter (fun x => Spec.inRange r x.1)

theorem not_inRange_of_below {r : KeyRange K} {k : K} (h : Below r k) : Spec.inRange r k = false := by
  rw [Bool.eq_false_iff]; intro hc; exact ((inRange_iff r k).mp hc).1 h

theorem not_inRange_of_above {r : KeyRange K} {k : K} (h : Above r k) : Spec.inRange r k = false := by
  rw [Bool.eq_false_iff]; intro hc; exact ((inRange_iff r k).mp hc).2 h

theorem hits_mid {r : KeyRange K} {a m b : List (K × A)} (ha : ∀ x ∈ a, Below r x.1)
    (hm : ∀ x ∈ m, Spec.inRange r x.1 = true) (hb : ∀ x ∈ b, Above r x.1) : hits r (a ++ m ++ b) = m := by
  unfold hits
  rw [List.filter_append, List.filter_append, List.filter_eq_nil_iff.mpr, List.filter_eq_self.mpr hm,
    List.filter_eq_nil_iff.mpr]
  · simp
  · intro x hx; rw [not_inRange_of_above (hb x hx)]; simp
  · intro x hx; rw [not_inRange_of_below (ha x hx)]; simp

theorem hits_nil {r : KeyRange K} {es : List (K × A)} (h : ∀ x ∈ es, Spec.inRange r x.1 = false) : hits r es = [] := by
  unfold hits
  rw [List.filter_eq_nil_iff]
  intro x hx; rw [h x hx]; simp

/-- `multi_get`: of the first `max` entries in the interval, those that the filter selects. -/
theorem multiGet_spec {nd : Node K V} (hs : Asc nd.es) (r : KeyRange K) (max : Nat)
    (f : Option (K → V → Bool)) :
    ∃ out, multiGet nd r max f = .ok (out, out.length) ∧
      out = ((hits r nd.es).take max).filter (fun x => selects f x.1 x.2) := by
  obtain ⟨ok, s, e, h1, h2⟩ := matchRange_spec hs r
  unfold multiGet
  rw [h1]
  rcases h2 with ⟨rfl, h3⟩ | ⟨rfl, a, m, b, he, ha, hse, hm, h4, h5, h6⟩
  · refine ⟨[], rfl, ?_⟩
    rw [hits_nil h3]
    simp
  · refine ⟨((hits r nd.es).take max).filter (fun x => selects f x.1 x.2), ?_, rfl⟩
    have hh : hits r nd.es = m := by rw [he]; exact hits_mid h4 h5 h6
    have hsel : (nd.es.drop s).take (min (e - s + 1) max) = m.take max := by
      subst ha
      rw [he, List.append_assoc, List.drop_left, ← hm]
      rw [List.take_append_of_le_length (by omega), ← List.take_take]
      exact List.take_of_length_le (by rw [List.length_take]; omega)
    simp only
    rw [hh, hsel]
    congr 2
    have h7 := List.length_filter_le (fun x => selects f x.1 x.2) (m.take max)
    have h8 : (m.take max).length = min (e - s + 1) max := by rw [List.length_take, hm]; omega
    omega

theorem multiRemoveLoop_spec (f : Option (K → V → Bool)) (m : List (K × V)) :
    ∀ (a b : List (K × V)) (ret : Nat), m.length ≤ ret →
      multiRemoveLoop f m.length (a ++ m ++ b) a.length ret =
        .ok (a ++ m.filter (fun x => !selects f x.1 x.2) ++ b,
          ret - (m.filter (fun x => !selects f x.1 x.2)).length) := by
  induction m with
  | nil => intro a b ret _; simp [multiRemoveLoop]
  | cons x r ih =>
    intro a b ret hr
    simp only [List.length_cons] at hr ⊢
    unfold multiRemoveLoop
    have hg : (a ++ x :: r ++ b)[a.length]? = some x := by simp
    rw [hg]
    simp only
    cases hsel : selects f x.1 x.2 with
    | true =>
      simp only [if_true]
      have : (a ++ x :: r ++ b).eraseIdx a.length = a ++ r ++ b := by
        simp [List.eraseIdx_append_of_length_le]
      rw [this, ih a b ret (by omega)]
      simp [List.filter_cons, hsel]
    | false =>
      simp only [Bool.false_eq_true, if_false]
      have := ih (a ++ [x]) b (ret - 1) (by omega)
      simp only [List.length_append, List.length_cons, List.length_nil, List.append_assoc,
        List.cons_append, List.nil_append, Nat.zero_add] at this
      rw [List.append_assoc, List.cons_append, this]
      simp [List.filter_cons, hsel]
      omega

/-- `multi_remove` removes exactly the selected entries of the interval. -/
theorem multiRemove_spec {nd : Node K V} (hs : Asc nd.es) (r : KeyRange K) (f : Option (K → V → Bool)) :
    multiRemove nd r f =
      .ok (nd.es.filter (fun x => !(Spec.inRange r x.1 && selects f x.1 x.2)),
        ((hits r nd.es).filter (fun x => selects f x.1 x.2)).length) := by
  obtain ⟨ok, s, e, h1, h2⟩ := matchRange_spec hs r
  unfold multiRemove
  rw [h1]
  rcases h2 with ⟨rfl, h3⟩ | ⟨rfl, a, m, b, he, ha, hse, hm, h4, h5, h6⟩
  · simp only
    rw [hits_nil h3, List.filter_eq_self.mpr]
    · simp
    · intro x hx; simp [h3 x hx]
  · simp only
    rw [← hm, ← ha, he, multiRemoveLoop_spec f m a b _ le_rfl, hits_mid h4 h5 h6]
    rw [List.filter_append, List.filter_append]
    have e1 : a.filter (fun x => !(Spec.inRange r x.1 && selects f x.1 x.2)) = a := by
      rw [List.filter_eq_self]; intro x hx; simp [not_inRange_of_below (h4 x hx)]
    have e2 : b.filter (fun x => !(Spec.inRange r x.1 && selects f x.1 x.2)) = b := by
      rw [List.filter_eq_self]; intro x hx; simp [not_inRange_of_above (h6 x hx)]
    have e3 : m.filter (fun x => !(Spec.inRange r x.1 && selects f x.1 x.2)) =
        m.filter (fun x => !selects f x.1 x.2) := by
      apply List.filter_congr; intro x hx; simp [h5 x hx]
    rw [e1, e2, e3]
    congr 2
    have := List.length_eq_length_filter_add (l := m) (fun x => selects f x.1 x.2)
    omega

/-- What a range put makes of one entry, when the filter does not ask to remove it. -/
def updOne (f : Option (K → V → V → Decision)) (v : V) (x : K × V) : K × V :=
  if decision f x.1 x.2 v = .replace then (x.1, v) else x

/-- The update of an entry for which there is room never fails. -/
theorem replaceAt_room {p : NK K V} {a b : List (K × V)} {x : K × V} {v : V}
    (h : p.hasRoom .update (a ++ x :: b) (p.ksz x.1) (p.asz v) = true) :
    p.replaceAt (a ++ x :: b) a.length x.1 v = .ok (a ++ (x.1, v) :: b) := by
  unfold NK.replaceAt
  have hg : (a ++ x :: b)[a.length]? = some x := by simp
  rw [hg]
  simp only
  have hset : (a ++ x :: b).set a.length (x.1, v) = a ++ (x.1, v) :: b := by simp
  rw [hset]
  split
  · rfl
  · rename_i hf
    split
    · rfl
    · rename_i hlt
      have he : (a ++ x :: b).eraseIdx a.length = a ++ b := by
        simp [List.eraseIdx_append_of_length_le]
      rw [he]
      unfold NK.hasRoom at h
      simp only [hf, Bool.false_eq_true, if_false, decide_eq_true_eq] at h
      unfold NK.insertAt
      rw [if_neg (by simp), if_neg hf]
      have h1 : p.used (a ++ x :: b) = p.used (a ++ b) + p.esz x := by
        simp [NK.used]; omega
      have h2 : p.esz x = p.ksz x.1 + p.asz x.2 + p.recSz := by simp [NK.esz, hf]
      unfold NK.avail at h ⊢
      rw [if_neg (by omega)]
      simp

/-- The loop of `multi_put` updates the entries in order, as long as there is room. -/
theorem multiPutLoop_spec (p : NK K V) (v : V) (f : Option (K → V → V → Decision)) (m : List (K × V)) :
    ∀ (a b : List (K × V)) (fuel endIdx : Nat), m.length < fuel → endIdx + 1 = a.length + m.length →
      (∀ x ∈ m, decision f x.1 x.2 v ≠ .remove) →
      ∃ m1 m2, m = m1 ++ m2 ∧ multiPutLoop p v f endIdx fuel (a ++ m ++ b) a.length =
        .ok (a ++ m1.map (updOne f v) ++ m2 ++ b, if m2 = [] then .success else .has_more, m2.head?.map (·.1)) := by
  induction m with
  | nil =>
    intro a b fuel endIdx hf he hd
    obtain ⟨g, rfl⟩ : ∃ g, fuel = g + 1 := ⟨fuel - 1, by simp at hf; omega⟩
    refine ⟨[], [], rfl, ?_⟩
    simp only [List.length_nil] at he
    unfold multiPutLoop
    rw [if_pos (by omega)]
    simp
  | cons x r ih =>
    intro a b fuel endIdx hf he hd
    simp only [List.length_cons] at hf he
    obtain ⟨g, rfl⟩ : ∃ g, fuel = g + 1 := ⟨fuel - 1, by omega⟩
    have hg : (a ++ x :: r ++ b)[a.length]? = some x := by simp
    have next : ∀ y : K × V, y = updOne f v x →
        ∃ m1 m2, x :: r = m1 ++ m2 ∧ multiPutLoop p v f endIdx g (a ++ y :: (r ++ b)) (a.length + 1) =
        .ok (a ++ m1.map (updOne f v) ++ m2 ++ b, if m2 = [] then .success else .has_more, m2.head?.map (·.1)) := by
      rintro y rfl
      obtain ⟨m1, m2, h1, h2⟩ := ih (a ++ [updOne f v x]) b g endIdx (by omega) (by simp; omega)
        (fun z hz => hd z (List.mem_cons_of_mem _ hz))
      refine ⟨x :: m1, m2, by rw [h1]; rfl, ?_⟩
      simp only [List.length_append, List.length_cons, List.length_nil, List.append_assoc,
        List.cons_append, List.nil_append, Nat.zero_add] at h2
      rw [h2]
      simp
    unfold multiPutLoop
    rw [if_neg (by omega), hg]
    simp only
    by_cases hroom : p.hasRoom .update (a ++ x :: r ++ b) (p.ksz x.1) (p.asz v) = true
    · rw [hroom]
      simp only [Bool.not_true, Bool.false_eq_true, if_false]
      have hd0 := hd x (by simp)
      cases hdec : decision f x.1 x.2 v with
      | remove => exact absurd hdec hd0
      | keep =>
        simp only
        rw [List.append_assoc, List.cons_append]
        exact next x (by simp [updOne, hdec])
      | replace =>
        simp only
        have hre := replaceAt_room (p := p) (a := a) (x := x) (b := r ++ b) (v := v)
          (by simpa [List.append_assoc] using hroom)
        rw [List.append_assoc, List.cons_append, hre]
        exact next (x.1, v) (by simp [updOne, hdec])
    · rw [if_pos (by simpa using hroom)]
      exact ⟨[], x :: r, rfl, by simp⟩

/-- `multi_put` updates the entries of the interval in order, as long as there is room, when the filter
never asks to remove one. -/
theorem multiPut_spec {p : NK K V} {nd : Node K V} (hs : Asc nd.es) (r : KeyRange K) (v : V)
    (f : Option (K → V → V → Decision))
    (hd : ∀ x ∈ nd.es, Spec.inRange r x.1 = true → decision f x.1 x.2 v ≠ .remove) :
    (hits r nd.es = [] ∧ multiPut p nd r v .update f = .ok (nd.es, .not_found, none)) ∨
    ∃ a m1 m2 b, nd.es = a ++ (m1 ++ m2) ++ b ∧ hits r nd.es = m1 ++ m2 ∧ m1 ++ m2 ≠ [] ∧
      (∀ x ∈ a, Below r x.1) ∧ (∀ x ∈ b, Above r x.1) ∧
      multiPut p nd r v .update f = .ok (a ++ m1.map (updOne f v) ++ m2 ++ b,
        if m2 = [] then .success else .has_more, m2.head?.map (·.1)) := by
  obtain ⟨ok, s, e, h1, h2⟩ := matchRange_spec hs r
  unfold multiPut
  rw [if_neg (by simp), h1]
  rcases h2 with ⟨rfl, h3⟩ | ⟨rfl, a, m, b, he, ha, hse, hm, h4, h5, h6⟩
  · exact Or.inl ⟨hits_nil h3, rfl⟩
  · right
    have hlen : nd.es.length = a.length + m.length + b.length := by rw [he]; simp; omega
    obtain ⟨m1, m2, h7, h8⟩ := multiPutLoop_spec p v f m a b (nd.es.length + 1) e (by omega) (by omega)
      (fun x hx => hd x (by rw [he]; simp [hx]) (h5 x hx))
    subst h7
    refine ⟨a, m1, m2, b, he, by rw [he, hits_mid h4 h5 h6], ?_, h4, h6, ?_⟩
    · intro h; rw [h] at hm; simp at hm
    · simp only
      rw [← ha]
      rw [← he] at h8
      exact h8

theorem look_filter {es : List (K × V)} (hs : Asc es) (p : K × V → Bool) (k : K) :
    look (es.filter p) k = match look es k with
      | none => none
      | some v => if p (k, v) then some v else none := by
  have hs' : Asc (es.filter p) := List.Pairwise.filter _ hs
  cases h : look es k with
  | none =>
    simp only
    rw [look_eq_none] at h ⊢
    intro x hx
    exact h x (List.mem_filter.mp hx).1
  | some v =>
    simp only
    have hm := (look_mem hs).mp h
    split
    · rename_i hp
      exact (look_mem hs').mpr (List.mem_filter.mpr ⟨hm, hp⟩)
    · rename_i hp
      rw [look_eq_none]
      rintro ⟨x, w⟩ hx rfl
      obtain ⟨h1, h2⟩ := List.mem_filter.mp hx
      have := (look_mem hs).mpr h1
      rw [h] at this
      cases this
      exact hp h2

/-- The map of a leaf after `multi_remove`. -/
theorem look_multiRemove {es : List (K × V)} (hs : Asc es) (r : KeyRange K) (f : Option (K → V → Bool)) :
    look (es.filter (fun x => !(Spec.inRange r x.1 && selects f x.1 x.2))) =
      Spec.removeRange (look es) r (selects f) := by
  funext k
  rw [look_filter hs]
  unfold Spec.removeRange
  cases look es k with
  | none => rfl
  | some v =>
    simp only
    cases Spec.inRange r k && selects f k v <;> simp

end
end HS.Btree
