import Verif.Scan.Links

/-!
# What a query has found so far
-/

namespace HS.Scan

open HS.Conc

/-- Key `k` is before the bound. -/
def below (k : Nat) (p : Option Nat) : Prop := ∀ x, p = some x → k < x

instance (k : Nat) (p : Option Nat) : Decidable (below k p) := by
  cases p with
  | none => exact isTrue fun x h => by cases h
  | some a => exact if h : k < a then isTrue fun x hx => by cases hx; exact h else isFalse fun hb => h (hb a rfl)

/-- All keys asked for are before the bound. -/
def beyond (q : Query) (p : Option Nat) : Prop := ∀ k, q.has k → below k p

/-- There is no key asked for between the bounds. -/
def Gap (q : Query) (p p' : Option Nat) : Prop := leB p p' ∧ ∀ k, q.has k → below k p' → below k p

theorem Gap.refl (q : Query) (p : Option Nat) : Gap q p p := ⟨leB.refl _, fun _ _ h => h⟩

theorem Gap.trans {q : Query} {a b c : Option Nat} (h : Gap q a b) (h' : Gap q b c) : Gap q a c :=
  ⟨h.1.trans h'.1, fun k hk hb => h.2 k hk (h'.2 k hk hb)⟩

theorem below.mono {k : Nat} {p p' : Option Nat} (h : below k p) (hp : leB p p') : below k p' := by
  intro x hx
  obtain ⟨w, hw, l⟩ := hp x hx
  have := h w hw
  omega

theorem below.le {k k' : Nat} {p : Option Nat} (h : below k' p) (hk : k ≤ k') : below k p := fun x hx => Nat.lt_of_le_of_lt hk (h x hx)

theorem below_some {k x : Nat} : below k (some x) ↔ k < x := ⟨fun h => h x rfl, fun h y hy => by cases hy; exact h⟩

/-- The question of query `i` was event `b`, and it has neither asked nor answered since. -/
def Asked (tr : List Ev) (b i : Nat) (q : Query) : Prop :=
  tr[b]? = some (.ask i q) ∧ ∀ j, b < j → (∀ q', tr[j]? ≠ some (.ask i q')) ∧ ∀ out st, tr[j]? ≠ some (.answer i out st)

/-- Nothing has happened that makes absent keys uncertain. -/
def Sure (tr : List Ev) (b i : Nat) (q : Query) : Prop :=
  (q.sweep = true ∨ ∀ j, b < j → tr[j]? ≠ some (.fail i)) ∧ (q.all ∨ ∀ j, b < j → tr[j]? ≠ some (.trim i))

/-- Events that are neither questions nor answers of query `i`. -/
def Quiet (i : Nat) (ext : List Ev) : Prop := ∀ e ∈ ext, (∀ q, e ≠ .ask i q) ∧ ∀ out st, e ≠ .answer i out st

theorem Asked.lt {tr b i q} (h : Asked tr b i q) : b < tr.length := by
  have := h.1
  rw [List.getElem?_eq_some_iff] at this
  exact this.1

theorem getElem?_ext {tr ext : List Ev} {j : Nat} {e : Ev} (h : (tr ++ ext)[j]? = some e) : tr[j]? = some e ∨ e ∈ ext := by
  by_cases hj : j < tr.length
  · rw [List.getElem?_append_left hj] at h
    exact Or.inl h
  · rw [List.getElem?_append_right (by omega)] at h
    exact Or.inr (List.mem_of_getElem? h)

theorem Asked.ext {tr b i q} (h : Asked tr b i q) {ext : List Ev} (he : Quiet i ext) : Asked (tr ++ ext) b i q := by
  refine ⟨by rw [List.getElem?_append_left h.lt]; exact h.1, fun j hj => ⟨fun q' hq => ?_, fun out st hq => ?_⟩⟩
  · rcases getElem?_ext hq with hq | hq
    · exact (h.2 j hj).1 q' hq
    · exact (he _ hq).1 q' rfl
  · rcases getElem?_ext hq with hq | hq
    · exact (h.2 j hj).2 out st hq
    · exact (he _ hq).2 out st rfl

theorem getElem?_old {tr : List Ev} (ext : List Ev) {j : Nat} {e : Ev} (h : tr[j]? = some e) : (tr ++ ext)[j]? = some e := by
  have hj : j < tr.length := by
    rw [List.getElem?_eq_some_iff] at h
    exact h.1
  rw [List.getElem?_append_left hj]
  exact h

theorem Sure.of_ext {tr b i q} {ext : List Ev} (h : Sure (tr ++ ext) b i q) : Sure tr b i q := by
  refine ⟨h.1.imp id fun h j hj hf => h j hj (getElem?_old ext hf), h.2.imp id fun h j hj hf => h j hj (getElem?_old ext hf)⟩

theorem MapAt.ext {tr : List Ev} {j : Nat} {M} (h : MapAt tr j M) (hj : j ≤ tr.length) (ext : List Ev) : MapAt (tr ++ ext) j M := by
  unfold MapAt at h ⊢
  rw [List.take_append_of_le_length hj]
  exact h

theorem MapAt.of_ext {tr ext : List Ev} {j : Nat} {M} (h : MapAt (tr ++ ext) j M) (hj : j ≤ tr.length) : MapAt tr j M := by
  unfold MapAt at h ⊢
  rw [List.take_append_of_le_length hj] at h
  exact h

/-- What the query has found, `out`, tells of the keys before `p`. -/
structure Cover (tr : List Ev) (b i : Nat) (q : Query) (p : Option Nat) (out : List (Nat × Nat)) : Prop where
  sorted : out.Pairwise fun x y => x.1 < y.1
  range : ∀ x ∈ out, q.has x.1 ∧ q.keep x.1 x.2 = true
  count : out.length ≤ q.batch
  lt : ∀ x ∈ out, below x.1 p
  moment : ∃ at_ : Nat → Nat, (∀ k k', k ≤ k' → at_ k ≤ at_ k') ∧ ∀ k, b < at_ k ∧ at_ k ≤ tr.length ∧
    (q.has k → below k p → Sure tr b i q ∨ (∃ x ∈ out, x.1 = k) → ∃ M, MapAt tr (at_ k) M ∧ ∀ v, (k, v) ∈ out ↔ M k = some v ∧ q.keep k v = true)

variable {tr : List Ev} {b i : Nat} {q : Query} {p p' : Option Nat} {out : List (Nat × Nat)}

theorem Cover.ext (h : Cover tr b i q p out) (ext : List Ev) : Cover (tr ++ ext) b i q p out := by
  obtain ⟨at_, h1, h2⟩ := h.moment
  refine ⟨h.sorted, h.range, h.count, h.lt, at_, h1, fun k => ⟨(h2 k).1, ?_, fun hk hb hs => ?_⟩⟩
  · have := (h2 k).2.1
    rw [List.length_append]
    omega
  · obtain ⟨M, hM, hv⟩ := (h2 k).2.2 hk hb (hs.imp Sure.of_ext id)
    exact ⟨M, hM.ext (h2 k).2.1 ext, hv⟩

theorem Cover.raise (h : Cover tr b i q p out) (hg : Gap q p p') : Cover tr b i q p' out := by
  obtain ⟨at_, h1, h2⟩ := h.moment
  exact ⟨h.sorted, h.range, h.count, fun x hx => (h.lt x hx).mono hg.1, at_, h1, fun k => ⟨(h2 k).1, (h2 k).2.1, fun hk hb hs =>
    (h2 k).2.2 hk (hg.2 k hk hb) hs⟩⟩

/-- Nothing is certain of absent keys any more. -/
theorem Cover.raise' (h : Cover tr b i q p out) (hp : leB p p') (hs : ¬ Sure tr b i q) : Cover tr b i q p' out := by
  obtain ⟨at_, h1, h2⟩ := h.moment
  refine ⟨h.sorted, h.range, h.count, fun x hx => (h.lt x hx).mono hp, at_, h1, fun k => ⟨(h2 k).1, (h2 k).2.1, fun hk _ hs' => ?_⟩⟩
  rcases hs' with hs' | ⟨x, hx, rfl⟩
  · exact absurd hs' hs
  · exact (h2 x.1).2.2 hk (h.lt x hx) (Or.inr ⟨x, hx, rfl⟩)

/-- At first nothing is found. -/
theorem Cover.nil (hb : b < tr.length) (hp : ∀ k, q.has k → ¬ below k p) : Cover tr b i q p [] :=
  ⟨.nil, fun x hx => (by cases hx), Nat.zero_le _, fun x hx => (by cases hx), fun _ => tr.length, fun _ _ _ => Nat.le_refl _,
    fun k => ⟨hb, Nat.le_refl _, fun hk hb => absurd hb (hp k hk)⟩⟩

/-- Sorted lists have one value for a key. -/
theorem said_mem {out : List (Nat × Nat)} (h : out.Pairwise fun x y => x.1 < y.1) (k v : Nat) : said out k = some v ↔ (k, v) ∈ out := by
  unfold said
  induction out with
  | nil => simp
  | cons e t ih =>
    obtain ⟨h1, h2⟩ := List.pairwise_cons.1 h
    rw [List.find?_cons]
    by_cases he : e.1 = k
    · subst he
      simp only [beq_self_eq_true, Option.map_some, Option.some.injEq, List.mem_cons]
      constructor
      · rintro rfl; exact Or.inl rfl
      · rintro (h | h)
        · rw [← h]
        · exact absurd (h1 _ h) (by simp)
    · have hbe : (e.1 == k) = false := by simpa using he
      rw [hbe]
      simp only [List.mem_cons]
      rw [ih h2]
      constructor
      · exact Or.inr
      · rintro (h | h)
        · exact absurd (by rw [← h]) he
        · exact h

/-- The query is about to answer. -/
def Done (tr : List Ev) (b i : Nat) (q : Query) (out : List (Nat × Nat)) (r : Status) : Prop :=
  ∃ p, Cover tr b i q p out ∧ (r = .success → beyond q p) ∧ (r = .more → out.length = q.batch)

theorem Done.ext {r} (h : Done tr b i q out r) (ext : List Ev) : Done (tr ++ ext) b i q out r := by
  obtain ⟨p, h1, h2, h3⟩ := h
  exact ⟨p, h1.ext ext, h2, h3⟩

/-- What it says is right. -/
theorem Done.answers {r} (h : Done tr b i q out r) (ext : List Ev) :
    Answers (tr ++ ext) b tr.length ((q.sweep = true ∨ ∀ j, b < j → j < tr.length → (tr ++ ext)[j]? ≠ some (.fail i)) ∧
      (q.all ∨ ∀ j, b < j → j < tr.length → (tr ++ ext)[j]? ≠ some (.trim i))) q out r := by
  obtain ⟨p, h, h2, h3⟩ := h
  obtain ⟨at_, g1, g2⟩ := h.moment
  refine ⟨h.sorted, h.range, h.count, h3, at_, g1, fun k => ⟨(g2 k).1, (g2 k).2.1, fun hk hsp hs => ?_⟩⟩
  have hb : below k p := by
    cases r with
    | success => exact h2 rfl k hk
    | more =>
      obtain ⟨x, hx, hle⟩ := hsp
      exact (h.lt x hx).le hle
    | failed =>
      obtain ⟨x, hx, rfl⟩ := hsp
      exact h.lt x hx
  have hlt : ∀ {j : Nat} {e : Ev}, tr[j]? = some e → j < tr.length := fun hj => by
    rw [List.getElem?_eq_some_iff] at hj
    exact hj.1
  have hsure : Sure tr b i q ∨ ∃ x ∈ out, x.1 = k := by
    refine hs.imp (fun hs => ⟨hs.1.imp id fun hs j hj hf => hs j hj (hlt hf) (getElem?_old ext hf),
      hs.2.imp id fun hs j hj hf => hs j hj (hlt hf) (getElem?_old ext hf)⟩) id
  obtain ⟨M, hM, hv⟩ := (g2 k).2.2 hk hb hsure
  refine ⟨M, hM.ext (g2 k).2.1 ext, ?_⟩
  apply Option.ext
  intro v
  rw [said_mem h.sorted, hv v, Option.filter_eq_some_iff]

/-- `btree.ipp` 264-273. -/
theorem finish_fin (q : Query) (out : List (Nat × Nat)) (r : Status) : ∃ r', finish q out r = .fin out r' ∧
    (r' = r ∨ (r' = .success ∧ ∃ x ∈ out, q.hi ≤ x.1)) := by
  unfold finish
  split
  · next x hx =>
    split
    · next hle => exact ⟨_, rfl, Or.inr ⟨rfl, x, List.mem_of_getLast? hx, hle⟩⟩
    · exact ⟨_, rfl, Or.inl rfl⟩
  · exact ⟨_, rfl, Or.inl rfl⟩

theorem Query.has_le {k : Nat} (h : q.has k) : k ≤ q.hi := by
  rcases h.2 with h | h
  · exact Nat.le_of_lt h
  · exact Nat.le_of_eq h.2

theorem Query.le_has {k : Nat} (h : q.has k) : q.lo ≤ k := by
  rcases h.1 with h | h
  · exact Nat.le_of_lt h
  · exact Nat.le_of_eq h.2.symm

theorem Done.finish {r r'} (h : Done tr b i q out r) (hr : r' = r ∨ (r' = .success ∧ ∃ x ∈ out, q.hi ≤ x.1)) : Done tr b i q out r' := by
  obtain ⟨p, h1, h2, h3⟩ := h
  rcases hr with rfl | ⟨rfl, x, hx, hle⟩
  · exact ⟨p, h1, h2, h3⟩
  · exact ⟨p, h1, fun _ k hk => (h1.lt x hx).le (Nat.le_trans (Query.has_le hk) hle), fun h => by cases h⟩

/-! ## Reading a leaf -/

theorem inside_mem {es : List Ent} {k v : Nat} : (k, v) ∈ inside q es ↔ (some k, v) ∈ es ∧ q.has k := by
  unfold inside
  rw [List.mem_filterMap]
  constructor
  · rintro ⟨⟨a, w⟩, he, hf⟩
    cases a with
    | none => cases hf
    | some a =>
      simp only at hf
      split at hf
      · next hh => cases hf; exact ⟨he, hh⟩
      · cases hf
  · rintro ⟨he, hh⟩
    exact ⟨(some k, v), he, by simp [hh]⟩

theorem LeafOk.mem : ∀ {es : List Ent} {lo hi : Option Nat} {e : Ent}, LeafOk lo es hi → e ∈ es → ∃ k, e.1 = some k ∧ inR lo hi k
  | f :: t, lo, hi, e, ⟨k, h1, h2, h3⟩, he => by
    rcases List.mem_cons.1 he with rfl | he
    · exact ⟨k, h1, h2⟩
    · obtain ⟨k', g1, g2⟩ := LeafOk.mem h3 he
      refine ⟨k', g1, g2.mono ?_ (leB.refl _)⟩
      obtain ⟨⟨a, ha, l⟩, _⟩ := h2
      intro y hy
      cases hy
      exact ⟨a, ha, by omega⟩

theorem inside_sorted : ∀ {es : List Ent} {lo hi : Option Nat}, LeafOk lo es hi → (inside q es).Pairwise fun x y => x.1 < y.1
  | [], _, _, _ => .nil
  | e :: t, lo, hi, ⟨k, h1, h2, h3⟩ => by
    have ih := inside_sorted h3
    obtain ⟨a, w⟩ := e
    simp only at h1
    subst h1
    unfold inside at ih ⊢
    rw [List.filterMap_cons]
    by_cases hh : q.has k
    · simp only [hh, if_true]
      refine List.pairwise_cons.2 ⟨fun x hx => ?_, ih⟩
      have hx' : (x.1, x.2) ∈ inside q t := hx
      obtain ⟨k', g1, g2⟩ := LeafOk.mem h3 (inside_mem.1 hx').1
      simp only [Option.some.injEq] at g1
      obtain ⟨⟨a, ha, l⟩, _⟩ := g2
      cases ha
      simp only
      omega
    · simp only [hh, if_false]
      exact ih

theorem take_mem_of_le {l : List (Nat × Nat)} (h : l.Pairwise fun x y => x.1 < y.1) {m : Nat} {x z : Nat × Nat} (hx : x ∈ l) (hz : z ∈ l.take m)
    (hle : x.1 ≤ z.1) : x ∈ l.take m := by
  rw [← List.take_append_drop m l] at h hx
  rcases List.mem_append.1 hx with hx | hx
  · exact hx
  · have := (List.pairwise_append.1 h).2.2 z hz x hx
    omega

theorem multiGet_sorted {es : List Ent} {lo hi : Option Nat} (h : LeafOk lo es hi) (m : Nat) :
    (multiGet q m es).Pairwise fun x y => x.1 < y.1 :=
  ((inside_sorted h).sublist (List.take_sublist _ _)).sublist List.filter_sublist

theorem multiGet_length (m : Nat) (es : List Ent) : (multiGet q m es).length ≤ m := by
  unfold multiGet
  refine Nat.le_trans (List.length_filter_le _ _) ?_
  rw [List.length_take]
  exact Nat.min_le_left _ _

theorem multiGet_mem {m : Nat} {es : List Ent} {k v : Nat} :
    (k, v) ∈ multiGet q m es ↔ (k, v) ∈ (inside q es).take m ∧ q.keep k v = true := by
  unfold multiGet
  rw [List.mem_filter]

/-- If all entries are accepted, and there are more than wanted, as many as wanted are found. -/
theorem multiGet_full {m : Nat} {es : List Ent} (ha : q.all) (hm : m < (inside q es).length) : (multiGet q m es).length = m := by
  unfold multiGet
  rw [List.filter_eq_self.2 (fun x _ => ha x.1 x.2), List.length_take]
  omega

/-- The moment of what is read. -/
theorem Cover.read (h : Cover tr b i q p out) {es : List Ent} {hi : Option Nat} {M} (hl : LeafOk p es hi) (hlt : ltB p hi)
    (hM : MapAt tr tr.length M) (hes : ∀ k v, inR p hi k → (M k = some v ↔ (some k, v) ∈ es)) (hb : b < tr.length)
    (ext : List Ev) (hext : q.batch - out.length < (inside q es).length → .trim i ∈ ext)
    (hn : out.length < q.batch) (p' : Option Nat)
    (hp' : (p' = hi ∧ (out ++ multiGet q (q.batch - out.length) es).length < q.batch) ∨
      ∃ x ∈ multiGet q (q.batch - out.length) es, p' = some (x.1 + 1) ∧ ∀ z ∈ multiGet q (q.batch - out.length) es, z.1 ≤ x.1) :
    Cover (tr ++ ext) b i q p' (out ++ multiGet q (q.batch - out.length) es) := by
  obtain ⟨at_, h1, h2⟩ := h.moment
  generalize hm : q.batch - out.length = m at *
  obtain ⟨a, ha, hlt⟩ := hlt
  have hin : ∀ x ∈ multiGet q m es, (some x.1, x.2) ∈ es ∧ q.has x.1 ∧ a ≤ x.1 ∧ below x.1 hi := by
    intro x hx
    have hx1 : (x.1, x.2) ∈ multiGet q m es := hx
    obtain ⟨g1, g2⟩ := inside_mem.1 (List.mem_of_mem_take (multiGet_mem.1 hx1).1)
    obtain ⟨k', e1, e2, e3⟩ := LeafOk.mem hl g1
    simp only [Option.some.injEq] at e1
    subst e1
    obtain ⟨a', ha', l⟩ := e2
    rw [ha] at ha'
    cases ha'
    exact ⟨g1, g2, l, e3⟩
  have hout : ∀ x ∈ out, x.1 < a := fun x hx => h.lt x hx a ha
  have hple : leB p p' ∧ leB p' hi := by
    rcases hp' with ⟨rfl, _⟩ | ⟨x, hx, rfl, _⟩
    · refine ⟨fun y hy => ⟨a, ha, ?_⟩, leB.refl _⟩
      have := hlt y hy
      omega
    · obtain ⟨_, _, g3, g4⟩ := hin x hx
      refine ⟨fun y hy => ?_, fun y hy => ?_⟩
      · cases hy; exact ⟨a, ha, by omega⟩
      · exact ⟨x.1 + 1, rfl, g4 y hy⟩
  refine ⟨?_, ?_, ?_, ?_, fun k => if below k p then at_ k else tr.length, ?_, ?_⟩
  · refine List.pairwise_append.2 ⟨h.sorted, multiGet_sorted hl m, fun x hx z hz => ?_⟩
    have := hout x hx
    have := (hin z hz).2.2.1
    omega
  · intro x hx
    rcases List.mem_append.1 hx with hx | hx
    · exact h.range x hx
    · have hx1 : (x.1, x.2) ∈ multiGet q m es := hx
      exact ⟨(hin x hx).2.1, (multiGet_mem.1 hx1).2⟩
  · have := multiGet_length (q := q) m es
    rw [List.length_append]
    omega
  · intro x hx
    rcases List.mem_append.1 hx with hx | hx
    · exact (h.lt x hx).mono hple.1
    · rcases hp' with ⟨rfl, _⟩ | ⟨z, hz, rfl, hzl⟩
      · exact (hin x hx).2.2.2
      · exact below_some.2 (Nat.lt_succ_of_le (hzl x hx))
  · intro k k' hkk
    simp only
    by_cases h' : below k' p
    · rw [if_pos h', if_pos (h'.le hkk)]
      exact h1 k k' hkk
    · rw [if_neg h']
      split
      · exact (h2 k).2.1
      · exact Nat.le_refl _
  · intro k
    by_cases hk : below k p
    · simp only [if_pos hk]
      refine ⟨(h2 k).1, by have := (h2 k).2.1; rw [List.length_append]; omega, fun hh _ hs => ?_⟩
      have hka : k < a := hk a ha
      have hno : ∀ v, (k, v) ∈ out ++ multiGet q m es ↔ (k, v) ∈ out := by
        intro v
        rw [List.mem_append]
        refine ⟨fun h => h.elim id fun h => ?_, Or.inl⟩
        have := (hin _ h).2.2.1
        simp only at this
        omega
      have hs' : Sure tr b i q ∨ ∃ x ∈ out, x.1 = k := by
        refine hs.imp Sure.of_ext ?_
        rintro ⟨⟨k', v⟩, hx, rfl⟩
        exact ⟨(k', v), (hno v).1 hx, rfl⟩
      obtain ⟨M', hM', hv⟩ := (h2 k).2.2 hh hk hs'
      exact ⟨M', hM'.ext (h2 k).2.1 ext, fun v => by rw [hno v]; exact hv v⟩
    · simp only [if_neg hk]
      refine ⟨hb, by rw [List.length_append]; omega, fun hh hbel hs => ?_⟩
      have hka : a ≤ k := by
        refine Decidable.byContradiction fun hc => hk fun x hx => ?_
        rw [ha] at hx
        cases hx
        omega
      have hinR : inR p hi k := ⟨⟨a, ha, hka⟩, hbel.mono hple.2⟩
      refine ⟨M, hM.ext (Nat.le_refl _) ext, fun v => ?_⟩
      have hno : (k, v) ∈ out ++ multiGet q m es ↔ (k, v) ∈ multiGet q m es := by
        rw [List.mem_append]
        refine ⟨fun h => h.elim (fun h => ?_) id, Or.inr⟩
        have := hout _ h
        simp only at this
        omega
      rw [hno, multiGet_mem, hes k v hinR]
      have hcore : (some k, v) ∈ es → q.keep k v = true → (k, v) ∈ (inside q es).take m := by
        intro hke hkp
        have hki : (k, v) ∈ inside q es := inside_mem.2 ⟨hke, hh⟩
        rcases hp' with ⟨rfl, hlen⟩ | ⟨z, hz, rfl, hzl⟩
        · -- all entries fit, or the key is one of those found
          by_cases ht : m < (inside q es).length
          · rcases hs with hs | ⟨x, hx, hxk⟩
            · exfalso
              rcases hs.2 with hall | hno
              · have := multiGet_full hall ht
                rw [List.length_append] at hlen
                omega
              · obtain ⟨j, hj, he⟩ := List.mem_iff_getElem.1 (hext ht)
                refine hno (tr.length + j) (by omega) ?_
                rw [List.getElem?_append_right (by omega)]
                simp [hj, he]
            · rcases List.mem_append.1 hx with hx | hx
              · have := hout x hx
                omega
              · have hx1 : (x.1, x.2) ∈ multiGet q m es := hx
                exact take_mem_of_le (inside_sorted hl) hki (multiGet_mem.1 hx1).1 (by simp only; omega)
          · rw [List.take_of_length_le (by omega)]
            exact hki
        · have hz1 : (z.1, z.2) ∈ multiGet q m es := hz
          have hkz : k < z.1 + 1 := below_some.1 hbel
          exact take_mem_of_le (inside_sorted hl) hki (multiGet_mem.1 hz1).1 (by simp only; omega)
      constructor
      · rintro ⟨g1, g2⟩
        exact ⟨(inside_mem.1 (List.mem_of_mem_take g1)).1, g2⟩
      · rintro ⟨g1, g2⟩
        exact ⟨hcore g1 g2, g2⟩

end HS.Scan
