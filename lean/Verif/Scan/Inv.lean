import Verif.Scan.Cover

/-!
# What holds at every step
-/

namespace HS.Scan

open HS.Conc

/-- The shape of a chain, whatever the children. -/
abbrev Bounds := Chain fun _ _ _ => True

theorem Bounds.uniq {P Q : Nat → Option Nat → Option Nat → Prop} : ∀ {a : List Ent} {lo m m' : Option Nat}, Chain P lo a m → Chain Q lo a m' → m = m'
  | [], _, _, _, h, h' => by cases h; cases h'; rfl
  | _ :: _, _, _, _, h, h' => Bounds.uniq h.2.2 h'.2.2

theorem Bounds.of {P : Nat → Option Nat → Option Nat → Prop} {a : List Ent} {lo m : Option Nat} (h : Chain P lo a m) : Bounds lo a m :=
  Chain.imp h fun _ _ _ _ _ => trivial

/-- The nodes a traversal holds: from `p` on it has still to visit their children. -/
def StackOk (s : St) (q : Query) : Option Nat → List (Nat × List Nat) → Prop
  | p, [] => beyond q p
  | p, (n, rem) :: st =>
    Live s.nodes s.fresh n ∧ (s.nodes n).lev ≠ 0 ∧
    (∃ a mid z m, (s.nodes n).es = a ++ (mid ++ z) ∧ mid.map (·.2) = rem ∧ rem ≠ [] ∧ Bounds (s.nodes n).lo a p ∧ Bounds p mid m ∧
      Gap q m (s.nodes n).hi) ∧
    ∃ e, Gap q (s.nodes n).hi e ∧ StackOk s q e st

/-- What a query may rely on at a node. -/
structure OnOk (s : St) (q : Query) (st : List (Nat × List Nat)) (n : Nat) (p : Option Nat) (out : List (Nat × Nat)) : Prop where
  live : Live s.nodes s.fresh n
  few : out.length < q.batch
  le : leB (s.nodes n).lo p
  lt : ltB p (s.nodes n).hi
  eq : (s.nodes n).lev ≠ 0 → p = (s.nodes n).lo
  leaf : (s.nodes n).lev = 0 → LeafOk p (s.nodes n).es (s.nodes n).hi
  sweep : q.sweep = true → st = [] ∧ ((s.nodes n).lev ≠ 0 → out = [] ∧ inR (s.nodes n).lo (s.nodes n).hi q.lo)
  walk : q.sweep = false → ∃ e, Gap q (s.nodes n).hi e ∧ StackOk s q e st

/-- What a query may rely on. -/
def QOk (s : St) (link : Nat → Option Nat) (tr : List Ev) (i : Nat) : QPc → Prop
  | .idle => True
  | .start q => 0 < q.batch ∧ ∃ b, Asked tr b i q
  | .on q st n out => ∃ b p, Asked tr b i q ∧ Cover tr b i q p out ∧ OnOk s q st n p out
  | .next q n z out => ∃ b, Asked tr b i q ∧ Cover tr b i q (s.nodes n).hi out ∧ Live s.nodes s.fresh n ∧ (s.nodes n).lev = 0 ∧ link n = some z ∧
      q.sweep = true ∧ out.length < q.batch
  | .loop q st out r => ∃ b p, Asked tr b i q ∧ Cover tr b i q p out ∧ StackOk s q p st ∧ q.sweep = false ∧ out.length < q.batch ∧ r ≠ .more
  | .fin out r => ∃ b q, Asked tr b i q ∧ (0 < q.batch → Done tr b i q out r)

/-- What holds in every state. -/
structure SInv (y : Sys) : Prop where
  conc : Inv y.s
  linked : Linked y.s.nodes y.s.fresh y.link
  trace : ops y.tr = y.s.tr
  mutex : ∀ i, i < y.nq → ∀ n ∈ (y.qs i).locks, y.canRead n
  qs : ∀ i, i < y.nq → QOk y.s y.link y.tr i (y.qs i)
  hist : Answered y.tr

variable {s s' : St} {q : Query}

theorem StackOk.still : ∀ {st : List (Nat × List Nat)} {p : Option Nat}, StackOk s q p st → (∀ n ∈ st.map (·.1), Still s s' n) → StackOk s' q p st
  | [], _, h, _ => h
  | (n, rem) :: st, p, ⟨h1, h2, ⟨a, mid, z, m, g1, g2, g3, g4, g5, g6⟩, e, h4, h5⟩, hs => by
    have hn := hs n (by simp)
    refine ⟨hn.live, by rw [hn.lev]; exact h2, ⟨a, mid, z, m, by rw [hn.es]; exact g1, g2, g3, by rw [hn.loEq h2]; exact g4, g5, by rw [hn.hi]; exact g6⟩,
      e, by rw [hn.hi]; exact h4, StackOk.still h5 fun x hx => hs x (by simp only [List.map_cons, List.mem_cons]; exact Or.inr hx)⟩

theorem StackOk.live : ∀ {st : List (Nat × List Nat)} {p : Option Nat}, StackOk s q p st → ∀ {n : Nat}, n ∈ st.map (·.1) → Live s.nodes s.fresh n
  | (m, rem) :: st, p, ⟨h1, _, _, e, _, h5⟩, n, hn => by
    simp only [List.map_cons, List.mem_cons] at hn
    rcases hn with rfl | hn
    · exact h1
    · exact StackOk.live h5 hn

theorem QOk.still {link link' : Nat → Option Nat} {tr : List Ev} {i : Nat} {p : QPc} (h : QOk s link tr i p) (ext : List Ev) (he : Quiet i ext)
    (hs : ∀ n ∈ p.locks, Still s s' n ∧ link' n = link n) : QOk s' link' (tr ++ ext) i p := by
  cases p with
  | idle => trivial
  | start q =>
    obtain ⟨h1, b, h2⟩ := h
    exact ⟨h1, b, h2.ext he⟩
  | on q st n out =>
    obtain ⟨b, p, h1, h2, h3⟩ := h
    have hn := (hs n (by simp [QPc.locks])).1
    have hst : ∀ x ∈ st.map (·.1), Still s s' x := fun x hx => (hs x (by simp only [QPc.locks, List.mem_cons]; exact Or.inr hx)).1
    refine ⟨b, p, h1.ext he, h2.ext ext, hn.live, h3.few, hn.lo.trans h3.le, by rw [hn.hi]; exact h3.lt, fun hl => ?_, fun hl => ?_, fun hw => ?_, fun hw => ?_⟩
    · rw [hn.lev] at hl
      rw [hn.loEq hl]
      exact h3.eq hl
    · rw [hn.lev] at hl
      rw [hn.es, hn.hi]
      exact h3.leaf hl
    · refine ⟨(h3.sweep hw).1, fun hl => ?_⟩
      rw [hn.lev] at hl
      rw [hn.loEq hl, hn.hi]
      exact (h3.sweep hw).2 hl
    · obtain ⟨e, g1, g2⟩ := h3.walk hw
      exact ⟨e, by rw [hn.hi]; exact g1, g2.still hst⟩
  | next q n z out =>
    obtain ⟨b, h1, h2, h3, h4, h5, h6, h7⟩ := h
    obtain ⟨hn, hl⟩ := hs n (by simp [QPc.locks])
    exact ⟨b, h1.ext he, by rw [hn.hi]; exact h2.ext ext, hn.live, by rw [hn.lev]; exact h4, by rw [hl]; exact h5, h6, h7⟩
  | loop q st out r =>
    obtain ⟨b, p, h1, h2, h3, h4, h5, h6⟩ := h
    exact ⟨b, p, h1.ext he, h2.ext ext, h3.still fun x hx => (hs x hx).1, h4, h5, h6⟩
  | fin out r =>
    obtain ⟨b, q, h1, h2⟩ := h
    exact ⟨b, q, h1.ext he, fun hb => (h2 hb).ext ext⟩

/-- An old answer stays right. -/
theorem Answered.old {tr : List Ev} (h : Answered tr) (ext : List Ev) {e i : Nat} {out : List (Nat × Nat)} {st : Status}
    (he : tr[e]? = some (.answer i out st)) : ∃ b q, b < e ∧ (tr ++ ext)[b]? = some (.ask i q) ∧
    (∀ j, b < j → j < e → (∀ q', (tr ++ ext)[j]? ≠ some (.ask i q')) ∧ ∀ out' st', (tr ++ ext)[j]? ≠ some (.answer i out' st')) ∧
    (0 < q.batch → Answers (tr ++ ext) b e ((q.sweep = true ∨ ∀ j, b < j → j < e → (tr ++ ext)[j]? ≠ some (.fail i)) ∧
      (q.all ∨ ∀ j, b < j → j < e → (tr ++ ext)[j]? ≠ some (.trim i))) q out st) := by
  obtain ⟨b, q, h1, h2, h3, h4⟩ := h e i out st he
  have hlt : e < tr.length := by rw [List.getElem?_eq_some_iff] at he; exact he.1
  have hg : ∀ j, j < e → (tr ++ ext)[j]? = tr[j]? := fun j hj => List.getElem?_append_left (by omega)
  refine ⟨b, q, h1, by rw [hg b h1]; exact h2, fun j hj hj' => by rw [hg j hj']; exact h3 j hj hj', fun hb => ?_⟩
  obtain ⟨a1, a2, a3, a4, at_, a5, a6⟩ := h4 hb
  refine ⟨a1, a2, a3, a4, at_, a5, fun k => ⟨(a6 k).1, (a6 k).2.1, fun hk hsp hs => ?_⟩⟩
  obtain ⟨M, hM, hv⟩ := (a6 k).2.2 hk hsp (hs.imp (fun hs => ⟨hs.1.imp id fun hs j hj hj' hf => hs j hj hj' (getElem?_old ext hf),
    hs.2.imp id fun hs j hj hj' hf => hs j hj hj' (getElem?_old ext hf)⟩) id)
  exact ⟨M, hM.ext (by have := (a6 k).2.1; omega) ext, hv⟩

theorem Answered.ext {tr : List Ev} (h : Answered tr) (ext : List Ev) (hn : ∀ e ∈ ext, ∀ i out st, e ≠ .answer i out st) : Answered (tr ++ ext) := by
  intro e i out st he
  rcases getElem?_ext he with he | he
  · exact h.old ext he
  · exact absurd rfl (hn _ he i out st)

/-- A new answer. -/
theorem Answered.answer {tr : List Ev} (h : Answered tr) {b i : Nat} {q : Query} {out : List (Nat × Nat)} {r : Status} (ha : Asked tr b i q)
    (hd : 0 < q.batch → Done tr b i q out r) : Answered (tr ++ [.answer i out r]) := by
  intro e i' out' st' he
  by_cases hlt : e < tr.length
  · rw [List.getElem?_append_left hlt] at he
    exact h.old _ he
  · have hee : e = tr.length := by
      have := (List.getElem?_eq_some_iff.1 he).1
      simp at this
      omega
    subst hee
    simp only [List.getElem?_concat_length, Option.some.injEq, Ev.answer.injEq] at he
    obtain ⟨rfl, rfl, rfl⟩ := he
    refine ⟨b, q, ha.lt, by rw [List.getElem?_append_left ha.lt]; exact ha.1, fun j hj hj' => ?_, fun hb => (hd hb).answers _⟩
    rw [List.getElem?_append_left hj']
    exact ha.2 j hj

theorem ops_append : ∀ (l l' : List Ev), ops (l ++ l') = ops l ++ ops l'
  | [], _ => rfl
  | .op _ :: l, l' => by simpa [ops] using ops_append l l'
  | .ask _ _ :: l, l' => by simpa [ops] using ops_append l l'
  | .fail _ :: l, l' => by simpa [ops] using ops_append l l'
  | .trim _ :: l, l' => by simpa [ops] using ops_append l l'
  | .answer _ _ _ :: l, l' => by simpa [ops] using ops_append l l'

theorem ops_map : ∀ (l : List HS.Conc.Ev), ops (l.map .op) = l
  | [] => rfl
  | e :: l => by simp [ops, ops_map l]

/-- What a query holds it holds shared. -/
theorem QPc.shared_of_locks {p : QPc} {n : Nat} (h : n ∈ p.locks) : p.shared = true := by
  cases p <;> first | rfl | simp [QPc.locks] at h

/-- A query holds nodes in use. -/
theorem SInv.live {y : Sys} (h : SInv y) {i : Nat} (hi : i < y.nq) {n : Nat} (hn : n ∈ (y.qs i).locks) : Live y.s.nodes y.s.fresh n := by
  have hq := h.qs i hi
  cases hp : y.qs i with
  | idle => rw [hp] at hn; simp [QPc.locks] at hn
  | start q => rw [hp] at hn; simp [QPc.locks] at hn
  | fin o r => rw [hp] at hn; simp [QPc.locks] at hn
  | next q m z out =>
    rw [hp] at hn hq
    obtain ⟨b, _, _, h3, _⟩ := hq
    simp only [QPc.locks, List.mem_singleton] at hn
    subst hn
    exact h3
  | on q st m out =>
    rw [hp] at hn hq
    obtain ⟨b, p, _, _, h3⟩ := hq
    simp only [QPc.locks, List.mem_cons] at hn
    rcases hn with rfl | hn
    · exact h3.live
    · cases hw : q.sweep with
      | true =>
        rw [(h3.sweep hw).1] at hn
        cases hn
      | false =>
        obtain ⟨e, _, g⟩ := h3.walk hw
        exact g.live hn
  | loop q st out r =>
    rw [hp] at hn hq
    obtain ⟨b, p, _, _, g, _⟩ := hq
    exact g.live hn

/-- A step of a thread. -/
theorem sinv_op {y : Sys} (h : SInv y) {t : Nat} {a : Act} (hs : step y.s t a = some s') (hh : ¬ y.held t a) : SInv (y.opStep t a s') := by
  obtain ⟨e1, e2⟩ := op_effect h.conc h.linked hs
  obtain ⟨o1, _, o3, ext, o4, _⟩ := step_others hs
  have hdrop : s'.tr.drop y.s.tr.length = ext := by rw [o4]; simp
  have hlocks : ∀ i, i < y.nq → ∀ n ∈ (y.qs i).locks, Still y.s s' n ∧ y.links t a n = y.link n := by
    intro i hi n hn
    have hlive := h.live hi hn
    have ht : t < y.s.nt := by
      unfold step at hs
      split at hs
      · assumption
      · cases hs
    refine e2 n hlive (h.mutex i hi n hn t ht) fun o ho => ?_
    refine Decidable.byContradiction fun ha => hh (Or.inr ⟨⟨o, ho⟩, ha, fun hemp => ?_⟩)
    have := hemp i hi
    rw [QPc.shared_of_locks hn] at this
    cases this
  refine ⟨inv_step h.conc hs, e1, ?_, fun i hi n hn t' ht' hm => ?_, fun i hi => ?_, ?_⟩
  · simp only [Sys.opStep]
    rw [ops_append, h.trace, ops_map, hdrop, o4]
  · simp only [Sys.opStep] at ht' hm hn hi
    rw [o1] at ht'
    by_cases he : t' = t
    · subst he
      rcases op_locks hs hm with hm | ⟨g1, g2⟩
      · exact h.mutex i hi n hn t' ht' hm
      · exact hh (Or.inl ⟨g1, n, g2, fun hu => hu i hi hn⟩)
    · rw [o3 t' he] at hm
      exact h.mutex i hi n hn t' ht' hm
  · refine (h.qs i hi).still _ ?_ (hlocks i hi)
    intro e he
    obtain ⟨e', _, rfl⟩ := List.mem_map.1 he
    exact ⟨fun _ h => (by cases h), fun _ _ h => (by cases h)⟩
  · refine h.hist.ext _ fun e he => ?_
    obtain ⟨e', _, rfl⟩ := List.mem_map.1 he
    exact fun _ _ _ h => by cases h

end HS.Scan
