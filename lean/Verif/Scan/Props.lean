import Verif.Scan.Run
import Verif.Conc.Props

/-!
# C86: range queries beside other calls
-/

namespace HS.Scan

open HS.Conc

/-! ## Runs -/

instance (y : Sys) (t : Nat) (a : Act) : Decidable (y.held t a) := by
  unfold Sys.held
  have h1 : Decidable (∃ n, y.s.awaits (y.s.pcs t) = some (n, true) ∧ ¬ y.unread n) := by
    cases h : y.s.awaits (y.s.pcs t) with
    | none => exact isFalse fun ⟨n, hn, _⟩ => by cases hn
    | some x =>
      obtain ⟨n, w⟩ := x
      cases w with
      | false => exact isFalse fun ⟨m, hm, _⟩ => by cases hm
      | true =>
        exact if hu : y.unread n then isFalse fun ⟨m, hm, hn⟩ => by cases hm; exact hn hu else isTrue ⟨n, rfl, hu⟩
  have h2 : Decidable (∃ o, y.s.pcs t = .excl o) := by
    cases y.s.pcs t with
    | excl o => exact isTrue ⟨o, rfl⟩
    | _ => exact isFalse fun ⟨o, ho⟩ => by cases ho
  exact inferInstance

/-- One step after the other. -/
def Sys.run (y : Sys) : List Move → Option Sys
  | [] => some y
  | .op t a :: l => if y.held t a then none else match step y.s t a with | some s' => (y.opStep t a s').run l | none => none
  | .query i a :: l => match y.qStep i a with | some y' => y'.run l | none => none

theorem run_reach : ∀ {l : List Move} {y z : Sys}, y.run l = some z → Sys.Reach y l z
  | [], y, z, h => by cases h; exact .nil y
  | .op t a :: l, y, z, h => by
    simp only [Sys.run] at h
    split at h
    · cases h
    · next hh =>
      split at h
      · next s' hs => exact .cons (.op hs hh) (run_reach h)
      · cases h
  | .query i a :: l, y, z, h => by
    simp only [Sys.run] at h
    split at h
    · next y' hs => exact .cons (.query hs) (run_reach h)
    · cases h

/-- Steps of threads. -/
def byOps (l : List (Nat × Act)) : List Move := l.map fun x => .op x.1 x.2

/-- A run with an answer. -/
theorem run_checked {l : List Move} {nt nq : Nat} {P : List Ev → Bool} (h : ((Sys.init nt nq).run l).any (fun y => P y.tr) = true) :
    ∃ y, Sys.Reach (Sys.init nt nq) l y ∧ P y.tr = true := by
  cases hr : (Sys.init nt nq).run l with
  | none => rw [hr] at h; cases h
  | some y =>
    rw [hr] at h
    exact ⟨y, run_reach hr, h⟩

/-! ## The map at a moment -/

/-- The calls one after the other. -/
def replay : (Nat → Option Nat) → List (Op × Res) → Nat → Option Nat
  | M, [] => M
  | M, (o, r) :: l => replay (if r = .err then M else (apply M o).1) l

theorem apply_ne_err (M : Nat → Option Nat) (o : Op) : (apply M o).2 ≠ .err := by
  cases o with
  | get k => simp [apply]
  | remove k => simp [apply]
  | put ty k v => cases ty <;> simp only [apply] <;> cases M k <;> simp

theorem Legal.replay {M M' : Nat → Option Nat} {l : List (Op × Res)} (h : Legal M l M') : M' = replay M l := by
  induction h with
  | nil => rfl
  | ok o _ ih => simp only [HS.Scan.replay, if_neg (apply_ne_err _ _)]; exact ih
  | err o _ _ ih => simp only [HS.Scan.replay, if_true]; exact ih

/-- The value of a key after the first `j` events. -/
def valueAt (tr : List Ev) (j k : Nat) : Option Nat := replay (fun _ => none) (points (ops (tr.take j))) k

theorem MapAt.value {tr : List Ev} {j : Nat} {M : Nat → Option Nat} (h : MapAt tr j M) (k : Nat) : M k = valueAt tr j k := by
  rw [Legal.replay h]
  rfl

/-! ## C86 -/

/-- C86, what holds: whatever threads put, get and remove while others query, with whatever splits and merges of nodes, each answer of a query of
either kind tells of each key what the map was at a moment between question and answer, later for greater keys, except that
keys may be missing if a node could not be read in a query of the second kind, or if a filter is used and a leaf has
more entries in the range than asked for.
Missing: the keys in these two cases, and one moment for all keys. -/
theorem C86_query_answers_partial (nt nq : Nat) (l : List Move) (y : Sys) (hr : Sys.Reach (Sys.init nt nq) l y) : Answered y.tr :=
  (sinv_reach hr (sinv_init nt nq)).hist

/-- The gets, puts and removes beside the queries are as without them: linearizable. -/
theorem C86_calls_linearizable (nt nq : Nat) (l : List Move) (y : Sys) (hr : Sys.Reach (Sys.init nt nq) l y) :
    Linearizable (fun _ => none) ((ops y.tr).filter HS.Conc.Ev.seen) := by
  have h := sinv_reach hr (sinv_init nt nq)
  obtain ⟨M, h1, _⟩ := h.conc.lin
  rw [h.trace]
  exact ⟨y.s.tr, M, rfl, fun t => by rw [h.conc.phases t]; rfl, h1⟩

theorem Page.answers {tr : List Ev} {i b e : Nat} {q : Query} {out : List (Nat × Nat)} {st : Status} (h : Answered tr) (hp : Page tr i b e q out st)
    (hb : 0 < q.batch) : Answers tr b e True q out st := by
  obtain ⟨b', q', h1, h2, h3, h4⟩ := h e i out st hp.answer
  have hbb : b' = b := by
    rcases Nat.lt_trichotomy b' b with hlt | heq | hgt
    · exact absurd hp.ask ((h3 b hlt hp.lt).1 q)
    · exact heq
    · exact absurd h2 ((hp.between b' hgt h1).1 q')
  subst hbb
  rw [hp.ask] at h2
  cases h2
  obtain ⟨a1, a2, a3, a4, at_, a5, a6⟩ := h4 hb
  exact ⟨a1, a2, a3, a4, at_, a5, fun k => ⟨(a6 k).1, (a6 k).2.1, fun hk hsp _ => (a6 k).2.2 hk hsp (Or.inl ⟨Or.inr hp.read, hp.whole⟩)⟩⟩

theorem Pages.lt {tr : List Ev} {i b e : Nat} {q : Query} {outs} (h : Pages tr i b e q outs) : b < e := by
  induction h with
  | last hp => exact hp.lt
  | more hp _ hlt _ ih => have := hp.lt; omega

theorem Query.after_has {q : Query} {k k' : Nat} (h : (q.after k).has k') : k < k' := by
  rcases h.1 with h | h
  · exact h
  · cases h.1

/-- Page after page: the entries are in order, without repetitions, and a key whose value, or whose absence, does not
change from the first question to the last answer is reported with this value if it is accepted, or not at all. -/
theorem C86_pages_partial (nt nq : Nat) (l : List Move) (y : Sys) (hr : Sys.Reach (Sys.init nt nq) l y) {i b e : Nat} {q : Query}
    {outs : List (List (Nat × Nat))} (hb : 0 < q.batch) (hp : Pages y.tr i b e q outs) :
    outs.flatten.Pairwise (fun x z => x.1 < z.1) ∧ (∀ x ∈ outs.flatten, q.has x.1) ∧
    ∀ k c, q.has k → (∀ j, b < j → j ≤ e → ∀ M, MapAt y.tr j M → M k = c) →
      ∀ v, (k, v) ∈ outs.flatten ↔ c = some v ∧ q.keep k v = true := by
  have hans := C86_query_answers_partial nt nq l y hr
  induction hp with
  | last hp =>
    obtain ⟨a1, a2, a3, a4, at_, a5, a6⟩ := Page.answers hans hp hb
    simp only [List.flatten_cons, List.flatten_nil, List.append_nil]
    refine ⟨a1, fun x hx => (a2 x hx).1, fun k c hk hc v => ?_⟩
    obtain ⟨M, hM, hv⟩ := (a6 k).2.2 hk trivial (Or.inl trivial)
    have := hc _ (a6 k).1 (a6 k).2.1 M hM
    rw [← said_mem a1, ← hv, this, Option.filter_eq_some_iff]
  | @more b e q out kl vl b' e' outs hp hl hlt hps ih =>
    obtain ⟨a1, a2, a3, a4, at_, a5, a6⟩ := Page.answers hans hp hb
    obtain ⟨i1, i2, i3⟩ := ih hb
    have hin : (kl, vl) ∈ out := List.mem_of_getLast? hl
    have hle : ∀ x ∈ out, x.1 ≤ kl := by
      intro x hx
      have hne : out ≠ [] := by rintro rfl; cases hx
      rw [List.getLast?_eq_some_getLast hne, Option.some.injEq] at hl
      rw [← List.dropLast_concat_getLast hne, hl] at hx a1
      rcases List.mem_append.1 hx with hx | hx
      · exact Nat.le_of_lt ((List.pairwise_append.1 a1).2.2 x hx _ (List.mem_singleton.2 rfl))
      · rw [List.mem_singleton.1 hx]
        exact Nat.le_refl _
    have hgt : ∀ x ∈ outs.flatten, kl < x.1 := fun x hx => Query.after_has (i2 x hx)
    have hee := hps.lt
    have hbe := hp.lt
    simp only [List.flatten_cons]
    refine ⟨List.pairwise_append.2 ⟨a1, i1, fun x hx z hz => ?_⟩, fun x hx => ?_, fun k c hk hc v => ?_⟩
    · have := hle x hx
      have := hgt z hz
      omega
    · rcases List.mem_append.1 hx with hx | hx
      · exact (a2 x hx).1
      · obtain ⟨h1, h2⟩ := i2 x hx
        refine ⟨Or.inl ?_, h2⟩
        have h3 := Query.le_has (a2 _ hin).1
        have h4 := hgt x hx
        simp only at h3
        omega
    · rw [List.mem_append]
      by_cases hkl : k ≤ kl
      · obtain ⟨M, hM, hv⟩ := (a6 k).2.2 hk ⟨(kl, vl), hin, hkl⟩ (Or.inl trivial)
        have := hc _ (a6 k).1 (by have := (a6 k).2.1; omega) M hM
        have hno : (k, v) ∉ outs.flatten := fun hm => by
          have := hgt _ hm
          simp only at this
          omega
        rw [or_iff_left hno, ← said_mem a1, ← hv, this, Option.filter_eq_some_iff]
      · have hno : (k, v) ∉ out := fun hm => hkl (hle _ hm)
        rw [or_iff_right hno]
        refine i3 k c ⟨Or.inl (by simp only [Query.after]; omega), hk.2⟩ (fun j hj hj' => hc j (by omega) hj') v

/-! ## Runs of queries -/

/-- All keys up to 9. -/
def wide (batch : Nat) (sweep : Bool) (keep : Nat → Nat → Bool) : Query :=
  { lo := 0, loIncl := true, hi := 9, hiIncl := true, batch := batch, keep := keep, sweep := sweep }

/-- Four keys in a leaf that is the root. -/
def four : List Move := byOps (setAt 0 1 10 ++ setAt 0 2 20 ++ setAt 0 3 30 ++ setAt 0 4 40)

/-- The root is split, and a fifth key set: leaves with 1, 2 and 3, 4, 5. -/
def five : List Move := four ++ byOps
  [(0, .call (.put .insert 5 50)), (0, .lockRoot), (0, .rootChange), (0, .rootSplit 2), (0, .reenter false), (0, .lockRoot), (0, .child),
    (0, .descend), (0, .leaf), (0, .ret)]

/-- The right leaf is split, and a sixth key set: leaves with 1, 2; 3; 4, 5, 6. -/
def six : List Move := five ++ byOps
  [(0, .call (.put .insert 6 60)), (0, .lockRoot), (0, .child), (0, .upgrade), (0, .lockParent), (0, .lockChild), (0, .split 1), (0, .child),
    (0, .descend), (0, .leaf), (0, .ret)]

/-- A key is set in a tree with leaves below the root. -/
def setBelow (k v : Nat) : List Move := byOps
  [(0, .call (.put .upsert k v)), (0, .lockRoot), (0, .child), (0, .descend), (0, .leaf), (0, .ret)]

/-- A query in pages of three, beside a put of a key that was passed. -/
def paged : List Move := six ++
  [.query 0 (.ask (wide 3 true fun _ _ => true)), .query 0 .lockRoot, .query 0 .down, .query 0 .read, .query 0 .follow] ++ setBelow 0 5 ++
  [.query 0 .read, .query 0 .answer, .query 0 (.ask ((wide 3 true fun _ _ => true).after 3)), .query 0 .lockRoot, .query 0 .down, .query 0 .read,
    .query 0 .follow, .query 0 .read, .query 0 .answer] ++ setBelow 7 70 ++
  [.query 0 (.ask ((wide 3 true fun _ _ => true).after 6)), .query 0 .lockRoot, .query 0 .down, .query 0 .read, .query 0 .answer]

/-- The answers. -/
def answers : List Ev → List (List (Nat × Nat) × Status)
  | [] => []
  | .answer _ out st :: l => (out, st) :: answers l
  | _ :: l => answers l

/-- What the run of pages answers. -/
example : ((Sys.init 1 1).run paged).map (fun y => answers y.tr) =
    some [([(1, 10), (2, 20), (3, 30)], .more), ([(4, 40), (5, 50), (6, 60)], .more), ([(7, 70)], .success)] := by decide +kernel

/-- What happens in a put. -/
def put3 (ty : PutType) (k v : Nat) : List Ev :=
  [.op (.call 0 (.put ty k v)), .op (.point 0 (.put ty k v) (.ok none)), .op (.ret 0 (.ok none))]

/-- What happens in `four`. -/
def fourTr : List Ev := put3 .upsert 1 10 ++ put3 .upsert 2 20 ++ put3 .upsert 3 30 ++ put3 .upsert 4 40

/-- What happens in `six`. -/
def sixTr : List Ev := fourTr ++ put3 .insert 5 50 ++ put3 .insert 6 60

/-- What happens in `paged`. -/
def pagedTr : List Ev :=
  let q := wide 3 true fun _ _ => true
  sixTr ++ [.ask 0 q] ++ put3 .upsert 0 5 ++ [.answer 0 [(1, 10), (2, 20), (3, 30)] .more, .ask 0 (q.after 3),
    .answer 0 [(4, 40), (5, 50), (6, 60)] .more] ++ put3 .upsert 7 70 ++ [.ask 0 (q.after 6), .answer 0 [(7, 70)] .success]

theorem trace_of {l : List Move} {nt nq : Nat} {tr : List Ev} (h : ((Sys.init nt nq).run l).map (·.tr) = some tr) :
    ∃ y, Sys.Reach (Sys.init nt nq) l y ∧ y.tr = tr := by
  cases hr : (Sys.init nt nq).run l with
  | none => rw [hr] at h; cases h
  | some y =>
    rw [hr] at h
    cases h
    exact ⟨y, run_reach hr, rfl⟩

/-- `C86_pages_partial` is about such runs: three pages, two of them while keys are put; the keys 1 to 6 do not change. -/
example : ∃ y, Sys.Reach (Sys.init 1 1) paged y ∧
    Pages y.tr 0 18 29 (wide 3 true fun _ _ => true) [[(1, 10), (2, 20), (3, 30)], [(4, 40), (5, 50), (6, 60)], [(7, 70)]] ∧
    ∀ j, 18 < j → j ≤ 29 → ∀ M, MapAt y.tr j M → M 4 = some 40 := by
  obtain ⟨y, hy, ht⟩ := trace_of (show ((Sys.init 1 1).run paged).map (·.tr) = some pagedTr from rfl)
  refine ⟨y, hy, ?_, ?_⟩
  · rw [ht]
    have hp : ∀ {b e q out st}, b < e → pagedTr[b]? = some (.ask 0 q) → pagedTr[e]? = some (.answer 0 out st) → q.all →
        (∀ j, j < e → b < j → ((pagedTr[j]?).map fun x => match x with | .op _ => true | _ => false) = some true) → Page pagedTr 0 b e q out st := by
      intro b e q out st h1 h2 h3 h4 h5
      refine ⟨h1, h2, h3, fun j hj hj' => ⟨fun q' h => ?_, fun o' s' h => ?_⟩, fun j hj hj' h => ?_, Or.inl h4⟩ <;>
      · have := h5 j hj' hj
        rw [h] at this
        cases this
    refine .more (hp (e := 22) (by decide) rfl rfl (fun _ _ => rfl) (by decide)) rfl (b' := 23) (by decide) ?_
    refine .more (hp (e := 24) (by decide) rfl rfl (fun _ _ => rfl) (by decide)) rfl (b' := 28) (by decide) ?_
    exact .last (hp (e := 29) (by decide) rfl rfl (fun _ _ => rfl) (by decide))
  · intro j h1 h2 M hM
    rw [ht] at hM
    rw [hM.value]
    exact (by decide : ∀ j ≤ 29, 18 < j → valueAt pagedTr j 4 = some 40) j h2 h1

/-! ## What does not hold -/

/-- Two of the even keys, of a leaf with 1, 2, 3, 4. -/
def filtered : List Move := four ++
  [.query 0 (.ask (wide 2 true fun k _ => k % 2 == 0)), .query 0 .lockRoot, .query 0 .read, .query 0 .answer]

/-- With a filter, entries the filter accepts are missing from an answer that says there is nothing more: a leaf
returns those of its first entries that are accepted, as many entries as are still wanted, not as many accepted ones. -/
theorem C86_filter_violated : ∃ (l : List Move) (y : Sys) (b e : Nat) (q : Query) (out : List (Nat × Nat)) (k v : Nat),
    Sys.Reach (Sys.init 1 1) l y ∧ b < e ∧ y.tr[b]? = some (.ask 0 q) ∧ y.tr[e]? = some (.answer 0 out .success) ∧
    (∀ j : Nat, y.tr[j]? ≠ some (.fail 0)) ∧ q.has k ∧ q.keep k v = true ∧
    (∀ j, b < j → j ≤ e → ∀ M, MapAt y.tr j M → M k = some v) ∧ out.length < q.batch ∧ said out k = none := by
  obtain ⟨y, hy, ht⟩ := trace_of (show ((Sys.init 1 1).run filtered).map (·.tr) =
    some (fourTr ++ [.ask 0 (wide 2 true fun k _ => k % 2 == 0), .trim 0, .answer 0 [(2, 20)] .success]) from rfl)
  refine ⟨filtered, y, 12, 14, wide 2 true fun k _ => k % 2 == 0, [(2, 20)], 4, 40, hy, by decide, ?_, ?_, ?_, ?_⟩
  · rw [ht]; rfl
  · rw [ht]; rfl
  · intro j h
    have := List.mem_of_getElem? h
    rw [ht] at this
    simp [fourTr, put3] at this
  · refine ⟨by decide, by decide, fun j h1 h2 M hM => ?_, by decide, by decide⟩
    rw [ht] at hM
    rw [hM.value]
    have : j = 13 ∨ j = 14 := by omega
    rcases this with rfl | rfl <;> rfl

/-- The root is split a second time: two nodes below it, with one leaf each. -/
def three : List Move := five ++ byOps
  [(0, .call (.put .insert 6 60)), (0, .lockRoot), (0, .rootChange), (0, .rootSplit 1), (0, .reenter false), (0, .lockRoot), (0, .child),
    (0, .descend), (0, .child), (0, .descend), (0, .leaf), (0, .ret)]

/-- A query from parent to child; the first leaf cannot be read. -/
def unreadable : List Move := three ++
  [.query 0 (.ask (wide 9 false fun _ _ => true)), .query 0 .lockRoot, .query 0 .enter, .query 0 .visit, .query 0 .enter, .query 0 .fail,
    .query 0 .visit, .query 0 .enter, .query 0 .visit, .query 0 .read, .query 0 .done, .query 0 .answer]

/-- A query from parent to child that cannot read a node goes on with the next node above, and says that it succeeded and that
there is nothing more, although entries are missing. -/
theorem C86_unreadable_violated : ∃ (l : List Move) (y : Sys) (b e : Nat) (q : Query) (out : List (Nat × Nat)) (k v : Nat),
    Sys.Reach (Sys.init 1 1) l y ∧ b < e ∧ y.tr[b]? = some (.ask 0 q) ∧ y.tr[e]? = some (.answer 0 out .success) ∧
    q.all ∧ q.has k ∧ (∀ j, b < j → j ≤ e → ∀ M, MapAt y.tr j M → M k = some v) ∧ out.length < q.batch ∧ said out k = none := by
  obtain ⟨y, hy, ht⟩ := trace_of (show ((Sys.init 1 1).run unreadable).map (·.tr) =
    some (sixTr ++ [.ask 0 (wide 9 false fun _ _ => true), .fail 0, .answer 0 [(3, 30), (4, 40), (5, 50), (6, 60)] .success]) from rfl)
  refine ⟨unreadable, y, 18, 20, wide 9 false fun _ _ => true, [(3, 30), (4, 40), (5, 50), (6, 60)], 1, 10, hy, by decide, ?_, ?_, fun _ _ => rfl, by decide, ?_, by decide, by decide⟩
  · rw [ht]; rfl
  · rw [ht]; rfl
  · intro j h1 h2 M hM
    rw [ht] at hM
    rw [hM.value]
    have : j = 19 ∨ j = 20 := by omega
    rcases this with rfl | rfl <;> rfl

/-- While a query is in the second of three leaves, keys are put into the first leaf and then into the third. -/
def passed : List Move := six ++
  [.query 0 (.ask (wide 9 true fun _ _ => true)), .query 0 .lockRoot, .query 0 .down, .query 0 .read, .query 0 .follow] ++
  setBelow 0 5 ++ setBelow 7 70 ++ [.query 0 .read, .query 0 .follow, .query 0 .read, .query 0 .answer]

/-- A query is not a picture of one moment: without filter and errors, an answer may be different from the map at
every moment. -/
theorem C86_snapshot_violated : ∃ (l : List Move) (y : Sys) (b e : Nat) (q : Query) (out : List (Nat × Nat)),
    Sys.Reach (Sys.init 1 1) l y ∧ b < e ∧ y.tr[b]? = some (.ask 0 q) ∧ y.tr[e]? = some (.answer 0 out .success) ∧
    q.all ∧ (∀ j : Nat, y.tr[j]? ≠ some (.fail 0)) ∧ out.length < q.batch ∧
    ∀ j, b < j → j ≤ e → ∀ M, MapAt y.tr j M → ∃ k, q.has k ∧ M k ≠ said out k := by
  obtain ⟨y, hy, ht⟩ := trace_of (show ((Sys.init 1 1).run passed).map (·.tr) =
    some (sixTr ++ [.ask 0 (wide 9 true fun _ _ => true)] ++ put3 .upsert 0 5 ++ put3 .upsert 7 70 ++
      [.answer 0 [(1, 10), (2, 20), (3, 30), (4, 40), (5, 50), (6, 60), (7, 70)] .success]) from rfl)
  refine ⟨passed, y, 18, 25, wide 9 true fun _ _ => true, [(1, 10), (2, 20), (3, 30), (4, 40), (5, 50), (6, 60), (7, 70)], hy, by decide, ?_, ?_, fun _ _ => rfl, ?_, by decide, ?_⟩
  · rw [ht]; rfl
  · rw [ht]; rfl
  · intro j h
    have := List.mem_of_getElem? h
    rw [ht] at this
    simp [sixTr, fourTr, put3] at this
  · intro j h1 h2 M hM
    rw [ht] at hM
    by_cases hj : j < 24
    · refine ⟨7, by decide, ?_⟩
      rw [hM.value]
      have : j = 19 ∨ j = 20 ∨ j = 21 ∨ j = 22 ∨ j = 23 := by omega
      rcases this with rfl | rfl | rfl | rfl | rfl <;> decide
    · refine ⟨0, by decide, ?_⟩
      rw [hM.value]
      have : j = 24 ∨ j = 25 := by omega
      rcases this with rfl | rfl <;> decide

end HS.Scan
