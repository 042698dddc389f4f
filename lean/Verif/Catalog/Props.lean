import Verif.Catalog.Model
/-!
# C115: every index is found again by its names, and no two share them

Under proper use, a table that was added is found by its uuid and by its number until it is removed, indexes on disk have different names, and a restart finds every index on
disk by both names.  The witnesses show what happens otherwise.
-/
namespace HS.Catalog

structure Inv (s : St) : Prop where
  lt : ∀ e ∈ s.disk, e.1 < s.next
  fn : ∀ e ∈ s.disk, ∀ e' ∈ s.disk, e.1 = e'.1 → e = e'
  apart : s.Apart
  tabd : ∀ t tb, s.tab t = some tb → s.gone t = false → (t, tb) ∈ s.disk
  tlt : ∀ t tb, s.tab t = some tb → t < s.next
  gtab : ∀ t, s.gone t = true → (s.tab t).isSome = true
  add : ∀ t, s.added t = true → ∃ tb, s.tab t = some tb ∧ s.gone t = false ∧ s.reserved tb.ord = true ∧ s.Finds t tb
  uu : ∀ u t, s.byUuid u = some t → s.added t = true ∧ ∃ tb, s.tab t = some tb ∧ tb.uuid = u
  oo : ∀ o t, s.byOrd o = some t → s.added t = true ∧ ∃ tb, s.tab t = some tb ∧ tb.ord = o
  ub : s.ub = false

theorem inv_init : Inv St.init := by
  constructor <;> simp [St.init, St.Apart]

theorem inv_construct {s u o ok} (h : Inv s) (hu : ∀ e ∈ s.disk, e.2.uuid ≠ u) (ht : s.AllTaken) (ho : s.reserved o = false) : Inv (s.construct u o ok) := by
  have hno : ∀ e ∈ s.disk, e.2.ord ≠ o := by
    intro e he eo
    have := ht e he
    rw [eo, ho] at this
    simp at this
  have hn : s.tab s.next = none := by
    cases e : s.tab s.next with
    | none => rfl
    | some tb => exact absurd (h.tlt _ _ e) (Nat.lt_irrefl _)
  have hg : s.gone s.next = false := by
    cases e : s.gone s.next with
    | false => rfl
    | true => have := h.gtab _ e; rw [hn] at this; simp at this
  have ktab : ∀ t tb, s.tab t = some tb → (s.construct u o ok).tab t = some tb := by
    intro t tb e
    have : t ≠ s.next := Nat.ne_of_lt (h.tlt _ _ e)
    simp only [St.construct]
    split
    · simp [upd, this, e]
    · exact e
  refine ⟨?_, ?_, ?_, ?_, ?_, ?_, ?_, ?_, ?_, h.ub⟩
  · intro e he
    simp only [St.construct, List.mem_append, List.mem_singleton] at he ⊢
    rcases he with he | he
    · exact Nat.lt_succ_of_lt (h.lt e he)
    · subst he; exact Nat.lt_succ_self _
  · intro e he e' he' q
    simp only [St.construct, List.mem_append, List.mem_singleton] at he he'
    rcases he with he | he <;> rcases he' with he' | he'
    · exact h.fn e he e' he' q
    · subst he'; have := h.lt e he; simp only at q; omega
    · subst he; have := h.lt e' he'; simp only at q; omega
    · rw [he, he']
  · intro e he e' he' q
    simp only [St.construct, List.mem_append, List.mem_singleton] at he he'
    rcases he with he | he <;> rcases he' with he' | he'
    · exact h.apart e he e' he' q
    · subst he'; exact ⟨hu e he, hno e he⟩
    · subst he; exact ⟨Ne.symm (hu e' he'), Ne.symm (hno e' he')⟩
    · subst he he'; exact absurd rfl q
  · intro t tb e hgo
    simp only [St.construct, List.mem_append, List.mem_singleton] at e hgo ⊢
    split at e
    · simp only [upd] at e
      split at e
      · rename_i q; subst q; simp only [Option.some.injEq] at e; subst e; exact Or.inr rfl
      · exact Or.inl (h.tabd t tb e hgo)
    · exact Or.inl (h.tabd t tb e hgo)
  · intro t tb e
    simp only [St.construct] at e ⊢
    split at e
    · simp only [upd] at e
      split at e
      · rename_i q; omega
      · exact Nat.lt_succ_of_lt (h.tlt t tb e)
    · exact Nat.lt_succ_of_lt (h.tlt t tb e)
  · intro t e
    have := h.gtab t e
    obtain ⟨tb, q⟩ := Option.isSome_iff_exists.1 this
    rw [ktab t tb q]; rfl
  · intro t e
    obtain ⟨tb, q1, q2, q3, q4⟩ := h.add t e
    refine ⟨tb, ktab t tb q1, q2, ?_, q4⟩
    simp only [St.construct, upd]; split <;> simp [q3]
  · intro x t e
    obtain ⟨q, tb, q1, q2⟩ := h.uu x t e
    exact ⟨q, tb, ktab t tb q1, q2⟩
  · intro x t e
    obtain ⟨q, tb, q1, q2⟩ := h.oo x t e
    exact ⟨q, tb, ktab t tb q1, q2⟩

theorem inv_add {s t tb} (h : Inv s) (ht : s.tab t = some tb) (hg : s.gone t = false) (hr : s.reserved tb.ord = true) : Inv (s.add t tb) := by
  have hd := h.tabd t tb ht hg
  have only : ∀ t' tb', s.added t' = true → s.tab t' = some tb' → (tb'.uuid = tb.uuid ∨ tb'.ord = tb.ord) → t' = t := by
    intro t' tb' ha e q
    obtain ⟨tb2, e2, g2, _, _⟩ := h.add t' ha
    have hd' := h.tabd t' tb' e g2
    rcases Nat.decEq t' t with ne | eq
    · have := h.apart _ hd' _ hd ne
      rcases q with q | q
      · exact absurd q this.1
      · exact absurd q this.2
    · exact eq
  have ku : (ins s.byUuid tb.uuid t) tb.uuid = some t := by
    simp only [ins, if_true]
    cases e : s.byUuid tb.uuid with
    | none => rfl
    | some t' =>
      obtain ⟨q, tb', q1, q2⟩ := h.uu _ _ e
      rw [only t' tb' q q1 (Or.inl q2)]; rfl
  have ko : (ins s.byOrd tb.ord t) tb.ord = some t := by
    simp only [ins, if_true]
    cases e : s.byOrd tb.ord with
    | none => rfl
    | some t' =>
      obtain ⟨q, tb', q1, q2⟩ := h.oo _ _ e
      rw [only t' tb' q q1 (Or.inr q2)]; rfl
  refine ⟨h.lt, h.fn, h.apart, h.tabd, h.tlt, h.gtab, ?_, ?_, ?_, h.ub⟩
  · intro x e
    simp only [St.add, upd] at e
    split at e
    · rename_i q; subst q
      exact ⟨tb, ht, hg, hr, ku, ko⟩
    · obtain ⟨tb', q1, q2, q3, q4, q5⟩ := h.add x e
      refine ⟨tb', q1, q2, q3, ?_, ?_⟩
      · simp only [St.add, ins]; split <;> simp [q4]
      · simp only [St.add, ins]; split <;> simp [q5]
  · intro x t' e
    simp only [St.add, ins] at e ⊢
    by_cases q : x = tb.uuid
    · subst q
      have : some t' = some t := by rw [← ku]; simpa only [ins] using e.symm
      simp only [Option.some.injEq] at this; subst this
      exact ⟨by simp [upd], tb, ht, rfl⟩
    · rw [if_neg q] at e
      obtain ⟨q1, q2⟩ := h.uu x t' e
      exact ⟨by simp only [upd]; split <;> simp [q1], q2⟩
  · intro x t' e
    simp only [St.add, ins] at e ⊢
    by_cases q : x = tb.ord
    · subst q
      have : some t' = some t := by rw [← ko]; simpa only [ins] using e.symm
      simp only [Option.some.injEq] at this; subst this
      exact ⟨by simp [upd], tb, ht, rfl⟩
    · rw [if_neg q] at e
      obtain ⟨q1, q2⟩ := h.oo x t' e
      exact ⟨by simp only [upd]; split <;> simp [q1], q2⟩

theorem inv_remove {s t tb} (h : Inv s) (ht : s.tab t = some tb) (hg : s.gone t = false) : Inv (s.remove t tb).1 := by
  have hd := h.tabd t tb ht hg
  simp only [St.remove, hg, Bool.false_eq_true, if_false]
  split
  · exact h
  · have other : ∀ x tb', x ≠ t → s.added x = true → s.tab x = some tb' → tb'.uuid ≠ tb.uuid ∧ tb'.ord ≠ tb.ord := by
      intro x tb' ne ha e
      obtain ⟨tb2, e2, g2, _, _⟩ := h.add x ha
      exact h.apart _ (h.tabd x tb' e g2) _ hd ne
    refine ⟨h.lt, h.fn, h.apart, h.tabd, h.tlt, h.gtab, ?_, ?_, ?_, h.ub⟩
    · intro x e
      simp only [upd] at e
      split at e
      · simp at e
      · rename_i ne
        obtain ⟨tb', q1, q2, q3, q4, q5⟩ := h.add x e
        obtain ⟨o1, o2⟩ := other x tb' ne e q1
        exact ⟨tb', q1, q2, by simp [upd, o2, q3], by simp [upd, o1, q4], by simp [upd, o2, q5]⟩
    · intro u x e
      simp only [upd] at e
      split at e
      · simp at e
      · rename_i ne
        obtain ⟨q, tb', q1, q2⟩ := h.uu u x e
        refine ⟨?_, tb', q1, q2⟩
        have : x ≠ t := by intro q'; subst q'; rw [ht] at q1; simp only [Option.some.injEq] at q1; subst q1; exact ne q2.symm
        simp [upd, this, q]
    · intro u x e
      simp only [upd] at e
      split at e
      · simp at e
      · rename_i ne
        obtain ⟨q, tb', q1, q2⟩ := h.oo u x e
        refine ⟨?_, tb', q1, q2⟩
        have : x ≠ t := by intro q'; subst q'; rw [ht] at q1; simp only [Option.some.injEq] at q1; subst q1; exact ne q2.symm
        simp [upd, this, q]

/-! ## Restarts -/

theorem found_disk (s : St) (e : Nat × Tbl) : (s.found e).disk = s.disk ∧ (s.found e).next = s.next := ⟨rfl, rfl⟩

theorem inv_found {s e} (h : Inv s) (he : e ∈ s.disk) (hg : ∀ t, s.gone t = false) : Inv (s.found e) ∧ (∀ t, (s.found e).gone t = false) := by
  refine ⟨?_, hg⟩
  let s1 : St := { s with tab := upd s.tab e.1 (some e.2), reserved := upd s.reserved e.2.ord true }
  have keep : ∀ t tb, s.tab t = some tb → s1.tab t = some tb := by
    intro t tb q
    simp only [s1, upd]
    split
    · rename_i q'
      have := h.fn _ (h.tabd t tb q (hg t)) _ he q'
      rw [← this]
    · exact q
  have h1 : Inv s1 := by
    refine ⟨h.lt, h.fn, h.apart, ?_, ?_, ?_, ?_, ?_, ?_, h.ub⟩
    · intro t tb q _
      simp only [s1, upd] at q
      split at q
      · rename_i q'; simp only [Option.some.injEq] at q; subst q; subst q'; exact he
      · exact h.tabd t tb q (hg t)
    · intro t tb q
      simp only [s1, upd] at q
      split at q
      · rename_i q'; subst q'; exact h.lt e he
      · exact h.tlt t tb q
    · intro t q; have := hg t; simp only [s1] at q; rw [this] at q; simp at q
    · intro t q
      obtain ⟨tb, q1, q2, q3, q4⟩ := h.add t q
      exact ⟨tb, keep t tb q1, q2, by simp only [s1, upd]; split <;> simp [q3], q4⟩
    · intro u t q
      obtain ⟨q0, tb, q1, q2⟩ := h.uu u t q
      exact ⟨q0, tb, keep t tb q1, q2⟩
    · intro u t q
      obtain ⟨q0, tb, q1, q2⟩ := h.oo u t q
      exact ⟨q0, tb, keep t tb q1, q2⟩
  exact inv_add h1 (by simp [s1, upd]) (hg _) (by simp [s1, upd])

theorem inv_load : ∀ (l : List (Nat × Tbl)) (s : St), Inv s → (∀ e ∈ l, e ∈ s.disk) → (∀ t, s.gone t = false) →
    Inv (l.foldl St.found s) ∧ (l.foldl St.found s).disk = s.disk ∧ (∀ t, s.added t = true → (l.foldl St.found s).added t = true) ∧
    (∀ e ∈ l, (l.foldl St.found s).added e.1 = true) ∧ (∀ t, (l.foldl St.found s).gone t = false)
  | [], s, h, _, hg => ⟨h, rfl, fun _ q => q, by simp, hg⟩
  | e :: l, s, h, hl, hg => by
    obtain ⟨h1, h2⟩ := inv_found h (hl e (by simp)) hg
    obtain ⟨k1, k2, k3, k4, k5⟩ := inv_load l (s.found e) h1 (fun x hx => hl x (by simp [hx])) h2
    refine ⟨k1, k2, fun t q => k3 t ?_, fun x hx => ?_, k5⟩
    · simp only [St.found, St.add, upd]; split <;> simp [q]
    · rcases List.mem_cons.1 hx with q | q
      · subst q; exact k3 _ (by simp [St.found, St.add, upd])
      · exact k4 x q

theorem inv_restart {s l} (h : Inv s) (hl : l.Perm s.disk) : Inv (s.restart l) ∧ (s.restart l).disk = s.disk ∧ ∀ e ∈ s.disk, (s.restart l).added e.1 = true := by
  have h0 : Inv { St.init with next := s.next, disk := s.disk } := by
    refine ⟨h.lt, h.fn, h.apart, ?_, ?_, ?_, ?_, ?_, ?_, rfl⟩ <;> simp [St.init]
  obtain ⟨k1, k2, _, k4, _⟩ := inv_load l _ h0 (fun e he => hl.mem_iff.1 he) (fun _ => rfl)
  exact ⟨k1, k2, fun e he => k4 e (hl.mem_iff.2 he)⟩

theorem inv_step {s op s'} (h : Inv s) (hp : Proper s op) (hs : step s op = some s') : Inv s' := by
  cases op with
  | create u o ok =>
    simp only [step] at hs
    split at hs
    · simp at hs
    · rename_i hr
      simp only [Option.some.injEq] at hs; subst hs
      exact inv_construct h hp.1 hp.2 (by simpa using hr)
  | createAt u o ok =>
    simp only [step, Option.some.injEq] at hs; subst hs
    exact inv_construct h hp.1 hp.2.1 hp.2.2
  | add t =>
    simp only [step] at hs
    obtain ⟨tb, e1, e2⟩ := Option.map_eq_some_iff.1 hs
    rw [hp.1] at e2
    simp only [Bool.false_eq_true, if_false] at e2
    subst e2
    exact inv_add h e1 hp.1 (hp.2 tb e1)
  | remove t =>
    simp only [step] at hs
    obtain ⟨tb, e1, e2⟩ := Option.map_eq_some_iff.1 hs
    subst e2
    exact inv_remove h e1 hp
  | destroy t =>
    simp only [step] at hs
    split at hs
    · rename_i tb ht
      split at hs
      · simp at hs
      · rename_i hg
        simp only [Option.some.injEq] at hs; subst hs
        simp only [Proper] at hp
        refine ⟨?_, ?_, ?_, ?_, h.tlt, ?_, ?_, h.uu, h.oo, h.ub⟩
        · intro e he; exact h.lt e (List.mem_filter.1 he).1
        · intro e he e' he'; exact h.fn e (List.mem_filter.1 he).1 e' (List.mem_filter.1 he').1
        · intro e he e' he'; exact h.apart e (List.mem_filter.1 he).1 e' (List.mem_filter.1 he').1
        · intro x tb' q1 q2
          simp only [upd] at q2
          split at q2
          · simp at q2
          · rename_i ne
            exact List.mem_filter.2 ⟨h.tabd x tb' q1 q2, by simp [ne]⟩
        · intro x q
          simp only [upd] at q
          split at q
          · rename_i q'; subst q'; simp [ht]
          · exact h.gtab x q
        · intro x q
          obtain ⟨tb', q1, q2, q3, q4⟩ := h.add x q
          have : x ≠ t := by intro q'; subst q'; simp only at q; rw [hp] at q; simp at q
          exact ⟨tb', q1, by simp [upd, this, q2], q3, q4⟩
    · simp at hs
  | restart l =>
    simp only [step] at hs
    split at hs
    · rename_i hl
      simp only [Option.some.injEq] at hs; subst hs
      exact (inv_restart h hl).1
    · simp at hs

theorem inv_reach {s} (h : Reach Proper s) : Inv s := by
  induction h with
  | init => exact inv_init
  | step _ hp hs ih => exact inv_step ih hp hs

/-! ## Theorems -/

/-- **C115** (partial: `Proper`), while running: no two indexes on disk share a name; a table that was added is found by both of its names until it is removed; what is found by
a name has that name and was added; nothing reads a superblock that is gone. -/
theorem C115_found_partial {s} (h : Reach Proper s) :
    s.Apart ∧ (∀ t, s.added t = true → ∃ tb, s.tab t = some tb ∧ (t, tb) ∈ s.disk ∧ s.Finds t tb) ∧
    (∀ u t, s.byUuid u = some t → s.added t = true ∧ ∃ tb, s.tab t = some tb ∧ tb.uuid = u) ∧
    (∀ o t, s.byOrd o = some t → s.added t = true ∧ ∃ tb, s.tab t = some tb ∧ tb.ord = o) ∧ s.ub = false := by
  have hi := inv_reach h
  refine ⟨hi.apart, fun t q => ?_, hi.uu, hi.oo, hi.ub⟩
  obtain ⟨tb, q1, q2, _, q4⟩ := hi.add t q
  exact ⟨tb, q1, hi.tabd t tb q1 q2, q4⟩

/-- **C115** (partial: `Proper`), restarts: whatever the order in which the superblocks are found, every index on disk is found by both of its names, and nothing else is. -/
theorem C115_restart_partial {s l} (h : Reach Proper s) (hl : l.Perm s.disk) :
    ∃ s', step s (.restart l) = some s' ∧ s'.disk = s.disk ∧ (∀ e ∈ s.disk, s'.tab e.1 = some e.2 ∧ s'.Finds e.1 e.2) ∧
      (∀ n t, s'.byUuid n = some t ∨ s'.byOrd n = some t → ∃ tb, (t, tb) ∈ s.disk) := by
  have hi := inv_reach h
  obtain ⟨k1, k2, k3⟩ := inv_restart hi hl
  refine ⟨s.restart l, by simp [step, hl], k2, fun e he => ?_, ?_⟩
  · obtain ⟨tb, q1, q2, _, q4⟩ := k1.add e.1 (k3 e he)
    have hd := k1.tabd _ _ q1 q2
    rw [k2] at hd
    have := hi.fn _ hd _ he rfl
    have e2 : tb = e.2 := by rw [← this]
    subst e2
    exact ⟨q1, q4⟩
  · intro n t q
    have ha : (s.restart l).added t = true := by
      rcases q with q | q
      · exact (k1.uu n t q).1
      · exact (k1.oo n t q).1
    obtain ⟨tb, q1, q2, _, _⟩ := k1.add t ha
    exact ⟨tb, by rw [← k2]; exact k1.tabd t tb q1 q2⟩

/-- **C115** (partial: `Proper`): a table that was added can be removed, after which neither of its names finds anything and its number can be given again, while every other table that was added is found as before. -/
theorem C115_removed_partial {s t tb} (h : Reach Proper s) (ha : s.added t = true) (ht : s.tab t = some tb) :
    (s.remove t tb).2 = true ∧ (s.remove t tb).1.byUuid tb.uuid = none ∧ (s.remove t tb).1.byOrd tb.ord = none ∧ (s.remove t tb).1.reserved tb.ord = false ∧
    ∀ x tx, x ≠ t → s.added x = true → s.tab x = some tx → (s.remove t tb).1.Finds x tx := by
  have hi := inv_reach h
  obtain ⟨tb', q1, q2, q3, q4⟩ := hi.add t ha
  rw [ht] at q1; simp only [Option.some.injEq] at q1; subst q1
  have hr := inv_remove hi ht q2
  have hd := hi.tabd t tb ht q2
  simp only [St.remove, q2, q3, Bool.false_eq_true, Bool.not_true, if_false]
  refine ⟨trivial, by simp [upd], by simp [upd], by simp [upd], fun x tx ne hx htx => ?_⟩
  obtain ⟨tb2, p1, p2, _, p4⟩ := hi.add x hx
  rw [htx] at p1; simp only [Option.some.injEq] at p1; subst p1
  obtain ⟨o1, o2⟩ := hi.apart _ (hi.tabd x tx htx p2) _ hd ne
  exact ⟨by simp [upd, o1, p4.1], by simp [upd, o2, p4.2]⟩

/-! ## Witnesses -/

theorem reach_run (ok : St → Op → Prop) (okb : St → Op → Bool) (h : ∀ s op, okb s op = true → ok s op) (ops : List Op) :
    ∀ {s s'}, Reach ok s → ops.foldl (fun (a : Option St) o => a.bind fun x => if okb x o then step x o else none) (some s) = some s' → Reach ok s' := by
  induction ops with
  | nil => intro s s' hr e; simp at e; subst e; exact hr
  | cons a as ih =>
    intro s s' hr e
    simp only [List.foldl_cons, Option.bind_some] at e
    have none_fold : ∀ l : List Op, l.foldl (fun (a : Option St) o => a.bind fun x => if okb x o then step x o else none) none = none := by
      intro l; induction l with
      | nil => rfl
      | cons b bs ih => simpa using ih
    split at e
    · rename_i hk
      cases hs : step s a with
      | none => rw [hs, none_fold] at e; simp at e
      | some s1 => rw [hs] at e; exact ih (hr.step (h _ _ hk) hs) e
    · rw [none_fold] at e; simp at e

def runB (okb : St → Op → Bool) (ops : List Op) : Option St :=
  ops.foldl (fun (a : Option St) o => a.bind fun x => if okb x o then step x o else none) (some St.init)

/-- Of an execution from the start, what a test says about its end. -/
theorem reach_test (ops : List Op) (P : St → Prop) [DecidablePred P] (e : (runB (fun _ _ => true) ops).map (fun s => decide (P s)) = some true) :
    ∃ s, Reach (fun _ _ => True) s ∧ P s := by
  obtain ⟨s, e1, e2⟩ := Option.map_eq_some_iff.1 e
  exact ⟨s, reach_run _ _ (fun _ _ _ => trivial) ops .init e1, of_decide_eq_true e2⟩

def properB (s : St) : Op → Bool
  | .create u _ _ => s.disk.all (fun e => e.2.uuid != u) && s.disk.all (fun e => s.reserved e.2.ord)
  | .createAt u o _ => s.disk.all (fun e => e.2.uuid != u) && (s.disk.all (fun e => s.reserved e.2.ord) && !s.reserved o)
  | .add t => !s.gone t && (match s.tab t with | some tb => s.reserved tb.ord | none => true)
  | .remove t => !s.gone t
  | .destroy t => !s.added t
  | .restart _ => true

theorem properB_proper (s : St) (op : Op) (h : properB s op = true) : Proper s op := by
  cases op <;> simp_all [properB, Proper, St.AllTaken]
  · exact ⟨fun a t q => h.1 a t q, fun a t q => by have := h.2; grind⟩
  · exact ⟨fun a t q => h.1 a t q, fun a t q => by have := h.2; grind⟩
  · intro tb q; simpa [q] using h.2

/-- Three indexes, one of them removed and destroyed, its number given again, and a restart that finds them in another order: all proper. -/
def properOps : List Op := [.create 10 0 true, .add 0, .create 11 1 true, .add 1, .createAt 12 7 true, .add 2, .remove 1, .destroy 1, .create 13 1 true, .add 3,
  .restart [(3, ⟨13, 1⟩), (0, ⟨10, 0⟩), (2, ⟨12, 7⟩)], .remove 0]

example : ∃ s, Reach Proper s ∧ s.byUuid 13 = some 3 ∧ s.byOrd 1 = some 3 ∧ s.byOrd 7 = some 2 ∧ s.byOrd 0 = none ∧ s.added 2 = true ∧ s.tab 2 = some ⟨12, 7⟩ ∧ s.disk.length = 3 := by
  have e : (runB properB properOps).map (fun s => decide (s.byUuid 13 = some 3 ∧ s.byOrd 1 = some 3 ∧ s.byOrd 7 = some 2 ∧ s.byOrd 0 = none ∧ s.added 2 = true ∧ s.tab 2 = some ⟨12, 7⟩ ∧ s.disk.length = 3)) = some true := by
    decide +kernel
  obtain ⟨s, e1, e2⟩ := Option.map_eq_some_iff.1 e
  exact ⟨s, reach_run _ _ properB_proper properOps .init e1, of_decide_eq_true e2⟩

/-- **C115**, violated: index 0 is removed, which gives its number back, and before it is destroyed another is created with that number.  After a crash both are on disk with the same number,
and the one found second is not found by it: what is repaired or written by number goes to the other. -/
theorem C115_reuse_violated : ∃ s, Reach (fun _ _ => True) s ∧ s.disk = [(0, ⟨10, 0⟩), (1, ⟨11, 0⟩)] ∧ s.added 1 = true ∧ s.byUuid 11 = some 1 ∧ s.byOrd 0 = some 0 :=
  reach_test [.create 10 0 true, .add 0, .remove 0, .create 11 0 true, .add 1, .restart [(0, ⟨10, 0⟩), (1, ⟨11, 0⟩)]]
    (fun s => s.disk = [(0, ⟨10, 0⟩), (1, ⟨11, 0⟩)] ∧ s.added 1 = true ∧ s.byUuid 11 = some 1 ∧ s.byOrd 0 = some 0) (by decide +kernel)

/-- **C115**, violated: a number the user gives is the number of an index that is created and not yet added: the assertion does not see it and the refusal of the reservation is not looked at. -/
theorem C115_given_violated : ∃ s, Reach (fun _ _ => True) s ∧ s.disk = [(0, ⟨10, 5⟩), (1, ⟨11, 5⟩)] ∧ s.added 0 = true ∧ s.byOrd 5 = some 1 :=
  reach_test [.create 10 5 true, .createAt 11 5 true, .add 1, .add 0]
    (fun s => s.disk = [(0, ⟨10, 5⟩), (1, ⟨11, 5⟩)] ∧ s.added 0 = true ∧ s.byOrd 5 = some 1) (by decide +kernel)

/-- **C115**, violated: a table is removed twice; between the two another gets its number.  The second call returns true, takes the number from the other and hides it. -/
theorem C115_twice_violated : ∃ s, Reach (fun _ _ => True) s ∧ s.added 1 = true ∧ s.tab 1 = some ⟨11, 0⟩ ∧ s.byOrd 0 = none ∧ s.reserved 0 = false :=
  reach_test [.create 10 0 true, .add 0, .remove 0, .create 11 0 true, .add 1, .remove 0]
    (fun s => s.added 1 = true ∧ s.tab 1 = some ⟨11, 0⟩ ∧ s.byOrd 0 = none ∧ s.reserved 0 = false) (by decide +kernel)

/-- **C115**, violated: the root of a new index cannot be created and the constructor throws; the superblock stays, and the index is there after a restart. -/
theorem C115_failed_violated : ∃ s, Reach (fun _ _ => True) s ∧ s.byUuid 10 = some 0 ∧ s.disk = [(0, ⟨10, 0⟩)] :=
  reach_test [.create 10 0 false, .restart [(0, ⟨10, 0⟩)]] (fun s => s.byUuid 10 = some 0 ∧ s.disk = [(0, ⟨10, 0⟩)]) (by decide +kernel)

/-- **C115**, violated: removing a table after it was destroyed reads the superblock that is gone. -/
theorem C115_order_violated : ∃ s, Reach (fun _ _ => True) s ∧ s.ub = true :=
  reach_test [.create 10 0 true, .add 0, .destroy 0, .remove 0] (fun s => s.ub = true) (by decide +kernel)

end HS.Catalog
