import Verif.Pool.Lemmas
/-! # Lemmas: steps of calls already made come to an end -/
namespace HS.Pool

/-- What a call may still do. -/
def Call.weight : Call → Nat
  | .start => 5
  | .waiting => 4
  | .woken => 5
  | .got _ => 2
  | .give _ => 3
  | .gave => 2
  | .full _ => 1
  | _ => 0

def Prod.weight : Prod → Nat
  | .waiting => 0
  | _ => 1

def weights : List Call → Nat
  | [] => 0
  | c :: l => c.weight + weights l

/-- Each dequeue under way, and each place below half the capacity, makes the producer produce once. -/
def isAsking : Call → Bool
  | .start | .waiting | .woken => true
  | _ => false

def St.todo (s : St) : Nat := (s.cap / 2 - s.pool.length) + s.calls.countP isAsking

def St.measure (s : St) : Nat := 2 * s.todo + weights s.calls + s.prod.weight

theorem weights_set (l : List Call) : ∀ (i : Nat) (a b : Call), l[i]? = some a →
    weights (l.set i b) + a.weight = weights l + b.weight := by
  induction l with
  | nil => intro i a b h; simp at h
  | cons x l ih =>
    intro i a b h
    cases i with
    | zero =>
      simp only [List.getElem?_cons_zero, Option.some.injEq] at h
      subst h
      simp only [List.set_cons_zero, weights]; omega
    | succ i =>
      have := ih i a b (by simpa using h)
      simp only [List.set_cons_succ, weights]; omega

theorem wake_measure {s s' : St} {w : Option Who} (h : s.wake w = some s') : s'.measure ≤ s.measure + 1 := by
  cases w with
  | none =>
    simp only [St.wake] at h
    split at h
    · cases h
    · cases h; omega
  | some w =>
    cases w with
    | prod =>
      simp only [St.wake] at h
      split at h
      · rename_i hx; cases h
        simp only [St.measure, St.todo, hx, Prod.weight]; omega
      · cases h
    | call i =>
      simp only [St.wake] at h
      split at h
      · rename_i hi
        cases h
        have h1 := weights_set s.calls i .waiting .woken hi
        have h2 := countP_set isAsking s.calls i .waiting .woken hi
        simp [isAsking, Call.weight] at h1 h2
        simp only [St.measure, St.todo, h2]; omega
      · cases h

theorem wake_some (s : St) : ∃ w s', s.wake w = some s' := by
  by_cases h : s.prod = .waiting
  · exact ⟨some .prod, { s with prod := .woken }, by simp only [St.wake]; rw [if_pos h]⟩
  · by_cases h2 : .waiting ∈ s.calls
    · obtain ⟨i, hi⟩ := List.getElem?_of_mem h2
      exact ⟨some (.call i), { s with calls := s.calls.set i .woken }, by simp only [St.wake]; rw [if_pos hi]⟩
    · exact ⟨none, s, by simp only [St.wake]; rw [if_neg (by rintro (h' | h'); exact h h'; exact h2 h')]⟩

theorem wake_active {s s' : St} {w : Option Who} (h : s.wake w = some s') : s'.active = s.active := by
  cases w with
  | none =>
    simp only [St.wake] at h
    split at h
    · cases h
    · cases h; rfl
  | some w =>
    cases w with
    | prod =>
      simp only [St.wake] at h
      split at h
      · cases h; rfl
      · cases h
    | call i =>
      simp only [St.wake] at h
      split at h
      · rename_i hi
        cases h
        have h2 := countP_set Call.active s.calls i .waiting .woken hi
        simp [Call.active] at h2
        exact h2
      · cases h

/-- A quiet step brings the end nearer, and puts no further call under way. -/
theorem quiet_step (s s' : St) (op : Op) (hq : op.quiet = true) (hs : s.step op = some s') :
    s'.measure < s.measure ∧ s'.active ≤ s.active ∧ s'.cap = s.cap := by
  cases op with
  | call => cases hq
  | give i => cases hq
  | spurious w => cases hq
  | deq i =>
    simp only [St.step] at hs
    have key : ∀ a : Call, a.weight = 5 → a.active = true → isAsking a = true → s.calls[i]? = some a →
        (match s.pool.getLast? with
        | none => some { s with calls := s.calls.set i .waiting }
        | some c => some { s with calls := s.calls.set i (.got c), pool := s.pool.dropLast }) = some s' →
        s'.measure < s.measure ∧ s'.active ≤ s.active ∧ s'.cap = s.cap := by
      intro a hw hact hask hi hs
      cases hl : s.pool.getLast? with
      | none =>
        rw [hl] at hs; cases hs
        have h1 := weights_set s.calls i a .waiting hi
        have h2 := countP_set isAsking s.calls i a .waiting hi
        have h3 := countP_set Call.active s.calls i a .waiting hi
        rw [hw] at h1; rw [hask] at h2; rw [hact] at h3
        simp [isAsking, Call.weight, Call.active] at h1 h2 h3
        exact ⟨by simp only [St.measure, St.todo, h2]; omega, by simp only [St.active]; omega, rfl⟩
      | some c =>
        rw [hl] at hs
        simp only [Option.some.injEq] at hs; subst hs
        have hne : 0 < s.pool.length := by
          cases hpl : s.pool with
          | nil => rw [hpl] at hl; simp at hl
          | cons x l => simp
        have h1 := weights_set s.calls i a (.got c) hi
        have h2 := countP_set isAsking s.calls i a (.got c) hi
        have h3 := countP_set Call.active s.calls i a (.got c) hi
        rw [hw] at h1; rw [hask] at h2; rw [hact] at h3
        simp [isAsking, Call.weight, Call.active] at h1 h2 h3
        exact ⟨by simp only [St.measure, St.todo, List.length_dropLast]; omega, by simp only [St.active]; omega, rfl⟩
    cases hi : s.calls[i]? with
    | none => rw [hi] at hs; cases hs
    | some a =>
      rw [hi] at hs
      cases a with
      | start => exact key .start rfl rfl rfl hi hs
      | woken => exact key .woken rfl rfl rfl hi hs
      | _ => cases hs
  | deqNotify i w =>
    simp only [St.step] at hs
    cases hi : s.calls[i]? with
    | none => rw [hi] at hs; cases hs
    | some a =>
      rw [hi] at hs
      cases a with
      | got c =>
        have h1 := weights_set s.calls i (.got c) (.has c) hi
        have h2 := countP_set isAsking s.calls i (.got c) (.has c) hi
        have h3 := countP_set Call.active s.calls i (.got c) (.has c) hi
        simp [isAsking, Call.weight, Call.active] at h1 h2 h3
        have m := wake_measure hs
        have ac := wake_active hs
        simp only [St.measure, St.todo, St.active] at m ac ⊢
        exact ⟨by omega, by omega, (wake_cases hs).2.1⟩
      | _ => cases hs
  | enq i =>
    simp only [St.step] at hs
    cases hi : s.calls[i]? with
    | none => rw [hi] at hs; cases hs
    | some a =>
      rw [hi] at hs
      cases a with
      | give c =>
        simp only at hs
        by_cases hc : s.pool.length < s.cap
        · rw [if_pos hc] at hs; cases hs
          have h1 := weights_set s.calls i (.give c) .gave hi
          have h2 := countP_set isAsking s.calls i (.give c) .gave hi
          have h3 := countP_set Call.active s.calls i (.give c) .gave hi
          simp [isAsking, Call.weight, Call.active] at h1 h2 h3
          exact ⟨by simp only [St.measure, St.todo, List.length_append, List.length_cons, List.length_nil]; omega,
            by simp only [St.active]; omega, rfl⟩
        · rw [if_neg hc] at hs; cases hs
          have h1 := weights_set s.calls i (.give c) (.full c) hi
          have h2 := countP_set isAsking s.calls i (.give c) (.full c) hi
          have h3 := countP_set Call.active s.calls i (.give c) (.full c) hi
          simp [isAsking, Call.weight, Call.active] at h1 h2 h3
          exact ⟨by simp only [St.measure, St.todo]; omega, by simp only [St.active]; omega, rfl⟩
      | _ => cases hs
  | enqNotify i w =>
    simp only [St.step] at hs
    cases hi : s.calls[i]? with
    | none => rw [hi] at hs; cases hs
    | some a =>
      rw [hi] at hs
      cases a with
      | gave =>
        have h1 := weights_set s.calls i .gave .back hi
        have h2 := countP_set isAsking s.calls i .gave .back hi
        have h3 := countP_set Call.active s.calls i .gave .back hi
        simp [isAsking, Call.weight, Call.active] at h1 h2 h3
        have m := wake_measure hs
        have ac := wake_active hs
        simp only [St.measure, St.todo, St.active] at m ac ⊢
        exact ⟨by omega, by omega, (wake_cases hs).2.1⟩
      | _ => cases hs
  | enqRemove i =>
    simp only [St.step] at hs
    cases hi : s.calls[i]? with
    | none => rw [hi] at hs; cases hs
    | some a =>
      rw [hi] at hs
      cases a with
      | full c =>
        cases hs
        have h1 := weights_set s.calls i (.full c) .gone hi
        have h2 := countP_set isAsking s.calls i (.full c) .gone hi
        have h3 := countP_set Call.active s.calls i (.full c) .gone hi
        simp [isAsking, Call.weight, Call.active] at h1 h2 h3
        exact ⟨by simp only [St.measure, St.todo]; omega, by simp only [St.active]; omega, rfl⟩
      | _ => cases hs
  | prod w =>
    simp only [St.step] at hs
    by_cases h1 : s.prod = .waiting
    · rw [if_pos h1] at hs; cases hs
    · rw [if_neg h1] at hs
      have hw : s.prod.weight = 1 := by
        cases hp : s.prod with
        | waiting => exact absurd hp h1
        | _ => rfl
      by_cases h2 : s.pool.length < s.cap / 2
      · rw [if_pos h2] at hs
        have m := wake_measure hs
        have ac := wake_active hs
        simp only [St.measure, St.todo, List.length_append, List.length_cons, List.length_nil, Prod.weight] at m ⊢
        exact ⟨by omega, by rw [ac]; exact Nat.le_refl _, (wake_cases hs).2.1⟩
      · rw [if_neg h2] at hs
        split at hs
        · cases hs
          refine ⟨?_, Nat.le_refl _, rfl⟩
          simp only [St.measure, St.todo, hw, Prod.weight]; omega
        · cases hs

/-- Unless all calls have returned, or the pool is stuck, something can go on. -/
theorem quiet_enabled (s : St) (hst : ¬ Stuck s) (h : ∃ c ∈ s.calls, c.active = true) :
    ∃ op s', op.quiet = true ∧ s.step op = some s' := by
  by_cases hp : s.prod = .waiting
  · -- somebody other than those who wait
    have : ∃ c ∈ s.calls, c ≠ .waiting ∧ c.active = true := by
      by_cases hw : .waiting ∈ s.calls
      · apply Classical.byContradiction
        intro hn
        refine hst ⟨hw, hp, fun c hc => ?_⟩
        by_cases e : c = .waiting
        · exact .inl e
        · right
          cases ha : c.active with
          | false => rfl
          | true => exact absurd ⟨c, hc, e, ha⟩ hn
      · obtain ⟨c, hc, ha⟩ := h
        exact ⟨c, hc, fun e => hw (e ▸ hc), ha⟩
    obtain ⟨c, hc, hne, ha⟩ := this
    obtain ⟨i, hi⟩ := List.getElem?_of_mem hc
    have deq : c = .start ∨ c = .woken → ∃ op s', op.quiet = true ∧ s.step op = some s' := by
      intro hx
      refine ⟨.deq i, ?_⟩
      cases hl : s.pool.getLast? with
      | none =>
        refine ⟨{ s with calls := s.calls.set i .waiting }, rfl, ?_⟩
        simp only [St.step, hi]
        rcases hx with rfl | rfl <;> simp only [hl]
      | some c' =>
        refine ⟨{ s with calls := s.calls.set i (.got c'), pool := s.pool.dropLast }, rfl, ?_⟩
        simp only [St.step, hi]
        rcases hx with rfl | rfl <;> simp only [hl]
    cases c with
    | start => exact deq (.inl rfl)
    | woken => exact deq (.inr rfl)
    | waiting => exact absurd rfl hne
    | got c =>
      obtain ⟨w, s', hw⟩ := wake_some { s with calls := s.calls.set i (.has c) }
      exact ⟨.deqNotify i w, s', rfl, by simp only [St.step, hi]; exact hw⟩
    | gave =>
      obtain ⟨w, s', hw⟩ := wake_some { s with calls := s.calls.set i .back }
      exact ⟨.enqNotify i w, s', rfl, by simp only [St.step, hi]; exact hw⟩
    | give c =>
      by_cases hc : s.pool.length < s.cap
      · exact ⟨.enq i, _, rfl, by simp only [St.step, hi]; rw [if_pos hc]⟩
      · exact ⟨.enq i, _, rfl, by simp only [St.step, hi]; rw [if_neg hc]⟩
    | full c => exact ⟨.enqRemove i, _, rfl, by simp only [St.step, hi]; rfl⟩
    | has c => cases ha
    | back => cases ha
    | gone => cases ha
  · by_cases h2 : s.pool.length < s.cap / 2
    · obtain ⟨w, s', hw⟩ := wake_some { s with pool := s.pool ++ [s.next], next := s.next + 1, prod := .run }
      exact ⟨.prod w, s', rfl, by simp only [St.step]; rw [if_neg hp, if_pos h2]; exact hw⟩
    · exact ⟨.prod none, _, rfl, by simp only [St.step]; rw [if_neg hp, if_neg h2]; rfl⟩

theorem quiet_run (ops : List Op) : ∀ (s s' : St), (∀ op ∈ ops, op.quiet = true) → Go s → s.active ≤ s.cap / 2 →
    s.run ops = some s' → ops.length + s'.measure ≤ s.measure ∧ Go s' ∧ s'.active ≤ s'.cap / 2 := by
  induction ops with
  | nil => intro s s' _ hg ha h; cases h; exact ⟨by simp, hg, ha⟩
  | cons op ops ih =>
    intro s s' hq hg ha h
    simp only [St.run] at h
    obtain ⟨s1, h1, h2⟩ := Option.bind_eq_some_iff.1 h
    obtain ⟨q1, q2, q3⟩ := quiet_step s s1 op (hq op (by simp)) h1
    have hg1 := go_step s s1 op hg (by omega) ha h1
    obtain ⟨r1, r2, r3⟩ := ih s1 s' (fun o ho => hq o (by simp [ho])) hg1 (by rw [q3]; omega) h2
    exact ⟨by simp only [List.length_cons]; omega, r2, r3⟩

theorem step_cap (s s' : St) (op : Op) (hs : s.step op = some s') : s'.cap = s.cap := by
  cases hq : op.quiet with
  | true => exact (quiet_step s s' op hq hs).2.2
  | false =>
    cases op with
    | call => cases hs; rfl
    | give i =>
      simp only [St.step] at hs
      split at hs
      · cases hs; rfl
      · cases hs
    | spurious w =>
      cases w <;> simp only [St.step] at hs <;> split at hs <;> cases hs <;> rfl
    | _ => cases hq

theorem go_run (ops : List Op) : ∀ (s s' : St), Go s → AtMost (s.cap / 2) s ops → s.run ops = some s' →
    Go s' ∧ s'.active ≤ s'.cap / 2 ∧ s'.cap = s.cap := by
  induction ops with
  | nil => intro s s' hg ha h; cases h; exact ⟨hg, ha, rfl⟩
  | cons op ops ih =>
    intro s s' hg ha h
    simp only [St.run] at h
    obtain ⟨s1, h1, h2⟩ := Option.bind_eq_some_iff.1 h
    have hc := step_cap s s1 op h1
    have ha1 := ha.2 s1 h1
    have hb : s1.active ≤ s.cap / 2 := by
      cases ops with
      | nil => exact ha1
      | cons o os => exact ha1.1
    have hg1 := go_step s s1 op hg hb ha.1 h1
    obtain ⟨r1, r2, r3⟩ := ih s1 s' hg1 (by rw [hc]; exact ha1) h2
    exact ⟨r1, r2, by rw [r3, hc]⟩

theorem go_not_stuck {s : St} (h : Go s) : ¬ Stuck s := by
  rintro ⟨h1, h2, _⟩
  have := (h.i2 h2).1
  have := nw_pos.1 h1
  omega

end HS.Pool
