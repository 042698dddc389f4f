import Verif.Lock.Calls

/-
C102 : the calls of the log service do not block one another for ever.
-/
namespace HS.Lock

open Classical in
/-- C102, first part.  Threads call append, write_and_flush, read, flush, truncate, rollback, foreach, dump,
create, open, get and destroy log devices, create, open and remove log stores, flush, truncate, list and
stop the service, in any number and with any schedule; the callbacks of records, run by the thread that
flushes or by others, append further records.  If no device is stopped, destroyed or listed while calls
create, open or remove its stores, then some thread can go on as long as there is one that has not
finished.

Missing: callbacks that make other calls, and devices that are stopped or listed beside changes of their
set of stores; both deadlock (`C102_violated_*`). -/
theorem C102_no_deadlock_partial (c : Cfg) (u : Nat → List Call) (n : Nat) (calls : List (List Call))
    (hu : ∀ x, ∀ call ∈ u x, call.onlyAppends)
    (hc : ∀ a ∈ calls.flatten, ∀ b ∈ calls.flatten, ∀ d, ¬ (a.changes d ∧ b.sweeps d))
    {s : State} (h : Run (start c u n calls) s) : ¬ Deadlock s := by
  let D : Nat → Bool := fun d => decide (∃ b ∈ calls.flatten, b.sweeps d)
  refine ok_not_deadlock (rank := rank) (free := free D) (run_ok h (start_ok hu ?_))
  intro cs hcs call hcall
  have hm : call ∈ calls.flatten := List.mem_flatten.mpr ⟨cs, hcs, hcall⟩
  refine ⟨fun d hd => ?_, fun d hd => ?_⟩
  · simp only [D, decide_eq_false_iff_not]
    rintro ⟨b, hb, hs⟩
    exact hc call hm b hb d ⟨hd, hs⟩
  · simp only [D, decide_eq_true_eq]
    exact ⟨call, hm, hd⟩

theorem run_trans {s s₁ s₂ : State} (h : Run s s₁) (h' : Run s₁ s₂) : Run s s₂ := by
  induction h' with
  | refl => exact h
  | tail _ hs ih => exact .tail ih hs

theorem exists_end : ∀ (n : Nat) (s : State), weight s ≤ n →
    ∃ s', Run s s' ∧ ∀ i b, step s' i b = none
  | n, s, hn => by
    by_cases h : ∀ i b, step s i b = none
    · exact ⟨s, .refl s, h⟩
    · simp only [Classical.not_forall] at h
      obtain ⟨i, b, h⟩ := h
      cases hs : step s i b with
      | none => exact absurd hs h
      | some s₁ =>
        have hw := step_weight hs
        cases n with
        | zero => omega
        | succ n =>
          obtain ⟨s', hr, he⟩ := exists_end n s₁ (by omega)
          exact ⟨s', run_trans (.tail (.refl s) hs) hr, he⟩

/-- C102, second part.  Under the same conditions no execution goes on for ever, an execution that cannot
be continued has finished all its calls, and whatever has happened so far, all calls can still finish. -/
theorem C102_calls_finish_partial (c : Cfg) (u : Nat → List Call) (n : Nat) (calls : List (List Call))
    (hu : ∀ x, ∀ call ∈ u x, call.onlyAppends)
    (hc : ∀ a ∈ calls.flatten, ∀ b ∈ calls.flatten, ∀ d, ¬ (a.changes d ∧ b.sweeps d)) :
    ¬ Endless (start c u n calls) ∧
    ∀ s, Run (start c u n calls) s →
      ((∀ i b, step s i b = none) → Finished s) ∧ ∃ s', Run s s' ∧ Finished s' := by
  have key : ∀ s, Run (start c u n calls) s → (∀ i b, step s i b = none) → Finished s := by
    intro s hr hs
    exact Classical.byContradiction fun hf => C102_no_deadlock_partial c u n calls hu hc hr ⟨hf, hs⟩
  refine ⟨not_endless _, fun s hr => ⟨key s hr, ?_⟩⟩
  obtain ⟨s', hr', he⟩ := exists_end _ s (Nat.le_refl _)
  exact ⟨s', hr', key s' (run_trans hr hr') he⟩

/-- Letting go of things: at the end of a run nobody holds a lock or a count. -/
theorem C102_nothing_held (c : Cfg) (u : Nat → List Call) (n : Nat) (calls : List (List Call))
    (hu : ∀ x, ∀ call ∈ u x, call.onlyAppends)
    (hc : ∀ a ∈ calls.flatten, ∀ b ∈ calls.flatten, ∀ d, ¬ (a.changes d ∧ b.sweeps d))
    {s : State} (h : Run (start c u n calls) s) : ∀ t ∈ s, t.prog = .done → t.held = [] := by
  classical
  let D : Nat → Bool := fun d => decide (∃ b ∈ calls.flatten, b.sweeps d)
  have : SOk rank (free D) s := by
    refine run_ok h (start_ok hu ?_)
    intro cs hcs call hcall
    have hm : call ∈ calls.flatten := List.mem_flatten.mpr ⟨cs, hcs, hcall⟩
    refine ⟨fun d hd => ?_, fun d hd => ?_⟩
    · simp only [D, decide_eq_false_iff_not]
      rintro ⟨b, hb, hs⟩
      exact hc call hm b hb d ⟨hd, hs⟩
    · simp only [D, decide_eq_true_eq]
      exact ⟨call, hm, hd⟩
  intro t ht hd
  have hok := (this t ht).ok
  rw [hd] at hok
  exact hok

/-! ### A case that meets the hypotheses -/

/-- Device 0 gets stores while its records are written, read and truncated; device 1 is stopped and
destroyed while its records are written; callbacks of the kind 1 append a record. -/
def exampleCalls : List (List Call) :=
  [[.append 0 0 true [1, 0], .truncate 0 0 false [1]], [.createStore 0, .removeStore 0, .read 0 0 (some [0])],
   [.writeAndFlush 1 0 true [] [1], .status [(0, [0, 1]), (1, [0])]],
   [.destroyDev 1 [0] [1]], [.flushTask 0 [0], .truncateAll [0, 1]], [.rollback 0 0 [[1]], .dumpAll [(1, [(0, 3)])]]]

def exampleCb (x : Nat) : List Call := if x = 1 then [.append 0 0 true [0], .append 1 0 false []] else []

theorem exampleCb_appends : ∀ x, ∀ call ∈ exampleCb x, call.onlyAppends := by
  intro x call h
  unfold exampleCb at h
  split at h
  · simp only [List.mem_cons, List.not_mem_nil, or_false] at h
    rcases h with rfl | rfl <;> exact trivial
  · simp at h

theorem exampleCalls_fit :
    ∀ a ∈ exampleCalls.flatten, ∀ b ∈ exampleCalls.flatten, ∀ d, ¬ (a.changes d ∧ b.sweeps d) := by
  intro a ha b hb d ⟨h1, h2⟩
  have hd : d = 0 := by
    simp only [exampleCalls, List.flatten_cons, List.flatten_nil, List.cons_append, List.nil_append,
      List.append_nil, List.mem_cons, List.not_mem_nil, or_false] at ha
    rcases ha with rfl | rfl | rfl | rfl | rfl | rfl | rfl | rfl | rfl | rfl | rfl | rfl <;>
      first | exact h1.elim | exact h1.symm
  have hd' : d = 1 := by
    simp only [exampleCalls, List.flatten_cons, List.flatten_nil, List.cons_append, List.nil_append,
      List.append_nil, List.mem_cons, List.not_mem_nil, or_false] at hb
    rcases hb with rfl | rfl | rfl | rfl | rfl | rfl | rfl | rfl | rfl | rfl | rfl | rfl <;>
      first | exact h2.elim | exact h2.symm | (obtain ⟨p, hp, hp1⟩ := h2; simp at hp; subst hp; exact hp1.symm)
  omega

example (s : State) (h : Run (start ⟨true⟩ exampleCb 3 exampleCalls) s) : ¬ Deadlock s :=
  C102_no_deadlock_partial _ _ _ _ exampleCb_appends exampleCalls_fit h

example : ¬ Endless (start ⟨false⟩ exampleCb 3 exampleCalls) :=
  (C102_calls_finish_partial _ _ _ _ exampleCb_appends exampleCalls_fit).1

/-- Steps of given threads. -/
def exec : State → List (Nat × Bool) → Option State
  | s, [] => some s
  | s, (i, b) :: l =>
    match step s i b with
    | none => none
    | some s' => exec s' l

theorem exec_run {s s' : State} : ∀ (l : List (Nat × Bool)) {s₁ : State}, Run s s₁ → exec s₁ l = some s' → Run s s'
  | [], _, hr, h => by simp only [exec, Option.some.injEq] at h; subst h; exact hr
  | (i, b) :: l, s₁, hr, h => by
    simp only [exec] at h
    split at h
    · simp at h
    · rename_i s₂ hs
      exact exec_run l (.tail hr hs) h

/-- A test for deadlocks. -/
def stuck (s : State) : Bool :=
  s.any (fun t => t.prog != .done) &&
    (List.range s.length).all fun i => (step s i true).isNone && (step s i false).isNone

theorem stuck_deadlock {s : State} (h : stuck s = true) : Deadlock s := by
  unfold stuck at h
  rw [Bool.and_eq_true, List.any_eq_true, List.all_eq_true] at h
  obtain ⟨⟨t, ht, hd⟩, h⟩ := h
  refine ⟨fun hf => by simp [hf t ht] at hd, fun i b => ?_⟩
  by_cases hi : i < s.length
  · have := h i (by simpa using hi)
    rw [Bool.and_eq_true, Option.isNone_iff_eq_none, Option.isNone_iff_eq_none] at this
    cases b
    · exact this.2
    · exact this.1
  · unfold step
    rw [List.getElem?_eq_none (by omega)]

/-- Runs of threads for several steps, and a last state that is a deadlock. -/
def reachesDeadlock (s : State) (l : List (Nat × Bool)) : Bool :=
  match exec s l with
  | none => false
  | some s' => stuck s'

theorem reachesDeadlock_spec {s : State} {l : List (Nat × Bool)} (h : reachesDeadlock s l = true) :
    ∃ s', Run s s' ∧ Deadlock s' := by
  unfold reachesDeadlock at h
  split at h
  · simp at h
  · rename_i s' hs
    exact ⟨s', exec_run l (.refl s) hs, stuck_deadlock h⟩

/-- `n` steps of a thread, with all tests answered `false`. -/
def go (i n : Nat) : List (Nat × Bool) := List.replicate n (i, false)

/-! ### Deadlocks -/

/-- The records of all stores are listed while a store of the device is truncated and another one is
created: the listing holds the map of stores shared and waits for the flush lock, the truncation holds the
flush lock and waits to read the map, behind the creation, which waits for the listing. -/
theorem C102_violated_list_truncate_create :
    ∃ s, Run (start ⟨true⟩ (fun _ => []) 0
      [[.dumpAll [(0, [(0, 1)])]], [.truncate 0 0 false []], [.createStore 0]]) s ∧ Deadlock s :=
  reachesDeadlock_spec (l := go 0 7 ++ go 1 11 ++ go 2 10 ++ go 0 1) (by decide +kernel)

/-- The service is stopped while a store is opened: the stop holds the map of stores shared and takes it
again for its truncation, behind the opening. -/
theorem C102_violated_stop_open :
    ∃ s, Run (start ⟨true⟩ (fun _ => []) 0 [[.stop [(0, [0], [])]], [.openStore 0]]) s ∧ Deadlock s :=
  reachesDeadlock_spec (l := go 0 15 ++ go 1 2) (by decide +kernel)

/-- With a replication service, the callback of a record that flushes its store waits for the thread that
runs it. -/
theorem C102_violated_callback_flush :
    ∃ s, Run (start ⟨true⟩ (fun _ => [.flush 0 0 []]) 1 [[.flush 0 0 [1]]]) s ∧ Deadlock s :=
  reachesDeadlock_spec (l := go 0 9) (by decide +kernel)

/-- Without one, the same callback waits for the stop of the device, which waits for it. -/
theorem C102_violated_callback_flush_stop :
    ∃ s, Run (start ⟨false⟩ (fun _ => [.flush 0 0 []]) 1 [[.flush 0 0 [1]], [.stop [(0, [0], [])]]]) s ∧
      Deadlock s :=
  reachesDeadlock_spec (l := go 0 8 ++ go 1 3 ++ go 2 3) (by decide +kernel)

/-- With a replication service, a callback that looks up a log device waits for a call that destroys one
and waits for the flush. -/
theorem C102_violated_callback_lookup :
    ∃ s, Run (start ⟨true⟩ (fun _ => [.getDev]) 1 [[.flush 0 0 [1]], [.destroyDev 0 [0] []]]) s ∧
      Deadlock s :=
  reachesDeadlock_spec (l := go 0 6 ++ go 1 5) (by decide +kernel)

end HS.Lock
