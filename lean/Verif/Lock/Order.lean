import Verif.Lock.Spec

/-
Threads that wait for things in an order do not block one another: general part, for any programs.
-/
namespace HS.Lock

section
variable (rank : Res → Nat) (free : Res → Bool)

/-- Everything in `h`, but for locks that nobody takes exclusively, comes before `b`. -/
def Below (b : Nat) (h : List (Res × Hold)) : Prop :=
  ∀ x ∈ h, free x.1 = false → rank x.1 < b

/-- The program, run by a thread that holds `h`, waits only for things that come after all that it then
holds; the locks `free` it only takes shared.  At its end it holds nothing. -/
def Ok : List (Res × Hold) → Prog → Prop
  | h, .done => h = []
  | h, .lock r k => free r = false ∧ Below rank free (rank r) h ∧ Ok ((r, .ex) :: h) k
  | h, .unlock r k => (r, .ex) ∈ h ∧ Ok (h.erase (r, .ex)) k
  | h, .lockS r k => (free r = false → Below rank free (rank r) h) ∧ Ok ((r, .sh) :: h) k
  | h, .unlockS r k => (r, .sh) ∈ h ∧ Ok (h.erase (r, .sh)) k
  | h, .enter r k => free r = false ∧ Ok ((r, .cnt) :: h) k
  | h, .leave r k => (r, .cnt) ∈ h ∧ Ok (h.erase (r, .cnt)) k
  | h, .drain r k => Below rank free (rank r) h ∧ Ok h k
  | h, .tryLock r k l => free r = false ∧ Ok ((r, .ex) :: h) k ∧ Ok h l
  | h, .choice k l => Ok h k ∧ Ok h l
  | h, .spawn r p k => free r = false ∧ Ok [(r, .cnt)] p ∧ Ok h k

/-- The invariant of a thread. -/
structure TOk (t : Thread) : Prop where
  ok : Ok rank free t.held t.prog
  free : ∀ x ∈ t.held, free x.1 = true → x.2 = .sh
  waits : t.waiting = true → ∃ r k, t.prog = .lock r k

def SOk (s : State) : Prop := ∀ t ∈ s, TOk rank free t

variable {rank free}

theorem tstep_ok {s : State} {t t' : Thread} {new : List Thread} {b : Bool} (ht : TOk rank free t)
    (h : tstep s t b = some (t', new)) : TOk rank free t' ∧ ∀ x ∈ new, TOk rank free x := by
  obtain ⟨held, prog, w⟩ := t
  have hok := ht.ok
  have hfr := ht.free
  unfold tstep at h
  cases prog with
  | done => simp at h
  | lock r k =>
    simp only at h hok hfr
    obtain ⟨h1, h2, h3⟩ := hok
    split at h
    · simp only [Option.some.injEq, Prod.mk.injEq] at h
      obtain ⟨rfl, rfl⟩ := h
      refine ⟨⟨h3, ?_, by simp⟩, by simp⟩
      intro x hx hf
      rcases List.mem_cons.mp hx with rfl | hx
      · simp [h1] at hf
      · exact hfr x hx hf
    · split at h
      · simp at h
      · simp only [Option.some.injEq, Prod.mk.injEq] at h
        obtain ⟨rfl, rfl⟩ := h
        exact ⟨⟨⟨h1, h2, h3⟩, hfr, fun _ => ⟨r, k, rfl⟩⟩, by simp⟩
  | unlock r k =>
    simp only at h hok hfr
    obtain ⟨h1, h2⟩ := hok
    rw [if_pos h1] at h
    simp only [Option.some.injEq, Prod.mk.injEq] at h
    obtain ⟨rfl, rfl⟩ := h
    exact ⟨⟨h2, fun x hx => hfr x (List.mem_of_mem_erase hx), by simp⟩, by simp⟩
  | lockS r k =>
    simp only at h hok hfr
    obtain ⟨h1, h2⟩ := hok
    split at h
    · simp only [Option.some.injEq, Prod.mk.injEq] at h
      obtain ⟨rfl, rfl⟩ := h
      refine ⟨⟨h2, ?_, by simp⟩, by simp⟩
      intro x hx hf
      rcases List.mem_cons.mp hx with rfl | hx
      · rfl
      · exact hfr x hx hf
    · simp at h
  | unlockS r k =>
    simp only at h hok hfr
    obtain ⟨h1, h2⟩ := hok
    rw [if_pos h1] at h
    simp only [Option.some.injEq, Prod.mk.injEq] at h
    obtain ⟨rfl, rfl⟩ := h
    exact ⟨⟨h2, fun x hx => hfr x (List.mem_of_mem_erase hx), by simp⟩, by simp⟩
  | enter r k =>
    simp only at h hok hfr
    obtain ⟨h1, h2⟩ := hok
    simp only [Option.some.injEq, Prod.mk.injEq] at h
    obtain ⟨rfl, rfl⟩ := h
    refine ⟨⟨h2, ?_, by simp⟩, by simp⟩
    intro x hx hf
    rcases List.mem_cons.mp hx with rfl | hx
    · simp [h1] at hf
    · exact hfr x hx hf
  | leave r k =>
    simp only at h hok hfr
    obtain ⟨h1, h2⟩ := hok
    rw [if_pos h1] at h
    simp only [Option.some.injEq, Prod.mk.injEq] at h
    obtain ⟨rfl, rfl⟩ := h
    exact ⟨⟨h2, fun x hx => hfr x (List.mem_of_mem_erase hx), by simp⟩, by simp⟩
  | drain r k =>
    simp only at h hok hfr
    obtain ⟨h1, h2⟩ := hok
    split at h
    · simp only [Option.some.injEq, Prod.mk.injEq] at h
      obtain ⟨rfl, rfl⟩ := h
      exact ⟨⟨h2, hfr, by simp⟩, by simp⟩
    · simp at h
  | tryLock r k l =>
    simp only at h hok hfr
    obtain ⟨h1, h2, h3⟩ := hok
    split at h
    · simp only [Option.some.injEq, Prod.mk.injEq] at h
      obtain ⟨rfl, rfl⟩ := h
      refine ⟨⟨h2, ?_, by simp⟩, by simp⟩
      intro x hx hf
      rcases List.mem_cons.mp hx with rfl | hx
      · simp [h1] at hf
      · exact hfr x hx hf
    · simp only [Option.some.injEq, Prod.mk.injEq] at h
      obtain ⟨rfl, rfl⟩ := h
      exact ⟨⟨h3, hfr, by simp⟩, by simp⟩
  | choice k l =>
    simp only at h hok hfr
    obtain ⟨h1, h2⟩ := hok
    simp only [Option.some.injEq, Prod.mk.injEq] at h
    obtain ⟨rfl, rfl⟩ := h
    refine ⟨⟨?_, hfr, by simp⟩, by simp⟩
    cases b
    · exact h2
    · exact h1
  | spawn r p k =>
    simp only at h hok hfr
    obtain ⟨h1, h2, h3⟩ := hok
    simp only [Option.some.injEq, Prod.mk.injEq] at h
    obtain ⟨rfl, rfl⟩ := h
    refine ⟨⟨h3, hfr, by simp⟩, ?_⟩
    intro x hx
    rcases List.mem_singleton.mp hx with rfl
    refine ⟨h2, ?_, by simp⟩
    intro y hy hf
    rcases List.mem_singleton.mp hy with rfl
    simp [h1] at hf

theorem step_ok {s s' : State} {i : Nat} {b : Bool} (hs : SOk rank free s)
    (h : step s i b = some s') : SOk rank free s' := by
  unfold step at h
  split at h
  · simp at h
  · rename_i t ht
    split at h
    · simp at h
    · rename_i t' new hst
      simp only [Option.some.injEq] at h
      subst h
      have := tstep_ok (hs t (List.mem_of_getElem? ht)) hst
      intro x hx
      rcases List.mem_append.mp hx with hx | hx
      · rcases List.mem_or_eq_of_mem_set hx with hx | rfl
        · exact hs x hx
        · exact this.1
      · exact this.2 x hx

theorem run_ok {s s' : State} (h : Run s s') (hs : SOk rank free s) : SOk rank free s' := by
  induction h with
  | refl => exact hs
  | tail _ hst ih => exact step_ok ih hst

/-- What an unfinished thread that cannot go on waits for. -/
def wants : Prog → Option Res
  | .lock r _ => some r
  | .lockS r _ => some r
  | .drain r _ => some r
  | _ => none

theorem exists_max {α : Type} (f : α → Nat) : ∀ (l : List α), l ≠ [] → ∃ x ∈ l, ∀ y ∈ l, f y ≤ f x
  | [], h => absurd rfl h
  | [a], _ => ⟨a, by simp, by simp⟩
  | a :: b :: l, _ => by
    obtain ⟨x, hx, hm⟩ := exists_max f (b :: l) (by simp)
    by_cases h : f a ≤ f x
    · refine ⟨x, List.mem_cons_of_mem _ hx, ?_⟩
      intro y hy
      rcases List.mem_cons.mp hy with rfl | hy
      · exact h
      · exact hm y hy
    · refine ⟨a, by simp, ?_⟩
      intro y hy
      rcases List.mem_cons.mp hy with rfl | hy
      · exact Nat.le_refl _
      · have := hm y hy
        omega

/-- In a stuck state an unfinished thread waits for something that is not a free lock, and somebody holds
it. -/
theorem stuck_wants {s : State} (hs : SOk rank free s) (hst : ∀ t ∈ s, ∀ b, tstep s t b = none) {t : Thread}
    (ht : t ∈ s) (hd : t.prog ≠ .done) :
    ∃ r, wants t.prog = some r ∧ Below rank free (rank r) t.held ∧ free r = false ∧
      ∃ t' ∈ s, ∃ x ∈ t'.held, x.1 = r := by
  obtain ⟨hok, hfr, hw⟩ := hs t ht
  have hn := hst t ht true
  have holder : ∀ r, noHolder s r = false → ∃ t' ∈ s, ∃ x ∈ t'.held, x.1 = r := by
    intro r hr
    unfold noHolder at hr
    rw [List.all_eq_false] at hr
    obtain ⟨t', ht', hx⟩ := hr
    simp only [Bool.and_eq_true, Bool.not_eq_true', not_and, List.contains_eq_mem,
      decide_eq_false_iff_not, Classical.not_not] at hx
    by_cases hc : (r, Hold.ex) ∈ t'.held
    · exact ⟨t', ht', (r, .ex), hc, rfl⟩
    · exact ⟨t', ht', (r, .sh), hx hc, rfl⟩
  obtain ⟨held, prog, w⟩ := t
  unfold tstep at hn
  cases prog with
  | done => exact absurd rfl hd
  | lock r k =>
    simp only at hn hok
    obtain ⟨h1, h2, h3⟩ := hok
    refine ⟨r, rfl, h2, h1, holder r ?_⟩
    cases hnh : noHolder s r with
    | false => rfl
    | true => simp [hnh] at hn
  | unlock r k => simp only at hn hok; rw [if_pos hok.1] at hn; simp at hn
  | lockS r k =>
    simp only at hn hok
    cases hso : sharedOk s r with
    | true => simp [hso] at hn
    | false =>
      unfold sharedOk at hso
      rw [List.all_eq_false] at hso
      obtain ⟨t', ht', hx⟩ := hso
      simp only [Bool.and_eq_true, Bool.not_eq_true', not_and, Bool.not_eq_false, List.contains_eq_mem,
        decide_eq_true_eq, decide_eq_false_iff_not] at hx
      by_cases hc : (r, Hold.ex) ∈ t'.held
      · have hfree : free r = false := by
          cases hf : free r with
          | false => rfl
          | true => exact absurd ((hs t' ht').free _ hc hf) (by simp)
        exact ⟨r, rfl, hok.1 hfree, hfree, t', ht', _, hc, rfl⟩
      · have hq := hx hc
        -- t' queues for the lock, so somebody holds it
        unfold queues at hq
        rw [Bool.and_eq_true] at hq
        have hn' := hst t' ht' true
        have hok' := (hs t' ht').ok
        obtain ⟨held', prog', w'⟩ := t'
        cases prog' with
        | lock r' k' =>
          simp only [beq_iff_eq] at hq
          obtain ⟨_, rfl⟩ := hq
          unfold tstep at hn'
          simp only at hn' hok'
          refine ⟨r', rfl, hok.1 hok'.1, hok'.1, holder r' ?_⟩
          cases hnh : noHolder s r' with
          | false => rfl
          | true => simp [hnh] at hn'
        | _ => simp at hq
  | unlockS r k => simp only at hn hok; rw [if_pos hok.1] at hn; simp at hn
  | enter r k => simp at hn
  | leave r k => simp only at hn hok; rw [if_pos hok.1] at hn; simp at hn
  | drain r k =>
    simp only at hn hok
    cases hz : isZero s r with
    | true => simp [hz] at hn
    | false =>
      unfold isZero at hz
      rw [List.all_eq_false] at hz
      obtain ⟨t', ht', hx⟩ := hz
      simp only [Bool.not_eq_true', Bool.not_eq_false, List.contains_eq_mem, decide_eq_true_eq,
        decide_eq_false_iff_not, Classical.not_not] at hx
      have hfree : free r = false := by
        cases hf : free r with
        | false => rfl
        | true => exact absurd ((hs t' ht').free _ hx hf) (by simp)
      exact ⟨r, rfl, hok.1, hfree, t', ht', _, hx, rfl⟩
  | tryLock r k l => simp only at hn; split at hn <;> simp at hn
  | choice k l => simp at hn
  | spawn r p k => simp at hn

theorem step_none {s : State} (h : ∀ i b, step s i b = none) : ∀ t ∈ s, ∀ b, tstep s t b = none := by
  intro t ht b
  obtain ⟨i, hi⟩ := List.getElem?_of_mem ht
  have := h i b
  unfold step at this
  rw [hi] at this
  simp only at this
  cases hts : tstep s t b with
  | none => rfl
  | some p => rw [hts] at this; simp at this

/-- No deadlock. -/
theorem ok_not_deadlock {s : State} (hs : SOk rank free s) : ¬ Deadlock s := by
  rintro ⟨hf, hstep⟩
  have hst := step_none hstep
  have hex : ∃ t ∈ s, t.prog ≠ .done := by
    unfold Finished at hf
    exact Classical.byContradiction fun hc => hf fun t ht =>
      Classical.byContradiction fun hd => hc ⟨t, ht, hd⟩
  let l := s.filter fun t => decide (t.prog ≠ .done)
  let f : Thread → Nat := fun t => match wants t.prog with | some r => rank r | none => 0
  have hl : l ≠ [] := by
    obtain ⟨t, ht, hd⟩ := hex
    intro h
    have : t ∈ l := List.mem_filter.mpr ⟨ht, by simpa using hd⟩
    rw [h] at this
    simp at this
  obtain ⟨t, ht, hmax⟩ := exists_max f l hl
  have ht' := List.mem_filter.mp ht
  have hd : t.prog ≠ .done := by simpa using ht'.2
  obtain ⟨r, hr, hb, hfree, t₁, ht₁, x, hx, hxr⟩ := stuck_wants hs hst ht'.1 hd
  have hd₁ : t₁.prog ≠ .done := by
    intro h
    have := (hs t₁ ht₁).ok
    rw [h] at this
    unfold Ok at this
    rw [this] at hx
    simp at hx
  obtain ⟨r₁, hr₁, hb₁, _⟩ := stuck_wants hs hst ht₁ hd₁
  have h1 := hmax t₁ (List.mem_filter.mpr ⟨ht₁, by simpa using hd₁⟩)
  have h2 : f t₁ = rank r₁ := by show (match wants t₁.prog with | some r => rank r | none => 0) = _; rw [hr₁]
  have h3 : f t = rank r := by show (match wants t.prog with | some r => rank r | none => 0) = _; rw [hr]
  have h4 := hb₁ x hx (by rw [hxr]; exact hfree)
  rw [hxr] at h4
  omega

end

/-! ### Executions end -/

def Prog.size : Prog → Nat
  | .done => 0
  | .lock _ k => k.size + 2
  | .unlock _ k => k.size + 2
  | .lockS _ k => k.size + 2
  | .unlockS _ k => k.size + 2
  | .enter _ k => k.size + 2
  | .leave _ k => k.size + 2
  | .drain _ k => k.size + 2
  | .tryLock _ k l => k.size + l.size + 2
  | .choice k l => k.size + l.size + 2
  | .spawn _ p k => p.size + k.size + 3

def Thread.size (t : Thread) : Nat := t.prog.size + if t.waiting then 0 else 1

/-- A waiting thread is at a lock, so its program is not at its end. -/
def weight (s : State) : Nat := (s.map Thread.size).sum

theorem tstep_size {s : State} {t t' : Thread} {new : List Thread} {b : Bool}
    (h : tstep s t b = some (t', new)) : t'.size + weight new < t.size := by
  obtain ⟨held, prog, w⟩ := t
  unfold tstep at h
  cases prog with
  | done => simp at h
  | lock r k =>
    simp only at h
    split at h
    · simp only [Option.some.injEq, Prod.mk.injEq] at h
      obtain ⟨rfl, rfl⟩ := h
      simp [Thread.size, Prog.size, weight]
      split <;> omega
    · split at h
      · simp at h
      · rename_i hw
        simp only [Option.some.injEq, Prod.mk.injEq] at h
        obtain ⟨rfl, rfl⟩ := h
        simp at hw
        simp [Thread.size, weight, hw]
  | enter r k =>
    simp only [Option.some.injEq, Prod.mk.injEq] at h
    obtain ⟨rfl, rfl⟩ := h
    simp [Thread.size, Prog.size, weight]
    split <;> omega
  | choice k l =>
    simp only [Option.some.injEq, Prod.mk.injEq] at h
    obtain ⟨rfl, rfl⟩ := h
    simp [Thread.size, Prog.size, weight]
    cases b <;> simp <;> split <;> omega
  | spawn r p k =>
    simp only [Option.some.injEq, Prod.mk.injEq] at h
    obtain ⟨rfl, rfl⟩ := h
    simp [Thread.size, Prog.size, weight]
    split <;> omega
  | tryLock r k l =>
    simp only at h
    split at h <;>
    · simp only [Option.some.injEq, Prod.mk.injEq] at h
      obtain ⟨rfl, rfl⟩ := h
      simp [Thread.size, Prog.size, weight]
      split <;> omega
  | _ =>
    simp only at h
    split at h
    · simp only [Option.some.injEq, Prod.mk.injEq] at h
      obtain ⟨rfl, rfl⟩ := h
      simp [Thread.size, Prog.size, weight]
      split <;> omega
    · simp at h

theorem weight_set {s : State} {i : Nat} {t t' : Thread} (h : s[i]? = some t) :
    weight (s.set i t') + t.size = weight s + t'.size := by
  induction s generalizing i with
  | nil => simp at h
  | cons a s ih =>
    cases i with
    | zero =>
      simp at h
      subst h
      simp [weight]
      omega
    | succ i =>
      simp at h
      have := ih h
      simp [weight] at this ⊢
      omega

theorem step_weight {s s' : State} {i : Nat} {b : Bool} (h : step s i b = some s') :
    weight s' < weight s := by
  unfold step at h
  split at h
  · simp at h
  · rename_i t ht
    split at h
    · simp at h
    · rename_i t' new hst
      simp only [Option.some.injEq] at h
      subst h
      have h1 := tstep_size hst
      have h2 := weight_set (t' := t') ht
      have h3 : weight (s.set i t' ++ new) = weight (s.set i t') + weight new := by
        simp [weight]
      omega

/-- Executions of programs without loops end. -/
theorem not_endless (s : State) : ¬ Endless s := by
  rintro ⟨f, _, hf⟩
  have : ∀ n, weight (f n) + n ≤ weight (f 0) := by
    intro n
    induction n with
    | zero => simp
    | succ n ih =>
      obtain ⟨i, b, h⟩ := hf n
      have := step_weight h
      omega
  have := this (weight (f 0) + 1)
  omega

end HS.Lock
