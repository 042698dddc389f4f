import Verif.Pool.Measure
/-! # Lemmas: how a pool gets stuck; what a stuck pool does -/
namespace HS.Pool

theorem run_append (a b : List Op) : ∀ s : St, s.run (a ++ b) = (s.run a).bind (·.run b) := by
  induction a with
  | nil => intro s; rfl
  | cons op a ih =>
    intro s
    simp only [List.cons_append, St.run]
    cases h : s.step op with
    | none => rfl
    | some s1 => simp only [Option.bind_some]; exact ih s1

/-- The number of calls of `dequeue` in a history. -/
def ncalls : List Op → Nat
  | [] => 0
  | .call :: ops => ncalls ops + 1
  | _ :: ops => ncalls ops

theorem ncalls_append (a b : List Op) : ncalls (a ++ b) = ncalls a + ncalls b := by
  induction a with
  | nil => simp [ncalls]
  | cons op a ih =>
    cases op <;> simp only [List.cons_append, ncalls, ih] <;> omega

theorem wake_len {s s' : St} {w : Option Who} (h : s.wake w = some s') : s'.calls.length = s.calls.length := by
  cases w with
  | none =>
    simp only [St.wake] at h
    split at h
    · cases h
    · cases h; rfl
  | some w =>
    cases w <;> simp only [St.wake] at h <;> split at h <;> cases h <;> simp

theorem step_len (s s' : St) (op : Op) (hs : s.step op = some s') :
    s'.calls.length + ncalls [] = s.calls.length + ncalls [op] := by
  cases op with
  | call => cases hs; simp [ncalls]
  | deq i =>
    simp only [St.step] at hs
    split at hs
    · split at hs <;> cases hs <;> simp [ncalls]
    · split at hs <;> cases hs <;> simp [ncalls]
    · cases hs
  | deqNotify i w =>
    simp only [St.step] at hs
    split at hs
    · have := wake_len hs; simpa [ncalls] using this
    · cases hs
  | give i =>
    simp only [St.step] at hs
    split at hs
    · cases hs; simp [ncalls]
    · cases hs
  | enq i =>
    simp only [St.step] at hs
    split at hs
    · split at hs <;> cases hs <;> simp [ncalls]
    · cases hs
  | enqNotify i w =>
    simp only [St.step] at hs
    split at hs
    · have := wake_len hs; simpa [ncalls] using this
    · cases hs
  | enqRemove i =>
    simp only [St.step] at hs
    split at hs
    · cases hs; simp [ncalls]
    · cases hs
  | prod w =>
    simp only [St.step] at hs
    split at hs
    · cases hs
    · split at hs
      · have := wake_len hs; simpa [ncalls] using this
      · split at hs <;> cases hs; simp [ncalls]
  | spurious w =>
    cases w <;> simp only [St.step] at hs <;> split at hs <;> cases hs <;> simp [ncalls]

/-- There are never more calls in progress than calls. -/
theorem atMost_of_len (m : Nat) (ops : List Op) : ∀ s : St, s.calls.length + ncalls ops ≤ m → AtMost m s ops := by
  induction ops with
  | nil =>
    intro s h
    exact Nat.le_trans (List.countP_le_length) (by simpa [ncalls] using h)
  | cons op ops ih =>
    intro s h
    have e : ncalls (op :: ops) = ncalls [op] + ncalls ops := ncalls_append [op] ops
    refine ⟨Nat.le_trans (List.countP_le_length) (by omega), fun s' hs => ih s' ?_⟩
    have := step_len s s' op hs
    simp only [ncalls] at this e ⊢
    omega

/-- The producer fills the pool to half its capacity. -/
theorem produce (k : Nat) : ∀ s : St, s.prod = .run → s.calls = [] → s.pool.length + k = s.cap / 2 →
    ∃ ops s', s.run ops = some s' ∧ s'.prod = .waiting ∧ s'.calls = [] ∧ s'.pool.length = s'.cap / 2 ∧
      s'.cap = s.cap ∧ ncalls ops = 0 := by
  induction k with
  | zero =>
    intro s hp hc hl
    refine ⟨[.prod none], { s with prod := .waiting }, ?_, rfl, hc, by simpa using hl, rfl, rfl⟩
    simp only [St.run, St.step]
    rw [if_neg (by rw [hp]; decide), if_neg (by omega)]
    rfl
  | succ k ih =>
    intro s hp hc hl
    let s1 : St := { s with pool := s.pool ++ [s.next], next := s.next + 1, prod := .run }
    obtain ⟨ops, s', h1, h2, h3, h4, h5, h6⟩ := ih s1 rfl hc (by simp [s1]; omega)
    refine ⟨.prod none :: ops, s', ?_, h2, h3, h4, h5, by simpa [ncalls] using h6⟩
    have hstep : s.step (.prod none) = some s1 := by
      simp only [St.step]
      rw [if_neg (by rw [hp]; decide), if_pos (by omega)]
      simp only [St.wake]
      rw [if_neg (by simp [hc])]
    simp only [St.run, hstep, Option.bind_some]
    exact h1

/-- Calls of `dequeue`. -/
theorem callAll (m : Nat) : ∀ s : St,
    s.run (List.replicate m .call) = some { s with calls := s.calls ++ List.replicate m .start } := by
  induction m with
  | zero => intro s; simp [St.run]
  | succ m ih =>
    intro s
    simp only [List.replicate_succ, St.run, St.step, Option.bind_some]
    rw [ih]
    simp

theorem ncalls_replicate (m : Nat) : ncalls (List.replicate m .call) = m := by
  induction m with
  | zero => rfl
  | succ m ih => simp [List.replicate_succ, ncalls, ih]

/-- All but the last of them take the chunks there are; the last waits. -/
theorem takeAll (r : Nat) : ∀ (s : St) (gs : List Nat), s.prod = .waiting →
    s.calls = gs.map .got ++ List.replicate r .start ++ [.start] → s.pool.length = r →
    ∃ ops s', ∃ gs' : List Nat, s.run ops = some s' ∧ s'.prod = .waiting ∧ s'.pool = [] ∧ s'.calls = gs'.map .got ++ [.waiting] ∧
      s'.cap = s.cap ∧ ncalls ops = 0 := by
  induction r with
  | zero =>
    intro s gs hp hc hl
    have hl : s.pool = [] := List.length_eq_zero_iff.1 hl
    refine ⟨[.deq gs.length], { s with calls := gs.map .got ++ [.waiting] }, gs, ?_, hp, hl, rfl, rfl, rfl⟩
    have hi : s.calls[gs.length]? = some .start := by rw [hc]; simp
    have hset : s.calls.set gs.length .waiting = gs.map .got ++ [.waiting] := by
      rw [hc]; simp [List.set_append]
    simp only [St.run, St.step, hi, hl, List.getLast?_nil, Option.bind_some, hset]
  | succ r ih =>
    intro s gs hp hc hl
    obtain ⟨c, hlast⟩ : ∃ c, s.pool.getLast? = some c := by
      cases h : s.pool.getLast? with
      | none => rw [List.getLast?_eq_none_iff.1 h] at hl; simp at hl
      | some c => exact ⟨c, rfl⟩
    have hi : s.calls[gs.length]? = some .start := by rw [hc]; simp [List.replicate_succ]
    have hset : s.calls.set gs.length (.got c) = (gs ++ [c]).map .got ++ List.replicate r .start ++ [.start] := by
      rw [hc]; simp [List.set_append, List.replicate_succ]
    let s1 : St := { s with calls := s.calls.set gs.length (.got c), pool := s.pool.dropLast }
    obtain ⟨ops, s', gs', h1, h2, h3, h4, h5, h6⟩ := ih s1 (gs ++ [c]) hp hset (by simp [s1]; omega)
    refine ⟨.deq gs.length :: ops, s', gs', ?_, h2, h3, h4, h5, by simpa [ncalls] using h6⟩
    have hstep : s.step (.deq gs.length) = some s1 := by
      simp only [St.step, hi, hlast, s1]
    simp only [St.run, hstep, Option.bind_some]
    exact h1

/-- Each of those who took a chunk notifies the one who waits, and not the producer. -/
theorem notifyAll (gs : List Nat) : ∀ (s : St) (hs : List Nat), s.prod = .waiting → s.pool = [] →
    s.calls = hs.map .has ++ gs.map .got ++ [.waiting] →
    ∃ ops s', ∃ hs' : List Nat, s.run ops = some s' ∧ s'.prod = .waiting ∧ s'.pool = [] ∧ s'.calls = hs'.map .has ++ [.waiting] ∧
      s'.cap = s.cap ∧ ncalls ops = 0 := by
  induction gs with
  | nil => intro s hs hp hl hc; exact ⟨[], s, hs, rfl, hp, hl, by simpa using hc, rfl, rfl⟩
  | cons g gs ih =>
    intro s hs hp hl hc
    have hi : s.calls[hs.length]? = some (.got g) := by rw [hc]; simp
    let n := hs.length + gs.length + 1
    let c1 : List Call := (hs ++ [g]).map .has ++ gs.map .got ++ [.waiting]
    let c2 : List Call := (hs ++ [g]).map .has ++ gs.map .got ++ [.woken]
    have e1 : s.calls.set hs.length (.has g) = c1 := by rw [hc]; simp [List.set_append, c1]
    have hn : ((hs ++ [g]).map Call.has ++ gs.map Call.got).length = n := by simp [n]; omega
    have e2 : c1[n]? = some .waiting := by rw [← hn]; simp only [c1]; exact List.getElem?_concat_length
    have e3 : c1.set n .woken = c2 := by rw [← hn]; simp only [c1, c2]; rw [List.set_append_right _ _ (Nat.le_refl _)]; simp
    have e4 : c2[n]? = some .woken := by rw [← hn]; simp only [c2]; exact List.getElem?_concat_length
    have e5 : c2.set n .waiting = c1 := by rw [← hn]; simp only [c1, c2]; rw [List.set_append_right _ _ (Nat.le_refl _)]; simp
    obtain ⟨ops, s', hs', h1, h2, h3, h4, h5, h6⟩ := ih { s with calls := c1 } (hs ++ [g]) hp hl rfl
    refine ⟨.deqNotify hs.length (some (.call n)) :: .deq n :: ops, s', hs', ?_, h2, h3, h4, h5,
      by simpa [ncalls] using h6⟩
    have a1 : s.step (.deqNotify hs.length (some (.call n))) = some { s with calls := c2 } := by
      simp only [St.step, hi, e1, St.wake]
      rw [if_pos e2, e3]
    have a2 : ({ s with calls := c2 } : St).step (.deq n) = some { s with calls := c1 } := by
      simp only [St.step, e4, hl, List.getLast?_nil, e5]
    simp only [St.run, a1, a2, Option.bind_some]
    exact h1

/-- Nobody gets a chunk: what is kept as long as no chunk is given back. -/
structure Dry (s : St) : Prop where
  prod : s.prod = .waiting
  pool : s.pool = []
  calls : ∀ c ∈ s.calls, c = .start ∨ c = .waiting ∨ c.active = false

theorem dry_step (s s' : St) (op : Op) (hd : Dry s) (hq : op = .call ∨ op.quiet = true) (hs : s.step op = some s') :
    Dry s' ∧ s'.calls.filterMap Call.chunk = s.calls.filterMap Call.chunk := by
  have no : ∀ (i : Nat) (a : Call), s.calls[i]? = some a → a = .start ∨ a = .waiting ∨ a.active = false :=
    fun i a hi => hd.calls a (List.mem_of_getElem? hi)
  cases op with
  | call =>
    cases hs
    refine ⟨⟨hd.prod, hd.pool, fun c hc => ?_⟩, ?_⟩
    · rcases List.mem_append.1 hc with h | h
      · exact hd.calls c h
      · left; simpa using h
    · show (s.calls ++ [Call.start]).filterMap Call.chunk = _
      rw [List.filterMap_append, show [Call.start].filterMap Call.chunk = [] from rfl, List.append_nil]
  | deq i =>
    simp only [St.step, hd.pool, List.getLast?_nil] at hs
    have key : ∀ a : Call, a.chunk = none → s.calls[i]? = some a →
        some { s with calls := s.calls.set i .waiting } = some s' →
        Dry s' ∧ s'.calls.filterMap Call.chunk = s.calls.filterMap Call.chunk := by
      intro a ha hi hs
      cases hs
      refine ⟨⟨hd.prod, hd.pool, fun c hc => ?_⟩, ?_⟩
      · rcases List.mem_or_eq_of_mem_set hc with h | h
        · exact hd.calls c h
        · right; left; exact h
      · have : ∀ (l : List Call) (i : Nat), l[i]? = some a →
            (l.set i .waiting).filterMap Call.chunk = l.filterMap Call.chunk := by
          intro l
          induction l with
          | nil => intro i h; simp at h
          | cons x l ih =>
            intro i h
            cases i with
            | zero =>
              simp only [List.getElem?_cons_zero, Option.some.injEq] at h
              subst h
              simp only [List.set_cons_zero, List.filterMap_cons, ha]
              rfl
            | succ i =>
              simp only [List.set_cons_succ, List.filterMap_cons]
              rw [ih i (by simpa using h)]
        exact this _ _ hi
    cases hi : s.calls[i]? with
    | none => rw [hi] at hs; cases hs
    | some a =>
      rw [hi] at hs
      cases a with
      | start => exact key .start rfl hi (by rw [← hs, hd.pool])
      | woken => exact key .woken rfl hi (by rw [← hs, hd.pool])
      | _ => cases hs
  | deqNotify i w =>
    simp only [St.step] at hs
    split at hs
    · rename_i c hi; rcases no i _ hi with h | h | h <;> cases h
    · cases hs
  | enq i =>
    simp only [St.step] at hs
    split at hs
    · rename_i c hi; rcases no i _ hi with h | h | h <;> cases h
    · cases hs
  | enqNotify i w =>
    simp only [St.step] at hs
    split at hs
    · rename_i hi; rcases no i _ hi with h | h | h <;> cases h
    · cases hs
  | enqRemove i =>
    simp only [St.step] at hs
    split at hs
    · rename_i c hi; rcases no i _ hi with h | h | h <;> cases h
    · cases hs
  | prod w =>
    simp only [St.step] at hs
    rw [if_pos hd.prod] at hs; cases hs
  | give i => rcases hq with h | h <;> cases h
  | spurious w => rcases hq with h | h <;> cases h

theorem dry_run (ops : List Op) : ∀ (s s' : St), Dry s → (∀ op ∈ ops, op = .call ∨ op.quiet = true) →
    s.run ops = some s' → Dry s' ∧ s'.calls.filterMap Call.chunk = s.calls.filterMap Call.chunk := by
  induction ops with
  | nil => intro s s' hd _ h; cases h; exact ⟨hd, rfl⟩
  | cons op ops ih =>
    intro s s' hd hq h
    simp only [St.run] at h
    obtain ⟨s1, h1, h2⟩ := Option.bind_eq_some_iff.1 h
    obtain ⟨d1, e1⟩ := dry_step s s1 op hd (hq op (by simp)) h1
    obtain ⟨d2, e2⟩ := ih s1 s' d1 (fun o ho => hq o (by simp [ho])) h2
    exact ⟨d2, by rw [e2, e1]⟩

end HS.Pool
