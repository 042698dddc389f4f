import Verif.Vdev.Model
/-! Executable check of executions, used for the concrete witnesses. -/
namespace HS.Vdev

/-- `waitOk` for threads numbered below `n`, which are the only ones that may begin a commit. -/
def waitB (n : Nat) (s : St) : Act → Bool
  | .sync1 => (List.range n).all fun t => match s.sec t with | some sc => ! sc.direct | none => true
  | .sync2 => (List.range n).all fun t => match s.sec t with | some sc => sc.direct | none => true
  | .initDone => (List.range n).all fun t => (s.sec t).isNone
  | .commitBegin t _ => decide (t < n)
  | _ => true

/-- Executable check that a list of actions is an execution, for threads numbered below `n`. -/
def runB (n : Nat) (okB : St → Act → Bool) (s : St) : List Act → Option St
  | [] => some s
  | a :: as =>
    if okB s a && waitB n s a then
      match step s a with
      | some s' => runB n okB s' as
      | none => none
    else none

theorem secBound_step (n : Nat) (s s' : St) (a : Act) (hb : ∀ t, n ≤ t → s.sec t = none)
    (ha : ∀ t xs, a = .commitBegin t xs → t < n) (hs : step s a = some s') :
    ∀ t, n ≤ t → s'.sec t = none := by
  intro t ht
  have h0 := hb t ht
  cases a with
  | commitBegin t' xs =>
    have := ha t' xs rfl
    simp only [step] at hs
    split at hs
    · simp only [Option.some.injEq] at hs; subst hs
      simp only [upd]; grind
    · simp at hs
  | commitStep t' =>
    simp only [step] at hs
    split at hs
    · simp only [Option.some.injEq] at hs; subst hs; simp only [upd]; grind
    · rename_i hsec
      simp only [St.setBit, Option.some.injEq] at hs
      have : t ≠ t' := by intro e; rw [e] at h0; rw [h0] at hsec; cases hsec
      split at hs <;> (subst hs; simp [upd, this, h0])
    · simp only [Option.some.injEq] at hs; subst hs; simp only [upd]; grind
    · simp at hs
  | replay =>
    simp only [step] at hs
    have hf : ∀ (xs : List Nat) (s : St), (xs.foldl St.setBit s).sec = s.sec := by
      intro xs
      induction xs with
      | nil => intro s; rfl
      | cons x xs ih => intro s; rw [List.foldl_cons, ih]; unfold St.setBit; split <;> rfl
    split at hs
    · simp only [Option.some.injEq] at hs; subst hs; simp [St.replayOne, hf, h0]
    · simp only [Option.some.injEq] at hs; subst hs; exact h0
    · simp at hs
  | _ =>
    simp only [step, St.freeBlk] at hs
    repeat' split at hs
    all_goals (try contradiction)
    all_goals (simp only [Option.some.injEq] at hs; subst hs; first | exact h0 | rfl)

theorem exec_of_runB {n : Nat} {ok : St → Act → Prop} {okB : St → Act → Bool}
    (hok : ∀ s a, okB s a = true → ok s a) :
    ∀ (as : List Act) (s s' : St), (∀ t, n ≤ t → s.sec t = none) →
    runB n okB s as = some s' → Exec ok s as s'
  | [], s, s', _, h => by simp only [runB, Option.some.injEq] at h; subst h; exact .nil _
  | a :: as, s, s', hb, h => by
    unfold runB at h
    by_cases hg : (okB s a && waitB n s a) = true
    rotate_left
    · rw [if_neg hg] at h; simp at h
    rw [if_pos hg] at h
    cases hs : step s a with
    | none => rw [hs] at h; simp at h
    | some s1 =>
    rw [hs] at h
    simp only [Bool.and_eq_true] at hg h
    have hw : waitOk s a := by
      have hg := hg.2
      cases a <;> simp only [waitOk] <;> simp only [waitB, List.all_eq_true, List.mem_range] at hg
      · intro t sc hsc
        by_cases ht : t < n
        · have := hg t ht; simp [hsc] at this; exact this
        · rw [hb t (by omega)] at hsc; cases hsc
      · intro t sc hsc
        by_cases ht : t < n
        · have := hg t ht; simp [hsc] at this; exact this
        · rw [hb t (by omega)] at hsc; cases hsc
      · intro t
        by_cases ht : t < n
        · have := hg t ht; simpa using this
        · exact hb t (by omega)
    refine .cons (hok _ _ hg.1) hw hs (exec_of_runB hok as s1 s' ?_ h)
    refine secBound_step n s s1 a hb ?_ hs
    intro t xs e
    subst e
    simpa [waitB] using hg.2

theorem Exec.split {ok : St → Act → Prop} : ∀ {as bs : List Act} {s s' : St},
    Exec ok s (as ++ bs) s' → ∃ m, Exec ok s as m ∧ Exec ok m bs s'
  | [], _, s, _, h => ⟨s, .nil _, h⟩
  | _ :: _, _, _, _, .cons h1 h2 h3 h4 =>
    let ⟨m, h5, h6⟩ := Exec.split h4
    ⟨m, .cons h1 h2 h3 h5, h6⟩

theorem Exec.append {ok : St → Act → Prop} : ∀ {as bs : List Act} {s m s' : St},
    Exec ok s as m → Exec ok m bs s' → Exec ok s (as ++ bs) s'
  | _, _, _, _, _, .nil _, h => h
  | _, _, _, _, _, .cons h1 h2 h3 h4, h => .cons h1 h2 h3 (h4.append h)

theorem Exec.det {ok ok' : St → Act → Prop} : ∀ {as : List Act} {s s' s'' : St},
    Exec ok s as s' → Exec ok' s as s'' → s' = s''
  | _, _, _, _, .nil _, .nil _ => rfl
  | _, _, _, _, .cons _ _ h3 h4, .cons _ _ h3' h4' => by
    rw [h3] at h3'
    cases h3'
    exact h4.det h4'

/-- Induction over executions that also tracks the actions performed so far. -/
theorem Exec.hist {ok : St → Act → Prop} {P : List Act → St → Prop} {s0 : St}
    (hstep : ∀ pre s a s', Exec ok s0 pre s → P pre s → ok s a → waitOk s a → step s a = some s' →
      P (pre ++ [a]) s') :
    ∀ {as pre : List Act} {s s' : St}, Exec ok s0 pre s → Exec ok s as s' → P pre s → P (pre ++ as) s'
  | [], pre, _, _, _, .nil _, h0 => by simpa using h0
  | a :: as, pre, s, s', hp, .cons h1 h2 h3 h4, h0 => by
    have := Exec.hist hstep (as := as) (pre := pre ++ [a])
      (hp.append (.cons h1 h2 h3 (.nil _))) h4 (hstep _ _ _ _ hp h0 h1 h2 h3)
    simpa using this

end HS.Vdev
