/-!
# Shared vocabulary

Nothing here models HomeStore: generic execution of transition systems and block ranges.
-/
namespace HS

/-- Execute a partial step function over a list of actions; `none` = some action was not
enabled (or aborted the program, where a model says so). -/
def runOpt {σ α : Type _} (step : σ → α → Option σ) : σ → List α → Option σ
  | s, [] => some s
  | s, a :: as => match step s a with
    | some s' => runOpt step s' as
    | none => none

theorem runOpt_append {σ α : Type _} (step : σ → α → Option σ) (s : σ) (as bs : List α) :
    runOpt step s (as ++ bs) = (runOpt step s as).bind (fun s' => runOpt step s' bs) := by
  induction as generalizing s with
  | nil => rfl
  | cons a as ih =>
    simp only [List.cons_append, runOpt]
    cases step s a with
    | none => rfl
    | some s' => exact ih s'

/-- Invariant rule. -/
theorem runOpt_inv {σ α : Type _} {step : σ → α → Option σ} {Inv : σ → Prop}
    (hstep : ∀ s a s', Inv s → step s a = some s' → Inv s')
    {s : σ} {as : List α} {s' : σ} (h0 : Inv s) (h : runOpt step s as = some s') : Inv s' := by
  induction as generalizing s with
  | nil => simp only [runOpt, Option.some.injEq] at h; exact h ▸ h0
  | cons a as ih =>
    simp only [runOpt] at h
    cases hs : step s a with
    | none => simp [hs] at h
    | some s1 => rw [hs] at h; exact ih (hstep s a s1 h0 hs) h

/-- Execute a total step function with outputs. -/
def runOut {σ α ω : Type _} (step : σ → α → σ × ω) : σ → List α → σ × List ω
  | s, [] => (s, [])
  | s, a :: as =>
    let r := step s a
    let q := runOut step r.1 as
    (q.1, r.2 :: q.2)

theorem runOut_append {σ α ω : Type _} (step : σ → α → σ × ω) (s : σ) (as bs : List α) :
    runOut step s (as ++ bs) =
      ((runOut step (runOut step s as).1 bs).1,
       (runOut step s as).2 ++ (runOut step (runOut step s as).1 bs).2) := by
  induction as generalizing s with
  | nil => simp [runOut]
  | cons a as ih => simp [runOut, ih]

/-- Two block ranges `[a, a+n)` and `[b, b+m)` share no block. -/
def RangesDisjoint (a n b m : Nat) : Prop := ∀ x, ¬ ((a ≤ x ∧ x < a + n) ∧ (b ≤ x ∧ x < b + m))

theorem rangesDisjoint_of_le {a n b m : Nat} (h : a + n ≤ b ∨ b + m ≤ a) :
    RangesDisjoint a n b m := by
  intro x hx; omega

end HS
