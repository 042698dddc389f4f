import Verif.Stop.Table
/- The invariants along whole histories. -/
namespace HS.Stop
open Prog Obj

/-- Every call the model knows. -/
def Api (p : Prog) : Prop := Counted p ∨ Returning p ∨ Journalling p

theorem api_owed {p : Prog} (hp : Api p) (o : Obj) : owed nobody o p = 0 := by
  rcases hp with h | h | h
  · exact counted_owed h o
  · exact (returning_counts h nobody).1 o
  · exact journalling_owed h o

/-- An invariant of the steps, along a history. -/
theorem runs_inv {P : St → Prop} {F : Prog → Prop}
    (hP : ∀ s e t, s.step e = some t → (∀ p, e = .call p → F p) → P s → P t) :
    ∀ (es : List Ev) (s t : St), Calls F es → s.runs es = some t → P s → P t
  | [], s, t, _, h, hs => by simp only [St.runs, Option.some.injEq] at h; exact h ▸ hs
  | e :: es, s, t, hc, h, hs => by
    simp only [St.runs] at h
    split at h
    · rename_i u hu
      exact runs_inv hP es u t (fun p hp => hc p (by simp [hp])) h
        (hP s e u hu (fun p hp => hc p (by simp [hp])) hs)
    · simp at h

theorem runs_append : ∀ (es fs : List Ev) (s t u : St), s.runs es = some t → t.runs fs = some u →
    s.runs (es ++ fs) = some u
  | [], fs, s, t, u, h, h' => by simp only [St.runs, Option.some.injEq] at h; subst h; exact h'
  | e :: es, fs, s, t, u, h, h' => by
    simp only [St.runs] at h
    simp only [List.cons_append, St.runs]
    split at h
    · rename_i v hv; exact runs_append es fs v t u h h'
    · simp at h

theorem runs_flag {es : List Ev} {s t : St} (h : s.runs es = some t) (o : Obj)
    (hs : s.flag o = true) : t.flag o = true :=
  runs_inv (F := fun _ => True) (fun _ _ _ h' _ hs => flag_step h' o hs) es s t (fun _ _ => trivial) h hs

theorem no_nobody {s : St} : ∀ o, nobody o = true → s.flag o = false := by
  intro o h; simp [nobody] at h

theorem low_init (A : Obj → Bool) : Low A (fun _ => 0) St.init := ⟨fun o => by simp [total, St.init]⟩

theorem low_runs {es : List Ev} {t : St} (hc : Calls Api es) (h : St.init.runs es = some t) :
    Low nobody (fun _ => 0) t :=
  runs_inv (fun _ _ _ h' hc hl => low_step h' no_nobody (fun p hp o => api_owed (hc p hp) o) hl)
    es _ t hc h (low_init _)

/-- What is needed of a state so that it runs out: counts, and the order of waits. -/
structure Fine (A : Obj → Bool) (s : St) : Prop where
  low : Low A (fun _ => 0) s
  high : High A s
  ord : ∀ p ∈ s.pool, Ord A p

theorem fine_init (A : Obj → Bool) : Fine A St.init :=
  ⟨low_init A, ⟨fun o => by simp [total, St.init]⟩, by simp [St.init]⟩

theorem fine_step {A : Obj → Bool} {s t : St} {e : Ev} (h : s.step e = some t)
    (hA : ∀ o, A o = true → s.flag o = false)
    (hc : ∀ p, e = .call p → (∀ o, owed A o p = 0) ∧ (∀ o, back A o p = 0) ∧ Ord A p)
    (hs : Fine A s) : Fine A t :=
  ⟨low_step h hA (fun p hp o => (hc p hp).1 o) hs.low,
    high_step h hA (fun p hp o => by rw [(hc p hp).2.1 o]; exact Int.le_refl 0) hs.high,
    ord_step h hA (fun p hp => (hc p hp).2.2) hs.ord⟩

/-- Along a history at whose end no object of `A` is stopping. -/
theorem fine_runs {A : Obj → Bool} {F : Prog → Prop}
    (hF : ∀ p, F p → (∀ o, owed A o p = 0) ∧ (∀ o, back A o p = 0) ∧ Ord A p) :
    ∀ (es : List Ev) (s t : St), Calls F es → s.runs es = some t →
      (∀ o, A o = true → t.flag o = false) → Fine A s → Fine A t
  | [], s, t, _, h, _, hs => by simp only [St.runs, Option.some.injEq] at h; exact h ▸ hs
  | e :: es, s, t, hc, h, hA, hs => by
    have h' := h
    simp only [St.runs] at h
    split at h
    · rename_i u hu
      refine fine_runs hF es u t (fun p hp => hc p (by simp [hp])) h hA ?_
      refine fine_step hu ?_ (fun p hp => hF p (hc p (by simp [hp]))) hs
      intro o ho
      cases hf : s.flag o
      · rfl
      · have := runs_flag h' o hf
        rw [hA o ho] at this; exact absurd this (by decide)
    · simp at h

/-- Steps use up what is left. -/
theorem steps_left : ∀ (es : List Ev) (s t : St), Steps es → s.runs es = some t →
    es.length + t.left ≤ s.left
  | [], s, t, _, h => by simp only [St.runs, Option.some.injEq] at h; subst h; simp
  | .call p :: es, s, t, hs, _ => absurd (List.mem_cons_self) (hs p)
  | .run i c :: es, s, t, hs, h => by
    simp only [St.runs] at h
    split at h
    · rename_i u hu
      have h1 := left_step hu
      have h2 := steps_left es u t (fun p hp => hs p (by simp [hp])) h
      simp only [List.length_cons]; omega
    · simp at h

theorem steps_calls {es : List Ev} (h : Steps es) (F : Prog → Prop) : Calls F es :=
  fun p hp => absurd hp (h p)

theorem safe_runs : ∀ (es : List Ev) (s t : St), Calls Counted es → Calm nobody s es →
    s.runs es = some t → Low nobody (fun _ => 0) s → (∀ p ∈ s.pool, Waits s.flag p) →
    (∀ o, Safe nobody o s) → s.bad = false → t.bad = false
  | [], s, t, _, _, h, _, _, _, hb => by
    simp only [St.runs, Option.some.injEq] at h; exact h ▸ hb
  | e :: es, s, t, hc, hcalm, h, hl, hw, hs, hb => by
    simp only [St.runs] at h
    split at h
    · rename_i u hu
      have hce : ∀ p, e = .call p → Counted p := fun p hp => hc p (by simp [hp])
      have hlu := low_step hu no_nobody (fun p hp o => counted_owed (hce p hp) o) hl
      refine safe_runs es u t (fun p hp => hc p (by simp [hp])) (hcalm.2 u hu) h hlu
        (waits_step hu (fun p hp => counted_plain (hce p hp)) hw) ?_ ?_
      · intro o
        refine safe_step hu no_nobody ?_ (hcalm.1 o rfl) hl hlu hw (hs o)
        intro p hp
        obtain ⟨f, rfl, hf⟩ := counted_seg (hce p hp)
        have := hf.ok o done rfl trivial (.inr trivial) (fun h => h.elim)
        exact ⟨by rw [hf.owed_eq]; rfl, this⟩
      · exact bad_step (A := nobody) hu hb (fun o ho => ((hs o).down ho).2)
    · simp at h

theorem safe_init (o : Obj) : Safe nobody o St.init :=
  ⟨by simp [total, St.init], by simp [St.init], by simp [St.init], by simp [St.init]⟩

/-- A count that no thread will give back. -/
def Lost (o : Obj) (s : St) : Prop := 1 + total (owed nobody o) s.pool ≤ s.pend o

/-- A stop of an object with such a count does not get on. -/
theorem lost_runs {o : Obj} {es : List Ev} {s t : St} (hc : Calls Api es) (h : s.runs es = some t)
    (hl : Low nobody (fun _ => 0) s) (hlost : Lost o s) (hd : s.down o = false) : t.down o = false := by
  have key : Low nobody (fun x => if x = o then 1 else 0) t ∧ t.down o = false := by
    refine runs_inv (P := fun s => Low nobody (fun x => if x = o then 1 else 0) s ∧ s.down o = false)
      (F := Api) ?_ es s t hc h ⟨⟨fun x => ?_⟩, hd⟩
    · rintro s e t h hc ⟨hl, hd⟩
      refine ⟨low_step h no_nobody (fun p hp o => api_owed (hc p hp) o) hl, ?_⟩
      cases e with
      | call p => simp only [St.step, Option.some.injEq] at h; subst h; exact hd
      | run i c =>
        simp only [St.step] at h
        split at h
        · rename_i p hp
          rcases down_eq hp h o with h1 | ⟨k, rfl, h0, _⟩
          · rw [h1]; exact hd
          · have h1 := hl.low o
            have h2 := total_nonneg (owed nobody o) (owed_nonneg nobody o) s.pool
            simp only [if_true] at h1; omega
        · simp at h
    · by_cases hx : x = o
      · subst hx; simpa [Lost] using hlost
      · simpa [hx] using hl.low x
  exact key.2

/-! ### Checking by computation that a history is calm -/

def refusesB (o : Obj) : Prog → Bool
  | done => true
  | test x a b => if x = o then refusesB o a else refusesB o a && refusesB o b
  | inc _ k => refusesB o k
  | dec _ k => refusesB o k
  | use x k => decide (x ≠ o) && refusesB o k
  | alt a b => refusesB o a && refusesB o b
  | fork a b => refusesB o a && refusesB o b
  | stop _ k => refusesB o k
  | await _ k => refusesB o k

theorem refusesB_ok (o : Obj) (p : Prog) (h : refusesB o p = true) : Refuses nobody o p := by
  induction p <;> simp only [refusesB, Refuses, nobody, Bool.and_eq_true, decide_eq_true_eq] at h ⊢ <;>
    simp_all
  split at h <;> simp_all

def calmB : St → List Ev → Bool
  | _, [] => true
  | s, e :: es =>
    (match e with
      | .call _ => true
      | .run i _ => match s.pool[i]? with
        | some (stop o _) => s.pool.all (fun p => decide (1 ≤ owed nobody o p) || refusesB o p)
        | _ => true) &&
    match s.step e with
    | some t => calmB t es
    | none => true

theorem calmB_ok : ∀ (es : List Ev) (s : St), calmB s es = true → Calm nobody s es
  | [], _, _ => trivial
  | e :: es, s, h => by
    simp only [calmB, Bool.and_eq_true] at h
    refine ⟨?_, ?_⟩
    · intro o _ hb p hp
      cases e with
      | call q => exact hb.elim
      | run i c =>
        obtain ⟨k, hk⟩ := hb
        have h1 := h.1
        simp only [hk, List.all_eq_true, Bool.or_eq_true, decide_eq_true_eq] at h1
        rcases h1 p hp with h2 | h2
        · exact .inl h2
        · exact .inr (refusesB_ok o p h2)
    · intro t ht
      have h2 := h.2
      simp only [ht] at h2
      exact calmB_ok es t h2

end HS.Stop
