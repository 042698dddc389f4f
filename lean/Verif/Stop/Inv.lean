import Verif.Stop.Spec
/- Invariants of all histories. -/
namespace HS.Stop
open Prog Obj

theorem owed_nonneg (A : Obj → Bool) (o : Obj) (p : Prog) : 0 ≤ owed A o p := by
  induction p with
  | done => simp [owed]
  | test x a b iha ihb => simp only [owed]; split <;> omega
  | inc x k ih => simp only [owed]; split <;> omega
  | dec x k ih => simp only [owed]; split <;> omega
  | use x k ih => simpa only [owed] using ih
  | alt a b iha ihb => simp only [owed]; omega
  | fork a b iha ihb => simp only [owed]; omega
  | stop x k ih => simpa only [owed] using ih
  | await x k ih => simpa only [owed] using ih

/-- The sum of `f` over the threads. -/
def total (f : Prog → Int) (l : List Prog) : Int := (l.map f).sum

theorem total_append (f : Prog → Int) (a b : List Prog) : total f (a ++ b) = total f a + total f b := by
  simp [total]

theorem total_one (f : Prog → Int) (p : Prog) : total f [p] = f p := by simp [total]

theorem total_set (f : Prog → Int) : ∀ (l : List Prog) (i : Nat) (p q : Prog), l[i]? = some p →
    total f (l.set i q) = total f l - f p + f q
  | [], i, p, q, h => by simp at h
  | x :: l, 0, p, q, h => by
    simp only [List.getElem?_cons_zero, Option.some.injEq] at h
    subst h; simp only [total, List.set_cons_zero, List.map_cons, List.sum_cons]; omega
  | x :: l, i + 1, p, q, h => by
    simp only [List.getElem?_cons_succ] at h
    have := total_set f l i p q h
    simp only [total, List.set_cons_succ, List.map_cons, List.sum_cons] at *
    omega

theorem total_nonneg (f : Prog → Int) (hf : ∀ p, 0 ≤ f p) : ∀ l : List Prog, 0 ≤ total f l
  | [] => by simp [total]
  | x :: l => by
    have := total_nonneg f hf l; have := hf x
    simp only [total, List.map_cons, List.sum_cons] at *; omega

theorem le_total (f : Prog → Int) (hf : ∀ p, 0 ≤ f p) : ∀ (l : List Prog) (p : Prog), p ∈ l →
    f p ≤ total f l
  | [], p, h => by simp at h
  | x :: l, p, h => by
    have h0 := total_nonneg f hf l
    have hx := hf x
    rcases List.mem_cons.1 h with rfl | h
    · simp only [total, List.map_cons, List.sum_cons] at *; omega
    · have := le_total f hf l p h
      simp only [total, List.map_cons, List.sum_cons] at *; omega

theorem total_pos (f : Prog → Int) : ∀ l : List Prog, 1 ≤ total f l → ∃ p ∈ l, 1 ≤ f p
  | [], h => by simp [total] at h
  | x :: l, h => by
    by_cases hx : 1 ≤ f x
    · exact ⟨x, by simp, hx⟩
    · have : 1 ≤ total f l := by
        simp only [total, List.map_cons, List.sum_cons] at *; omega
      obtain ⟨p, hp, h1⟩ := total_pos f l this
      exact ⟨p, by simp [hp], h1⟩

/-- Flags do not go down. -/
theorem flag_step {s t : St} {e : Ev} (h : s.step e = some t) (o : Obj) (hs : s.flag o = true) :
    t.flag o = true := by
  cases e with
  | call p => simp only [St.step, Option.some.injEq] at h; subst h; exact hs
  | run i c =>
    simp only [St.step] at h
    split at h
    · rename_i p hp
      cases p <;> simp only [St.exec, St.next] at h
      case done => simp at h
      case await => split at h <;> simp at h; subst h; exact hs
      all_goals (simp only [Option.some.injEq] at h; subst h)
      all_goals try exact hs
      case stop => simp only [upd]; split <;> simp_all
    · simp at h

/-- What holds of the counts in one state, for the objects outside of `A`. -/
structure Low (A : Obj → Bool) (c : Obj → Int) (s : St) : Prop where
  low : ∀ o, c o + total (owed A o) s.pool ≤ s.pend o

theorem low_step {A : Obj → Bool} {c : Obj → Int} {s t : St} {e : Ev} (h : s.step e = some t)
    (hA : ∀ o, A o = true → s.flag o = false) (hc : ∀ p, e = .call p → ∀ o, owed A o p = 0)
    (hl : Low A c s) : Low A c t := by
  cases e with
  | call p =>
    simp only [St.step, Option.some.injEq] at h; subst h
    constructor; intro o
    have := hl.low o
    have h0 := hc p rfl o
    simp only [total_append, total_one]; omega
  | run i ch =>
    simp only [St.step] at h
    split at h
    · rename_i p hp
      constructor; intro o
      have hlo := hl.low o
      cases p with
      | done => simp [St.exec] at h
      | test x a b =>
        simp only [St.exec, St.next, Option.some.injEq] at h; subst h
        have hn := owed_nonneg A o a
        have hn' := owed_nonneg A o b
        simp only [total_set _ _ _ _ _ hp, owed]
        cases hx : A x
        · simp only [Bool.false_eq_true, if_false]
          split <;> omega
        · simp only [hA x hx, if_true, Bool.false_eq_true, if_false]; omega
      | inc x k =>
        simp only [St.exec, St.next, Option.some.injEq] at h; subst h
        simp only [total_set _ _ _ _ _ hp, owed, upd]
        by_cases hx : x = o
        · subst hx; simp only [if_true]; omega
        · rw [if_neg hx, if_neg (Ne.symm hx)]; omega
      | dec x k =>
        simp only [St.exec, St.next, Option.some.injEq] at h; subst h
        simp only [total_set _ _ _ _ _ hp, owed, upd]
        by_cases hx : x = o
        · subst hx; simp only [if_true]; omega
        · rw [if_neg hx, if_neg (Ne.symm hx)]; omega
      | use x k =>
        simp only [St.exec, St.next, Option.some.injEq] at h; subst h
        simp only [total_set _ _ _ _ _ hp, owed]; omega
      | alt a b =>
        simp only [St.exec, St.next, Option.some.injEq] at h; subst h
        simp only [total_set _ _ _ _ _ hp, owed]; split <;> omega
      | fork a b =>
        simp only [St.exec, St.next, Option.some.injEq] at h; subst h
        simp only [total_append, total_one, total_set _ _ _ _ _ hp, owed]; omega
      | stop x k =>
        simp only [St.exec, St.next, Option.some.injEq] at h; subst h
        simp only [total_set _ _ _ _ _ hp, owed]; omega
      | await x k =>
        simp only [St.exec, St.next] at h
        split at h <;> simp at h
        subst h
        simp only [total_set _ _ _ _ _ hp, owed]; omega
    · simp at h

/-- Nothing is counted that is not given back. -/
structure High (A : Obj → Bool) (s : St) : Prop where
  high : ∀ o, s.pend o ≤ total (back A o) s.pool

theorem high_step {A : Obj → Bool} {s t : St} {e : Ev} (h : s.step e = some t)
    (hA : ∀ o, A o = true → s.flag o = false) (hc : ∀ p, e = .call p → ∀ o, 0 ≤ back A o p)
    (hl : High A s) : High A t := by
  cases e with
  | call p =>
    simp only [St.step, Option.some.injEq] at h; subst h
    constructor; intro o
    have := hl.high o
    have h0 := hc p rfl o
    simp only [total_append, total_one]; omega
  | run i ch =>
    simp only [St.step] at h
    split at h
    · rename_i p hp
      constructor; intro o
      have hlo := hl.high o
      cases p with
      | done => simp [St.exec] at h
      | test x a b =>
        simp only [St.exec, St.next, Option.some.injEq] at h; subst h
        simp only [total_set _ _ _ _ _ hp, back]
        cases hx : A x
        · simp only [Bool.false_eq_true, if_false]
          split <;> omega
        · simp only [hA x hx, if_true, Bool.false_eq_true, if_false]; omega
      | inc x k =>
        simp only [St.exec, St.next, Option.some.injEq] at h; subst h
        simp only [total_set _ _ _ _ _ hp, back, upd]
        by_cases hx : x = o
        · subst hx; simp only [if_true]; omega
        · rw [if_neg hx, if_neg (Ne.symm hx)]; omega
      | dec x k =>
        simp only [St.exec, St.next, Option.some.injEq] at h; subst h
        simp only [total_set _ _ _ _ _ hp, back, upd]
        by_cases hx : x = o
        · subst hx; simp only [if_true]; omega
        · rw [if_neg hx, if_neg (Ne.symm hx)]; omega
      | use x k =>
        simp only [St.exec, St.next, Option.some.injEq] at h; subst h
        simp only [total_set _ _ _ _ _ hp, back]; omega
      | alt a b =>
        simp only [St.exec, St.next, Option.some.injEq] at h; subst h
        simp only [total_set _ _ _ _ _ hp, back]; split <;> omega
      | fork a b =>
        simp only [St.exec, St.next, Option.some.injEq] at h; subst h
        simp only [total_append, total_one, total_set _ _ _ _ _ hp, back]; omega
      | stop x k =>
        simp only [St.exec, St.next, Option.some.injEq] at h; subst h
        simp only [total_set _ _ _ _ _ hp, back]; omega
      | await x k =>
        simp only [St.exec, St.next] at h
        split at h <;> simp at h
        subst h
        simp only [total_set _ _ _ _ _ hp, back]; omega
    · simp at h

/-- The stops of the program wait only for objects behind those the thread is counted on. -/
def Ord (A : Obj → Bool) : Prog → Prop
  | done => True
  | test x a b => if A x then Ord A b else Ord A a ∧ Ord A b
  | inc _ k => Ord A k
  | dec _ k => Ord A k
  | use _ k => Ord A k
  | alt a b => Ord A a ∧ Ord A b
  | fork a b => Ord A a ∧ Ord A b
  | stop x k => (∀ o, 1 ≤ back A o k → rank o < rank x) ∧ Ord A k
  | await x k => (∀ o, 1 ≤ back A o k → rank o < rank x) ∧ Ord A k

theorem pool_step {Q : Prog → Prop} {s t : St} {e : Ev} (h : s.step e = some t)
    (hc : ∀ p, e = .call p → Q p) (hs : ∀ p ∈ s.pool, Q p)
    (hQ : ∀ p, Q p → match p with
      | done => True
      | test x a b => if s.flag x then Q a else Q b
      | inc _ k => Q k
      | dec _ k => Q k
      | use _ k => Q k
      | alt a b => Q a ∧ Q b
      | fork a b => Q a ∧ Q b
      | stop x k => Q (await x k)
      | await _ k => Q k) : ∀ p ∈ t.pool, Q p := by
  cases e with
  | call p =>
    simp only [St.step, Option.some.injEq] at h; subst h
    intro q hq
    rcases List.mem_append.1 hq with hq | hq
    · exact hs q hq
    · rw [List.mem_singleton.1 hq]; exact hc p rfl
  | run i ch =>
    simp only [St.step] at h
    split at h
    · rename_i p hp
      have hpm : p ∈ s.pool := List.mem_of_getElem? hp
      have hq := hQ p (hs p hpm)
      have key : ∀ k, Q k → ∀ q ∈ s.pool.set i k, Q q := by
        intro k hk q hq
        rcases List.mem_or_eq_of_mem_set hq with h | rfl
        · exact hs q h
        · exact hk
      cases p with
      | done => simp [St.exec] at h
      | test x a b =>
        simp only [St.exec, St.next, Option.some.injEq] at h; subst h
        apply key; simp only at hq; split <;> rename_i hf <;> simpa [hf] using hq
      | inc x k => simp only [St.exec, St.next, Option.some.injEq] at h; subst h; exact key _ hq
      | dec x k => simp only [St.exec, St.next, Option.some.injEq] at h; subst h; exact key _ hq
      | use x k => simp only [St.exec, St.next, Option.some.injEq] at h; subst h; exact key _ hq
      | alt a b =>
        simp only [St.exec, St.next, Option.some.injEq] at h; subst h
        apply key; split
        · exact hq.1
        · exact hq.2
      | fork a b =>
        simp only [St.exec, St.next, Option.some.injEq] at h; subst h
        intro q hm
        rcases List.mem_append.1 hm with hm | hm
        · exact key _ hq.2 q hm
        · rw [List.mem_singleton.1 hm]; exact hq.1
      | stop x k => simp only [St.exec, St.next, Option.some.injEq] at h; subst h; exact key _ hq
      | await x k =>
        simp only [St.exec, St.next] at h
        split at h <;> simp at h
        subst h; exact key _ hq
    · simp at h

theorem ord_step {A : Obj → Bool} {s t : St} {e : Ev} (h : s.step e = some t)
    (hA : ∀ o, A o = true → s.flag o = false) (hc : ∀ p, e = .call p → Ord A p)
    (hs : ∀ p ∈ s.pool, Ord A p) : ∀ p ∈ t.pool, Ord A p := by
  refine pool_step h hc hs ?_
  intro p hp
  cases p <;> simp only [Ord] at hp ⊢ <;> try exact hp
  case await => exact hp.2
  rename_i x a b
  cases hx : A x
  · simp only [hx, Bool.false_eq_true, if_false] at hp
    split
    · exact hp.1
    · exact hp.2
  · simpa [hx, hA x hx] using hp

/-- A step makes what is left shorter. -/
def St.left (s : St) : Nat := (s.pool.map size).sum

theorem left_set : ∀ (l : List Prog) (i : Nat) (p q : Prog), l[i]? = some p →
    ((l.set i q).map size).sum + size p = (l.map size).sum + size q
  | [], i, p, q, h => by simp at h
  | x :: l, 0, p, q, h => by
    simp only [List.getElem?_cons_zero, Option.some.injEq] at h
    subst h; simp only [List.set_cons_zero, List.map_cons, List.sum_cons]; omega
  | x :: l, i + 1, p, q, h => by
    simp only [List.getElem?_cons_succ] at h
    have := left_set l i p q h
    simp only [List.set_cons_succ, List.map_cons, List.sum_cons] at *
    omega

theorem left_step {s t : St} {i : Nat} {c : Bool} (h : s.step (.run i c) = some t) :
    t.left < s.left := by
  simp only [St.step] at h
  split at h
  · rename_i p hp
    have hset := left_set s.pool i p
    unfold St.left
    cases p with
    | done => simp [St.exec] at h
    | test x a b =>
      simp only [St.exec, St.next, Option.some.injEq] at h; subst h
      have := hset (if s.flag x then a else b) hp
      simp only [size] at this
      simp only
      split at this <;> simp_all <;> omega
    | inc x k =>
      simp only [St.exec, St.next, Option.some.injEq] at h; subst h
      have := hset k hp; simp only [size] at this; simp only; omega
    | dec x k =>
      simp only [St.exec, St.next, Option.some.injEq] at h; subst h
      have := hset k hp; simp only [size] at this; simp only; omega
    | use x k =>
      simp only [St.exec, St.next, Option.some.injEq] at h; subst h
      have := hset k hp; simp only [size] at this; simp only; omega
    | alt a b =>
      simp only [St.exec, St.next, Option.some.injEq] at h; subst h
      have := hset (if c then a else b) hp
      simp only [size] at this
      simp only
      cases c <;> simp at this ⊢ <;> omega
    | fork a b =>
      simp only [St.exec, St.next, Option.some.injEq] at h; subst h
      have := hset b hp; simp only [size] at this
      simp only [List.map_append, List.sum_append, List.map_cons, List.map_nil, List.sum_cons,
        List.sum_nil]; omega
    | stop x k =>
      simp only [St.exec, St.next, Option.some.injEq] at h; subst h
      have := hset (await x k) hp; simp only [size] at this; simp only; omega
    | await x k =>
      simp only [St.exec, St.next] at h
      split at h <;> simp at h
      subst h
      have := hset k hp; simp only [size] at this; simp only; omega
  · simp at h

/-- A thread that cannot go on waits in a stop. -/
theorem stuck_waits {s : St} (h : s.Stuck) {p : Prog} (hp : p ∈ s.pool) (hd : p ≠ done) :
    ∃ x k, p = await x k ∧ s.pend x ≠ 0 := by
  obtain ⟨i, hi⟩ := List.mem_iff_getElem?.1 hp
  have hs := h i true
  simp only [St.step, hi] at hs
  cases p <;> simp only [St.exec] at hs <;> try simp at hs
  · exact absurd rfl hd
  · rename_i x k
    exact ⟨x, k, rfl, hs⟩

/-- Waiting threads cannot wait for each other for ever. -/
theorem stuck_over {A : Obj → Bool} {s : St} (hl : Low A (fun _ => 0) s) (hh : High A s)
    (ho : ∀ p ∈ s.pool, Ord A p) (h : s.Stuck) : s.Over := by
  have climb : ∀ n : Nat, ∀ x k, await x k ∈ s.pool → n ≤ rank x → False := by
    intro n
    -- ranks are at most five
    have hr : ∀ x : Obj, rank x ≤ 5 := by intro x; cases x <;> simp [rank]
    induction hm : 6 - n generalizing n with
    | zero => intro x k _ hx; have := hr x; omega
    | succ m ih =>
      intro x k hp hx
      obtain ⟨x', k', he, hne⟩ := stuck_waits h hp (by simp)
      injection he with he1 he2; subst he1; subst he2
      have h1 := hl.low x
      have h2 := total_nonneg (owed A x) (owed_nonneg A x) s.pool
      have h3 := hh.high x
      simp only [Int.zero_add] at h1
      obtain ⟨q, hq, hb⟩ := total_pos (back A x) s.pool (by omega)
      have hqd : q ≠ done := by rintro rfl; simp [back] at hb
      obtain ⟨y, j, rfl, _⟩ := stuck_waits h hq hqd
      have hlt := (ho _ hq).1 x (by simpa only [back] using hb)
      exact ih (n + 1) (by omega) y j hq (by omega)
  intro p hp
  by_cases hd : p = done
  · exact hd
  · obtain ⟨x, k, rfl, _⟩ := stuck_waits h hp hd
    exact (climb 0 x k hp (by omega)).elim

end HS.Stop
