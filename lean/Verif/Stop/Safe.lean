import Verif.Stop.Inv
/- In calm histories no object is touched once its stop has gone on. -/
namespace HS.Stop
open Prog Obj

/-- Every use of `o` is counted on it, and no thread that is settled stops being so by a step. -/
def Wf (A : Obj → Bool) (o : Obj) : Prog → Prop
  | done => True
  | test x a b =>
    if A x then (Settled A o (test x a b) → Settled A o b) ∧ Wf A o b
    else (Settled A o (test x a b) → Settled A o a ∧ (x ≠ o → Settled A o b)) ∧ Wf A o a ∧ Wf A o b
  | inc x k => (Settled A o (inc x k) → Settled A o k) ∧ Wf A o k
  | dec x k => (Settled A o (dec x k) → Settled A o k) ∧ Wf A o k
  | use x k => (x = o → 1 ≤ owed A o k) ∧ (Settled A o (use x k) → Settled A o k) ∧ Wf A o k
  | alt a b => (Settled A o (alt a b) → Settled A o a ∧ Settled A o b) ∧ Wf A o a ∧ Wf A o b
  | fork a b => (Settled A o (fork a b) → Settled A o a ∧ Settled A o b) ∧ Wf A o a ∧ Wf A o b
  | stop x k => (Settled A o (stop x k) → Settled A o k) ∧ Wf A o k
  | await x k => (Settled A o (await x k) → Settled A o k) ∧ Wf A o k

/-- No thread begins by waiting for a count. -/
def Plain : Prog → Prop
  | done => True
  | test _ a b => Plain a ∧ Plain b
  | inc _ k => Plain k
  | dec _ k => Plain k
  | use _ k => Plain k
  | alt a b => Plain a ∧ Plain b
  | fork a b => Plain a ∧ Plain b
  | stop _ k => Plain k
  | await _ _ => False

/-- A thread is plain, or waits in a stop that has set the flag. -/
def Waits (fl : Obj → Bool) (p : Prog) : Prop :=
  Plain p ∨ ∃ x k, p = await x k ∧ fl x = true ∧ Plain k

/-- What holds in all calm histories, for one object. -/
structure Safe (A : Obj → Bool) (o : Obj) (s : St) : Prop where
  low : total (owed A o) s.pool ≤ s.pend o
  wf : ∀ p ∈ s.pool, Wf A o p
  settled : s.flag o = true → ∀ p ∈ s.pool, Settled A o p
  down : s.down o = true → s.flag o = true ∧ ∀ p ∈ s.pool, Refuses A o p

theorem wf_step {A : Obj → Bool} {o : Obj} {s t : St} {e : Ev} (h : s.step e = some t)
    (hA : ∀ o, A o = true → s.flag o = false) (hc : ∀ p, e = .call p → Wf A o p)
    (hs : ∀ p ∈ s.pool, Wf A o p) : ∀ p ∈ t.pool, Wf A o p := by
  refine pool_step h hc hs ?_
  intro p hp
  cases p <;> simp only [Wf] at hp ⊢ <;> try exact hp.2
  · rename_i x a b
    cases hx : A x
    · simp only [hx, Bool.false_eq_true, if_false] at hp
      split
      · exact hp.2.1
      · exact hp.2.2
    · simp only [hx, if_true] at hp
      simpa [hA x hx] using hp.2
  · exact hp.2.2
  · simpa only [Settled, owed, Refuses] using hp

theorem waits_step {s t : St} {e : Ev} (h : s.step e = some t)
    (hc : ∀ p, e = .call p → Plain p)
    (hs : ∀ p ∈ s.pool, Waits s.flag p) : ∀ p ∈ t.pool, Waits t.flag p := by
  have mono : ∀ p, Waits s.flag p → Waits t.flag p := by
    rintro p (hp | ⟨x, k, rfl, hx, hk⟩)
    · exact .inl hp
    · exact .inr ⟨x, k, rfl, flag_step h x hx, hk⟩
  cases e with
  | call p =>
    have h' := h
    simp only [St.step, Option.some.injEq] at h'
    intro q hq
    have : q ∈ s.pool ++ [p] := by rw [← h'] at hq; exact hq
    rcases List.mem_append.1 this with hq | hq
    · exact mono q (hs q hq)
    · rw [List.mem_singleton.1 hq]; exact .inl (hc p rfl)
  | run i ch =>
    have h' := h
    simp only [St.step] at h'
    split at h'
    · rename_i p hp
      have hq := hs p (List.mem_of_getElem? hp)
      have key : ∀ k, Waits t.flag k → ∀ q ∈ s.pool.set i k, Waits t.flag q := by
        intro k hk q hq
        rcases List.mem_or_eq_of_mem_set hq with h | rfl
        · exact mono q (hs q h)
        · exact hk
      have hpl : ∀ q, p = q → (∀ x k, q ≠ await x k) → Plain q := by
        rintro q rfl hne
        rcases hq with hq | ⟨x, k, rfl, _⟩
        · exact hq
        · exact absurd rfl (hne x k)
      cases p with
      | done => simp [St.exec] at h'
      | test x a b =>
        have hp := hpl _ rfl (by simp)
        simp only [St.exec, St.next, Option.some.injEq] at h'
        have hpool : t.pool = s.pool.set i (if s.flag x then a else b) := by rw [← h']
        rw [hpool]; apply key; left; split
        · exact hp.1
        · exact hp.2
      | inc x k =>
        have hp := hpl _ rfl (by simp)
        simp only [St.exec, St.next, Option.some.injEq] at h'
        have hpool : t.pool = s.pool.set i k := by rw [← h']
        rw [hpool]; exact key _ (.inl hp)
      | dec x k =>
        have hp := hpl _ rfl (by simp)
        simp only [St.exec, St.next, Option.some.injEq] at h'
        have hpool : t.pool = s.pool.set i k := by rw [← h']
        rw [hpool]; exact key _ (.inl hp)
      | use x k =>
        have hp := hpl _ rfl (by simp)
        simp only [St.exec, St.next, Option.some.injEq] at h'
        have hpool : t.pool = s.pool.set i k := by rw [← h']
        rw [hpool]; exact key _ (.inl hp)
      | alt a b =>
        have hp := hpl _ rfl (by simp)
        simp only [St.exec, St.next, Option.some.injEq] at h'
        have hpool : t.pool = s.pool.set i (if ch then a else b) := by rw [← h']
        rw [hpool]; apply key; left; split
        · exact hp.1
        · exact hp.2
      | fork a b =>
        have hp := hpl _ rfl (by simp)
        simp only [St.exec, St.next, Option.some.injEq] at h'
        have hpool : t.pool = s.pool.set i b ++ [a] := by rw [← h']
        rw [hpool]
        intro q hm
        rcases List.mem_append.1 hm with hm | hm
        · exact key _ (.inl hp.2) q hm
        · rw [List.mem_singleton.1 hm]; exact .inl hp.1
      | stop x k =>
        have hp := hpl _ rfl (by simp)
        simp only [St.exec, St.next, Option.some.injEq] at h'
        have hpool : t.pool = s.pool.set i (await x k) := by rw [← h']
        have hflag : t.flag x = true := by rw [← h']; simp [upd]
        rw [hpool]; exact key _ (.inr ⟨x, k, rfl, hflag, hp⟩)
      | await x k =>
        simp only [St.exec, St.next] at h'
        split at h' <;> simp at h'
        have hpool : t.pool = s.pool.set i k := by rw [← h']
        rcases hq with hq | ⟨y, j, he, _, hk⟩
        · exact hq.elim
        · injection he with he1 he2; subst he2
          rw [hpool]; exact key _ (.inl hk)
    · simp at h'

theorem settled_children {A : Obj → Bool} {o : Obj} {s : St} {p : Prog}
    (hA : ∀ o, A o = true → s.flag o = false) (hf : s.flag o = true) (hw : Wf A o p)
    (hp : Settled A o p) : match p with
      | done => True
      | test x a b => if s.flag x then Settled A o a else Settled A o b
      | inc _ k => Settled A o k
      | dec _ k => Settled A o k
      | use _ k => Settled A o k
      | alt a b => Settled A o a ∧ Settled A o b
      | fork a b => Settled A o a ∧ Settled A o b
      | stop x k => Settled A o (await x k)
      | await _ k => Settled A o k := by
  cases p <;> simp only [Wf] at hw ⊢
  case test x a b =>
    cases hx : A x
    · simp only [hx, Bool.false_eq_true, if_false] at hw
      have := hw.1 hp
      split
      · exact this.1
      · rename_i hn
        exact this.2 (by rintro rfl; exact hn hf)
    · simp only [hx, if_true] at hw
      simpa [hA x hx] using hw.1 hp
  case use => exact hw.2.1 hp
  case stop => exact hp
  all_goals exact hw.1 hp

theorem refuses_children {A : Obj → Bool} {o : Obj} {s : St} {p : Prog}
    (hA : ∀ o, A o = true → s.flag o = false) (hf : s.flag o = true)
    (hp : Refuses A o p) : match p with
      | done => True
      | test x a b => if s.flag x then Refuses A o a else Refuses A o b
      | inc _ k => Refuses A o k
      | dec _ k => Refuses A o k
      | use _ k => Refuses A o k
      | alt a b => Refuses A o a ∧ Refuses A o b
      | fork a b => Refuses A o a ∧ Refuses A o b
      | stop x k => Refuses A o (await x k)
      | await _ k => Refuses A o k := by
  cases p <;> simp only [Refuses] at hp ⊢ <;> try exact hp
  case test x a b =>
    cases hx : A x
    · simp only [hx, Bool.false_eq_true, if_false] at hp
      by_cases he : x = o
      · subst he; simp only [hf, if_true]; simpa using hp
      · rw [if_neg he] at hp
        split
        · exact hp.1
        · exact hp.2
    · simp only [hx, if_true] at hp
      simpa [hA x hx] using hp
  case use => exact hp.2

/-- How flags and marks change by a step. -/
theorem flag_eq {s t : St} {i : Nat} {c : Bool} {p : Prog} (hp : s.pool[i]? = some p)
    (h : s.exec i c p = some t) (o : Obj) : t.flag o = s.flag o ∨ ∃ k, p = stop o k := by
  cases p <;> simp only [St.exec, St.next] at h
  case done => simp at h
  case await => split at h <;> simp at h; subst h; exact .inl rfl
  all_goals (simp only [Option.some.injEq] at h; subst h)
  case stop x k =>
    by_cases hx : o = x
    · subst hx; exact .inr ⟨k, rfl⟩
    · left; simp [upd, hx]
  all_goals exact .inl rfl

theorem down_eq {s t : St} {i : Nat} {c : Bool} {p : Prog} (hp : s.pool[i]? = some p)
    (h : s.exec i c p = some t) (o : Obj) :
    t.down o = s.down o ∨ ∃ k, p = await o k ∧ s.pend o = 0 ∧ t.pool = s.pool.set i k ∧
      t.flag = s.flag := by
  cases p <;> simp only [St.exec, St.next] at h
  case done => simp at h
  case await x k =>
    split at h <;> simp at h
    rename_i h0
    subst h
    by_cases hx : o = x
    · subst hx; exact .inr ⟨k, rfl, h0, rfl, rfl⟩
    · left; simp [upd, hx]
  all_goals (simp only [Option.some.injEq] at h; subst h)
  all_goals exact .inl rfl

theorem safe_step {A : Obj → Bool} {o : Obj} {s t : St} {e : Ev} (h : s.step e = some t)
    (hAs : ∀ o, A o = true → s.flag o = false)
    (hc : ∀ p, e = .call p → owed A o p = 0 ∧ Wf A o p ∧ Settled A o p)
    (hb : Begins s o e → ∀ p ∈ s.pool, Settled A o p)
    (hl : Low A (fun _ => 0) s) (hl' : Low A (fun _ => 0) t) (hw : ∀ p ∈ s.pool, Waits s.flag p)
    (hs : Safe A o s) : Safe A o t := by
  refine ⟨by have := hl'.low o; simpa using this, wf_step h hAs (fun p hp => (hc p hp).2.1) hs.wf, ?_, ?_⟩
  · intro hf p hp
    cases e with
    | call q =>
      simp only [St.step, Option.some.injEq] at h; subst h
      rcases List.mem_append.1 hp with hp | hp
      · exact hs.settled hf p hp
      · rw [List.mem_singleton.1 hp]; exact (hc q rfl).2.2
    | run i c =>
      have h' := h
      simp only [St.step] at h'
      split at h'
      · rename_i q hq
        rcases flag_eq hq h' o with he | ⟨k, rfl⟩
        · have hf' : s.flag o = true := by rw [← he]; exact hf
          refine pool_step (Q := fun p => Settled A o p ∧ Wf A o p) h (by simp)
            (fun p hp => ⟨hs.settled hf' p hp, hs.wf p hp⟩) ?_ p hp |>.1
          intro p hp
          have h1 := settled_children hAs hf' hp.2 hp.1
          have hw := hp.2
          cases p <;> simp only [Wf] at hw h1 ⊢
          case test x a b =>
            cases hx : A x
            · simp only [hx, Bool.false_eq_true, if_false] at hw
              split
              · rename_i hfx; simp only [hfx, if_true] at h1; exact ⟨h1, hw.2.1⟩
              · rename_i hfx; simp only [hfx] at h1; exact ⟨h1, hw.2.2⟩
            · simp only [hx, if_true] at hw
              have hfx := hAs x hx
              simp only [hfx, Bool.false_eq_true, if_false] at h1 ⊢
              exact ⟨h1, hw.2⟩
          case use => exact ⟨h1, hw.2.2⟩
          case alt => exact ⟨⟨h1.1, hw.2.1⟩, ⟨h1.2, hw.2.2⟩⟩
          case fork => exact ⟨⟨h1.1, hw.2.1⟩, ⟨h1.2, hw.2.2⟩⟩
          case stop => exact ⟨h1, by simpa only [Settled, owed, Refuses] using hw⟩
          all_goals exact ⟨h1, hw.2⟩
        · have hset := hb ⟨k, hq⟩
          have hme := hset _ (List.mem_of_getElem? hq)
          simp only [St.exec, St.next, Option.some.injEq] at h'; subst h'
          rcases List.mem_or_eq_of_mem_set hp with hp | rfl
          · exact hset p hp
          · simpa only [Settled, owed, Refuses] using hme
      · simp at h'
  · intro hd
    cases e with
    | call q =>
      simp only [St.step, Option.some.injEq] at h; subst h
      have hd' := hs.down hd
      refine ⟨hd'.1, ?_⟩
      intro p hp
      rcases List.mem_append.1 hp with hp | hp
      · exact hd'.2 p hp
      · rw [List.mem_singleton.1 hp]
        have := hc q rfl
        rcases this.2.2 with h1 | h1
        · omega
        · exact h1
    | run i c =>
      have h' := h
      simp only [St.step] at h'
      split at h'
      · rename_i q hq
        rcases down_eq hq h' o with he | ⟨k, rfl, h0, hpool, hfl⟩
        · have hd' := hs.down (by rw [← he]; exact hd)
          refine ⟨flag_step h o hd'.1, ?_⟩
          refine pool_step h (by simp) hd'.2 ?_
          intro p hp
          have := refuses_children hAs hd'.1 hp
          cases p <;> exact this
        · have hfo : s.flag o = true := by
            rcases hw _ (List.mem_of_getElem? hq) with hp | ⟨x, j, he, hx, _⟩
            · exact hp.elim
            · injection he with he1 _; subst he1; exact hx
          have h1 := hs.low
          have hr : ∀ p ∈ s.pool, Refuses A o p := by
            intro p hp
            have := le_total (owed A o) (owed_nonneg A o) s.pool p hp
            rcases hs.settled hfo p hp with h2 | h2
            · omega
            · exact h2
          refine ⟨by rw [hfl]; exact hfo, ?_⟩
          rw [hpool]
          intro p hp
          rcases List.mem_or_eq_of_mem_set hp with hp | rfl
          · exact hr p hp
          · have := hr _ (List.mem_of_getElem? hq)
            simpa only [Refuses] using this
      · simp at h'

theorem bad_step {A : Obj → Bool} {s t : St} {e : Ev} (h : s.step e = some t)
    (hb : s.bad = false) (hs : ∀ o, s.down o = true → ∀ p ∈ s.pool, Refuses A o p) :
    t.bad = false := by
  cases e with
  | call q => simp only [St.step, Option.some.injEq] at h; subst h; exact hb
  | run i c =>
    simp only [St.step] at h
    split at h
    · rename_i p hp
      cases p <;> simp only [St.exec, St.next] at h
      case done => simp at h
      case await => split at h <;> simp at h; subst h; exact hb
      case use x k =>
        simp only [Option.some.injEq] at h; subst h
        cases hd : s.down x
        · simp [hb, hd]
        · exact absurd rfl (hs x hd _ (List.mem_of_getElem? hp)).1
      all_goals (simp only [Option.some.injEq] at h; subst h; exact hb)
    · simp at h

end HS.Stop
