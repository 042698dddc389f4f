import Verif.Index.Cow
/-!
C69.  A node of an index in the write-back cache: readers see every change that was made, and what a
checkpoint leaves on disk is exactly the changes of the operations up to that checkpoint, although the
next checkpoint's operations go on changing the node while it is flushed.
-/
namespace HS.Index.Cow

/-- The current checkpoint has not changed the node. -/
def St.Quiet (s : St) : Prop := ∀ e ∈ s.log, e.1 < s.cur

/-- The invariant. -/
structure Inv (s : St) : Prop where
  le : ∀ e ∈ s.log, e.1 ≤ s.cur
  idle : s.phase = .idle → s.old = [] ∧ s.disk = s.upTo s.cur
  drain : s.phase = .drain → 1 ≤ s.cur ∧ s.disk = s.upTo (s.cur - 1)
  flush : s.phase = .flush → 1 ≤ s.cur ∧ (s.disk = s.upTo (s.cur - 1) ∨ s.disk = s.upTo s.cur)
  none : s.cache = none → s.old = [] ∧ s.disk = s.all ∧ s.Quiet
  val : ∀ b, s.cache = some b → b.val = s.all
  cp : ∀ b, s.cache = some b → b.cp ≤ s.cur
  q : ∀ b, s.cache = some b → b.cp < s.cur ∨ b.st = .clean → s.Quiet
  clean : ∀ b, s.cache = some b → b.st = .clean → s.old = [] → s.disk = s.all
  dirty : ∀ b, s.cache = some b → b.st ≠ .clean →
    (b.cp = s.cur ∧ b.st = .dirty) ∨ (b.cp + 1 = s.cur ∧ s.phase ≠ .idle ∧ s.old = [] ∧
      (b.st = .flushing → s.phase = .flush))
  old : ∀ o ∈ s.old, s.old = [o] ∧ o.cp + 1 = s.cur ∧ o.st ≠ .clean ∧ o.val = s.upTo s.cur ∧
    s.phase ≠ .idle ∧ (o.st = .flushing → s.phase = .flush) ∧ ∃ b, s.cache = some b ∧ b.cp = s.cur
  done : s.phase ≠ .idle → s.old = [] → (∀ b, s.cache = some b → b.cp + 1 = s.cur → b.st = .clean) →
    s.disk = s.upTo s.cur

theorem Inv.of_old {s : St} (h : Inv s) {b : Buf} (hb : s.cache = some b) (hc : b.cp < s.cur) :
    s.old = [] := by
  rcases ho : s.old with _ | ⟨o, t⟩
  · rfl
  · obtain ⟨-, -, -, -, -, -, b', hb', hc'⟩ := h.old o (by rw [ho]; simp)
    rw [hb] at hb'
    obtain rfl := Option.some.inj hb'
    omega

theorem all_eq {s : St} (h : s.Quiet) : s.all = s.upTo s.cur := by
  unfold St.all St.upTo
  congr 1
  symm
  rw [List.filter_eq_self]
  intro e he
  simpa using h e he

theorem inv_init : Inv St.init := by
  constructor <;> simp [St.init, St.upTo, St.all, St.Quiet]

theorem inv_load {s : St} (h : Inv s) : Inv { s with cache := some s.load } := by
  rcases hc : s.cache with _ | b
  · obtain ⟨h1, h2, h3⟩ := h.none hc
    have hl : s.load = { val := s.disk, cp := -1, st := .clean } := by unfold St.load; rw [hc]
    refine ⟨h.le, h.idle, h.drain, h.flush, ?_, ?_, ?_, ?_, ?_, ?_, ?_, ?_⟩
    · intro x; cases x
    · intro b hb
      obtain rfl := Option.some.inj hb
      rw [hl]; exact h2
    · intro b hb
      obtain rfl := Option.some.inj hb
      rw [hl]; show (-1 : Int) ≤ (s.cur : Int); omega
    · intro b _ _; exact h3
    · intro b _ _ _; exact h2
    · intro b hb hd
      obtain rfl := Option.some.inj hb
      rw [hl] at hd; exact absurd rfl hd
    · intro o ho
      have : o ∈ s.old := ho
      rw [h1] at this; cases this
    · intro _ _ _
      show s.disk = s.upTo s.cur
      rw [h2]; exact all_eq h3
  · have hl : s.load = b := by unfold St.load; rw [hc]
    have : ({ s with cache := some s.load } : St) = s := by
      rw [hl]; cases s; simp_all
    rw [this]; exact h

/-- Getting a writable buffer, nothing else. -/
theorem inv_touch {s : St} (h : Inv s) {b b' : Buf} {o : List Buf} {c : Nat} (hb : s.cache = some b)
    (hc : s.ctx c) (hw : writable b c = some (b', o)) :
    Inv { s with cache := some b', old := o ++ s.old } ∧ b'.cp = c ∧ b'.val = b.val ∧
      (c < s.cur → o = [] ∧ s.old = [] ∧ s.Quiet) ∧ (b'.st ≠ .clean → b' = b ∧ o = []) ∧
      b'.st ≠ .flushing := by
  have hcp := h.cp b hb
  unfold writable at hw
  by_cases e1 : b.cp = c
  · rw [if_pos e1] at hw
    simp only [Option.some.injEq, Prod.mk.injEq] at hw
    obtain ⟨rfl, rfl⟩ := hw
    have hs : ({ s with cache := some b, old := [] ++ s.old } : St) = s := by cases s; simp_all
    rw [hs]
    refine ⟨h, e1, rfl, ?_, fun _ => ⟨rfl, rfl⟩, ?_⟩
    · intro hlt
      have hlt' : b.cp < s.cur := by omega
      exact ⟨rfl, h.of_old hb hlt', h.q b hb (Or.inl hlt')⟩
    · intro hf
      rcases h.dirty b hb (by rw [hf]; simp) with ⟨-, x⟩ | ⟨x1, -, -, x2⟩
      · rw [hf] at x; cases x
      · have hfl := x2 hf
        rcases hc with rfl | ⟨hc, -⟩
        · omega
        · rw [hfl] at hc; cases hc
  · rw [if_neg e1] at hw
    by_cases e2 : b.cp > c
    · rw [if_pos e2] at hw; cases hw
    · rw [if_neg e2] at hw
      have hlt : b.cp < s.cur := by rcases hc with rfl | ⟨-, hc⟩ <;> omega
      have ho := h.of_old hb hlt
      have hq := h.q b hb (Or.inl hlt)
      have hcc : c ≤ s.cur := by rcases hc with rfl | ⟨-, hc⟩ <;> omega
      by_cases e3 : b.st = .clean
      · rw [if_pos e3] at hw
        simp only [Option.some.injEq, Prod.mk.injEq] at hw
        obtain ⟨rfl, rfl⟩ := hw
        refine ⟨⟨h.le, h.idle, h.drain, h.flush, ?_, ?_, ?_, ?_, ?_, ?_, ?_, ?_⟩, rfl, rfl,
          fun _ => ⟨rfl, ho, hq⟩, fun x => absurd e3 x, by rw [e3]; simp⟩
        · intro x; cases x
        · intro x hx
          obtain rfl := Option.some.inj hx
          exact h.val b hb
        · intro x hx
          obtain rfl := Option.some.inj hx
          show (c : Int) ≤ (s.cur : Int); omega
        · intro _ _ _; exact hq
        · intro _ _ _ _; exact h.clean b hb e3 ho
        · intro x hx hd
          obtain rfl := Option.some.inj hx
          exact absurd e3 hd
        · intro o' ho'
          have : o' ∈ s.old := ho'
          rw [ho] at this; cases this
        · intro h1 _ _
          exact h.done h1 ho (fun x hx _ => by rw [hb] at hx; obtain rfl := Option.some.inj hx; exact e3)
      · rw [if_neg e3] at hw
        simp only [Option.some.injEq, Prod.mk.injEq] at hw
        obtain ⟨rfl, rfl⟩ := hw
        -- the buffer is copied: only operations of the current checkpoint do this
        rcases h.dirty b hb e3 with ⟨x, -⟩ | ⟨x1, x2, -, x4⟩
        · omega
        have hcur : c = s.cur := by rcases hc with hc | ⟨-, hc⟩ <;> omega
        subst hcur
        refine ⟨⟨h.le, fun hi => absurd hi x2, h.drain, h.flush, ?_, ?_, ?_, ?_, ?_, ?_, ?_, ?_⟩, rfl,
          rfl, fun x => absurd x (Nat.lt_irrefl _), fun x => absurd rfl x, by simp⟩
        · intro x; cases x
        · intro x hx
          obtain rfl := Option.some.inj hx
          exact h.val b hb
        · intro x hx
          obtain rfl := Option.some.inj hx
          exact Int.le_refl _
        · intro _ _ _; exact hq
        · intro _ _ _ hn; cases hn
        · intro x hx hd
          obtain rfl := Option.some.inj hx
          exact absurd rfl hd
        · intro o' ho'
          have : o' ∈ [b] ++ s.old := ho'
          rw [ho, List.append_nil, List.mem_singleton] at this
          subst this
          refine ⟨by show [o'] ++ s.old = [o']; rw [ho]; rfl, x1, e3, ?_, x2, x4, _, rfl, rfl⟩
          rw [h.val o' hb]; exact all_eq hq
        · intro _ hn; cases hn

/-- The change itself. -/
theorem inv_put {s : St} (h : Inv s) {b : Buf} {c x : Nat} (hb : s.cache = some b) (hc : s.ctx c)
    (hbc : b.cp = c) (hf : b.st ≠ .flushing) (hlt : c < s.cur → s.old = [] ∧ s.Quiet) :
    Inv { s with cache := some { b with val := b.val ++ [x], st := .dirty }, log := s.log ++ [(c, x)] } := by
  have hcc : c ≤ s.cur := by rcases hc with rfl | ⟨-, hc⟩ <;> omega
  have hup : ∀ k, St.upTo { s with cache := some { b with val := b.val ++ [x], st := .dirty }, log := s.log ++ [(c, x)] } k =
      s.upTo k ++ (if c < k then [x] else []) := by
    intro k
    unfold St.upTo
    by_cases e : c < k <;> simp [e]
  have hall : St.all { s with cache := some { b with val := b.val ++ [x], st := .dirty }, log := s.log ++ [(c, x)] } =
      s.all ++ [x] := by
    unfold St.all; simp
  -- when the checkpoint is flushed, or none is under way, only the current one's operations are left
  have hcur : s.phase ≠ .drain → c = s.cur := by
    intro hp
    rcases hc with hc | ⟨hc, -⟩
    · exact hc
    · exact absurd hc hp
  refine ⟨?_, ?_, ?_, ?_, ?_, ?_, ?_, ?_, ?_, ?_, ?_, ?_⟩
  · intro e he
    rcases List.mem_append.1 (show e ∈ s.log ++ [(c, x)] from he) with he | he
    · exact h.le e he
    · rw [List.mem_singleton.1 he]; exact hcc
  · intro hp
    have hp' : s.phase = .idle := hp
    refine ⟨(h.idle hp').1, ?_⟩
    have := hcur (by rw [hp']; simp)
    rw [hup]
    show s.disk = s.upTo s.cur ++ (if c < s.cur then [x] else [])
    rw [if_neg (Nat.not_lt.2 (Nat.le_of_eq this.symm)), List.append_nil]
    exact (h.idle hp').2
  · intro hp
    obtain ⟨d1, d2⟩ := h.drain hp
    refine ⟨d1, ?_⟩
    have : ¬ c < s.cur - 1 := by rcases hc with rfl | ⟨-, hc⟩ <;> omega
    rw [hup]
    show s.disk = s.upTo (s.cur - 1) ++ (if c < s.cur - 1 then [x] else [])
    rw [if_neg this, List.append_nil]; exact d2
  · intro hp
    have hp' : s.phase = .flush := hp
    obtain ⟨d1, d2⟩ := h.flush hp'
    have := hcur (by rw [hp']; simp)
    refine ⟨d1, ?_⟩
    rw [hup, hup]
    show s.disk = s.upTo (s.cur - 1) ++ (if c < s.cur - 1 then [x] else []) ∨
      s.disk = s.upTo s.cur ++ (if c < s.cur then [x] else [])
    have n2 : ¬ c < s.cur := Nat.not_lt.2 (Nat.le_of_eq this.symm)
    have n1 : ¬ c < s.cur - 1 := fun x => n2 (Nat.lt_of_lt_of_le x (Nat.sub_le _ _))
    rw [if_neg n1, if_neg n2, List.append_nil, List.append_nil]
    exact d2
  · intro x; cases x
  · intro y hy
    obtain rfl := Option.some.inj hy
    rw [hall]
    show b.val ++ [x] = _
    rw [h.val b hb]
  · intro y hy
    obtain rfl := Option.some.inj hy
    show b.cp ≤ s.cur
    omega
  · intro y hy hq
    obtain rfl := Option.some.inj hy
    rcases hq with hq | hq
    · have hcl : c < s.cur := by
        have : b.cp < s.cur := hq
        omega
      intro e he
      rcases List.mem_append.1 (show e ∈ s.log ++ [(c, x)] from he) with he | he
      · exact (hlt hcl).2 e he
      · rw [List.mem_singleton.1 he]; exact hcl
    · cases hq
  · intro y hy hq
    obtain rfl := Option.some.inj hy
    cases hq
  · intro y hy _
    obtain rfl := Option.some.inj hy
    by_cases e : c = s.cur
    · left; exact ⟨by show b.cp = (s.cur : Int); omega, rfl⟩
    · right
      have hcl : c < s.cur := by omega
      have hp : s.phase = .drain := by
        rcases hc with hc | ⟨hc, -⟩
        · exact absurd hc e
        · exact hc
      have hc1 : c + 1 = s.cur := by
        rcases hc with hc | ⟨-, hc⟩
        · exact absurd hc e
        · exact hc
      refine ⟨by show b.cp + 1 = (s.cur : Int); omega, by show s.phase ≠ _; rw [hp]; simp, (hlt hcl).1, ?_⟩
      intro hx; cases hx
  · intro o ho
    have ho' : o ∈ s.old := ho
    have hcu : c = s.cur := by
      by_cases e : c = s.cur
      · exact e
      · have := (hlt (by omega)).1
        rw [this] at ho'; cases ho'
    obtain ⟨a1, a2, a3, a4, a5, a6, -⟩ := h.old o ho'
    refine ⟨a1, a2, a3, ?_, a5, a6, _, rfl, by show b.cp = (s.cur : Int); omega⟩
    rw [hup]
    show o.val = s.upTo s.cur ++ (if c < s.cur then [x] else [])
    rw [if_neg (Nat.not_lt.2 (Nat.le_of_eq hcu.symm)), List.append_nil]; exact a4
  · intro hp ho hcl
    have hcu : c = s.cur := by
      by_cases e : c = s.cur
      · exact e
      · have hc1 : c + 1 = s.cur := by
          rcases hc with hc | ⟨-, hc⟩
          · exact absurd hc e
          · exact hc
        have hx := hcl _ rfl (show b.cp + 1 = (s.cur : Int) by omega)
        cases hx
    rw [hup]
    show s.disk = s.upTo s.cur ++ (if c < s.cur then [x] else [])
    rw [if_neg (Nat.not_lt.2 (Nat.le_of_eq hcu.symm)), List.append_nil]
    refine h.done hp ho ?_
    intro y hy hyc
    rw [hb] at hy
    obtain rfl := Option.some.inj hy
    omega

theorem inv_step {s s' : St} {op : Op} (h : Inv s) (he : op = .evict → s.old = [])
    (hs : s.step op = some s') : Inv s' := by
  cases op with
  | put c x =>
    simp only [St.step] at hs
    split at hs
    · rename_i hc
      have hl := inv_load h
      split at hs
      · simp only [Option.some.injEq] at hs
        subst hs; exact hl
      · rename_i b o hw
        simp only [Option.some.injEq] at hs
        obtain ⟨i, c1, v1, lt1, st1, nf⟩ := inv_touch hl rfl hc hw
        have i2 := inv_put (x := x) i rfl hc c1 nf (fun hlt => by
          obtain ⟨q1, q2, q3⟩ := lt1 hlt
          refine ⟨?_, q3⟩
          show o ++ s.old = []
          rw [q1]; exact q2)
        subst hs; exact i2
    · cases hs
  | touch c =>
    simp only [St.step] at hs
    split at hs
    · rename_i hc
      have hl := inv_load h
      split at hs
      · simp only [Option.some.injEq] at hs
        subst hs; exact hl
      · rename_i b o hw
        simp only [Option.some.injEq] at hs
        subst hs
        exact (inv_touch hl rfl hc hw).1
    · cases hs
  | read =>
    simp only [St.step, Option.some.injEq] at hs
    subst hs; exact inv_load h
  | evict =>
    simp only [St.step] at hs
    split at hs
    · rename_i b hb
      split at hs
      · rename_i hc
        simp only [Option.some.injEq] at hs
        subst hs
        have ho := he rfl
        refine ⟨h.le, h.idle, h.drain, h.flush, ?_, ?_, ?_, ?_, ?_, ?_, ?_, ?_⟩
        · intro _; exact ⟨ho, h.clean b hb hc ho, h.q b hb (Or.inr hc)⟩
        · intro x hx; cases hx
        · intro x hx; cases hx
        · intro x hx; cases hx
        · intro x hx; cases hx
        · intro x hx; cases hx
        · intro o ho'
          have : o ∈ s.old := ho'
          rw [ho] at this; cases this
        · intro _ _ _
          show s.disk = s.upTo s.cur
          rw [h.clean b hb hc ho]
          exact all_eq (h.q b hb (Or.inr hc))
      · cases hs
    · cases hs
  | switchover =>
    simp only [St.step] at hs
    split at hs
    · rename_i hp
      simp only [Option.some.injEq] at hs
      subst hs
      obtain ⟨i1, i2⟩ := h.idle hp
      have hq : St.Quiet { s with cur := s.cur + 1, phase := .drain } := by
        intro e he'
        have := h.le e he'
        show e.1 < s.cur + 1
        omega
      refine ⟨?_, ?_, ?_, ?_, ?_, h.val, ?_, ?_, h.clean, ?_, ?_, ?_⟩
      · intro e he'
        exact Nat.le_succ_of_le (h.le e he')
      · intro x; cases x
      · intro _
        exact ⟨by show 1 ≤ s.cur + 1; omega, by
          show s.disk = s.upTo (s.cur + 1 - 1); rw [Nat.add_sub_cancel]; exact i2⟩
      · intro x; cases x
      · intro hn; exact ⟨i1, (h.none hn).2.1, hq⟩
      · intro b hb
        have := h.cp b hb
        show b.cp ≤ ((s.cur + 1 : Nat) : Int)
        omega
      · intro _ _ _; exact hq
      · intro b hb hd
        right
        rcases h.dirty b hb hd with ⟨x1, x2⟩ | ⟨-, x2, -⟩
        · refine ⟨by show b.cp + 1 = ((s.cur + 1 : Nat) : Int); omega, by simp, i1, ?_⟩
          intro hf; rw [x2] at hf; cases hf
        · exact absurd hp x2
      · intro o ho
        have : o ∈ s.old := ho
        rw [i1] at this; cases this
      · intro _ _ hcl
        have hall : s.all = St.upTo { s with cur := s.cur + 1, phase := .drain } (s.cur + 1) :=
          all_eq hq
        show s.disk = St.upTo { s with cur := s.cur + 1, phase := .drain } (s.cur + 1)
        rw [← hall]
        rcases hc : s.cache with _ | b
        · exact (h.none hc).2.1
        · by_cases e : b.st = .clean
          · exact h.clean b hc e i1
          · rcases h.dirty b hc e with ⟨x1, -⟩ | ⟨-, x2, -⟩
            · have := hcl b hc (show b.cp + 1 = ((s.cur + 1 : Nat) : Int) by omega)
              exact absurd this e
            · exact absurd hp x2
    · cases hs
  | startFlush =>
    simp only [St.step] at hs
    split at hs
    · rename_i hp
      simp only [Option.some.injEq] at hs
      subst hs
      obtain ⟨d1, d2⟩ := h.drain hp
      refine ⟨h.le, (fun x => by cases x), (fun x => by cases x), fun _ => ⟨d1, Or.inl d2⟩, h.none, h.val, h.cp, h.q,
        h.clean, ?_, ?_, ?_⟩
      · intro b hb hd
        rcases h.dirty b hb hd with x | ⟨x1, x2, x3, x4⟩
        · exact Or.inl x
        · exact Or.inr ⟨x1, by simp, x3, fun _ => rfl⟩
      · intro o ho
        obtain ⟨a1, a2, a3, a4, a5, a6, a7⟩ := h.old o ho
        exact ⟨a1, a2, a3, a4, by simp, fun _ => rfl, a7⟩
      · intro _ ho hcl
        exact h.done (by rw [hp]; simp) ho hcl
    · cases hs
  | begin =>
    simp only [St.step] at hs
    split at hs
    · rename_i b hb
      split at hs
      · rename_i hm
        simp only [Option.some.injEq] at hs
        subst hs
        obtain ⟨⟨m1, m2⟩, m3⟩ := hm
        have hlt : b.cp < s.cur := by omega
        have ho := h.of_old hb hlt
        refine ⟨h.le, h.idle, h.drain, h.flush, (fun x => by cases x), ?_, ?_, ?_, ?_, ?_, ?_, ?_⟩
        · intro x hx
          obtain rfl := Option.some.inj hx
          exact h.val b hb
        · intro x hx
          obtain rfl := Option.some.inj hx
          exact h.cp b hb
        · intro _ _ _; exact h.q b hb (Or.inl hlt)
        · intro x hx hcl
          obtain rfl := Option.some.inj hx
          cases hcl
        · intro x hx _
          obtain rfl := Option.some.inj hx
          right
          exact ⟨m2, by show s.phase ≠ _; rw [m1]; simp, ho, fun _ => m1⟩
        · intro o ho'
          have : o ∈ s.old := ho'
          rw [ho] at this; cases this
        · intro _ _ hcl
          have := hcl _ rfl m2
          cases this
      · cases hs
    · cases hs
  | finish =>
    simp only [St.step] at hs
    split at hs
    · rename_i b hb
      split at hs
      · rename_i hm
        simp only [Option.some.injEq] at hs
        subst hs
        rcases h.dirty b hb (by rw [hm]; simp) with ⟨-, x⟩ | ⟨x1, x2, x3, x4⟩
        · rw [hm] at x; cases x
        have hp := x4 hm
        have hq := h.q b hb (Or.inl (by omega))
        have hv : b.val = s.all := h.val b hb
        refine ⟨h.le, (fun x => absurd x x2), (fun x => ?_), (fun _ => ⟨(h.flush hp).1, Or.inr ?_⟩),
          (fun x => by cases x), ?_, ?_, ?_, ?_, ?_, ?_, ?_⟩
        · have : s.phase = .drain := x
          rw [hp] at this; cases this
        · show b.val = s.upTo s.cur
          rw [hv]; exact all_eq hq
        · intro x hx
          obtain rfl := Option.some.inj hx
          exact hv
        · intro x hx
          obtain rfl := Option.some.inj hx
          exact h.cp b hb
        · intro _ _ _; exact hq
        · intro x hx _ _
          exact hv
        · intro x hx hd
          obtain rfl := Option.some.inj hx
          exact absurd rfl hd
        · intro o ho'
          have : o ∈ s.old := ho'
          rw [x3] at this; cases this
        · intro _ _ _
          show b.val = s.upTo s.cur
          rw [hv]; exact all_eq hq
      · cases hs
    · cases hs
  | beginOld i =>
    simp only [St.step] at hs
    split at hs
    · rename_i o ho
      split at hs
      · rename_i hm
        simp only [Option.some.injEq] at hs
        subst hs
        obtain ⟨⟨m1, m2⟩, m3⟩ := hm
        obtain ⟨a1, a2, a3, a4, a5, a6, b, hb, hbc⟩ := h.old o (List.mem_of_getElem? ho)
        have hi : i = 0 := by
          rw [a1] at ho
          rcases i with _ | i
          · rfl
          · simp at ho
        subst hi
        have hset : s.old.set 0 { o with st := .flushing } = [{ o with st := .flushing }] := by
          rw [a1]; rfl
        rw [hset]
        refine ⟨h.le, (fun x => absurd x a5), h.drain, h.flush, ?_, h.val, h.cp, h.q, ?_, ?_, ?_, ?_⟩
        · intro x
          have x' : s.cache = none := x
          rw [hb] at x'; cases x'
        · intro _ _ _ hn; cases hn
        · intro x hx hd
          rcases h.dirty x hx hd with y | ⟨y1, -, y3, -⟩
          · exact Or.inl y
          · rw [a1] at y3; cases y3
        · intro o' ho'
          have := List.mem_singleton.1 ho'
          subst this
          exact ⟨rfl, a2, by simp, a4, a5, fun _ => m1, b, hb, hbc⟩
        · intro _ hn; cases hn
      · cases hs
    · cases hs
  | finishOld i =>
    simp only [St.step] at hs
    split at hs
    · rename_i o ho
      split at hs
      · rename_i hm
        simp only [Option.some.injEq] at hs
        subst hs
        obtain ⟨a1, a2, a3, a4, a5, a6, b, hb, hbc⟩ := h.old o (List.mem_of_getElem? ho)
        have hp := a6 hm
        have hi : i = 0 := by
          rw [a1] at ho
          rcases i with _ | i
          · rfl
          · simp at ho
        subst hi
        have hset : s.old.eraseIdx 0 = [] := by rw [a1]; rfl
        rw [hset]
        refine ⟨h.le, (fun x => absurd x a5), (fun x => ?_), (fun _ => ⟨(h.flush hp).1, Or.inr a4⟩), ?_,
          h.val, h.cp, h.q, ?_, ?_, (fun _ hx => by cases hx), fun _ _ _ => a4⟩
        · have : s.phase = .drain := x
          rw [hp] at this; cases this
        · intro x
          have x' : s.cache = none := x
          rw [hb] at x'; cases x'
        · intro x hx hcl _
          show o.val = s.all
          rw [a4, all_eq (h.q x hx (Or.inr hcl))]
        · intro x hx hd
          rcases h.dirty x hx hd with y | ⟨y1, -, y3, -⟩
          · exact Or.inl y
          · rw [a1] at y3; cases y3
      · cases hs
    · cases hs
  | endFlush =>
    simp only [St.step] at hs
    split at hs
    · rename_i hm
      simp only [Option.some.injEq] at hs
      subst hs
      obtain ⟨m1, m2, m3⟩ := hm
      have ho : s.old = [] := by
        rcases ho : s.old with _ | ⟨o, t⟩
        · rfl
        · have hmem : o ∈ s.old := by rw [ho]; simp
          exact absurd ⟨m1, (h.old o hmem).2.1⟩ (m2 o hmem)
      have hd := h.done (by rw [m1]; simp) ho (fun b hb hc => m3 b hb ⟨m1, hc⟩)
      refine ⟨h.le, fun _ => ⟨ho, hd⟩, (fun x => by cases x), (fun x => by cases x), h.none, h.val, h.cp, h.q,
        h.clean, ?_, ?_, (fun x => absurd rfl x)⟩
      · intro b hb hdb
        rcases h.dirty b hb hdb with y | ⟨y1, -, -, -⟩
        · exact Or.inl y
        · exact absurd (m3 b hb ⟨m1, y1⟩) hdb
      · intro o ho'
        have : o ∈ s.old := ho'
        rw [ho] at this; cases this
    · cases hs

theorem inv_run : ∀ (ops : List Op) {s s' : St}, Inv s → NoEarlyEvict s ops → s.run ops = some s' →
    Inv s' := by
  intro ops
  induction ops with
  | nil => intro s s' h _ hr; simp only [St.run, Option.some.injEq] at hr; subst hr; exact h
  | cons op ops ih =>
    intro s s' h hn hr
    rcases h1 : s.step op with _ | s1
    · rw [St.run, h1] at hr; cases hr
    · rw [St.run, h1] at hr
      exact ih (inv_step h hn.1 h1) (hn.2 s1 h1) hr

/-- **C69**, reading.  After every history (changes by operations of the current and of the previous
checkpoint, locking without change, reads, evictions, checkpoints at any stage), a reader sees all
the changes made so far, in order, each once; and an operation of the current checkpoint is never
refused the node.  What is missing: eviction of the node while an earlier buffer of it is still to be
written (`C69_touch_evict_violated`). -/
theorem C69_read_partial {ops : List Op} {s : St} (hn : NoEarlyEvict St.init ops)
    (hr : St.init.run ops = some s) :
    s.value = s.all ∧ ∀ x, ∃ s', s.step (.put s.cur x) = some s' ∧ s'.all = s.all ++ [x] := by
  have h := inv_run ops inv_init hn hr
  have hl := inv_load h
  refine ⟨hl.val _ rfl, ?_⟩
  intro x
  have hcp := hl.cp _ rfl
  simp only [St.step]
  rw [if_pos (show s.ctx s.cur from Or.inl rfl)]
  rcases hw : writable s.load s.cur with _ | ⟨b, o⟩
  · unfold writable at hw
    by_cases e1 : s.load.cp = s.cur
    · rw [if_pos e1] at hw; cases hw
    · have hcp' : s.load.cp ≤ s.cur := hcp
      rw [if_neg e1, if_neg (by omega)] at hw
      split at hw <;> cases hw
  · exact ⟨_, rfl, by unfold St.all; simp⟩

/-- **C69**, checkpoints.  In every history, whatever the operations of the next checkpoint do in the
meantime: between checkpoints the disk holds exactly the changes of the checkpoints completed; while
one is being flushed it holds those before it, or those and all of its own, never a part of them and
never one of the next; and when the checkpoint can be completed it holds all of its own. -/
theorem C69_checkpoint_partial {ops : List Op} {s : St} (hn : NoEarlyEvict St.init ops)
    (hr : St.init.run ops = some s) :
    (s.phase = .idle → s.disk = s.upTo s.cur) ∧
    (s.phase = .drain → s.disk = s.upTo (s.cur - 1)) ∧
    (s.phase = .flush → s.disk = s.upTo (s.cur - 1) ∨ s.disk = s.upTo s.cur) ∧
    (∀ s', s.step .endFlush = some s' → s'.disk = s.upTo s.cur) := by
  have h := inv_run ops inv_init hn hr
  refine ⟨fun hp => (h.idle hp).2, fun hp => (h.drain hp).2, fun hp => (h.flush hp).2, ?_⟩
  intro s' hs'
  have h' := inv_step h (fun e => by cases e) hs'
  simp only [St.step] at hs'
  split at hs'
  · simp only [Option.some.injEq] at hs'
    subst hs'
    exact (h'.idle rfl).2
  · cases hs'

/-- **C69**, progress: while the checkpoint is being flushed, it can be completed, or a write of the
node can be submitted, or a submitted one can complete. -/
theorem C69_progress_partial {ops : List Op} {s : St} (hn : NoEarlyEvict St.init ops)
    (hr : St.init.run ops = some s) (hp : s.phase = .flush) :
    ∃ op s', (op = .endFlush ∨ op = .begin ∨ op = .finish ∨ (∃ i, op = .beginOld i ∨ op = .finishOld i)) ∧
      s.step op = some s' := by
  have h := inv_run ops inv_init hn hr
  rcases ho : s.old with _ | ⟨o, t⟩
  · rcases hc : s.cache with _ | b
    · exact ⟨.endFlush, _, Or.inl rfl, by
        simp only [St.step]
        rw [if_pos ⟨hp, by rw [ho]; simp, by rw [hc]; simp⟩]⟩
    · by_cases e : b.st = .clean ∨ b.cp = s.cur
      · refine ⟨.endFlush, { s with phase := .idle }, Or.inl rfl, ?_⟩
        simp only [St.step]
        rw [if_pos]
        refine ⟨hp, by rw [ho]; simp, ?_⟩
        rw [hc]
        intro x hx hm
        obtain rfl := Option.some.inj hx
        rcases e with e | e
        · exact e
        · have := hm.2; omega
      · rcases h.dirty b hc (fun x => e (Or.inl x)) with ⟨x, -⟩ | ⟨x1, -, -, -⟩
        · exact absurd (Or.inr x) e
        · rcases hst : b.st with _ | _ | _
          · exact absurd (Or.inl hst) e
          · refine ⟨.begin, { s with cache := some { b with st := .flushing } }, Or.inr (Or.inl rfl), ?_⟩
            simp only [St.step, hc]
            rw [if_pos ⟨⟨hp, x1⟩, hst⟩]
          · refine ⟨.finish, { s with cache := some { b with st := .clean }, disk := b.val },
              Or.inr (Or.inr (Or.inl rfl)), ?_⟩
            simp only [St.step, hc]
            rw [if_pos hst]
  · have hmem : o ∈ s.old := by rw [ho]; simp
    obtain ⟨a1, a2, a3, -⟩ := h.old o hmem
    have h0 : s.old[0]? = some o := by rw [ho]; rfl
    rcases hst : o.st with _ | _ | _
    · exact absurd hst a3
    · refine ⟨.beginOld 0, { s with old := s.old.set 0 { o with st := .flushing } },
        Or.inr (Or.inr (Or.inr ⟨0, Or.inl rfl⟩)), ?_⟩
      simp only [St.step, h0]
      rw [if_pos ⟨⟨hp, a2⟩, hst⟩]
    · refine ⟨.finishOld 0, { s with old := s.old.eraseIdx 0, disk := o.val },
        Or.inr (Or.inr (Or.inr ⟨0, Or.inr rfl⟩)), ?_⟩
      simp only [St.step, h0]
      rw [if_pos hst]

/-! ### A concrete history

Change 1 in checkpoint 0; the checkpoint is triggered, an operation of it makes change 2 while the next
checkpoint has already begun; the flush starts; an operation of checkpoint 1 makes change 3, which copies
the buffer; the old buffer is written; then the next checkpoint. -/

def hist1 : List Op :=
  [.put 0 1, .switchover, .put 0 2, .startFlush, .begin, .put 1 3, .finishOld 0, .endFlush, .touch 1,
   .switchover, .startFlush, .touch 2, .beginOld 0, .finishOld 0, .endFlush, .evict, .read]

/-- `NoEarlyEvict`, to be computed. -/
def neeb (s : St) : List Op → Bool
  | [] => true
  | op :: ops => (decide (op ≠ .evict) || decide (s.old = [])) &&
    (match s.step op with
      | some s' => neeb s' ops
      | none => true)

theorem nee_of_neeb : ∀ (l : List Op) (s : St), neeb s l = true → NoEarlyEvict s l := by
  intro l
  induction l with
  | nil => intro s _; trivial
  | cons op ops ih =>
    intro s h
    simp only [neeb, Bool.and_eq_true, Bool.or_eq_true, decide_eq_true_eq] at h
    refine ⟨fun e => ?_, ?_⟩
    · rcases h.1 with x | x
      · exact absurd e x
      · exact x
    · intro s' hs'
      have h2 := h.2
      rw [hs'] at h2
      exact ih s' h2

example : NoEarlyEvict St.init hist1 ∧ ∃ s, St.init.run hist1 = some s ∧ s.disk = [1, 2, 3] ∧
    s.value = [1, 2, 3] ∧ s.cur = 2 := ⟨nee_of_neeb _ _ (by decide), _, rfl, by decide⟩

/-- In the middle of the first flush: the buffer of checkpoint 0 is in flight, the node already has a
change of checkpoint 1. -/
example : ∃ s, St.init.run (hist1.take 6) = some s ∧ s.phase = .flush ∧ s.disk = [] ∧
    s.value = [1, 2, 3] ∧ s.upTo 1 = [1, 2] ∧ s.old.length = 1 := ⟨_, rfl, by decide⟩

/-- **C69** fails when the cache evicts at a bad moment.  Change 1 is made in checkpoint 0; while that
is being flushed, an operation of checkpoint 1 locks the node for writing and changes nothing (say, it
removes a key that is not there): the buffer is copied, the copy counts as clean.  The cache may evict
it, and the next operation reads the node from the disk, where change 1 has not arrived.  It adds
change 2 to what it read: change 1 is lost for readers, and once checkpoint 1 is completed it is gone
from the disk as well. -/
theorem C69_touch_evict_violated :
    ∃ s1 s2, St.init.run [.put 0 1, .switchover, .startFlush, .touch 1, .evict] = some s1 ∧
      s1.all = [1] ∧ s1.value = [] ∧
      s1.run [.put 1 2, .beginOld 0, .finishOld 0, .endFlush, .switchover, .startFlush, .begin, .finish,
        .endFlush] = some s2 ∧ s2.all = [1, 2] ∧ s2.phase = .idle ∧ s2.disk = [2] :=
  ⟨_, _, rfl, by decide, by decide, rfl, by decide, by decide, by decide⟩

end HS.Index.Cow
