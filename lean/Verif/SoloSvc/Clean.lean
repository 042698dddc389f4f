import Verif.SoloSvc.Careful
/-!
# C118: nothing is left behind, and the ways in which it fails
-/
namespace HS.SoloSvc

/-- Nothing of a log device is on disk. -/
def Empty (x : LD) : Prop := x.sb = false ∧ x.rb = false ∧ x.recs = []

def Clean (s : St) : Prop :=
  match s.proc with
  | .up m => ∀ l, (m.cr l = none → m.map (s.disk.lds l).gid ≠ some l → Empty (s.disk.lds l)) ∧
      ∀ k ∈ m.rms l, 3 ≤ k → (s.disk.lds l).recs = []
  | .down => ∀ l, (⟨(s.disk.lds l).gid, l⟩ : Rd) ∉ s.disk.rds → Empty (s.disk.lds l)
  | _ => True

theorem reach_careful {s : St} (h : Reach careful2 s) : Reach careful s := by
  induction h with
  | init => exact .init
  | step o _ ok hs ih => exact .step o ih ok.1 hs

theorem clean_step {s s' : St} (o : Op) (hb : Base s) (hi : Inv s) (h : Clean s) (ok : careful2 s o)
    (hs : step s o = some s') : Clean s' := by
  have hi' := inv_step o hb hi ok.1 hs
  cases hp : s.proc with
  | failed => simp [Inv, hp] at hi
  | ub => simp [Inv, hp] at hi
  | down =>
    cases o <;> simp [step, hp] at hs
    simp only [Clean, hp] at h
    have hd : s'.disk = s.disk := by
      rw [← hs]; simp only [doBoot]; split
      · rfl
      · split <;> rfl
    cases hq : s'.proc with
    | failed => simp [Clean, hq]
    | ub => simp [Clean, hq]
    | down =>
      exfalso
      rw [← hs] at hq
      simp only [doBoot] at hq
      split at hq
      · simp at hq
      · split at hq <;> simp at hq
    | up m =>
      simp only [Inv, hq] at hi'
      simp only [Clean, hq]
      have hrm : ∀ l, m.rms l = [] := by
        intro l
        rw [← hs] at hq
        simp only [doBoot] at hq
        split at hq
        · simp at hq
        · split at hq
          · simp at hq
          · simp at hq; subst hq; rfl
      intro l
      refine ⟨?_, by simp [hrm]⟩
      intro hc hm
      rw [hd] at hm ⊢
      apply h
      have : Free (view s' m l) l := by
        rcases hi'.at' l with ⟨k, hk⟩ | ⟨k, hk⟩ | hk | hk
        · have := hk.1; simp only [view] at this; rw [hc] at this; simp at this
        · have := hk.2.1; simp only [view] at this; rw [hrm] at this; simp at this
        · have := hk.2.2.1; simp only [view] at this; rw [hd] at this; exact absurd this hm
        · exact hk
      have := this.2.2.2.2
      simp only [view, hd] at this
      exact this
  | up m =>
    simp only [Inv, hp] at hi
    simp only [Clean, hp] at h
    have bm := hb.mem m hp
    cases o with
    | boot => simp [step, hp] at hs
    | crash =>
      simp [step, hp] at hs; subst hs
      obtain ⟨ok1, ok2⟩ := ok
      simp only [careful, hp] at ok1
      simp only [hp] at ok2
      simp only [Clean]
      intro l hr
      rcases hi.at' l with ⟨k, hk⟩ | ⟨k, hk⟩ | hk | hk
      · have hc : m.cr l = some k := hk.1
        obtain ⟨_, _, _, _, _, _, _, h8, h9, _, h11, h12, _⟩ := hk
        simp only [view] at h8 h9 h11 h12
        have := ok2 l (bm.cr l k hc)
        rw [hc] at this
        simp at this
        rcases this with rfl | rfl
        · exact ⟨by simpa using h8, by simpa using h9, h11⟩
        · exact absurd (h12.2 rfl) hr
      · have hc : m.rms l = [k] := hk.2.1
        obtain ⟨_, _, _, _, _, _, h7, h8, h9, _⟩ := hk
        simp only [view] at h7 h8 h9
        have h5 : ¬ k ≤ 5 := fun h' => hr (h9.2 h')
        refine ⟨?_, ?_, (h l).2 k (by simp [hc]) (by omega)⟩
        · rw [h7]; simp; omega
        · rw [h8]; simp; omega
      · exact absurd hk.2.2.2.2.2.1 hr
      · exact (h l).1 hk.1 hk.2.2.1
    | create g =>
      simp [step, hp] at hs; subst hs
      simp only [Clean, doCreate]
      intro l
      by_cases hl : l = s.disk.last + 1
      · subst hl
        refine ⟨by simp, ?_⟩
        intro k _ _
        simp [LD.blank]
      · simp only [upd_other _ _ hl]
        exact h l
    | crStep l k =>
      simp only [step, hp, doCrStep] at hs
      have hrl : ∀ n, m.cr l = some n → m.rms l = [] := fun n hn => (at_c (hi.at' l) (k := n) hn).2.1
      split at hs
      · next hk =>
        simp at hs; subst hs
        simp only [Clean]
        intro i
        by_cases hil : i = l
        · subst hil; exact ⟨by simp, by simp [hrl _ hk]⟩
        · simp only [upd_other _ _ hil]; exact h i
      · next hk =>
        simp at hs; subst hs
        simp only [Clean]
        intro i
        by_cases hil : i = l
        · subst hil; exact ⟨by simp, by simp [hrl _ hk]⟩
        · simp only [upd_other _ _ hil]; exact h i
      · next hk =>
        simp at hs; subst hs
        simp only [Clean]
        intro i
        by_cases hil : i = l
        · subst hil; exact ⟨by simp, by simp [hrl _ hk]⟩
        · simp only [upd_other _ _ hil]; exact h i
      · next hk =>
        simp at hs; subst hs
        simp only [Clean]
        intro i
        by_cases hil : i = l
        · subst hil; exact ⟨by simp, by simp [hrl _ hk]⟩
        · simp only [upd_other _ _ hil]; exact h i
      · next hk =>
        have hM := at_c (hi.at' l) (k := 5) hk
        have hmap : m.map (s.disk.lds l).gid = none := hM.2.2.1
        rw [if_pos (by simp [hmap])] at hs
        simp at hs; subst hs
        simp only [Clean]
        intro i
        by_cases hil : i = l
        · subst hil; exact ⟨by simp, by simp [hrl _ hk]⟩
        · simp only [upd_other _ _ hil]
          refine ⟨?_, (h i).2⟩
          intro hc hm
          refine (h i).1 hc ?_
          by_cases hg : (s.disk.lds i).gid = (s.disk.lds l).gid
          · rw [hg, hmap]; simp
          · rwa [upd_other _ _ hg] at hm
      · simp at hs
    | remove g =>
      simp [step, hp, doRemove] at hs
      split at hs
      · subst hs; simp only [Clean, hp]; exact h
      · next l hl =>
        subst hs
        simp only [Clean]
        intro i
        refine ⟨(h i).1, ?_⟩
        intro k hk h3
        by_cases hil : i = l
        · subst hil
          simp at hk
          rcases hk with rfl | hk
          · omega
          · exact (h i).2 k hk h3
        · rw [upd_other _ _ hil] at hk; exact (h i).2 k hk h3
    | rmStep l k t =>
      simp only [step, hp, doRmStep] at hs
      split at hs
      · next hk =>
        obtain ⟨h1, h2, h3, h4, h5, h6, h7, h8, h9, h10, h11⟩ := at_rs (hi.at' l) hk
        have hrs : m.rms l = [k] := h2
        have hmap : m.map (s.disk.lds l).gid = some l := h3
        have her : (m.rms l).erase k = [] := by simp [hrs]
        have old := (h l).2 k hk
        simp only [her] at hs
        have go : ∀ (x : LD) (n : Nat), x.gid = (s.disk.lds l).gid → (3 ≤ n → x.recs = []) →
            Clean { s with disk := { s.disk with lds := upd s.disk.lds l x },
                           proc := .up { m with rms := upd m.rms l [n] } } := by
          intro x n hx hn
          simp only [Clean]
          intro i
          by_cases hil : i = l
          · subst hil
            refine ⟨?_, ?_⟩
            · intro _ hm; simp [hx] at hm; exact absurd hmap hm
            · intro j hj h3; simp at hj; subst hj; simpa using hn h3
          · simp only [upd_other _ _ hil]; exact h i
        split at hs
        · split at hs
          · simp at hs; subst hs; exact go (s.disk.lds l) 1 rfl (by omega)
          · simp at hs
        · have hx : (s.disk.lds l).sb = true := by simpa [view] using h7
          rw [if_pos hx] at hs
          split at hs
          · simp at hs
          · simp at hs; subst hs
            exact go _ 2 (by cases t <;> rfl) (by omega)
        · simp at hs; subst hs; exact go { s.disk.lds l with recs := [] } 3 rfl (fun _ => rfl)
        · simp at hs; subst hs; exact go { s.disk.lds l with rb := false } 4 rfl (fun _ => old (by omega))
        · simp at hs; subst hs; exact go { s.disk.lds l with sb := false } 5 rfl (fun _ => old (by omega))
        · simp at hs; subst hs
          simp only [Clean]
          intro i
          refine ⟨(h i).1, ?_⟩
          intro j hj h3
          by_cases hil : i = l
          · subst hil; exact old (by omega)
          · rw [upd_other _ _ hil] at hj; exact (h i).2 j hj h3
        · next n0 n1 n2 n3 n4 n5 =>
          have h6' : k = 6 := by
            have a0 : k ≠ 0 := fun h => n0 h
            have a1 : k ≠ 1 := fun h => n1 h
            have a2 : k ≠ 2 := fun h => n2 h
            have a3 : k ≠ 3 := fun h => n3 h
            have a4 : k ≠ 4 := fun h => n4 h
            have a5 : k ≠ 5 := fun h => n5 h
            omega
          subst h6'
          simp at hs; subst hs
          simp only [Clean]
          intro i
          refine if hil : i = l then ?_ else ?_
          · subst hil
            refine ⟨fun _ _ => ⟨?_, ?_, old (by omega)⟩, by simp⟩
            · simpa [view] using h7
            · simpa [view] using h8
          · simp only [upd_other _ _ hil]
            refine ⟨?_, (h i).2⟩
            intro hc hm
            refine (h i).1 hc ?_
            by_cases hg : (s.disk.lds i).gid = (s.disk.lds l).gid
            · rw [hg, hmap]; simp; exact fun h' => hil h'.symm
            · rwa [upd_other _ _ hg] at hm
      · simp at hs
    | write g v =>
      simp only [step, hp, doWrite] at hs
      split at hs
      · simp at hs
      · next l hl =>
        obtain ⟨rfl, hll⟩ := bm.map g l hl
        split at hs
        · next hr =>
          have hU := at_used (hi.at' l) hl hr
          have h8 : m.jr l = true := hU.2.2.2.2.2.2.2
          rw [if_pos h8] at hs
          simp at hs; subst hs
          simp only [Clean, hp]
          intro i
          by_cases hil : i = l
          · subst hil
            refine ⟨?_, by simp [hr]⟩
            intro _ hm; simp at hm; exact absurd hl hm
          · simp only [upd_other _ _ hil]; exact h i
        · simp at hs
    | cp g =>
      simp only [step, hp, doCp] at hs
      split at hs
      · simp at hs
      · split at hs
        · simp at hs; subst hs; simp only [Clean, hp]; exact h
        · simp at hs; subst hs; simp [Clean]

theorem clean_reach {s : St} (h : Reach careful2 s) : Clean s := by
  induction h with
  | init =>
    simp only [Clean, St.init]
    intro l
    exact ⟨fun _ _ => ⟨rfl, rfl, rfl⟩, by simp [Mem.new]⟩
  | step o h ok hs ih =>
    exact clean_step o (base_reach h) (inv_reach (reach_careful h)) ih ok hs

/-- In careful histories in which the machine does not fail either between the first block of a new
log device and the superblock of the device that uses it, no log device stays on disk, with blocks or
with entries, that no device uses and that nobody is making. Full statement: the same of any
history. -/
theorem C118_clean_partial {s : St} (h : Reach careful2 s) (m : Mem) (hm : s.proc = .up m) (l : Nat)
    (hc : m.cr l = none) (hu : ∀ g, m.map g ≠ some l) :
    (s.disk.lds l).sb = false ∧ (s.disk.lds l).rb = false ∧ (s.disk.lds l).recs = [] := by
  have := clean_reach h
  simp only [Clean, hm] at this
  exact (this l).1 hc (hu _)

/-! ## Histories that can be computed -/

/-- The history of the given steps. -/
def run (s : St) : List Op → Option St
  | [] => some s
  | o :: os => (step s o).bind (fun s' => run s' os)

theorem run_reach {s s' : St} (os : List Op) (h : Reach anyHistory s) (hr : run s os = some s') :
    Reach anyHistory s' := by
  induction os generalizing s with
  | nil => simp [run] at hr; subst hr; exact h
  | cons o os ih =>
    simp only [run, Option.bind_eq_some_iff] at hr
    obtain ⟨s1, h1, h2⟩ := hr
    exact ih (.step o h trivial h1) h2

instance (s : St) (o : Op) : Decidable (careful s o) := by
  unfold careful; split <;> infer_instance

instance (s : St) (o : Op) : Decidable (careful2 s o) := by
  unfold careful2
  have : Decidable (match s.proc, o with
    | .up m, .crash => ∀ l ≤ s.disk.last, m.cr l = none ∨ m.cr l = some 1 ∨ m.cr l = some 5
    | _, _ => True) := by split <;> infer_instance
  infer_instance

/-- The history of the given steps, if it is careful in the second sense. -/
def runC (s : St) : List Op → Option St
  | [] => some s
  | o :: os => if careful2 s o then (step s o).bind (fun s' => runC s' os) else none

theorem runC_reach {s s' : St} (os : List Op) (h : Reach careful2 s) (hr : runC s os = some s') :
    Reach careful2 s' := by
  induction os generalizing s with
  | nil => simp [runC] at hr; subst hr; exact h
  | cons o os ih =>
    simp only [runC] at hr
    split at hr
    · next hc =>
      simp only [Option.bind_eq_some_iff] at hr
      obtain ⟨s1, h1, h2⟩ := hr
      exact ih (.step o h hc h1) h2
    · simp at hr

/-- The process runs, and what is in memory passes a test. -/
def upAnd (s : St) (p : Mem → Bool) : Bool :=
  match s.proc with
  | .up m => p m
  | _ => false

def isFailed (s : St) : Bool := match s.proc with | .failed => true | _ => false
def isUb (s : St) : Bool := match s.proc with | .ub => true | _ => false
def isDown (s : St) : Bool := match s.proc with | .down => true | _ => false

/-- The whole of a creation of a group with log device `l`. -/
def made (g l : Nat) : List Op := .create g :: List.replicate 5 (.crStep l 0)

/-- A removal of the instance with log device `l`, as far as `n` steps. -/
def removed (g l n : Nat) : List Op :=
  .remove g :: ((List.range 7).take n).map (fun k => .rmStep l k true)

/-- Two groups, entries, a removal, a checkpoint, failures within calls at moments that careful
histories allow, starts. -/
def story : List Op :=
  made 7 1 ++ [.write 7 10, .write 7 11] ++ made 8 2 ++ [.write 8 20, .cp 7, .crash, .boot, .write 7 12] ++
  removed 8 2 7 ++ [.create 9, .crash, .boot] ++ removed 7 1 1 ++ [.crash, .boot, .write 7 13]

/-- The hypotheses of the theorems are met: group 7 is found with its four entries after three
starts, one of them after a failure in its removal; group 8 is gone; log device 2 is not used. -/
example : ∃ s m, Reach careful2 s ∧ Reach careful s ∧ Reach anyHistory s ∧ s.proc = .up m ∧
    s.st 7 = .present ∧ m.map 7 = some 1 ∧ (s.disk.lds 1).recs = [10, 11, 12, 13] ∧
    s.acked 7 = [10, 11, 12, 13] ∧ s.st 8 = .absent ∧ m.map 8 = none ∧ m.cr 2 = none := by
  have hx : (runC St.init story).map (fun s => upAnd s (fun m => decide (s.st 7 = .present ∧
      m.map 7 = some 1 ∧ (s.disk.lds 1).recs = [10, 11, 12, 13] ∧
      s.acked 7 = [10, 11, 12, 13] ∧ s.st 8 = .absent ∧ m.map 8 = none ∧ m.cr 2 = none))) = some true := by
    decide +kernel
  cases hr : runC St.init story with
  | none => rw [hr] at hx; simp at hx
  | some s =>
    simp only [hr, Option.map_some, Option.some.injEq, upAnd] at hx
    have h2 := runC_reach story .init hr
    have h3 : Reach anyHistory s := by
      clear hx hr
      induction h2 with
      | init => exact .init
      | step o _ _ hs ih => exact .step o ih trivial hs
    split at hx
    · next m hm => exact ⟨s, m, h2, reach_careful h2, h3, hm, of_decide_eq_true hx⟩
    · simp at hx

/-- And there is a careful history that a start comes after, with a group in whose removal the
machine failed. -/
example : ∃ s s' m, Reach careful s ∧ step s .boot = some s' ∧ s'.proc = .up m ∧ s.st 7 = .either ∧
    m.map 7 = some 1 ∧ s.acked 7 = [10, 11] := by
  have hx : (runC St.init (made 7 1 ++ [.write 7 10, .write 7 11] ++ removed 7 1 1 ++ [.crash])).map
      (fun s => isDown s && decide (s.st 7 = .either ∧ s.acked 7 = [10, 11]) &&
        upAnd (doBoot s) (fun m => decide (m.map 7 = some 1))) = some true := by
    decide +kernel
  cases hr : runC St.init (made 7 1 ++ [.write 7 10, .write 7 11] ++ removed 7 1 1 ++ [.crash]) with
  | none => rw [hr] at hx; simp at hx
  | some s =>
    simp only [hr, Option.map_some, Option.some.injEq, Bool.and_eq_true, isDown, upAnd] at hx
    obtain ⟨⟨h1, h2⟩, h3⟩ := hx
    have h2' := of_decide_eq_true h2
    split at h1
    · next hd =>
      split at h3
      · next m hm =>
        exact ⟨s, doBoot s, m, reach_careful (runC_reach _ .init hr), by simp [step, hd], hm, h2'.1,
          of_decide_eq_true h3, h2'.2⟩
      · simp at h3
    · simp at h1

/-! ## What fails in other histories -/

/-- A second call of `create_repl_dev` for a group that is there returns `SERVER_ALREADY_EXISTS`, the
group is found and takes writes; the superblock and the log device of the refused call stay, and the
next start runs into undefined behaviour. -/
theorem C118_exists_violated : ∃ s s', run St.init (made 7 1 ++ [.write 7 10] ++ made 7 2) = some s ∧
    s.st 7 = .present ∧ upAnd s (fun m => m.map 7 == some 1) = true ∧
    s.disk.rds = [⟨7, 2⟩, ⟨7, 1⟩] ∧ loaded s.disk.rds 7 = some 2 ∧
    run s [.crash, .boot] = some s' ∧ isUb s' = true := by
  have h1 : (run St.init (made 7 1 ++ [.write 7 10] ++ made 7 2)).map (fun s =>
      decide (s.st 7 = .present) && upAnd s (fun m => m.map 7 == some 1) &&
      decide (s.disk.rds = [⟨7, 2⟩, ⟨7, 1⟩] ∧ loaded s.disk.rds 7 = some 2) &&
      ((run s [.crash, .boot]).map isUb == some true)) = some true := by decide +kernel
  cases hr : run St.init (made 7 1 ++ [.write 7 10] ++ made 7 2) with
  | none => rw [hr] at h1; simp at h1
  | some s =>
    simp only [hr, Option.map_some, Option.some.injEq, Bool.and_eq_true, decide_eq_true_eq, beq_iff_eq] at h1
    obtain ⟨⟨⟨a, b⟩, c, d⟩, e⟩ := h1
    cases hq : run s [.crash, .boot] with
    | none => simp [hq] at e
    | some s' => simp [hq] at e; exact ⟨s, s', rfl, a, b, c, d, hq, e⟩

/-- Runs a history from the first state and tests the state it comes to. -/
def test (os : List Op) (p : St → Bool) : Bool := (run St.init os).map p == some true

theorem test_reach {os : List Op} {p : St → Bool} (h : test os p = true) :
    ∃ s, Reach anyHistory s ∧ run St.init os = some s ∧ p s = true := by
  simp only [test] at h
  cases hr : run St.init os with
  | none => simp [hr] at h
  | some s => simp [hr] at h; exact ⟨s, run_reach os .init hr, rfl, h⟩

/-- A start never completes again: each ends the process and leaves the disk as it was. -/
theorem never_starts {s : St} (h : stops s.disk = true) (hp : s.proc = .down ∨ s.proc = .failed) :
    ∀ n s', run s (List.replicate n .boot) = some s' → s'.disk = s.disk ∧ (s'.proc = .down ∨ s'.proc = .failed) := by
  intro n
  induction n generalizing s with
  | zero => intro s' hs; simp [run] at hs; subst hs; exact ⟨rfl, hp⟩
  | succ n ih =>
    intro s' hs
    have h1 : step s .boot = some { s with proc := .failed } := by
      rcases hp with hp | hp <;> simp [step, hp, doBoot, h]
    simp only [List.replicate_succ, run, h1, Option.bind_some] at hs
    exact ih (s := { s with proc := .failed }) h (Or.inr rfl) s' hs

/-- The machine fails between the two blocks of the log device of a new group: no start completes
any more, and nothing of the other groups is found. -/
theorem C118_create_violated : ∃ s, Reach anyHistory s ∧
    run St.init (made 7 1 ++ [.write 7 10, .create 8, .crStep 2 0, .crash]) = some s ∧
    s.st 7 = .present ∧
    ∀ n s', run s (List.replicate n .boot) = some s' → ∀ m, s'.proc ≠ .up m := by
  obtain ⟨s, h1, h2, h3⟩ := test_reach (os := made 7 1 ++ [.write 7 10, .create 8, .crStep 2 0, .crash])
    (p := fun s => decide (s.st 7 = .present) && stops s.disk && isDown s) (by decide +kernel)
  simp only [Bool.and_eq_true, decide_eq_true_eq] at h3
  obtain ⟨⟨a, b⟩, c⟩ := h3
  have hd : s.proc = .down := by
    simp only [isDown] at c; split at c
    · assumption
    · simp at c
  refine ⟨s, h1, h2, a, ?_⟩
  intro n s' hs m hm
  rcases (never_starts b (Or.inl hd) n s' hs).2 with h | h <;> rw [hm] at h <;> simp at h

/-- The machine fails in a removal, when the log device is removed and the superblock of the device
is not: no start completes any more, and nothing of the other groups is found. -/
theorem C118_remove_violated : ∃ s, Reach anyHistory s ∧
    run St.init (made 7 1 ++ [.write 7 10] ++ made 8 2 ++ removed 8 2 5 ++ [.crash]) = some s ∧
    s.st 7 = .present ∧
    ∀ n s', run s (List.replicate n .boot) = some s' → ∀ m, s'.proc ≠ .up m := by
  obtain ⟨s, h1, h2, h3⟩ := test_reach (os := made 7 1 ++ [.write 7 10] ++ made 8 2 ++ removed 8 2 5 ++ [.crash])
    (p := fun s => decide (s.st 7 = .present) && stops s.disk && isDown s) (by decide +kernel)
  simp only [Bool.and_eq_true, decide_eq_true_eq] at h3
  obtain ⟨⟨a, b⟩, c⟩ := h3
  have hd : s.proc = .down := by
    simp only [isDown] at c; split at c
    · assumption
    · simp at c
  refine ⟨s, h1, h2, a, ?_⟩
  intro n s' hs m hm
  rcases (never_starts b (Or.inl hd) n s' hs).2 with h | h <;> rw [hm] at h <;> simp at h

/-- The machine fails earlier in a removal: the start finds the group without a journal and without
the entries it acknowledged; a write to it then ends the process. -/
theorem C118_half_violated : ∃ s, Reach anyHistory s ∧
    run St.init (made 7 1 ++ [.write 7 10] ++ removed 7 1 2 ++ [.crash, .boot]) = some s ∧
    s.st 7 = .present ∧ s.acked 7 = [10] ∧ (s.disk.lds 1).recs = [] ∧
    upAnd s (fun m => m.map 7 == some 1 && m.jr 1 == false) = true ∧
    (step s (.write 7 11)).map isFailed = some true := by
  obtain ⟨s, h1, h2, h3⟩ := test_reach (os := made 7 1 ++ [.write 7 10] ++ removed 7 1 2 ++ [.crash, .boot])
    (p := fun s => decide (s.st 7 = .present) && decide (s.acked 7 = [10]) && decide ((s.disk.lds 1).recs = []) &&
      upAnd s (fun m => m.map 7 == some 1 && m.jr 1 == false) &&
      decide ((step s (.write 7 11)).map isFailed = some true)) (by decide +kernel)
  simp only [Bool.and_eq_true, decide_eq_true_eq] at h3
  obtain ⟨⟨⟨⟨a, b⟩, c⟩, d⟩, e⟩ := h3
  exact ⟨s, h1, h2, a, b, c, d, e⟩

/-- A checkpoint comes to a device whose removal has removed the superblock: the process ends. -/
theorem C118_checkpoint_violated : ∃ s, Reach anyHistory s ∧
    run St.init (made 7 1 ++ removed 7 1 6 ++ [.cp 7]) = some s ∧ isFailed s = true :=
  test_reach (by decide +kernel)

/-- Two calls remove a group; when one has returned the group is created again; the other call then
takes the new device out of the map: the group was created and is not found, until the next start. -/
theorem C118_twice_violated : ∃ s, Reach anyHistory s ∧
    run St.init (made 7 1 ++ [.remove 7] ++ removed 7 1 7 ++ made 7 2 ++ [.write 7 10,
      .rmStep 1 0 false, .rmStep 1 1 false, .rmStep 1 5 false, .rmStep 1 6 false]) = some s ∧
    (s.disk.lds 2).recs = [10] ∧ s.disk.rds = [⟨7, 2⟩] ∧ upAnd s (fun m => m.map 7 == none) = true := by
  obtain ⟨s, h1, h2, h3⟩ := test_reach (os := made 7 1 ++ [.remove 7] ++ removed 7 1 7 ++ made 7 2 ++ [.write 7 10,
      .rmStep 1 0 false, .rmStep 1 1 false, .rmStep 1 5 false, .rmStep 1 6 false])
    (p := fun s => decide ((s.disk.lds 2).recs = [10]) && decide (s.disk.rds = [⟨7, 2⟩]) &&
      upAnd s (fun m => m.map 7 == none)) (by decide +kernel)
  simp only [Bool.and_eq_true, decide_eq_true_eq] at h3
  exact ⟨s, h1, h2, h3.1.1, h3.1.2, h3.2⟩

/-- A call that removes a group returns `OK`; a call that creates it was going on and is refused
before that: at the next start the removed group is there again. -/
theorem C118_returns_violated : ∃ s, Reach anyHistory s ∧
    run St.init (made 7 1 ++ [.write 7 10] ++ removed 7 1 6 ++ made 7 2 ++ [.rmStep 1 6 false]) = some s ∧
    s.st 7 = .absent ∧ ((run s [.crash, .boot]).map fun t => upAnd t (fun m => m.map 7 == some 2)) = some true := by
  obtain ⟨s, h1, h2, h3⟩ := test_reach
    (os := made 7 1 ++ [.write 7 10] ++ removed 7 1 6 ++ made 7 2 ++ [.rmStep 1 6 false])
    (p := fun s => decide (s.st 7 = .absent) &&
      decide (((run s [.crash, .boot]).map fun t => upAnd t (fun m => m.map 7 == some 2)) = some true))
    (by decide +kernel)
  simp only [Bool.and_eq_true, decide_eq_true_eq] at h3
  exact ⟨s, h1, h2, h3.1, h3.2⟩

/-- A log device that no device uses stays as it is, whatever steps follow, unless it is the one a
call of creation or removal works on. -/
theorem leak_step {s s' : St} {m : Mem} (o : Op) (hb : Base s) (l : Nat) (hl : l ≤ s.disk.last)
    (hp : s.proc = .up m) (hc : m.cr l = none) (hr : m.rms l = []) (hm : ∀ g, m.map g ≠ some l)
    (hn : ∀ r ∈ s.disk.rds, r.ld ≠ l) (hs : step s o = some s') :
    s'.disk.lds l = s.disk.lds l ∧ l ≤ s'.disk.last ∧ (∀ r ∈ s'.disk.rds, r.ld ≠ l) ∧
    ∀ m', s'.proc = .up m' → m'.cr l = none ∧ m'.rms l = [] ∧ ∀ g, m'.map g ≠ some l := by
  cases o with
  | boot => simp [step, hp] at hs
  | crash => simp [step, hp] at hs; subst hs; exact ⟨rfl, hl, hn, by simp⟩
  | create g =>
    simp [step, hp] at hs; subst hs
    have hne : l ≠ s.disk.last + 1 := by omega
    refine ⟨?_, ?_, hn, ?_⟩
    · simp only [doCreate]; rw [upd_other _ _ hne]
    · simp only [doCreate]; omega
    · intro m' hm'
      simp [doCreate] at hm'; subst hm'
      exact ⟨by simp only [upd_other _ _ hne]; exact hc, hr, hm⟩
  | crStep i k =>
    simp only [step, hp, doCrStep] at hs
    have hne : ∀ n, m.cr i = some n → l ≠ i := by rintro n hn rfl; rw [hc] at hn; simp at hn
    split at hs
    · next hk =>
      simp at hs; subst hs
      refine ⟨upd_other _ _ (hne _ hk), hl, hn, ?_⟩
      intro m' hm'; simp at hm'; subst hm'
      exact ⟨by simp only [upd_other _ _ (hne _ hk)]; exact hc, hr, hm⟩
    · next hk =>
      simp at hs; subst hs
      refine ⟨upd_other _ _ (hne _ hk), hl, hn, ?_⟩
      intro m' hm'; simp at hm'; subst hm'
      exact ⟨by simp only [upd_other _ _ (hne _ hk)]; exact hc, hr, hm⟩
    · next hk =>
      simp at hs; subst hs
      refine ⟨upd_other _ _ (hne _ hk), hl, hn, ?_⟩
      intro m' hm'; simp at hm'; subst hm'
      exact ⟨by simp only [upd_other _ _ (hne _ hk)]; exact hc, hr, hm⟩
    · next hk =>
      simp at hs; subst hs
      refine ⟨rfl, hl, ?_, ?_⟩
      · intro r hr
        rcases (mem_insert _ _ _ _).1 hr with rfl | hr
        · exact (hne _ hk).symm
        · exact hn r hr
      · intro m' hm'; simp at hm'; subst hm'
        exact ⟨by simp only [upd_other _ _ (hne _ hk)]; exact hc, hr, hm⟩
    · next hk =>
      split at hs
      · simp at hs; subst hs
        refine ⟨rfl, hl, hn, ?_⟩
        intro m' hm'; simp at hm'; subst hm'
        refine ⟨by simp only [upd_other _ _ (hne _ hk)]; exact hc, hr, ?_⟩
        intro g hg
        by_cases h' : g = (s.disk.lds i).gid
        · subst h'; simp at hg; exact hne _ hk hg.symm
        · simp only [upd_other _ _ h'] at hg; exact hm g hg
      · simp at hs; subst hs
        refine ⟨rfl, hl, hn, ?_⟩
        intro m' hm'; simp at hm'; subst hm'
        exact ⟨by simp only [upd_other _ _ (hne _ hk)]; exact hc, hr, hm⟩
    · simp at hs
  | remove g =>
    simp [step, hp, doRemove] at hs
    split at hs
    · subst hs
      refine ⟨rfl, hl, hn, ?_⟩
      intro m' hm'; rw [hp] at hm'; simp at hm'; subst hm'; exact ⟨hc, hr, hm⟩
    · next i hi =>
      subst hs
      refine ⟨rfl, hl, hn, ?_⟩
      intro m' hm'; simp at hm'; subst hm'
      have hne : l ≠ i := by rintro rfl; exact hm g hi
      exact ⟨hc, by simp only [upd_other _ _ hne]; exact hr, hm⟩
  | rmStep i k t =>
    simp only [step, hp, doRmStep] at hs
    split at hs
    · next hk =>
      have hne : l ≠ i := by rintro rfl; rw [hr] at hk; simp at hk
      have mm : ∀ n m', Proc.up { m with rms := upd m.rms i n } = .up m' →
          m'.cr l = none ∧ m'.rms l = [] ∧ ∀ g, m'.map g ≠ some l := by
        intro n m' hm'; simp at hm'; subst hm'
        exact ⟨hc, by simp only [upd_other _ _ hne]; exact hr, hm⟩
      split at hs
      · split at hs
        · simp at hs; subst hs; exact ⟨upd_other _ _ hne, hl, hn, mm _⟩
        · simp at hs
      · split at hs
        · simp at hs
        · split at hs
          · simp at hs; subst hs; exact ⟨upd_other _ _ hne, hl, hn, mm _⟩
          · simp at hs; subst hs; exact ⟨upd_other _ _ hne, hl, hn, mm _⟩
      · simp at hs; subst hs; exact ⟨upd_other _ _ hne, hl, hn, mm _⟩
      · simp at hs; subst hs; exact ⟨upd_other _ _ hne, hl, hn, mm _⟩
      · simp at hs; subst hs; exact ⟨upd_other _ _ hne, hl, hn, mm _⟩
      · simp at hs; subst hs
        refine ⟨rfl, hl, fun r hr => hn r (List.mem_filter.1 hr).1, ?_⟩
        intro m' hm'; simp at hm'; subst hm'
        exact ⟨hc, by simp only [upd_other _ _ hne]; exact hr, hm⟩
      · simp at hs; subst hs
        refine ⟨rfl, hl, hn, ?_⟩
        intro m' hm'; simp at hm'; subst hm'
        refine ⟨hc, by simp only [upd_other _ _ hne]; exact hr, ?_⟩
        intro g hg
        by_cases h' : g = (s.disk.lds i).gid
        · subst h'; simp at hg
        · simp only [upd_other _ _ h'] at hg; exact hm g hg
    · simp at hs
  | write g v =>
    simp only [step, hp, doWrite] at hs
    split at hs
    · simp at hs
    · next i hi =>
      have hne : l ≠ i := by rintro rfl; exact hm g hi
      split at hs
      · split at hs
        · simp at hs; subst hs
          refine ⟨upd_other _ _ hne, hl, hn, ?_⟩
          intro m' hm'; simp [hp] at hm'; subst hm'; exact ⟨hc, hr, hm⟩
        · simp at hs; subst hs; exact ⟨rfl, hl, hn, by simp⟩
      · simp at hs
  | cp g =>
    simp only [step, hp, doCp] at hs
    split at hs
    · simp at hs
    · split at hs
      · simp at hs; subst hs
        refine ⟨rfl, hl, hn, ?_⟩
        intro m' hm'; rw [hp] at hm'; simp at hm'; subst hm'; exact ⟨hc, hr, hm⟩
      · simp at hs; subst hs; exact ⟨rfl, hl, hn, by simp⟩

/-- A log device on disk that nobody uses. -/
structure Leaked (s : St) (l : Nat) : Prop where
  le : l ≤ s.disk.last
  rds : ∀ r ∈ s.disk.rds, r.ld ≠ l
  mem : ∀ m, s.proc = .up m → m.cr l = none ∧ m.rms l = [] ∧ ∀ g, m.map g ≠ some l

theorem leaked_step {s s' : St} (o : Op) (hb : Base s) {l : Nat} (h : Leaked s l)
    (hs : step s o = some s') : Leaked s' l ∧ s'.disk.lds l = s.disk.lds l := by
  cases hp : s.proc with
  | ub => cases o <;> simp [step, hp] at hs
  | up m =>
    obtain ⟨a, b, c⟩ := h.mem m hp
    obtain ⟨h1, h2, h3, h4⟩ := leak_step o hb l h.le hp a b c h.rds hs
    exact ⟨⟨h2, h3, h4⟩, h1⟩
  | down =>
    cases o <;> simp [step, hp] at hs
    subst hs
    have hd : (doBoot s).disk = s.disk := by
      simp only [doBoot]; split
      · rfl
      · split <;> rfl
    refine ⟨⟨by rw [hd]; exact h.le, by rw [hd]; exact h.rds, ?_⟩, by rw [hd]⟩
    intro m hm
    simp only [doBoot] at hm
    split at hm
    · simp at hm
    · split at hm
      · simp at hm
      · simp at hm; subst hm
        refine ⟨rfl, rfl, ?_⟩
        intro g hg
        obtain ⟨r, hr, _, h'⟩ := loaded_some hg
        exact h.rds r hr h'
  | failed =>
    cases o <;> simp [step, hp] at hs
    subst hs
    have hd : (doBoot s).disk = s.disk := by
      simp only [doBoot]; split
      · rfl
      · split <;> rfl
    refine ⟨⟨by rw [hd]; exact h.le, by rw [hd]; exact h.rds, ?_⟩, by rw [hd]⟩
    intro m hm
    simp only [doBoot] at hm
    split at hm
    · simp at hm
    · split at hm
      · simp at hm
      · simp at hm; subst hm
        refine ⟨rfl, rfl, ?_⟩
        intro g hg
        obtain ⟨r, hr, _, h'⟩ := loaded_some hg
        exact h.rds r hr h'

/-- The machine fails in a creation after both blocks of the log device are written: the start
completes and the group is not there; whatever is done from then on, the log device stays on disk
and no device ever uses it. -/
theorem C118_leak_violated : ∃ s, Reach anyHistory s ∧
    run St.init [.create 7, .crStep 1 0, .crStep 1 0, .crStep 1 0, .crash, .boot] = some s ∧
    upAnd s (fun m => m.map 7 == none) = true ∧ s.st 7 = .absent ∧
    ∀ os s', run s os = some s' → (s'.disk.lds 1).sb = true ∧
      ∀ m, s'.proc = .up m → ∀ g, m.map g ≠ some 1 := by
  obtain ⟨s, h1, h2, h3⟩ := test_reach (os := [.create 7, .crStep 1 0, .crStep 1 0, .crStep 1 0, .crash, .boot])
    (p := fun s => upAnd s (fun m => m.map 7 == none) && decide (s.st 7 = .absent) &&
      decide (s.disk.rds = []) && (s.disk.lds 1).sb && decide (s.disk.last = 1) && decide ((s.disk.lds 1).gid = 7) &&
      upAnd s (fun m => decide (m.cr 1 = none) && decide (m.rms 1 = []))) (by decide +kernel)
  simp only [Bool.and_eq_true, decide_eq_true_eq] at h3
  obtain ⟨⟨⟨⟨⟨⟨a, b⟩, c⟩, d⟩, e⟩, g7⟩, f⟩ := h3
  refine ⟨s, h1, h2, a, b, ?_⟩
  have lk : Leaked s 1 := by
    refine ⟨by omega, by simp [c], ?_⟩
    intro m hm
    simp only [upAnd, hm, Bool.and_eq_true, decide_eq_true_eq] at f
    refine ⟨f.1, f.2, ?_⟩
    intro g hg
    have hb := (base_reach h1).mem m hm
    have hg7 := (hb.map g 1 hg).1
    rw [g7] at hg7
    subst hg7
    simp only [upAnd, hm, beq_iff_eq] at a
    rw [a] at hg; simp at hg
  intro os
  clear a b c e f g7 h2
  induction os generalizing s with
  | nil =>
    intro s' hs
    simp [run] at hs; subst hs
    exact ⟨d, fun m hm => (lk.mem m hm).2.2⟩
  | cons o os ih =>
    intro s' hs
    simp only [run, Option.bind_eq_some_iff] at hs
    obtain ⟨s1, hs1, hs2⟩ := hs
    obtain ⟨lk', e⟩ := leaked_step o (base_reach h1) lk hs1
    exact ih s1 (.step o h1 trivial hs1) (by rw [e]; exact d) lk' s' hs2

end HS.SoloSvc
