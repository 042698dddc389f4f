import Verif.Vdev.Model
/-! Ownership invariant of the commit/free/flush model; unlike `Inv` it holds for every interleaving,
immediate frees included. -/
namespace HS.Vdev

set_option linter.unusedSimpArgs false

structure InvO (s : St) : Prop where
  free : ∀ x, s.cacheFree x = true ↔ s.own x = .free
  secOwn : ∀ t sc, s.sec t = some sc → ∀ x ∈ sc.all, s.own x = .committing
  secDisj : ∀ t t' sc sc', t ≠ t' → s.sec t = some sc → s.sec t' = some sc' → ∀ x ∈ sc.all, x ∉ sc'.all
  flOwn : (∀ td, s.phase ≠ .frees td) → ∀ x ∈ s.freeFl, s.own x = .freeing
  flNd : s.freeFl.Nodup
  flIdle : s.phase = .idle → s.freeFl = []
  curOwn : ∀ x ∈ s.freeCur, s.own x = .freeing
  curNd : s.freeCur.Nodup
  curFl : (∀ td, s.phase ≠ .frees td) → ∀ x ∈ s.freeCur, x ∉ s.freeFl
  frees : ∀ td, s.phase = .frees td → td.Nodup ∧ (∀ x ∈ td, s.own x = .freeing) ∧ (∀ x ∈ td, x ∈ s.freeFl) ∧
    (∀ x ∈ s.freeCur, x ∉ td)

theorem invO_init : InvO init := by
  constructor <;> simp [init]

theorem fold_setBit_frame (xs : List Nat) : ∀ (s : St),
    (xs.foldl St.setBit s).own = s.own ∧ (xs.foldl St.setBit s).freeCur = s.freeCur ∧
    (xs.foldl St.setBit s).freeFl = s.freeFl ∧ (xs.foldl St.setBit s).cacheFree = s.cacheFree ∧
    (xs.foldl St.setBit s).sec = s.sec := by
  induction xs with
  | nil => intro s; exact ⟨rfl, rfl, rfl, rfl, rfl⟩
  | cons x xs ih => intro s; rw [List.foldl_cons]; have := ih (s.setBit x); unfold St.setBit at *; split <;> simp_all

theorem invO_step (s : St) (a : Act) (s' : St) (h : InvO s) (hs : step s a = some s') : InvO s' := by
  obtain ⟨a1, a2, a3, a4, a5, a6, a7, a8, a9, a10⟩ := h
  cases a
  case replay =>
    simp only [step] at hs
    split at hs
    · rename_i xs rest hp
      obtain ⟨f1, f2, f3, f4, f5⟩ := fold_setBit_frame xs s
      simp only [Option.some.injEq] at hs
      subst hs
      constructor <;> simp only [St.replayOne, f1, f2, f3, f4, f5] <;> grind
    · simp only [Option.some.injEq] at hs
      subst hs
      constructor <;> grind
    · simp at hs
  case commitStep t =>
    simp only [step] at hs
    split at hs
    · rename_i hsec
      have c := a2 t _ hsec
      simp only [Option.some.injEq] at hs
      subst hs
      constructor <;> simp only [upd, updAll] <;> grind
    · rename_i hsec
      have c := a2 t _ hsec
      simp only [Option.some.injEq, St.setBit] at hs
      split at hs <;> (subst hs; constructor <;> simp only [upd, updAll] <;> grind)
    · rename_i hsec
      have c := a2 t _ hsec
      simp only [Option.some.injEq] at hs
      subst hs
      constructor <;> simp only [upd, updAll] <;> grind
    · simp at hs
  all_goals
    simp only [step] at hs
    repeat' split at hs
    all_goals (try contradiction)
    all_goals (simp only [Option.some.injEq] at hs; subst hs)
    all_goals (constructor <;> simp only [upd, updAll, St.freeBlk] <;> grind)

theorem invO_exec {ok : St → Act → Prop} {s : St} {as : List Act} (h : Exec ok init as s) : InvO s :=
  Exec.inv (fun s a s' hi _ _ hs => invO_step s a s' hi hs) h invO_init

end HS.Vdev
