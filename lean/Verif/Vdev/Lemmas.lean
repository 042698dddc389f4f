import Verif.Vdev.Model
/-! Invariant of the commit/free/flush model. -/
namespace HS.Vdev

/-- No immediate free of a block whose commit began after the running flush took its snapshot. -/
def noRacyFree (s : St) : Act → Prop
  | .freeNow x => s.late x = false
  | _ => True

def Phase.busy : Phase → Bool       -- flush started
  | .idle | .prepared => false
  | _ => true

def Phase.early : Phase → Bool      -- image not yet taken
  | .idle | .prepared | .started | .xchgd => true
  | _ => false

def Phase.imaged : Phase → Bool     -- image taken, list still linked
  | .img _ | .written | .clean => true
  | _ => false

def Phase.todoR : Phase → List Blk
  | .replaying td => td.flatten
  | _ => []

def Phase.listy : Phase → Bool
  | .unlinked => true
  | p => p.snapshotting

structure Inv (s : St) : Prop where
  noabort : s.aborted = false
  free : ∀ x, s.cacheFree x = true ↔ s.own x = .free
  secOwn : ∀ t sc, s.sec t = some sc → ∀ x ∈ sc.all, s.own x = .committing
  secTodo : ∀ t sc, s.sec t = some sc → (∀ x ∈ sc.todo, x ∈ sc.all) ∧ sc.all.Nodup ∧ sc.todo.Nodup ∧
    (sc.direct = false → sc.todo = sc.all)
  secDisj : ∀ t t' sc sc', t ≠ t' → s.sec t = some sc → s.sec t' = some sc' → ∀ x ∈ sc.all, x ∉ sc'.all
  bmOwn : ∀ x, s.bm x = true → s.own x ≠ .free ∧ s.own x ≠ .alloc
  todoBm : s.initializing = false → ∀ t sc, s.sec t = some sc → ∀ x ∈ sc.todo, s.bm x = false
  doneBm : ∀ t sc, s.sec t = some sc → sc.direct = true → ∀ x ∈ sc.all, x ∈ sc.todo ∨ s.bm x = true
  comOwn : ∀ x, s.com x = true → s.own x = .live ∨ s.own x = .freeing ∨
    (s.initializing = true ∧ s.own x = .committing)
  liveCom : ∀ x, s.own x = .live → s.com x = true
  initIdle : s.initializing = true → s.phase = .idle
  J : ∀ x, s.com x = true → s.bm x = true ∨ x ∈ s.lst.flatten ∨ x ∈ s.phase.todoR
  bmCom : ∀ x, s.bm x = true → s.com x = true ∨ s.own x = .committing
  L : ∀ x, x ∈ s.lst.flatten → s.com x = true ∧ s.bm x = false ∧ s.late x = true ∧ x ∉ s.freeFl
  Lnd : s.lst.flatten.Nodup
  R : ∀ x, x ∈ s.phase.todoR → s.com x = true ∧ s.bm x = false ∧ s.late x = true ∧ x ∉ s.freeFl
  Rnd : s.phase.todoR.Nodup
  listOn : s.listOn = s.phase.snapshotting
  lstPh : s.phase.listy = false → s.lst = []
  secList : ∀ t sc, s.sec t = some sc → sc.direct = false → s.phase.listy = true ∧ ∀ x ∈ sc.all, s.late x = true
  secDir : ∀ t sc, s.sec t = some sc → sc.direct = true → s.phase.imaged = false ∧ ∀ x ∈ sc.all, s.late x = false
  lateL : s.phase.listy = true → ∀ x, s.late x = true → s.com x = true → x ∈ s.lst.flatten
  lateIdle : s.phase.early = true → s.phase ≠ .xchgd → ∀ x, s.late x = false
  flOwn : (∀ td, s.phase ≠ .frees td) → ∀ x ∈ s.freeFl, s.own x = .freeing
  flNd : s.freeFl.Nodup
  flIdle : s.phase = .idle → s.freeFl = []
  curOwn : ∀ x ∈ s.freeCur, s.own x = .freeing
  curNd : s.freeCur.Nodup
  curFl : (∀ td, s.phase ≠ .frees td) → ∀ x ∈ s.freeCur, x ∉ s.freeFl
  frees : ∀ td, s.phase = .frees td → td.Nodup ∧ (∀ x ∈ td, s.own x = .freeing) ∧ (∀ x ∈ td, x ∈ s.freeFl) ∧
    (∀ x ∈ s.freeCur, x ∉ td)
  dirty : s.dirty = false → ∀ x, s.bm x = true → s.disk x = true ∨ s.own x = .committing
  img : ∀ i, s.phase = .img i → ∀ x, s.bm x = true → i x = true
  wr : s.phase = .written → ∀ x, s.bm x = true → s.disk x = true
  snapBm : s.phase.busy = true → ∀ x, s.snap x = true → s.bm x = true ∧ x ∉ s.freeFl ∧ s.com x = true
  snapImg : ∀ i, s.phase = .img i → ∀ x, s.snap x = true ∨ s.durable x = true → i x = true
  snapDisk : s.phase.busy = true → s.phase.early = false → (∀ i, s.phase ≠ .img i) → ∀ x, s.snap x = true → s.disk x = true
  durDisk : ∀ x, s.durable x = true → s.disk x = true
  secEx : ∀ x, s.own x = .committing → ∃ t sc, s.sec t = some sc ∧ x ∈ sc.all
  durBm : s.phase.early = true → ∀ x, s.durable x = true → s.bm x = true

theorem imaged_snap (p : Phase) : p.imaged = true → p.snapshotting = true := by
  cases p <;> simp [Phase.imaged, Phase.snapshotting]

theorem early_snap (p : Phase) : p.early = true → p ≠ .xchgd → p.snapshotting = false := by
  cases p <;> simp [Phase.early, Phase.snapshotting]

theorem inv_init : Inv init := by
  constructor <;> simp [init, Phase.todoR, Phase.snapshotting, Phase.busy, Phase.early]

set_option maxRecDepth 4000
set_option linter.unusedSimpArgs false

theorem inv_alloc (s s' : St) (x : Nat) (h : Inv s)  (hs : step s (.alloc x) = some s') : Inv s' := by
  obtain ⟨a1,a2,a3,a4,a5,a6,a7,a7b,a8,a9,a10,a11,a11b,a12,a13,a14,a15,a16,a17,a18,a19,a20,a20b,a21,a22,a23,a24,a25,a26,a27,a28,a29,a30,a31,a32,a33,a34,a34b,a35⟩ := h
  simp only [step] at hs
  split at hs
  rotate_left
  · simp at hs
  all_goals (try (simp only [Option.some.injEq, reduceCtorEq] at hs))
  all_goals subst hs
  all_goals (constructor <;> try assumption)
  all_goals simp only [upd, updAll, St.freeBlk]
  all_goals grind [Phase.snapshotting, Phase.busy, Phase.early, Phase.imaged, Phase.todoR, Phase.listy]

theorem inv_commitBegin (s s' : St) (t : Nat) (xs : List Nat) (h : Inv s)  (hs : step s (.commitBegin t xs) = some s') : Inv s' := by
  obtain ⟨a1,a2,a3,a4,a5,a6,a7,a7b,a8,a9,a10,a11,a11b,a12,a13,a14,a15,a16,a17,a18,a19,a20,a20b,a21,a22,a23,a24,a25,a26,a27,a28,a29,a30,a31,a32,a33,a34,a34b,a35⟩ := h
  simp only [step] at hs
  have b1 := imaged_snap s.phase
  have b2 := early_snap s.phase
  split at hs
  rotate_left
  · simp at hs
  all_goals (try (simp only [Option.some.injEq, reduceCtorEq] at hs))
  all_goals subst hs
  all_goals (constructor <;> try assumption)
  all_goals simp only [upd, updAll, St.freeBlk]
  case secEx =>
    intro x hx
    by_cases hm : x ∈ xs
    · exact ⟨t, ⟨xs, xs, !s.listOn⟩, by simp, hm⟩
    · obtain ⟨t', sc, h1, h2⟩ := a34b x (by simpa [hm] using hx)
      exact ⟨t', sc, by grind, h2⟩
  all_goals grind [Phase.snapshotting, Phase.busy, Phase.early, Phase.imaged, Phase.todoR, Phase.listy]

theorem inv_freeReq (s s' : St) (x : Nat) (o : Bool) (h : Inv s)  (hs : step s (.freeReq x o) = some s') : Inv s' := by
  obtain ⟨a1,a2,a3,a4,a5,a6,a7,a7b,a8,a9,a10,a11,a11b,a12,a13,a14,a15,a16,a17,a18,a19,a20,a20b,a21,a22,a23,a24,a25,a26,a27,a28,a29,a30,a31,a32,a33,a34,a34b,a35⟩ := h
  simp only [step] at hs
  all_goals (repeat' split at hs)
  all_goals (try contradiction)
  all_goals (try (simp only [Option.some.injEq, reduceCtorEq] at hs))
  all_goals subst hs
  all_goals (constructor <;> try assumption)
  all_goals simp only [upd, updAll, St.freeBlk]
  all_goals grind [Phase.snapshotting, Phase.busy, Phase.early, Phase.imaged, Phase.todoR, Phase.listy]

theorem inv_freeNow (s s' : St) (x : Nat) (h : Inv s) (hk : noRacyFree s (.freeNow x)) (hs : step s (.freeNow x) = some s') : Inv s' := by
  obtain ⟨a1,a2,a3,a4,a5,a6,a7,a7b,a8,a9,a10,a11,a11b,a12,a13,a14,a15,a16,a17,a18,a19,a20,a20b,a21,a22,a23,a24,a25,a26,a27,a28,a29,a30,a31,a32,a33,a34,a34b,a35⟩ := h
  simp only [step] at hs
  simp only [noRacyFree] at hk
  split at hs
  rotate_left
  · simp at hs
  all_goals (try (simp only [Option.some.injEq, reduceCtorEq] at hs))
  all_goals subst hs
  all_goals (constructor <;> try assumption)
  all_goals simp only [upd, updAll, St.freeBlk]
  all_goals grind [Phase.snapshotting, Phase.busy, Phase.early, Phase.imaged, Phase.todoR, Phase.listy]

theorem inv_switchover (s s' : St)  (h : Inv s)  (hs : step s .switchover = some s') : Inv s' := by
  obtain ⟨a1,a2,a3,a4,a5,a6,a7,a7b,a8,a9,a10,a11,a11b,a12,a13,a14,a15,a16,a17,a18,a19,a20,a20b,a21,a22,a23,a24,a25,a26,a27,a28,a29,a30,a31,a32,a33,a34,a34b,a35⟩ := h
  simp only [step] at hs
  all_goals (repeat' split at hs)
  all_goals (try contradiction)
  all_goals (try (simp only [Option.some.injEq, reduceCtorEq] at hs))
  all_goals subst hs
  all_goals (constructor <;> try assumption)
  all_goals simp only [upd, updAll, St.freeBlk]
  all_goals grind [Phase.snapshotting, Phase.busy, Phase.early, Phase.imaged, Phase.todoR, Phase.listy]

theorem inv_flushStart (s s' : St)  (h : Inv s)  (hs : step s .flushStart = some s') : Inv s' := by
  obtain ⟨a1,a2,a3,a4,a5,a6,a7,a7b,a8,a9,a10,a11,a11b,a12,a13,a14,a15,a16,a17,a18,a19,a20,a20b,a21,a22,a23,a24,a25,a26,a27,a28,a29,a30,a31,a32,a33,a34,a34b,a35⟩ := h
  simp only [step] at hs
  all_goals (repeat' split at hs)
  all_goals (try contradiction)
  all_goals (try (simp only [Option.some.injEq, reduceCtorEq] at hs))
  all_goals subst hs
  all_goals (constructor <;> try assumption)
  all_goals simp only [upd, updAll, St.freeBlk]
  all_goals grind [Phase.snapshotting, Phase.busy, Phase.early, Phase.imaged, Phase.todoR, Phase.listy]

theorem inv_acquire (s s' : St)  (h : Inv s)  (hs : step s .acquire = some s') : Inv s' := by
  obtain ⟨a1,a2,a3,a4,a5,a6,a7,a7b,a8,a9,a10,a11,a11b,a12,a13,a14,a15,a16,a17,a18,a19,a20,a20b,a21,a22,a23,a24,a25,a26,a27,a28,a29,a30,a31,a32,a33,a34,a34b,a35⟩ := h
  simp only [step] at hs
  all_goals (repeat' split at hs)
  all_goals (try contradiction)
  all_goals (try (simp only [Option.some.injEq, reduceCtorEq] at hs))
  all_goals subst hs
  all_goals (constructor <;> try assumption)
  all_goals simp only [upd, updAll, St.freeBlk]
  all_goals grind [Phase.snapshotting, Phase.busy, Phase.early, Phase.imaged, Phase.todoR, Phase.listy]

theorem inv_sync1 (s s' : St)  (h : Inv s) (hw : waitOk s .sync1) (hs : step s .sync1 = some s') : Inv s' := by
  obtain ⟨a1,a2,a3,a4,a5,a6,a7,a7b,a8,a9,a10,a11,a11b,a12,a13,a14,a15,a16,a17,a18,a19,a20,a20b,a21,a22,a23,a24,a25,a26,a27,a28,a29,a30,a31,a32,a33,a34,a34b,a35⟩ := h
  simp only [step] at hs
  simp only [waitOk] at hw
  all_goals (repeat' split at hs)
  all_goals (try contradiction)
  all_goals (try (simp only [Option.some.injEq, reduceCtorEq] at hs))
  all_goals subst hs
  all_goals (constructor <;> try assumption)
  all_goals simp only [upd, updAll, St.freeBlk]
  all_goals grind [Phase.snapshotting, Phase.busy, Phase.early, Phase.imaged, Phase.todoR, Phase.listy]

theorem inv_write (s s' : St)  (h : Inv s)  (hs : step s .write = some s') : Inv s' := by
  obtain ⟨a1,a2,a3,a4,a5,a6,a7,a7b,a8,a9,a10,a11,a11b,a12,a13,a14,a15,a16,a17,a18,a19,a20,a20b,a21,a22,a23,a24,a25,a26,a27,a28,a29,a30,a31,a32,a33,a34,a34b,a35⟩ := h
  simp only [step] at hs
  all_goals (repeat' split at hs)
  all_goals (try contradiction)
  all_goals (try (simp only [Option.some.injEq, reduceCtorEq] at hs))
  all_goals subst hs
  all_goals (constructor <;> try assumption)
  all_goals simp only [upd, updAll, St.freeBlk]
  all_goals grind [Phase.snapshotting, Phase.busy, Phase.early, Phase.imaged, Phase.todoR, Phase.listy]

theorem inv_clear (s s' : St)  (h : Inv s)  (hs : step s .clear = some s') : Inv s' := by
  obtain ⟨a1,a2,a3,a4,a5,a6,a7,a7b,a8,a9,a10,a11,a11b,a12,a13,a14,a15,a16,a17,a18,a19,a20,a20b,a21,a22,a23,a24,a25,a26,a27,a28,a29,a30,a31,a32,a33,a34,a34b,a35⟩ := h
  simp only [step] at hs
  all_goals (repeat' split at hs)
  all_goals (try contradiction)
  all_goals (try (simp only [Option.some.injEq, reduceCtorEq] at hs))
  all_goals subst hs
  all_goals (constructor <;> try assumption)
  all_goals simp only [upd, updAll, St.freeBlk]
  all_goals grind [Phase.snapshotting, Phase.busy, Phase.early, Phase.imaged, Phase.todoR, Phase.listy]

theorem inv_release (s s' : St)  (h : Inv s)  (hs : step s .release = some s') : Inv s' := by
  obtain ⟨a1,a2,a3,a4,a5,a6,a7,a7b,a8,a9,a10,a11,a11b,a12,a13,a14,a15,a16,a17,a18,a19,a20,a20b,a21,a22,a23,a24,a25,a26,a27,a28,a29,a30,a31,a32,a33,a34,a34b,a35⟩ := h
  simp only [step] at hs
  all_goals (repeat' split at hs)
  all_goals (try contradiction)
  all_goals (try (simp only [Option.some.injEq, reduceCtorEq] at hs))
  all_goals subst hs
  all_goals (constructor <;> try assumption)
  all_goals simp only [upd, updAll, St.freeBlk]
  all_goals grind [Phase.snapshotting, Phase.busy, Phase.early, Phase.imaged, Phase.todoR, Phase.listy]

theorem inv_sync2 (s s' : St)  (h : Inv s) (hw : waitOk s .sync2) (hs : step s .sync2 = some s') : Inv s' := by
  obtain ⟨a1,a2,a3,a4,a5,a6,a7,a7b,a8,a9,a10,a11,a11b,a12,a13,a14,a15,a16,a17,a18,a19,a20,a20b,a21,a22,a23,a24,a25,a26,a27,a28,a29,a30,a31,a32,a33,a34,a34b,a35⟩ := h
  simp only [step] at hs
  simp only [waitOk] at hw
  all_goals (repeat' split at hs)
  all_goals (try contradiction)
  all_goals (try (simp only [Option.some.injEq, reduceCtorEq] at hs))
  all_goals subst hs
  all_goals (constructor <;> try assumption)
  all_goals simp only [upd, updAll, St.freeBlk]
  all_goals grind [Phase.snapshotting, Phase.busy, Phase.early, Phase.imaged, Phase.todoR, Phase.listy]

theorem inv_doFree (s s' : St)  (h : Inv s)  (hs : step s .doFree = some s') : Inv s' := by
  obtain ⟨a1,a2,a3,a4,a5,a6,a7,a7b,a8,a9,a10,a11,a11b,a12,a13,a14,a15,a16,a17,a18,a19,a20,a20b,a21,a22,a23,a24,a25,a26,a27,a28,a29,a30,a31,a32,a33,a34,a34b,a35⟩ := h
  simp only [step] at hs
  all_goals (repeat' split at hs)
  all_goals (try contradiction)
  all_goals (try (simp only [Option.some.injEq, reduceCtorEq] at hs))
  all_goals subst hs
  all_goals (constructor <;> try assumption)
  all_goals simp only [upd, updAll, St.freeBlk]
  all_goals grind [Phase.snapshotting, Phase.busy, Phase.early, Phase.imaged, Phase.todoR, Phase.listy]

theorem inv_flushDone (s s' : St)  (h : Inv s)  (hs : step s .flushDone = some s') : Inv s' := by
  obtain ⟨a1,a2,a3,a4,a5,a6,a7,a7b,a8,a9,a10,a11,a11b,a12,a13,a14,a15,a16,a17,a18,a19,a20,a20b,a21,a22,a23,a24,a25,a26,a27,a28,a29,a30,a31,a32,a33,a34,a34b,a35⟩ := h
  simp only [step] at hs
  all_goals (repeat' split at hs)
  all_goals (try contradiction)
  all_goals (try (simp only [Option.some.injEq, reduceCtorEq] at hs))
  all_goals subst hs
  all_goals (constructor <;> try assumption)
  all_goals simp only [upd, updAll, St.freeBlk]
  all_goals grind [Phase.snapshotting, Phase.busy, Phase.early, Phase.imaged, Phase.todoR, Phase.listy]

theorem inv_initDone (s s' : St)  (h : Inv s) (hw : waitOk s .initDone) (hs : step s .initDone = some s') : Inv s' := by
  obtain ⟨a1,a2,a3,a4,a5,a6,a7,a7b,a8,a9,a10,a11,a11b,a12,a13,a14,a15,a16,a17,a18,a19,a20,a20b,a21,a22,a23,a24,a25,a26,a27,a28,a29,a30,a31,a32,a33,a34,a34b,a35⟩ := h
  simp only [step] at hs
  simp only [waitOk] at hw
  all_goals (repeat' split at hs)
  all_goals (try contradiction)
  all_goals (try (simp only [Option.some.injEq, reduceCtorEq] at hs))
  all_goals subst hs
  all_goals (constructor <;> try assumption)
  all_goals simp only [upd, updAll, St.freeBlk]
  all_goals grind [Phase.snapshotting, Phase.busy, Phase.early, Phase.imaged, Phase.todoR, Phase.listy]

theorem inv_crash (s s' : St)  (h : Inv s)  (hs : step s .crash = some s') : Inv s' := by
  obtain ⟨a1,a2,a3,a4,a5,a6,a7,a7b,a8,a9,a10,a11,a11b,a12,a13,a14,a15,a16,a17,a18,a19,a20,a20b,a21,a22,a23,a24,a25,a26,a27,a28,a29,a30,a31,a32,a33,a34,a34b,a35⟩ := h
  simp only [step] at hs
  all_goals (repeat' split at hs)
  all_goals (try contradiction)
  all_goals (try (simp only [Option.some.injEq, reduceCtorEq] at hs))
  all_goals subst hs
  all_goals (constructor <;> try assumption)
  all_goals simp only [upd, updAll, St.freeBlk]
  all_goals grind [Phase.snapshotting, Phase.busy, Phase.early, Phase.imaged, Phase.todoR, Phase.listy]

theorem fold_setBit (xs : List Nat) : ∀ (s : St), xs.Nodup → (∀ x ∈ xs, s.bm x = false) →
    xs.foldl St.setBit s = { s with bm := updAll s.bm xs true } := by
  induction xs with
  | nil =>
    intro s _ _
    have : updAll s.bm [] true = s.bm := by funext y; simp [updAll]
    rw [List.foldl_nil, this]
  | cons a l ih =>
    intro s hn hb
    have ha : s.bm a = false := hb a (by simp)
    have h1 : s.setBit a = { s with bm := upd s.bm a true } := by simp [St.setBit, ha]
    rw [List.foldl_cons, h1, ih _ (List.nodup_cons.mp hn).2]
    · simp only [St.mk.injEq, true_and, and_true]
      funext y
      simp only [updAll, upd, List.mem_cons]
      grind
    · intro x hx
      have : x ≠ a := fun e => (List.nodup_cons.mp hn).1 (e ▸ hx)
      simp [upd, this, hb x (by simp [hx])]

theorem inv_replay (s s' : St) (h : Inv s) (hs : step s .replay = some s') : Inv s' := by
  have hR := h.R
  have hRn := h.Rnd
  obtain ⟨a1,a2,a3,a4,a5,a6,a7,a7b,a8,a9,a10,a11,a11b,a12,a13,a14,a15,a16,a17,a18,a19,a20,a20b,a21,a22,a23,a24,a25,a26,a27,a28,a29,a30,a31,a32,a33,a34,a34b,a35⟩ := h
  simp only [step] at hs
  split at hs
  · rename_i xs rest hp
    simp only [hp, Phase.todoR, List.flatten_cons, List.mem_append] at hR hRn
    have hx := fold_setBit xs s (List.nodup_append.mp hRn).1 (fun x hx => (hR x (Or.inl hx)).2.1)
    have hn2 : ∀ x ∈ xs, x ∉ rest.flatten := by
      intro x h1 h2; exact (List.nodup_append.mp hRn).2.2 x h1 x h2 rfl
    have hn3 : rest.flatten.Nodup := (List.nodup_append.mp hRn).2.1
    simp only [St.replayOne, hx, Option.some.injEq] at hs
    subst hs
    constructor <;> try assumption
    all_goals simp only [updAll]
    all_goals simp only [hp, Phase.snapshotting, Phase.busy, Phase.early, Phase.imaged, Phase.todoR, Phase.listy, List.flatten_cons, List.mem_append] at *
    all_goals grind
  · simp only [Option.some.injEq] at hs
    subst hs
    constructor <;> try assumption
    all_goals grind [Phase.snapshotting, Phase.busy, Phase.early, Phase.imaged, Phase.todoR, Phase.listy]
  · simp at hs

theorem inv_commitList (s s' : St) (t : Nat) (todo all : List Nat) (hsec : s.sec t = some ⟨todo, all, false⟩) (h : Inv s)
    (hs : step s (.commitStep t) = some s') : Inv s' := by
  obtain ⟨a1,a2,a3,a4,a5,a6,a7,a7b,a8,a9,a10,a11,a11b,a12,a13,a14,a15,a16,a17,a18,a19,a20,a20b,a21,a22,a23,a24,a25,a26,a27,a28,a29,a30,a31,a32,a33,a34,a34b,a35⟩ := h
  simp only [step, hsec, Option.some.injEq] at hs
  subst hs
  have c1 := a3 t _ hsec
  have c2 := a4 t _ hsec
  have c3 := a18 t _ hsec rfl
  have c4 := a7 (by cases hi : s.initializing; rfl; simp [a10 hi, Phase.listy, Phase.snapshotting] at c3) t _ hsec
  constructor <;> try assumption
  case secEx => 
    intro x hx
    simp only [updAll] at hx
    split at hx
    · simp at hx
    · obtain ⟨t', sc, h1, h2⟩ := a34b x hx
      exact ⟨t', sc, by simp only [upd]; grind, h2⟩
  all_goals simp only [upd, updAll, List.flatten_append, List.flatten_cons, List.flatten_nil, List.append_nil, List.mem_append]
  all_goals grind [Phase.snapshotting, Phase.busy, Phase.early, Phase.imaged, Phase.todoR, Phase.listy]

theorem inv_commitBit (s s' : St) (t : Nat) (x : Nat) (todo all : List Nat) (hsec : s.sec t = some ⟨x :: todo, all, true⟩) (h : Inv s)
    (hs : step s (.commitStep t) = some s') : Inv s' := by
  obtain ⟨a1,a2,a3,a4,a5,a6,a7,a7b,a8,a9,a10,a11,a11b,a12,a13,a14,a15,a16,a17,a18,a19,a20,a20b,a21,a22,a23,a24,a25,a26,a27,a28,a29,a30,a31,a32,a33,a34,a34b,a35⟩ := h
  have c1 := a3 t _ hsec
  have c2 := a4 t _ hsec
  have c3 := a19 t _ hsec rfl
  have c4 : ¬ (s.initializing = false ∧ s.bm x = true) := by
    rintro ⟨h1, h2⟩; have := a7 h1 t _ hsec x (by simp); simp [h2] at this
  simp only [step, hsec, Option.some.injEq, St.setBit, c4, if_false] at hs
  subst hs
  constructor <;> try assumption
  case secEx => 
    intro x hx
    obtain ⟨t', sc, h1, h2⟩ := a34b x hx
    by_cases ht : t' = t
    · exact ⟨t, ⟨todo, all, true⟩, by simp [upd], by grind⟩
    · exact ⟨t', sc, by simp only [upd]; grind, h2⟩
  all_goals simp only [upd, updAll]
  all_goals grind [Phase.snapshotting, Phase.busy, Phase.early, Phase.imaged, Phase.todoR, Phase.listy]

theorem inv_commitEnd (s s' : St) (t : Nat) (all : List Nat) (hsec : s.sec t = some ⟨[], all, true⟩) (h : Inv s)
    (hs : step s (.commitStep t) = some s') : Inv s' := by
  obtain ⟨a1,a2,a3,a4,a5,a6,a7,a7b,a8,a9,a10,a11,a11b,a12,a13,a14,a15,a16,a17,a18,a19,a20,a20b,a21,a22,a23,a24,a25,a26,a27,a28,a29,a30,a31,a32,a33,a34,a34b,a35⟩ := h
  have c1 := a3 t _ hsec
  have c2 := a4 t _ hsec
  have c3 := a19 t _ hsec rfl
  have c4 := a7b t _ hsec rfl
  simp only [step, hsec, Option.some.injEq] at hs
  subst hs
  constructor <;> try assumption
  case secEx => 
    intro x hx
    simp only [updAll] at hx
    split at hx
    · simp at hx
    · obtain ⟨t', sc, h1, h2⟩ := a34b x hx
      exact ⟨t', sc, by simp only [upd]; grind, h2⟩
  all_goals simp only [upd, updAll]
  all_goals grind [Phase.snapshotting, Phase.busy, Phase.early, Phase.imaged, Phase.todoR, Phase.listy]

theorem inv_commitStep (s s' : St) (t : Nat) (h : Inv s) (hs : step s (.commitStep t) = some s') :
    Inv s' := by
  cases hsec : s.sec t with
  | none => simp [step, hsec] at hs
  | some sc =>
    obtain ⟨todo, all, d⟩ := sc
    cases d with
    | false => exact inv_commitList s s' t todo all hsec h hs
    | true =>
      cases todo with
      | nil => exact inv_commitEnd s s' t all hsec h hs
      | cons x todo => exact inv_commitBit s s' t x todo all hsec h hs

theorem inv_step (s : St) (a : Act) (s' : St) (h : Inv s) (hk : noRacyFree s a) (hw : waitOk s a)
    (hs : step s a = some s') : Inv s' := by
  cases a with
  | alloc x => exact inv_alloc _ _ x h hs
  | commitBegin t xs => exact inv_commitBegin _ _ t xs h hs
  | commitStep t => exact inv_commitStep _ _ t h hs
  | freeReq x o => exact inv_freeReq _ _ x o h hs
  | freeNow x => exact inv_freeNow _ _ x h hk hs
  | switchover => exact inv_switchover _ _ h hs
  | flushStart => exact inv_flushStart _ _ h hs
  | acquire => exact inv_acquire _ _ h hs
  | sync1 => exact inv_sync1 _ _ h hw hs
  | write => exact inv_write _ _ h hs
  | clear => exact inv_clear _ _ h hs
  | release => exact inv_release _ _ h hs
  | sync2 => exact inv_sync2 _ _ h hw hs
  | replay => exact inv_replay _ _ h hs
  | doFree => exact inv_doFree _ _ h hs
  | flushDone => exact inv_flushDone _ _ h hs
  | initDone => exact inv_initDone _ _ h hw hs
  | crash => exact inv_crash _ _ h hs

theorem inv_exec {s : St} {as : List Act} (h : Exec noRacyFree init as s) : Inv s :=
  Exec.inv (fun s a s' hi hk hw hs => inv_step s a s' hi hk hw hs) h inv_init

end HS.Vdev
