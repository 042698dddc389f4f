import Verif.Index.Space
/-!
# C71: the blocks of an index are not used twice, and (without a crash) not lost
-/
namespace HS.Index.Space

theorem upd_same (f : Set) (b : Blk) (v : Bool) : upd f b v b = v := by simp [upd]
theorem upd_ne (f : Set) {b x : Blk} (v : Bool) (h : x ≠ b) : upd f b v x = f x := by simp [upd, h]

/-- Before the frees of the checkpoint being taken are applied. -/
def Stage.before (t : Stage) : Prop := t = .drain ∨ t = .nodes ∨ t = .bitmap

structure Inv (s : St) : Prop where
  live : ∀ b, s.live b = true → s.bm b = true
  stable : s.exposed = false → ∀ b, s.stable b = true → s.img b = true
  keepS : s.stage ≠ .frees → ∀ b, s.stable b = true → s.bm b = true
  keepN : s.stage ≠ .frees → ∀ b, s.prev.new b = true → s.bm b = true
  keepF : s.stage = .frees → ∀ b, s.stable b = true ∨ s.prev.new b = true → s.prev.freed b = true ∨ s.bm b = true
  newC : ∀ b, s.cur.new b = true → s.bm b = true
  freedC : ∀ b, s.cur.freed b = true → s.bm b = true ∧ s.live b = false
  freedP : s.stage.before → ∀ b, s.prev.freed b = true → s.bm b = true ∧ s.live b = false
  disjN : s.stage.before → ∀ b, s.prev.freed b = true → s.cur.new b = false
  disjF : s.stage.before → ∀ b, s.prev.freed b = true → s.cur.freed b = false
  imgN : s.stage = .bitmap ∨ s.stage = .frees → ∀ b, s.stable b = true ∨ s.prev.new b = true → s.img b = true
  clean : s.bmDirty = false → ∀ b, s.bm b = true → s.img b = true
  dirtyC : s.cur.dirty = false → ∀ b, s.cur.new b = false ∧ s.cur.freed b = false
  dirtyP : s.stage = .drain → s.prev.dirty = false → ∀ b, s.prev.new b = false ∧ s.prev.freed b = false
  skipN : s.stage = .skip → s.exposed = false → ∀ b, s.prev.new b = true → s.img b = true
  idle : s.stage = .idle → s.prev = .empty

theorem inv_init : Inv St.init := by
  constructor <;> simp [St.init, Ctx.empty, Stage.before]

theorem inv_alloc {s s' : St} (h : Inv s) {p : Bool} {b : Blk} (hs : s.step (.alloc p b) = some s') : Inv s' := by
  simp only [St.step] at hs
  split at hs
  rotate_left
  · cases hs
  rename_i hg
  obtain ⟨hg, hb⟩ := hg
  have hbl : s.live b = false := by
    rcases e : s.live b with _ | _
    · rfl
    · have := h.live b e; rw [this] at hb; cases hb
  have up : ∀ x, s.bm x = true → upd s.bm b true x = true := by
    intro x hx; unfold upd; split <;> simp_all
  have ne : ∀ {x}, s.bm x = true → x ≠ b := by
    intro x hx e; rw [e, hb] at hx; cases hx
  cases p with
  | false =>
    simp only [St.ctx, St.setCtx, Bool.false_eq_true, if_false, Option.some.injEq] at hs
    subst hs
    refine ⟨?_, h.stable, ?_, ?_, ?_, ?_, ?_, ?_, ?_, ?_, h.imgN, ?_, ?_, h.dirtyP, h.skipN, h.idle⟩
    · intro x hx
      by_cases e : x = b
      · subst e; exact upd_same _ _ _
      · exact up x (h.live x (by rw [← upd_ne s.live true e]; exact hx))
    · intro hst x hx; exact up x (h.keepS hst x hx)
    · intro hst x hx; exact up x (h.keepN hst x hx)
    · intro hst x hx; exact (h.keepF hst x hx).imp id (up x)
    · intro x hx
      by_cases e : x = b
      · subst e; exact upd_same _ _ _
      · exact up x (h.newC x (by rw [← upd_ne s.cur.new true e]; exact hx))
    · intro x hx
      obtain ⟨h1, h2⟩ := h.freedC x hx
      exact ⟨up x h1, by show upd s.live b true x = false; rw [upd_ne _ _ (ne h1)]; exact h2⟩
    · intro hst x hx
      obtain ⟨h1, h2⟩ := h.freedP hst x hx
      exact ⟨up x h1, by show upd s.live b true x = false; rw [upd_ne _ _ (ne h1)]; exact h2⟩
    · intro hst x hx
      show upd s.cur.new b true x = false
      rw [upd_ne _ _ (ne (h.freedP hst x hx).1)]; exact h.disjN hst x hx
    · intro hst x hx; exact h.disjF hst x hx
    · intro e; cases e
    · intro e; cases e
  | true =>
    have hd := hg rfl
    simp only [St.ctx, St.setCtx, if_true, Option.some.injEq] at hs
    subst hs
    refine ⟨?_, h.stable, ?_, ?_, ?_, ?_, ?_, ?_, ?_, ?_, ?_, ?_, h.dirtyC, ?_, ?_, ?_⟩
    · intro x hx
      by_cases e : x = b
      · subst e; exact upd_same _ _ _
      · exact up x (h.live x (by rw [← upd_ne s.live true e]; exact hx))
    · intro hst x hx; exact up x (h.keepS hst x hx)
    · intro hst x hx
      by_cases e : x = b
      · subst e; exact upd_same _ _ _
      · exact up x (h.keepN hst x (by rw [← upd_ne s.prev.new true e]; exact hx))
    · intro hst; rw [show s.stage = .frees from hst] at hd; cases hd
    · intro x hx; exact up x (h.newC x hx)
    · intro x hx
      obtain ⟨h1, h2⟩ := h.freedC x hx
      exact ⟨up x h1, by show upd s.live b true x = false; rw [upd_ne _ _ (ne h1)]; exact h2⟩
    · intro hst x hx
      obtain ⟨h1, h2⟩ := h.freedP hst x hx
      exact ⟨up x h1, by show upd s.live b true x = false; rw [upd_ne _ _ (ne h1)]; exact h2⟩
    · intro hst x hx; exact h.disjN hst x hx
    · intro hst x hx; exact h.disjF hst x hx
    · intro hst
      rcases hst with e | e <;> rw [show s.stage = _ from e] at hd <;> cases hd
    · intro e; cases e
    · intro _ e; cases e
    · intro e; rw [show s.stage = _ from e] at hd; cases hd
    · intro e; rw [show s.stage = _ from e] at hd; cases hd

theorem inv_free {s s' : St} (h : Inv s) {p : Bool} {b : Blk} (hs : s.step (.free p b) = some s') : Inv s' := by
  simp only [St.step] at hs
  split at hs
  rotate_left
  · cases hs
  rename_i hg
  obtain ⟨hg, hb⟩ := hg
  have hbm := h.live b hb
  have dn : ∀ x, upd s.live b false x = true → s.live x = true := by
    intro x hx; unfold upd at hx; split at hx
    · cases hx
    · exact hx
  have dn' : ∀ x, s.live x = false → upd s.live b false x = false := by
    intro x hx; unfold upd; split
    · rfl
    · exact hx
  cases p with
  | false =>
    simp only [St.ctx, St.setCtx, Bool.false_eq_true, if_false, Option.some.injEq] at hs
    subst hs
    refine ⟨fun x hx => h.live x (dn x hx), h.stable, h.keepS, h.keepN, h.keepF, h.newC, ?_, ?_, h.disjN, ?_, h.imgN,
      h.clean, ?_, h.dirtyP, h.skipN, h.idle⟩
    · intro x hx
      by_cases e : x = b
      · subst e; exact ⟨hbm, upd_same _ _ _⟩
      · obtain ⟨h1, h2⟩ := h.freedC x (by rw [← upd_ne s.cur.freed true e]; exact hx)
        exact ⟨h1, dn' x h2⟩
    · intro hst x hx
      obtain ⟨h1, h2⟩ := h.freedP hst x hx
      exact ⟨h1, dn' x h2⟩
    · intro hst x hx
      have : x ≠ b := by
        intro e; subst e
        have := (h.freedP hst x hx).2
        rw [hb] at this; cases this
      show upd s.cur.freed b true x = false
      rw [upd_ne _ _ this]; exact h.disjF hst x hx
    · intro e; cases e
  | true =>
    obtain ⟨hd, hcn⟩ := hg rfl
    simp only [St.ctx, St.setCtx, if_true, Option.some.injEq] at hs
    subst hs
    refine ⟨fun x hx => h.live x (dn x hx), h.stable, h.keepS, h.keepN, ?_, h.newC, ?_, ?_, ?_, ?_, h.imgN,
      h.clean, h.dirtyC, ?_, ?_, ?_⟩
    · intro hst; rw [show s.stage = .frees from hst] at hd; cases hd
    · intro x hx
      obtain ⟨h1, h2⟩ := h.freedC x hx
      exact ⟨h1, dn' x h2⟩
    · intro hst x hx
      by_cases e : x = b
      · subst e; exact ⟨hbm, upd_same _ _ _⟩
      · obtain ⟨h1, h2⟩ := h.freedP hst x (by rw [← upd_ne s.prev.freed true e]; exact hx)
        exact ⟨h1, dn' x h2⟩
    · intro hst x hx
      by_cases e : x = b
      · subst e; exact hcn
      · exact h.disjN hst x (by rw [← upd_ne s.prev.freed true e]; exact hx)
    · intro hst x hx
      by_cases e : x = b
      · subst e
        rcases e2 : s.cur.freed x with _ | _
        · rfl
        · have := (h.freedC x e2).2
          rw [hb] at this; cases this
      · exact h.disjF hst x (by rw [← upd_ne s.prev.freed true e]; exact hx)
    · intro _ e; cases e
    · intro e; rw [show s.stage = _ from e] at hd; cases hd
    · intro e; rw [show s.stage = _ from e] at hd; cases hd

theorem inv_change {s s' : St} (h : Inv s) {p : Bool} (hs : s.step (.change p) = some s') : Inv s' := by
  simp only [St.step] at hs
  split at hs
  rotate_left
  · cases hs
  rename_i hg
  cases p with
  | false =>
    simp only [St.ctx, St.setCtx, Bool.false_eq_true, if_false, Option.some.injEq] at hs
    subst hs
    exact ⟨h.live, h.stable, h.keepS, h.keepN, h.keepF, h.newC, h.freedC, h.freedP, h.disjN, h.disjF, h.imgN, h.clean,
      (fun e => by cases e), h.dirtyP, h.skipN, h.idle⟩
  | true =>
    have hd := hg rfl
    simp only [St.ctx, St.setCtx, if_true, Option.some.injEq] at hs
    subst hs
    exact ⟨h.live, h.stable, h.keepS, h.keepN, h.keepF, h.newC, h.freedC, h.freedP, h.disjN, h.disjF, h.imgN, h.clean,
      h.dirtyC, (fun _ e => by cases e), h.skipN, (fun e => by rw [show s.stage = _ from e] at hd; cases hd)⟩

theorem inv_step {s s' : St} (h : Inv s) {op : Op} (hx : op.isCrash = true → s.exposed = false)
    (hs : s.step op = some s') : Inv s' := by
  cases op with
  | alloc p b => exact inv_alloc h hs
  | free p b => exact inv_free h hs
  | change p => exact inv_change h hs
  | switchover =>
    simp only [St.step] at hs
    split at hs
    rotate_left
    · cases hs
    rename_i hi
    simp only [Option.some.injEq] at hs
    subst hs
    have nf : s.stage ≠ .frees := by rw [hi]; simp
    refine ⟨h.live, h.stable, fun _ => h.keepS nf, fun _ => h.newC, (fun e => by cases e), ?_, ?_, fun _ => h.freedC, ?_, ?_,
      ?_, h.clean, ?_, fun _ => h.dirtyC, ?_, ?_⟩
    · intro b hb; cases hb
    · intro b hb; cases hb
    · intro _ b _; rfl
    · intro _ b _; rfl
    · intro e; rcases e with e | e <;> cases e
    · intro _ b; exact ⟨rfl, rfl⟩
    · intro e; cases e
    · intro e; cases e
  | startFlush =>
    simp only [St.step] at hs
    split at hs
    rotate_left
    · cases hs
    rename_i hi
    have nf : s.stage ≠ .frees := by rw [hi]; simp
    split at hs
    · simp only [Option.some.injEq] at hs
      subst hs
      have hb : s.stage.before := Or.inl hi
      exact ⟨h.live, h.stable, fun _ => h.keepS nf, fun _ => h.keepN nf, (fun e => by cases e), h.newC, h.freedC,
        fun _ => h.freedP hb, fun _ => h.disjN hb, fun _ => h.disjF hb, (fun e => by rcases e with e | e <;> cases e),
        h.clean, h.dirtyC, (fun e => by cases e), (fun e => by cases e), (fun e => by cases e)⟩
    · rename_i hd
      simp only [Option.some.injEq] at hs
      subst hs
      have hp := h.dirtyP hi (by simpa using hd)
      refine ⟨h.live, h.stable, fun _ => h.keepS nf, fun _ => h.keepN nf, (fun e => by cases e), h.newC, h.freedC,
        ?_, ?_, ?_, (fun e => by rcases e with e | e <;> cases e),
        h.clean, h.dirtyC, (fun e => by cases e), ?_, (fun e => by cases e)⟩
      · intro e; rcases e with e | e | e <;> cases e
      · intro e; rcases e with e | e | e <;> cases e
      · intro e; rcases e with e | e | e <;> cases e
      · intro _ _ b hb
        have := (hp b).1
        rw [show s.prev.new b = true from hb] at this; cases this
  | flushBitmap =>
    simp only [St.step] at hs
    split at hs
    rotate_left
    · cases hs
    rename_i hi
    simp only [Option.some.injEq] at hs
    subst hs
    have nf : s.stage ≠ .frees := by rw [hi]; simp
    have hb : s.stage.before := Or.inr (Or.inl hi)
    have img : ∀ b, s.bm b = true → (if s.bmDirty = true then s.bm else s.img) b = true := by
      intro b hbm
      split
      · exact hbm
      · rename_i e; exact h.clean (by simpa using e) b hbm
    exact ⟨h.live, fun _ b hb => img b (h.keepS nf b hb), fun _ => h.keepS nf, fun _ => h.keepN nf, (fun e => by cases e),
      h.newC, h.freedC, fun _ => h.freedP hb, fun _ => h.disjN hb, fun _ => h.disjF hb,
      fun _ b hb => img b (hb.elim (h.keepS nf b) (h.keepN nf b)), fun _ => img, h.dirtyC, (fun e => by cases e),
      (fun e => by cases e), (fun e => by cases e)⟩
  | applyFrees =>
    simp only [St.step] at hs
    split at hs
    rotate_left
    · cases hs
    rename_i hi
    simp only [Option.some.injEq] at hs
    subst hs
    have nf : s.stage ≠ .frees := by rw [hi]; simp
    have hb : s.stage.before := Or.inr (Or.inr hi)
    have keep : ∀ b, s.bm b = true → s.prev.freed b = false → (s.bm b && !s.prev.freed b) = true := by
      intro b h1 h2; rw [h1, h2]; rfl
    have nofree : ∀ b, (s.prev.freed b = true → False) → s.prev.freed b = false := by
      intro b hb; rcases e : s.prev.freed b with _ | _
      · rfl
      · exact (hb e).elim
    refine ⟨?_, h.stable, fun e => absurd rfl e, fun e => absurd rfl e, ?_, ?_, ?_, ?_, ?_, ?_,
      fun _ => h.imgN (Or.inl hi), ?_, h.dirtyC, (fun e => by cases e), (fun e => by cases e), (fun e => by cases e)⟩
    · intro b hl
      exact keep b (h.live b hl) (nofree b (fun e => by
        have := (h.freedP hb b e).2; rw [show s.live b = true from hl] at this; cases this))
    · intro _ b hx
      rcases e : s.prev.freed b with _ | _
      · exact Or.inr (keep b (hx.elim (h.keepS nf b) (h.keepN nf b)) e)
      · exact Or.inl rfl
    · intro b hn
      exact keep b (h.newC b hn) (nofree b (fun e => by
        have := h.disjN hb b e; rw [show s.cur.new b = true from hn] at this; cases this))
    · intro b hf
      obtain ⟨h1, h2⟩ := h.freedC b hf
      exact ⟨keep b h1 (nofree b (fun e => by
        have := h.disjF hb b e; rw [show s.cur.freed b = true from hf] at this; cases this)), h2⟩
    · intro e; rcases e with e | e | e <;> cases e
    · intro e; rcases e with e | e | e <;> cases e
    · intro e; rcases e with e | e | e <;> cases e
    · intro e b hbm
      refine h.clean e b ?_
      rw [show ((s.bm b && !s.prev.freed b) = true) = (s.bm b = true ∧ s.prev.freed b = false) by simp] at hbm
      exact hbm.1
  | complete =>
    simp only [St.step] at hs
    split at hs
    rotate_left
    · cases hs
    rename_i hi
    simp only [Option.some.injEq] at hs
    subst hs
    have both : ∀ b, ((s.stable b || s.prev.new b) && !s.prev.freed b) = true →
        (s.stable b = true ∨ s.prev.new b = true) ∧ s.prev.freed b = false := by
      intro b hb; simpa using hb
    refine ⟨h.live, ?_, ?_, ?_, (fun e => by cases e), h.newC, h.freedC, ?_, ?_, ?_,
      (fun e => by rcases e with e | e <;> cases e), h.clean, h.dirtyC, (fun e => by cases e), (fun e => by cases e), fun _ => rfl⟩
    · intro hx b hb
      obtain ⟨h1, h2⟩ := both b hb
      rcases hi with e | e
      · exact h.imgN (Or.inr e) b h1
      · exact h1.elim (h.stable hx b) (h.skipN e hx b)
    · intro _ b hb
      obtain ⟨h1, h2⟩ := both b hb
      rcases hi with e | e
      · rcases h.keepF e b h1 with e2 | e2
        · rw [h2] at e2; cases e2
        · exact e2
      · have nf : s.stage ≠ .frees := by rw [e]; simp
        exact h1.elim (h.keepS nf b) (h.keepN nf b)
    · intro _ b hb; cases hb
    · intro e; rcases e with e | e | e <;> cases e
    · intro e; rcases e with e | e | e <;> cases e
    · intro e; rcases e with e | e | e <;> cases e
  | crash keep drop =>
    have hx := hx rfl
    simp only [St.step] at hs
    split at hs
    · simp only [Option.some.injEq] at hs
      subst hs
      have hst := h.stable hx
      refine ⟨hst, fun _ => hst, fun _ => hst, ?_, (fun e => by cases e), ?_, ?_, ?_, ?_, ?_,
        (fun e => by rcases e with e | e <;> cases e), fun _ b hb => hb, fun _ b => ⟨rfl, rfl⟩, (fun e => by cases e), ?_,
        (fun e => by cases e)⟩
      · intro _ b hb; cases hb
      · intro b hb; cases hb
      · intro b hb; cases hb
      · intro e; rcases e with e | e | e <;> cases e
      · intro e; rcases e with e | e | e <;> cases e
      · intro e; rcases e with e | e | e <;> cases e
      · intro _ _ b hb; cases hb
    · rename_i n f _
      simp only [Option.some.injEq] at hs
      subst hs
      have hst := h.stable hx
      refine ⟨?_, (fun e => by cases e), ?_, ?_, (fun e => by cases e), ?_, ?_, ?_, ?_, ?_,
        (fun e => by rcases e with e | e <;> cases e), (fun e => by cases e), fun _ b => ⟨rfl, rfl⟩, (fun e => by cases e),
        (fun _ e => by cases e), (fun e => by cases e)⟩
      · intro b hb
        have hb' : (s.stable b = true ∨ (keep b && n b) = true) ∧ (drop b && f b) = false := by
          have : ((s.stable b || (keep b && n b)) && !(drop b && f b)) = true := hb
          revert this
          cases s.stable b <;> cases keep b <;> cases n b <;> cases drop b <;> cases f b <;> simp
        show (s.img b || (keep b && n b)) = true
        rcases hb'.1 with e | e
        · rw [hst b e]; rfl
        · rw [e]; simp
      · intro _ b hb
        show (s.img b || (keep b && n b)) = true
        rw [hst b hb]; rfl
      · intro _ b hb
        show (s.img b || (keep b && n b)) = true
        rw [show (keep b && n b) = true from hb]; simp
      · intro b hb; cases hb
      · intro b hb; cases hb
      · intro e; rcases e with e | e | e <;> cases e
      · intro e; rcases e with e | e | e <;> cases e
      · intro e; rcases e with e | e | e <;> cases e

theorem inv_run : ∀ (ops : List Op) {s s' : St}, Inv s → NoExposedCrash s ops → s.run ops = some s' → Inv s'
  | [], s, s', h, _, hr => by
    simp only [St.run, Option.some.injEq] at hr
    subst hr; exact h
  | op :: ops, s, s', h, hn, hr => by
    simp only [St.run] at hr
    rcases e : s.step op with _ | s1
    · rw [e] at hr; cases hr
    · rw [e, Option.bind_some] at hr
      exact inv_run ops (inv_step h hn.1 e) (hn.2 s1 e) hr

/-- **C71**, no block is used twice.  After every history of operations, checkpoints and crashes, except crashes
between a recovery and the next writing of the bitmap: a block that the tree uses cannot be allocated; nor can,
as long as the next checkpoint is not completed, one that the tree on disk uses; and this is so after a crash at
this point too, however recovery decides. -/
theorem C71_no_double_use_partial {ops : List Op} {s : St} (hn : NoExposedCrash St.init ops)
    (hr : St.init.run ops = some s) (p : Bool) (b : Blk) :
    (s.live b = true → s.step (.alloc p b) = none) ∧
    (s.stable b = true → s.stage ≠ .frees → s.step (.alloc p b) = none) ∧
    (s.exposed = false → ∀ keep drop s', s.step (.crash keep drop) = some s' →
      (s'.live b = true ∨ s'.stable b = true) → s'.step (.alloc p b) = none) := by
  have h := inv_run ops inv_init hn hr
  have no : ∀ {t : St}, t.bm b = true → t.step (.alloc p b) = none := by
    intro t ht
    simp only [St.step]
    rw [if_neg]
    rintro ⟨-, e⟩
    rw [ht] at e; cases e
  refine ⟨fun hl => no (h.live b hl), fun hl hst => no (h.keepS hst b hl), ?_⟩
  intro hx keep drop s' hs' hl
  have h' := inv_step h (fun _ => hx) hs'
  have hst : s'.stage ≠ .frees := by
    simp only [St.step] at hs'
    split at hs' <;> simp only [Option.some.injEq] at hs' <;> subst hs' <;> simp
  exact no (hl.elim (h'.live b) (h'.keepS hst b))

/-! ## Nothing is lost without a crash -/

structure Tight (s : St) : Prop where
  bm : ∀ b, s.bm b = true → s.live b = true ∨ s.cur.freed b = true ∨ (s.stage ≠ .frees ∧ s.prev.freed b = true)
  skip : s.stage = .skip → ∀ b, s.prev.freed b = false
  idle : s.stage = .idle → ∀ b, s.prev.freed b = false

theorem tight_step {s s' : St} (hi : Inv s) (h : Tight s) {op : Op} (hc : op.isCrash = false)
    (hs : s.step op = some s') : Tight s' := by
  cases op with
  | crash keep drop => cases hc
  | alloc p b =>
    simp only [St.step] at hs
    split at hs
    rotate_left
    · cases hs
    rename_i hg
    have key : ∀ x, upd s.bm b true x = true → upd s.live b true x = true ∨ s.cur.freed x = true ∨
        (s.stage ≠ .frees ∧ s.prev.freed x = true) := by
      intro x hx
      by_cases e : x = b
      · subst e; exact Or.inl (upd_same _ _ _)
      · rw [upd_ne _ _ e] at hx ⊢; exact h.bm x hx
    cases p <;> simp only [St.ctx, St.setCtx, Bool.false_eq_true, if_false, if_true, Option.some.injEq] at hs <;> subst hs
    · exact ⟨key, h.skip, h.idle⟩
    · exact ⟨key, h.skip, h.idle⟩
  | free p b =>
    simp only [St.step] at hs
    split at hs
    rotate_left
    · cases hs
    rename_i hg
    cases p with
    | false =>
      simp only [St.ctx, St.setCtx, Bool.false_eq_true, if_false, Option.some.injEq] at hs
      subst hs
      refine ⟨?_, h.skip, h.idle⟩
      intro x hx
      show upd s.live b false x = true ∨ upd s.cur.freed b true x = true ∨ _
      by_cases e : x = b
      · subst e; exact Or.inr (Or.inl (upd_same _ _ _))
      · rw [upd_ne _ _ e, upd_ne _ _ e]; exact h.bm x hx
    | true =>
      obtain ⟨hd, -⟩ := hg.1 rfl
      simp only [St.ctx, St.setCtx, if_true, Option.some.injEq] at hs
      subst hs
      refine ⟨?_, (fun e => by rw [show s.stage = _ from e] at hd; cases hd),
        (fun e => by rw [show s.stage = _ from e] at hd; cases hd)⟩
      intro x hx
      show upd s.live b false x = true ∨ s.cur.freed x = true ∨ (s.stage ≠ .frees ∧ upd s.prev.freed b true x = true)
      by_cases e : x = b
      · subst e; exact Or.inr (Or.inr ⟨by rw [hd]; simp, upd_same _ _ _⟩)
      · rw [upd_ne _ _ e, upd_ne _ _ e]; exact h.bm x hx
  | change p =>
    simp only [St.step] at hs
    split at hs
    rotate_left
    · cases hs
    cases p <;> simp only [St.ctx, St.setCtx, Bool.false_eq_true, if_false, if_true, Option.some.injEq] at hs <;> subst hs
    · exact ⟨h.bm, h.skip, h.idle⟩
    · exact ⟨h.bm, h.skip, h.idle⟩
  | switchover =>
    simp only [St.step] at hs
    split at hs
    rotate_left
    · cases hs
    rename_i e
    simp only [Option.some.injEq] at hs
    subst hs
    refine ⟨?_, fun e => by (cases e), fun e => by (cases e)⟩
    intro x hx
    rcases h.bm x hx with h1 | h1 | h1
    · exact Or.inl h1
    · exact Or.inr (Or.inr ⟨by simp, h1⟩)
    · have := h.idle e x; rw [h1.2] at this; cases this
  | startFlush =>
    simp only [St.step] at hs
    split at hs
    rotate_left
    · cases hs
    rename_i e
    split at hs
    · simp only [Option.some.injEq] at hs
      subst hs
      refine ⟨?_, fun e => by (cases e), fun e => by (cases e)⟩
      intro x hx
      exact (h.bm x hx).imp id (fun y => y.imp id (fun z => ⟨by simp, z.2⟩))
    · rename_i hd
      simp only [Option.some.injEq] at hs
      subst hs
      refine ⟨?_, fun _ b => (hi.dirtyP e (by simpa using hd) b).2, fun e => by (cases e)⟩
      intro x hx
      exact (h.bm x hx).imp id (fun y => y.imp id (fun z => ⟨by simp, z.2⟩))
  | flushBitmap =>
    simp only [St.step] at hs
    split at hs
    rotate_left
    · cases hs
    simp only [Option.some.injEq] at hs
    subst hs
    refine ⟨?_, fun e => by (cases e), fun e => by (cases e)⟩
    intro x hx
    exact (h.bm x hx).imp id (fun y => y.imp id (fun z => ⟨by simp, z.2⟩))
  | applyFrees =>
    simp only [St.step] at hs
    split at hs
    rotate_left
    · cases hs
    simp only [Option.some.injEq] at hs
    subst hs
    refine ⟨?_, fun e => by (cases e), fun e => by (cases e)⟩
    intro x hx
    have hx' : s.bm x = true ∧ s.prev.freed x = false := by simpa using hx
    rcases h.bm x hx'.1 with h1 | h1 | h1
    · exact Or.inl h1
    · exact Or.inr (Or.inl h1)
    · rw [hx'.2] at h1; cases h1.2
  | complete =>
    simp only [St.step] at hs
    split at hs
    rotate_left
    · cases hs
    rename_i e
    simp only [Option.some.injEq] at hs
    subst hs
    refine ⟨?_, fun e => by (cases e), fun _ b => rfl⟩
    intro x hx
    rcases h.bm x hx with h1 | h1 | h1
    · exact Or.inl h1
    · exact Or.inr (Or.inl h1)
    · rcases e with e | e
      · exact absurd e h1.1
      · have := h.skip e x; rw [h1.2] at this; cases this

theorem noExposed_of_noCrash : ∀ (ops : List Op) (s : St), NoCrash ops → NoExposedCrash s ops
  | [], _, _ => trivial
  | op :: ops, s, h =>
    ⟨(fun e => by rw [h op (by simp)] at e; cases e),
      fun s' _ => noExposed_of_noCrash ops s' (fun o ho => h o (by simp [ho]))⟩

theorem tight_run : ∀ (ops : List Op) {s s' : St}, Inv s → Tight s → NoCrash ops → s.run ops = some s' → Tight s'
  | [], s, s', _, h, _, hr => by
    simp only [St.run, Option.some.injEq] at hr
    subst hr; exact h
  | op :: ops, s, s', hi, h, hn, hr => by
    simp only [St.run] at hr
    have hc := hn op (by simp)
    rcases e : s.step op with _ | s1
    · rw [e] at hr; cases hr
    · rw [e, Option.bind_some] at hr
      exact tight_run ops (inv_step hi (fun x => by rw [hc] at x; cases x) e) (tight_step hi h hc e)
        (fun o ho => hn o (by simp [ho])) hr

/-- **C71**, no block is lost.  Without a crash, between checkpoints every block can be allocated unless the tree
uses it or it was freed since the last checkpoint. -/
theorem C71_no_leak_partial {ops : List Op} {s : St} (hn : NoCrash ops) (hr : St.init.run ops = some s)
    (hi : s.stage = .idle) (b : Blk) (hl : s.live b = false) (hf : s.cur.freed b = false) :
    ∃ s', s.step (.alloc false b) = some s' := by
  have h0 : Tight St.init := by constructor <;> simp [St.init, Ctx.empty]
  have h := tight_run ops inv_init h0 hn hr
  have hb : s.bm b = false := by
    rcases e : s.bm b with _ | _
    · rfl
    · rcases h.bm b e with h1 | h1 | h1
      · rw [hl] at h1; cases h1
      · rw [hf] at h1; cases h1
      · have := h.idle hi b; rw [h1.2] at this; cases this
  simp only [St.step]
  rw [if_pos ⟨by simp, hb⟩]
  exact ⟨_, rfl⟩

/-! ## Violations -/

/-- A checkpoint with everything in it. -/
def cp : List Op := [.switchover, .startFlush, .flushBitmap, .applyFrees, .complete]

/-- **C71 is violated** by two crashes.  Nodes 1 and 2 are created and all nodes are written, but not the bitmap;
crash.  Recovery keeps the nodes; the checkpoint forced after it has nothing dirty, is completed, and does not
write the bitmap.  Crash.  The journal is not read any more, the tree on disk uses block 1, and block 1 is
given to a new node. -/
theorem C71_second_crash_violated :
    ∃ s s', St.init.run [.alloc false 1, .alloc false 2, .switchover, .startFlush,
        .crash (fun _ => true) (fun _ => true), .complete, .crash (fun _ => true) (fun _ => true), .complete] = some s ∧
      s.stage = .idle ∧ s.live 1 = true ∧ s.stable 1 = true ∧ s.step (.alloc false 1) = some s' :=
  ⟨_, _, rfl, rfl, rfl, rfl, rfl⟩

/-- **C71 is violated** by a crash after a checkpoint: the blocks freed in it stay allocated, because its bitmap
is written before its frees are applied; no tree uses block 1 and no list has it, and it cannot be allocated,
also after further checkpoints. -/
theorem C71_leak_violated :
    ∃ s, St.init.run ([.alloc false 1] ++ cp ++ [.free false 1] ++ cp ++ [.crash (fun _ => true) (fun _ => true), .complete,
        .alloc false 2] ++ cp) = some s ∧
      s.stage = .idle ∧ s.live 1 = false ∧ s.stable 1 = false ∧ s.cur.freed 1 = false ∧ s.prev.freed 1 = false ∧
      s.step (.alloc false 1) = none :=
  ⟨_, rfl, rfl, rfl, rfl, rfl, rfl, rfl⟩

/-- **C71 is violated** by a crash after a checkpoint's bitmap is written: it has the blocks that the operations of
the next checkpoint allocated meanwhile, and nothing frees them. -/
theorem C71_next_leak_violated :
    ∃ s, St.init.run ([.alloc false 1, .switchover, .startFlush, .alloc false 2, .flushBitmap, .applyFrees, .complete,
        .crash (fun _ => true) (fun _ => true), .complete, .alloc false 3] ++ cp) = some s ∧
      s.stage = .idle ∧ s.live 2 = false ∧ s.stable 2 = false ∧ s.cur.freed 2 = false ∧ s.prev.freed 2 = false ∧
      s.step (.alloc false 2) = none :=
  ⟨_, rfl, rfl, rfl, rfl, rfl, rfl, rfl⟩

/-- **C71 is violated** by recovery itself: the blocks it frees are on the list of the forced checkpoint, which
has nothing dirty and so does not apply its list. -/
theorem C71_recovery_leak_violated :
    ∃ s, St.init.run ([.alloc false 1] ++ cp ++ [.free false 1, .switchover, .startFlush,
        .crash (fun _ => true) (fun _ => true), .complete, .alloc false 2] ++ cp) = some s ∧
      s.stage = .idle ∧ s.live 1 = false ∧ s.stable 1 = false ∧ s.cur.freed 1 = false ∧ s.prev.freed 1 = false ∧
      s.step (.alloc false 1) = none :=
  ⟨_, rfl, rfl, rfl, rfl, rfl, rfl, rfl⟩

/-! ## Non-vacuity -/

/-- A decidable version of `NoExposedCrash`. -/
def nec (s : St) : List Op → Bool
  | [] => true
  | op :: ops => (!op.isCrash || !s.exposed) && (match s.step op with | some s' => nec s' ops | none => true)

theorem nec_sound : ∀ (ops : List Op) (s : St), nec s ops = true → NoExposedCrash s ops
  | [], _, _ => trivial
  | op :: ops, s, h => by
    simp only [nec, Bool.and_eq_true] at h
    refine ⟨fun e => ?_, fun s' hs' => nec_sound ops s' ?_⟩
    · have := h.1; rw [e] at this; simpa using this
    · have := h.2; rw [hs'] at this; exact this

/-- A history with two crashes, one inside a checkpoint, recovery that keeps one of two created nodes, and
checkpoints overlapping with operations. -/
def hist1 : List Op :=
  [.alloc false 1, .alloc false 2] ++ cp ++ [.free false 1, .alloc false 3, .alloc false 4, .switchover, .free true 2,
    .startFlush, .alloc false 5, .crash (fun b => b == 3) (fun b => b == 1), .alloc false 6, .complete, .switchover,
    .startFlush, .flushBitmap, .alloc false 4, .applyFrees, .crash (fun _ => true) (fun _ => true)]

example : NoExposedCrash St.init hist1 ∧ ∃ s, St.init.run hist1 = some s ∧ s.live 3 = true ∧ s.live 6 = true ∧
    s.live 2 = true ∧ s.live 4 = false ∧ s.exposed = true :=
  ⟨nec_sound _ _ rfl, _, rfl, rfl, rfl, rfl, rfl, rfl⟩

example : ∃ s, NoCrash ([.alloc false 1, .alloc false 2] ++ cp ++ [.free false 1] ++ cp) ∧
    St.init.run ([.alloc false 1, .alloc false 2] ++ cp ++ [.free false 1] ++ cp) = some s ∧ s.stage = .idle ∧
    s.live 1 = false ∧ s.cur.freed 1 = false ∧ s.live 2 = true :=
  ⟨_, by simp [NoCrash, cp, Op.isCrash], rfl, rfl, rfl, rfl, rfl⟩

end HS.Index.Space
