import Verif.Drop.Model
/-!
# C114: destroying an index frees its nodes, and a crash finds it whole or not at all

The traversal frees every node once if no read fails; a destruction during which no checkpoint is flushed or completes is all or nothing
for a crash, and gives its blocks back when the checkpoint is completed, if it has dirty buffers.  The witnesses show what happens otherwise.
-/
namespace HS.Drop

/-! ## The traversal -/

mutual
/-- The blocks of a tree. -/
def Nd.all : Nd → List Nat
  | .leaf b => [b]
  | .inner b ks => b :: allKids ks
def allKids : List Nd → List Nat
  | [] => []
  | k :: ks => k.all ++ allKids ks
end

mutual
theorem visit_good (bad : Nat → Bool) : ∀ t : Nd, (∀ b ∈ t.all, bad b = false) → (visit bad t).2 = .freed ∧ ∀ x, (visit bad t).1.count x = t.all.count x
  | .leaf b, _ => by simp [visit, Nd.all]
  | .inner b ks, h => by
    have hk := visitKids_good bad ks (fun x hx => h x (by simp [Nd.all, hx]))
    simp only [visit, hk.1, if_true, Nd.all]
    refine ⟨trivial, fun x => ?_⟩
    rw [List.count_append, hk.2, List.count_cons, List.count_cons, List.count_nil, Nat.zero_add]
theorem visitKids_good (bad : Nat → Bool) : ∀ ks : List Nd, (∀ b ∈ allKids ks, bad b = false) → (visitKids bad ks).2 = true ∧ ∀ x, (visitKids bad ks).1.count x = (allKids ks).count x
  | [], _ => by simp [visitKids, allKids]
  | k :: ks, h => by
    have h1 := visit_good bad k (fun x hx => h x (by simp [allKids, hx]))
    have h2 := visitKids_good bad ks (fun x hx => h x (by simp [allKids, hx]))
    have hb : bad k.blk = false := h _ (by cases k <;> simp [allKids, Nd.all, Nd.blk])
    simp only [visitKids, hb, allKids]
    refine ⟨h2.1, fun x => ?_⟩
    simp only [Bool.false_eq_true, if_false, List.count_append, h1.2, h2.2]
end

mutual
theorem visit_le (bad : Nat → Bool) : ∀ (t : Nd) (x : Nat), (visit bad t).1.count x ≤ t.all.count x
  | .leaf b, x => by simp [visit, Nd.all]
  | .inner b ks, x => by
    have hk := visitKids_le bad ks x
    simp only [visit, Nd.all]
    split
    · rw [List.count_append, List.count_cons, List.count_cons, List.count_nil]; omega
    · rw [List.count_cons]; exact Nat.le_trans hk (Nat.le_add_right _ _)
theorem visitKids_le (bad : Nat → Bool) : ∀ (ks : List Nd) (x : Nat), (visitKids bad ks).1.count x ≤ (allKids ks).count x
  | [], x => by simp [visitKids, allKids]
  | k :: ks, x => by
    have h1 := visit_le bad k x
    have h2 := visitKids_le bad ks x
    simp only [visitKids, allKids]
    split
    · simp
    · simp only [List.count_append]; omega
end

/-- **C114**, the traversal (partial: no read fails, see `C114_read_fails_violated`): destroying an index whose nodes have different blocks succeeds and frees every node
exactly once and nothing else. -/
theorem C114_frees_all_partial (bad : Nat → Bool) (root : Nd) (hd : root.all.Nodup) (h : ∀ b ∈ root.all, bad b = false) :
    ∃ l, destroyCall bad root = some l ∧ (doDestroy bad root).map (·.2) = some .freed ∧ ∀ x, l.count x = if x ∈ root.all then 1 else 0 := by
  have hb : bad root.blk = false := h _ (by cases root <;> simp [Nd.all, Nd.blk])
  have hv := visit_good bad root h
  refine ⟨(visit bad root).1, by simp [destroyCall, doDestroy, hb], by simp [doDestroy, hb, hv.1], fun x => ?_⟩
  rw [hv.2 x, hd.count]

/-- **C114**, whichever reads fail: nothing but nodes of the index is freed, and none twice. -/
theorem C114_frees_only (bad : Nat → Bool) (root : Nd) (hd : root.all.Nodup) {l} (h : destroyCall bad root = some l) :
    ∀ x, l.count x ≤ 1 ∧ (x ∈ l → x ∈ root.all) := by
  intro x
  simp only [destroyCall, doDestroy] at h
  split at h
  · simp at h
  · simp only [Option.map_some, Option.some.injEq] at h; subst h
    have := visit_le bad root x
    refine ⟨Nat.le_trans this (List.nodup_iff_count.1 hd x), fun hx => ?_⟩
    exact List.count_pos_iff.1 (Nat.lt_of_lt_of_le (List.count_pos_iff.2 hx) this)

/-- A tree of three levels: root 1, children 2 and 3, leaves 4, 5 under 2 and 6 under 3. -/
def tree : Nd := .inner 1 [.inner 2 [.leaf 4, .leaf 5], .inner 3 [.leaf 6]]

example : tree.all.Nodup ∧ (∀ b ∈ tree.all, (fun _ => false : Nat → Bool) b = false) := by decide
example : destroyCall (fun _ => false) tree = some [4, 5, 2, 6, 3, 1] := rfl

/-- **C114**, violated: leaf 4 cannot be read.  Its sibling and its parent are not freed either, the destruction of the tree reports that all was
freed, and the call returns success and removes the superblock: blocks 2, 4 and 5 belong to nothing. -/
theorem C114_read_fails_violated : doDestroy (fun b => b == 4) tree = some ([6, 3, 1], .freed) := rfl

/-- **C114**, violated: if the root cannot be read a null pointer is dereferenced. -/
theorem C114_root_read_fails_violated : destroyCall (fun b => b == 1) tree = none := rfl

/-! ## Crashes -/

structure Inv (s : St) : Prop where
  vp : ∀ b, s.pver b ≤ s.ver b
  rp : ∀ b, s.rver b ≤ s.pver b
  dirt : ∀ b ∈ s.nodes, s.flushing = true → b ∈ s.curDirty ∨ s.ver b = s.pver b
  clean : s.flushing = false → s.sb = true → ∀ b ∈ s.nodes, b ∈ s.curDirty ∨ s.ver b ≤ s.dver b
  pend : s.flushing = true → s.stage = .live → ∀ b ∈ s.nodes, b ∈ s.prevDirty ∨ s.pver b ≤ s.dver b
  live : s.stage = .live → s.curFreed = [] ∧ s.prevFreed = [] ∧ s.curFree = [] ∧ s.prevFree = [] ∧ (∀ b ∈ s.nodes, s.mem b = true) ∧ s.sb = true
  calm : ∀ r, s.stage = .freeing r → s.flushing = false
  there : s.sb = true → s.stage = .live ∨ (∃ r, s.stage = .freeing r) ∨ s.stage = .left
  good : s.WholeOrGone

theorem inv_init (n o : List Nat) : Inv (St.init n o) := by
  constructor <;> simp [St.init, St.WholeOrGone]
  · exact fun b hb => Or.inl hb
  · exact fun b hb => Or.inl hb

theorem nodes_step {s o s'} (hs : step s o = some s') : s'.nodes = s.nodes := by
  cases o <;> simp only [step] at hs <;> (repeat' split at hs) <;>
    first | (simp at hs; done) | (simp only [Option.some.injEq] at hs; subst hs; first | rfl | (simp only [St.fin]; split <;> rfl))

theorem inv_step {s o s'} (h : Inv s) (hc : Calm s o) (hs : step s o = some s') : Inv s' := by
  cases o with
  | change b =>
    simp only [step] at hs
    split at hs
    · rename_i hl
      simp only [Option.some.injEq] at hs; subst hs
      have up : ∀ x, s.ver x ≤ upd s.ver b (s.ver b + 1) x := by intro x; simp only [upd]; split <;> simp_all
      have key : ∀ x, x ∈ s.curDirty → x ∈ (if b ∈ s.curDirty then s.curDirty else b :: s.curDirty) := by intro x hx; split <;> simp [hx]
      have keyb : b ∈ (if b ∈ s.curDirty then s.curDirty else b :: s.curDirty) := by split <;> simp_all
      refine ⟨fun x => Nat.le_trans (h.vp x) (up x), h.rp, ?_, ?_, h.pend, h.live, h.calm, h.there, h.good⟩
      · intro x hx hf
        by_cases e : x = b
        · subst e; exact Or.inl keyb
        · rcases h.dirt x hx hf with q | q
          · exact Or.inl (key x q)
          · exact Or.inr (by show upd s.ver b (s.ver b + 1) x = s.pver x; simp only [upd]; rw [if_neg e]; exact q)
      · intro hf hsb x hx
        by_cases e : x = b
        · subst e; exact Or.inl keyb
        · rcases h.clean hf hsb x hx with q | q
          · exact Or.inl (key x q)
          · exact Or.inr (by show upd s.ver b (s.ver b + 1) x ≤ s.dver x; simp only [upd]; rw [if_neg e]; exact q)
    · simp at hs
  | rootChange =>
    simp only [step] at hs
    split at hs
    · simp only [Option.some.injEq] at hs; subst hs; exact ⟨h.vp, h.rp, h.dirt, h.clean, h.pend, h.live, h.calm, h.there, h.good⟩
    · simp at hs
  | otherChange =>
    simp only [step, Option.some.injEq] at hs; subst hs; exact ⟨h.vp, h.rp, h.dirt, h.clean, h.pend, h.live, h.calm, h.there, h.good⟩
  | unreg =>
    simp only [step] at hs
    split at hs <;> first
      | (simp at hs; done)
      | (simp only [Option.some.injEq] at hs; subst hs; exact ⟨h.vp, h.rp, h.dirt, h.clean, h.pend, h.live, h.calm, h.there, h.good⟩)
  | begin =>
    simp only [step] at hs
    split at hs
    · rename_i hl
      simp only [Option.some.injEq] at hs; subst hs
      exact ⟨h.vp, h.rp, h.dirt, h.clean, fun _ q => by simp at q, fun q => by simp at q, fun _ _ => hc.1, fun _ => Or.inr (Or.inl ⟨_, rfl⟩), h.good⟩
    · simp at hs
  | freeOne =>
    simp only [step] at hs
    split at hs
    · rename_i b rest hl
      simp only [Option.some.injEq] at hs; subst hs
      exact ⟨h.vp, h.rp, h.dirt, h.clean, fun _ q => by simp at q, fun q => by simp at q, fun _ _ => h.calm _ hl, fun _ => Or.inr (Or.inl ⟨_, rfl⟩), h.good⟩
    · simp at hs
  | leave =>
    simp only [step] at hs
    split at hs
    · rename_i hl
      simp only [Option.some.injEq] at hs; subst hs
      exact ⟨h.vp, h.rp, h.dirt, h.clean, fun _ q => by simp at q, fun q => by simp at q, fun _ q => by simp at q, fun _ => Or.inr (Or.inr rfl), h.good⟩
    · simp at hs
  | sbDestroy =>
    simp only [step] at hs
    split at hs
    · rename_i hl
      simp only [Option.some.injEq] at hs; subst hs
      exact ⟨h.vp, h.rp, h.dirt, fun _ q => by simp at q, fun _ q => by simp at q, fun q => by simp at q, fun _ q => by simp at q, fun q => by simp at q, fun q => by simp at q⟩
    · simp at hs
  | invalidate =>
    simp only [step] at hs
    split at hs
    · rename_i hl
      simp only [Option.some.injEq] at hs; subst hs
      have hn : s.sb = false := by cases e : s.sb with
        | false => rfl
        | true => have := h.there e; simp [hl] at this
      exact ⟨h.vp, h.rp, h.dirt, fun _ q => by simp [hn] at q, fun _ q => by simp at q, fun q => by simp at q, fun _ q => by simp at q, fun q => by simp [hn] at q, fun q => by simp [hn] at q⟩
    · simp at hs
  | drop =>
    simp only [step] at hs
    split at hs
    · rename_i hl
      simp only [Option.some.injEq] at hs; subst hs
      have hn : s.sb = false := by cases e : s.sb with
        | false => rfl
        | true => have := h.there e; simp [hl] at this
      exact ⟨h.vp, h.rp, h.dirt, fun _ q => by simp [hn] at q, fun _ q => by simp at q, fun q => by simp at q, fun _ q => by simp at q, fun q => by simp [hn] at q, fun q => by simp [hn] at q⟩
    · simp at hs
  | startFlush =>
    have gen : s.flushing = false → s' = s.start → (∀ r, s.stage ≠ .freeing r) → Inv s' := by
      intro hf e hnf
      subst e
      refine ⟨fun _ => Nat.le_refl _, fun b => Nat.le_trans (h.rp b) (h.vp b), fun _ _ _ => Or.inr rfl, fun q => by simp [St.start] at q, ?_, ?_, ?_, h.there, h.good⟩
      · intro _ hl b hb
        have hl' : s.stage = .live := hl
        exact h.clean hf (h.live hl').2.2.2.2.2 b hb
      · intro hl
        obtain ⟨a, _, c, _, e⟩ := h.live hl
        exact ⟨rfl, a, rfl, c, e⟩
      · intro r q; exact absurd q (hnf r)
    simp only [step] at hs
    split at hs
    · simp at hs
    · rename_i hnf
      split at hs
      · simp at hs
      · rename_i hf
        simp only [Option.some.injEq] at hs
        exact gen (by simpa using hf) hs.symm hnf
  | write b =>
    simp only [step] at hs
    split at hs
    · rename_i hw
      simp only [Option.some.injEq] at hs; subst hs
      refine ⟨h.vp, h.rp, h.dirt, fun q => by simp [hw.1] at q, ?_, h.live, h.calm, h.there, ?_⟩
      · intro hf hl x hx
        have hpf := (h.live hl).2.1
        by_cases e : x = b
        · subst e; exact Or.inr (by simp [hpf, upd])
        · rcases h.pend hf hl x hx with q | q
          · exact Or.inl ((List.mem_erase_of_ne e).2 q)
          · exact Or.inr (by simp [hpf, upd, e, q])
      · intro hsb x hx
        have := h.good hsb x hx
        refine ⟨this.1, ?_⟩
        show s.rver x ≤ (if b ∈ s.prevFreed then s.dver else upd s.dver b (s.pver b)) x
        split
        · exact this.2
        · simp only [upd]; split
          · rename_i e; subst e; exact h.rp x
          · exact this.2
    · simp at hs
  | writeMeta =>
    simp only [step] at hs
    split at hs
    · simp at hs
    · split at hs
      · simp only [Option.some.injEq] at hs; subst hs; exact ⟨h.vp, h.rp, h.dirt, h.clean, h.pend, h.live, h.calm, h.there, h.good⟩
      · simp at hs
  | finish =>
    simp only [step] at hs
    split at hs
    · rename_i hw
      simp only [Option.some.injEq] at hs
      have hnl : s.sb = true → s.stage = .live := by
        intro hsb
        rcases h.there hsb with q | ⟨r, q⟩ | q
        · exact q
        · have := h.calm r q; simp [hw.1] at this
        · exact absurd q hc
      have hcl : s.sb = true → ∀ b ∈ s.nodes, s.pver b ≤ s.dver b := by
        intro hsb b hb
        rcases h.pend hw.1 (hnl hsb) b hb with q | q
        · simp [hw.2.1] at q
        · exact q
      have hclean : s.sb = true → ∀ b ∈ s.nodes, b ∈ s.curDirty ∨ s.ver b ≤ s.dver b := by
        intro hsb b hb
        rcases h.dirt b hb hw.1 with q | q
        · exact Or.inl q
        · exact Or.inr (by rw [q]; exact hcl hsb b hb)
      simp only [St.fin] at hs
      split at hs
      · subst hs
        refine ⟨h.vp, fun _ => Nat.le_refl _, fun _ _ q => by simp at q, fun _ => hclean, fun q => by simp at q, ?_, fun _ _ => rfl, h.there, ?_⟩
        · intro hl
          obtain ⟨a, b, c, d, e⟩ := h.live hl
          refine ⟨a, rfl, c, rfl, fun x hx => ?_, e.2⟩
          simp [d, e.1 x hx]
        · intro hsb x hx
          exact ⟨(h.live (hnl hsb)).2.2.2.2.1 x hx, hcl hsb x hx⟩
      · subst hs
        refine ⟨h.vp, fun _ => Nat.le_refl _, fun _ _ q => by simp at q, fun _ => hclean, fun q => by simp at q, ?_, fun _ _ => rfl, h.there, ?_⟩
        · intro hl
          obtain ⟨a, b, c, d, e⟩ := h.live hl
          exact ⟨a, rfl, c, rfl, e⟩
        · intro hsb x hx
          exact ⟨(h.good hsb x hx).1, hcl hsb x hx⟩
    · simp at hs

/-- **C114**, crashes (partial: `Calm`: no checkpoint is being flushed when the destruction begins, and none completes between the freeing of the nodes and the
removal of the superblock).  Whenever the process crashes, the index is not found after it, or all its nodes are allocated and at least as new as the last completed
checkpoint had them. -/
theorem C114_whole_or_gone_partial {n o s} (h : Reach n o Calm s) : s.WholeOrGone := by
  have : Inv s := by
    induction h with
    | init => exact inv_init n o
    | step _ hc hs ih => exact inv_step ih hc hs
  exact this.good

/-! ## Space -/

/-- The blocks not freed yet in stage `t`. -/
def Stage.rest (n : List Nat) : Stage → List Nat
  | .live => n
  | .freeing r => r
  | _ => []

structure SInv (n o : List Nat) (s : St) : Prop where
  nod : s.nodes = n
  cov : ∀ b ∈ n, b ∈ s.stage.rest n ∨ b ∈ s.curFree ∨ (s.flushing = true ∧ s.anyDirty = true ∧ b ∈ s.prevFree) ∨ s.mem b = false
  nd : (s.stage.rest n ++ (s.curFree ++ s.prevFree)).Nodup
  rsub : ∀ b ∈ s.stage.rest n, b ∈ n
  sub : ∀ b, b ∈ s.curFree ∨ b ∈ s.prevFree → b ∈ n
  pf : s.flushing = false → s.prevFree = []
  early : ∀ b ∈ n, b ∈ s.stage.rest n ∨ b ∈ s.curFree ∨ b ∈ s.prevFree → s.mem b = true
  oth : ∀ b ∈ o, b ∉ n → s.mem b = true

theorem sinv_init (n o : List Nat) (hd : n.Nodup) : SInv n o (St.init n o) := by
  constructor <;> simp +contextual [St.init, Stage.rest, hd]

theorem sinv_same {n o s s'} (h : SInv n o s) (e1 : s'.nodes = s.nodes) (e2 : s'.stage.rest n = s.stage.rest n) (e3 : s'.curFree = s.curFree)
    (e4 : s'.prevFree = s.prevFree) (e5 : s'.flushing = s.flushing) (e6 : s'.anyDirty = s.anyDirty) (e7 : s'.mem = s.mem) : SInv n o s' := by
  refine ⟨?_, ?_, ?_, ?_, ?_, ?_, ?_, ?_⟩
  · rw [e1]; exact h.nod
  · rw [e2, e3, e4, e5, e6, e7]; exact h.cov
  · rw [e2, e3, e4]; exact h.nd
  · rw [e2]; exact h.rsub
  · rw [e3, e4]; exact h.sub
  · rw [e4, e5]; exact h.pf
  · rw [e2, e3, e4, e7]; exact h.early
  · rw [e7]; exact h.oth

theorem sinv_step {n o s op s'} (h : SInv n o s) (hb : Busy s op) (hs : step s op = some s') : SInv n o s' := by
  cases op with
  | freeOne =>
    simp only [step] at hs
    split at hs
    · rename_i b rest hl
      simp only [Option.some.injEq] at hs; subst hs
      have hc := h.cov; have hn := h.nd; have he := h.early
      simp only [hl, Stage.rest] at hc hn he
      have hbn : b ∈ n := h.rsub b (by simp [hl, Stage.rest])
      refine ⟨h.nod, ?_, ?_, fun x hx => h.rsub x (by simp only [hl, Stage.rest] at hx ⊢; exact List.mem_cons_of_mem _ hx), ?_, h.pf, ?_, h.oth⟩
      · intro x hx
        simp only [St.freeBuf, Stage.rest]
        have := hc x hx
        simp only [List.mem_cons] at this ⊢
        grind
      · simp only [St.freeBuf, Stage.rest]
        rw [List.cons_append, List.nodup_cons] at hn
        rw [List.cons_append]
        exact (List.perm_middle.nodup_iff).2 (List.nodup_cons.2 hn)
      · intro x hx
        simp only [St.freeBuf, List.mem_cons] at hx
        have := h.sub x
        grind
      · intro x hx hm
        simp only [St.freeBuf, Stage.rest, List.mem_cons] at hm ⊢
        apply he x hx
        grind
    · simp at hs
  | startFlush =>
    have gen : s.flushing = false → s' = s.start → SInv n o s' := by
      intro hf e
      subst e
      have hp := h.pf hf
      have hn := h.nd
      have he := h.early
      have hsub := h.sub
      rw [hp] at hn he hsub
      simp only [Busy] at hb
      refine ⟨h.nod, ?_, ?_, h.rsub, ?_, fun q => by simp [St.start] at q, ?_, h.oth⟩
      · intro x hx
        have := h.cov x hx
        simp only [St.start, List.not_mem_nil, false_or, true_and]
        rcases this with q | q | q | q
        · exact Or.inl q
        · refine Or.inr (Or.inl ⟨?_, q⟩)
          rcases hb with e | e | e | e
          · simp [e] at q
          · simp [e]
          · simp [e]
          · simp [e]
        · simp [hf] at q
        · exact Or.inr (Or.inr q)
      · simpa [St.start] using hn
      · intro x hx; simp only [St.start] at hx; exact hsub x (by simpa using hx)
      · intro x hx hm
        simp only [St.start] at hm ⊢
        exact he x hx (by simpa using hm)
    simp only [step] at hs
    split at hs
    · simp at hs
    · split at hs
      · simp at hs
      · rename_i hf
        simp only [Option.some.injEq] at hs
        exact gen (by simpa using hf) hs.symm
  | finish =>
    simp only [step] at hs
    split at hs
    · rename_i hw
      simp only [Option.some.injEq] at hs
      have hn := h.nd
      simp only [St.fin] at hs
      have hn' : (s.stage.rest n ++ (s.curFree ++ [])).Nodup := by
        rw [List.append_nil]
        rw [← List.append_assoc] at hn
        exact (List.nodup_append.1 hn).1
      split at hs
      · rename_i ha
        subst hs
        refine ⟨h.nod, ?_, hn', h.rsub, fun x hx => h.sub x (by simp only [List.not_mem_nil, or_false] at hx; exact Or.inl hx), fun _ => rfl, ?_, ?_⟩
        · intro x hx
          have := h.cov x hx
          rcases this with q | q | q | q
          · exact Or.inl q
          · exact Or.inr (Or.inl q)
          · exact Or.inr (Or.inr (Or.inr (by simp [q.2.2])))
          · exact Or.inr (Or.inr (Or.inr (by simp [q])))
        · intro x hx hm
          simp only [List.not_mem_nil, or_false] at hm
          have h1 := h.early x hx (by grind)
          have h2 : x ∉ s.prevFree := by
            intro hp
            rw [← List.append_assoc, List.nodup_append] at hn
            exact hn.2.2 x (by simpa using hm) x hp rfl
          simp [h1, h2]
        · intro x hx hxn
          have : x ∉ s.prevFree := fun hp => hxn (h.sub x (Or.inr hp))
          simp [h.oth x hx hxn, this]
      · rename_i ha
        subst hs
        refine ⟨h.nod, ?_, hn', h.rsub, fun x hx => h.sub x (by simp only [List.not_mem_nil, or_false] at hx; exact Or.inl hx), fun _ => rfl, ?_, h.oth⟩
        · intro x hx
          have := h.cov x hx
          rcases this with q | q | q | q
          · exact Or.inl q
          · exact Or.inr (Or.inl q)
          · exact absurd q.2.1 ha
          · exact Or.inr (Or.inr (Or.inr q))
        · intro x hx hm
          simp only [List.not_mem_nil, or_false] at hm
          exact h.early x hx (by grind)
    · simp at hs
  | otherChange => simp only [step, Option.some.injEq] at hs; subst hs; exact sinv_same h rfl rfl rfl rfl rfl rfl rfl
  | unreg =>
    simp only [step] at hs
    split at hs <;> first
      | (simp at hs; done)
      | (simp only [Option.some.injEq] at hs; subst hs; exact sinv_same h rfl rfl rfl rfl rfl rfl rfl)
  | begin =>
    simp only [step] at hs
    split at hs
    · rename_i hl
      simp only [Option.some.injEq] at hs; subst hs
      exact sinv_same h rfl (by simp [hl, Stage.rest, h.nod]) rfl rfl rfl rfl rfl
    · simp at hs
  | writeMeta =>
    simp only [step] at hs
    split at hs
    · simp at hs
    · split at hs
      · simp only [Option.some.injEq] at hs; subst hs; exact sinv_same h rfl rfl rfl rfl rfl rfl rfl
      · simp at hs
  | _ =>
    simp only [step] at hs
    split at hs
    · rename_i hl
      simp only [Option.some.injEq] at hs; subst hs
      first
        | exact sinv_same h rfl rfl rfl rfl rfl rfl rfl
        | exact sinv_same h rfl (by simp [hl, Stage.rest]) rfl rfl rfl rfl rfl
    · simp at hs

/-- **C114**, space (partial: `Busy`: the checkpoint in which the nodes are freed has dirty buffers, see `C114_idle_violated`; the nodes have different
blocks).  Once the call has freed the nodes and that checkpoint is completed, all blocks of the index are free; blocks of others are never touched; and as long as the
index is not being destroyed none of its blocks is free. -/
theorem C114_space_partial {n o s} (hd : n.Nodup) (h : Reach n o Busy s) :
    ((s.stage = .left ∨ s.stage = .removed ∨ s.stage = .invalid ∨ s.stage = .dropped) → s.curFree = [] → s.flushing = false → ∀ b ∈ n, s.mem b = false) ∧
    (∀ b ∈ o, b ∉ n → s.mem b = true) ∧ (s.stage = .live → ∀ b ∈ n, s.mem b = true) := by
  have hi : SInv n o s := by
    induction h with
    | init => exact sinv_init n o hd
    | step _ hc hs ih => exact sinv_step ih hc hs
  refine ⟨?_, hi.oth, ?_⟩
  · intro hst hcf hf b hb
    have := hi.cov b hb
    rw [hcf, hf] at this
    rcases hst with e | e | e | e <;> simpa [e, Stage.rest] using this
  · intro hl b hb
    exact hi.early b hb (Or.inl (by simp [hl, Stage.rest, hb]))

/-! ## Use of the table after it is gone -/

structure MInv (s : St) : Prop where
  ub : s.ub = false
  pre : (s.stage = .live ∨ ∃ r, s.stage = .freeing r) ∨ s.metaCur = none ∨ s.metaPrev = none
  fr : ∀ r, s.stage = .freeing r → s.flushing = false
  idle : s.flushing = false → s.metaPrev = none
  off : s.stage ≠ .live → s.inMap = false
  post : (s.stage = .invalid ∨ s.stage = .dropped) → s.metaCur ≠ some true ∧ s.metaPrev ≠ some true

theorem minv_step {s op s'} (h : MInv s) (hc : Calm s op) (hs : step s op = some s') : MInv s' := by
  obtain ⟨h1, h2, h3, h4, h5, h6⟩ := h
  cases op <;> simp only [step] at hs <;> (repeat' split at hs) <;>
    first
    | (simp at hs; done)
    | (simp only [Option.some.injEq] at hs; subst hs; simp only [Calm] at hc
       first
       | (constructor <;> simp_all [St.dirtyIt, St.freeBuf, St.start] <;> grind)
       | (simp only [St.fin]; split <;> constructor <;> simp_all <;> grind))

/-- **C114**, the table (partial: `Calm`): no flush reads a superblock that was destroyed, or of a table that was deleted. -/
theorem C114_no_use_after_partial {n o s} (h : Reach n o Calm s) : s.ub = false := by
  have : MInv s := by
    induction h with
    | init => constructor <;> simp [St.init]
    | step _ hc hs ih => exact minv_step ih hc hs
  exact this.ub

/-! ## Witnesses -/

def runs (n o : List Nat) (ops : List Op) : Option St := runOpt step (St.init n o) ops

theorem reach_run {n o} (ok : St → Op → Prop) (h : ∀ s op, ok s op) : ∀ {ops : List Op} {s s'}, Reach n o ok s → runOpt step s ops = some s' → Reach n o ok s' := by
  intro ops
  induction ops with
  | nil => intro s s' hr e; simp [runOpt] at e; subst e; exact hr
  | cons a as ih =>
    intro s s' hr e
    simp only [runOpt] at e
    cases hs : step s a with
    | none => simp [hs] at e
    | some s1 => rw [hs] at e; exact ih (hr.step (h _ _) hs) e

/-- Of an execution from the start, what a test says about its end. -/
theorem reach_test {n o} (ops : List Op) (P : St → Prop) [DecidablePred P] (e : (runs n o ops).map (fun s => decide (P s)) = some true) :
    ∃ s, Reach n o (fun _ _ => True) s ∧ P s := by
  obtain ⟨s, e1, e2⟩ := Option.map_eq_some_iff.1 e
  exact ⟨s, reach_run _ (fun _ _ => trivial) .init e1, of_decide_eq_true e2⟩

/-- An execution with a change, a checkpoint, a destruction beside a change of another index, and a checkpoint: it meets `Calm` and `Busy`, and the blocks are free. -/
def calmOps : List Op := [.unreg, .change 4, .rootChange, .startFlush, .write 4, .writeMeta, .finish, .begin, .freeOne, .freeOne, .leave, .otherChange, .sbDestroy, .invalidate, .startFlush, .finish, .drop]

/-- A decidable form of the conditions along an execution. -/
def okRun (ok : St → Op → Bool) : St → List Op → Option St
  | s, [] => some s
  | s, a :: as => if ok s a then (step s a).bind fun s' => okRun ok s' as else none

theorem okRun_reach {n o} {okb : St → Op → Bool} {ok : St → Op → Prop} (h : ∀ s op, okb s op = true → ok s op) : ∀ {ops : List Op} {s s'}, Reach n o ok s → okRun okb s ops = some s' → Reach n o ok s' := by
  intro ops
  induction ops with
  | nil => intro s s' hr e; simp [okRun] at e; subst e; exact hr
  | cons a as ih =>
    intro s s' hr e
    simp only [okRun] at e
    split at e
    · rename_i hk
      cases hs : step s a with
      | none => simp [hs] at e
      | some s1 => rw [hs] at e; exact ih (hr.step (h _ _ hk) hs) e
    · simp at e

def calmB (s : St) : Op → Bool
  | .begin => !s.flushing && !s.inMap
  | .unreg => s.stage == .live
  | .finish => s.stage != .left
  | .startFlush => s.curFree == [] || s.curDirty != [] || s.metaCur.isSome || s.other
  | _ => true

theorem calmB_calm (s : St) (op : Op) (h : calmB s op = true) : Calm s op := by
  cases op <;> simp_all [calmB, Calm]
theorem calmB_busy (s : St) (op : Op) (h : calmB s op = true) : Busy s op := by
  cases op <;> simp_all [calmB, Busy]
  grind

example : ∃ s, Reach [4, 1] [7] Calm s ∧ Reach [4, 1] [7] Busy s ∧ s.stage = .dropped ∧ s.mem 4 = false ∧ s.mem 1 = false ∧ s.mem 7 = true := by
  have e : (okRun calmB (St.init [4, 1] [7]) calmOps).map (fun s => decide (s.stage = .dropped ∧ s.mem 4 = false ∧ s.mem 1 = false ∧ s.mem 7 = true)) = some true := by
    decide +kernel
  obtain ⟨s, e1, e2⟩ := Option.map_eq_some_iff.1 e
  exact ⟨s, okRun_reach calmB_calm .init e1, okRun_reach calmB_busy .init e1, of_decide_eq_true e2⟩

/-- `WholeOrGone`, decidable. -/
instance (s : St) : Decidable s.WholeOrGone := by unfold St.WholeOrGone; infer_instance

/-- **C114**, violated: a node changed in a checkpoint that is being flushed is freed by a destruction before it is written.  The flush skips it and completes; after a crash
the index is there, without the change the completed checkpoint had. -/
theorem C114_skipped_violated : ∃ s, Reach [4, 1] [] (fun _ _ => True) s ∧ ¬ s.WholeOrGone ∧ s.flushing = false :=
  reach_test [.change 4, .startFlush, .begin, .freeOne, .write 4, .finish] (fun s => ¬ s.WholeOrGone ∧ s.flushing = false) (by decide +kernel)

/-- **C114**, violated: two checkpoints complete between the freeing of the nodes and the removal of the superblock: after a crash the index is there and its blocks are
free, for others to be given. -/
theorem C114_between_violated : ∃ s, Reach [4, 1] [] (fun _ _ => True) s ∧ s.sb = true ∧ s.disk 4 = false ∧ s.disk 1 = false :=
  reach_test [.begin, .freeOne, .freeOne, .leave, .otherChange, .startFlush, .finish, .otherChange, .startFlush, .finish]
    (fun s => s.sb = true ∧ s.disk 4 = false ∧ s.disk 1 = false) (by decide +kernel)

/-- **C114**, violated: the superblock is removed at once, the blocks are freed on disk only by the second checkpoint after that: a crash before leaves them allocated with nothing that
refers to them. -/
theorem C114_leak_violated : ∃ s, Reach [4, 1] [] (fun _ _ => True) s ∧ s.sb = false ∧ s.flushing = false ∧ s.curFree = [] ∧ s.disk 4 = true ∧ s.disk 1 = true :=
  reach_test [.begin, .freeOne, .freeOne, .leave, .sbDestroy, .invalidate, .otherChange, .startFlush, .finish]
    (fun s => s.sb = false ∧ s.flushing = false ∧ s.curFree = [] ∧ s.disk 4 = true ∧ s.disk 1 = true) (by decide +kernel)

/-- **C114**, violated: nothing else is dirty in the checkpoint of the destruction (which dirties nothing itself): the checkpoint is completed without applying the frees, and the
blocks are never free, in memory or on disk. -/
theorem C114_idle_violated : ∃ s, Reach [4, 1] [] (fun _ _ => True) s ∧ s.stage = .dropped ∧ s.flushing = false ∧ s.curFree = [] ∧ s.prevFree = [] ∧ s.mem 4 = true ∧ s.mem 1 = true :=
  reach_test [.unreg, .begin, .freeOne, .freeOne, .leave, .sbDestroy, .invalidate, .startFlush, .finish, .drop]
    (fun s => s.stage = .dropped ∧ s.flushing = false ∧ s.curFree = [] ∧ s.prevFree = [] ∧ s.mem 4 = true ∧ s.mem 1 = true) (by decide +kernel)

/-- **C114**, violated: the root changes in a checkpoint and again in the next while the first is flushed; the destruction invalidates only the newer superblock buffer; when
the table is deleted the flush reads its superblock through the older one. -/
theorem C114_meta_violated : ∃ s, Reach [4, 1] [] (fun _ _ => True) s ∧ s.ub = true ∧ s.inMap = false :=
  reach_test [.unreg, .rootChange, .startFlush, .rootChange, .begin, .freeOne, .freeOne, .leave, .sbDestroy, .invalidate, .drop, .writeMeta]
    (fun s => s.ub = true ∧ s.inMap = false) (by decide +kernel)

/-- **C114**, violated: an index is destroyed that the service still has; a flush with a buffer of it completes between the removal of the superblock and the invalidation of its buffer: it writes the superblock through a
null pointer. -/
theorem C114_null_violated : ∃ s, Reach [4, 1] [] (fun _ _ => True) s ∧ s.ub = true ∧ s.stage = .removed :=
  reach_test [.change 4, .begin, .freeOne, .freeOne, .leave, .startFlush, .write 4, .sbDestroy, .finish]
    (fun s => s.ub = true ∧ s.stage = .removed) (by decide +kernel)

/-- **C114**, violated: an index that was destroyed cannot be taken off the service any more: the call reads the superblock that is gone. -/
theorem C114_order_violated : ∃ s, Reach [4, 1] [] (fun _ _ => True) s ∧ s.ub = true ∧ s.inMap = true :=
  reach_test [.begin, .freeOne, .freeOne, .leave, .sbDestroy, .invalidate, .unreg] (fun s => s.ub = true ∧ s.inMap = true) (by decide +kernel)

end HS.Drop
