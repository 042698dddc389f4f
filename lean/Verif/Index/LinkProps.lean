import Verif.Index.LinkLemmas
import Verif.Index.FlushProps
/-!
C68.  The structural changes of a tree in one checkpoint, in whatever number and order, leave links
with which the flush runs to its end and writes the nodes of every change in the right order: the new
nodes before the node whose entries they took, that node before its parent, a root before the
superblock that names it.

A history is a list of operations (`Op`): writes in place, splits, merges, creation of a root, splits
and collapses of a root.  `Ok` says that they are operations on a tree: a parent is above its child,
new nodes are new, siblings are to the right.
-/
namespace HS.Index.Link
open HS.Index.Flush (Fl Before)

/-! ## Links stay -/

theorem write_up (s : St) (b d : Nat) : ((s.write b).buf d).up = (s.buf d).up :=
  ((write_frame s b).1 d).2.1

theorem link_up {s s' : St} {upb down d u : Nat} {sib : Bool} (h : s.link upb down sib = some s')
    (hd : (s.buf d).up = some u) (hx : sib = false ∨ d ≠ down) : (s'.buf d).up = some u := by
  unfold St.link at h
  split at h
  · cases h
  · rename_i real _
    split at h
    · rename_i hn
      simp only [Option.some.injEq] at h
      subst h
      have : d ≠ down := by rintro rfl; rw [hn] at hd; cases hd
      unfold St.attach St.set
      by_cases e1 : d = real <;> simp_all
    · rename_i v hv
      split at h
      · simp only [Option.some.injEq] at h
        subst h; exact hd
      · rename_i hc
        simp only [Option.some.injEq] at h
        subst h
        have : d ≠ down := by
          rcases hx with hx | hx
          · exact absurd (Or.inl hx) hc
          · exact hx
        unfold St.attach St.release St.set
        by_cases e1 : d = real <;> by_cases e2 : d = v <;> simp_all

theorem linkNew_up {c d u : Nat} : ∀ (news : List Nat) {s s' : St}, s.linkNew c news = some s' →
    d ∉ news → (s.buf d).up = some u → (s'.buf d).up = some u := by
  intro news
  induction news with
  | nil => intro s s' h _ hd; simp only [St.linkNew, Option.some.injEq] at h; subst h; exact hd
  | cons n ns ih =>
    intro s s' h hn hd
    simp only [List.mem_cons, not_or] at hn
    rw [St.linkNew] at h
    rcases h1 : s.link c n true with _ | s1
    · rw [h1] at h; cases h
    · rw [h1] at h
      exact ih h hn.2 (link_up h1 hd (Or.inr hn.1))

theorem linkFreed_up {c d u : Nat} : ∀ (freed : List Nat) {s s' : St},
    s.linkFreed c freed = some s' → d ∉ freed → (s.buf d).up = some u → (s'.buf d).up = some u := by
  intro freed
  induction freed with
  | nil => intro s s' h _ hd; simp only [St.linkFreed, Option.some.injEq] at h; subst h; exact hd
  | cons n ns ih =>
    intro s s' h hn hd
    simp only [List.mem_cons, not_or] at hn
    rw [St.linkFreed] at h
    split at h
    · rcases h1 : s.link c n true with _ | s1
      · rw [h1] at h; cases h
      · rw [h1] at h
        exact ih h hn.2 (link_up h1 hd (Or.inr hn.1))
    · exact ih h hn.2 hd

theorem writes_up (d : Nat) : ∀ (bs : List Nat) (s : St), ((s.writes bs).buf d).up = (s.buf d).up := by
  intro bs
  induction bs with
  | nil => intro s; rfl
  | cons b bs ih => intro s; rw [St.writes, ih, write_up]

theorem transact_up {s s' : St} {p c d u : Nat} {news freed : List Nat}
    (h : s.transact p c news freed = some s') (hn : d ∉ news) (hf : d ∉ freed)
    (hd : (s.buf d).up = some u) : (s'.buf d).up = some u := by
  unfold St.transact at h
  have h0 : ((((s.writes news).write c).write p).buf d).up = some u := by
    rw [write_up, write_up, writes_up, hd]
  rcases h1 : (((s.writes news).write c).write p).link p c false with _ | s1
  · simp only [h1, Option.bind_none] at h; cases h
  · simp only [h1, Option.bind_some] at h
    rcases h2 : s1.linkNew c news with _ | s2
    · rw [h2] at h; cases h
    · rw [h2, Option.bind_some] at h
      exact linkFreed_up freed h hf (linkNew_up news h2 hn (link_up h1 h0 (Or.inl rfl)))

theorem alloc_up (s : St) (b d : Nat) : ((s.alloc b).buf d).up = (s.buf d).up := by
  by_cases e : d = b <;> simp [St.alloc, St.set, e]

theorem allocs_up (d : Nat) : ∀ (bs : List Nat) (s : St), ((s.allocs bs).buf d).up = (s.buf d).up := by
  intro bs
  induction bs with
  | nil => intro s; rfl
  | cons b bs ih => intro s; rw [St.allocs, ih, alloc_up]

theorem rootChanged_up {s s' : St} {m r d u : Nat} (h : s.rootChanged m r = some s')
    (hd : (s.buf d).up = some u) : (s'.buf d).up = some u :=
  link_up h (by rw [write_up]; exact hd) (Or.inl rfl)

/-- The operation frees the node (merges it away). -/
def Op.frees (d : Nat) : Op → Prop
  | .merge _ _ _ freed => d ∈ freed
  | _ => False

theorem step_up {lvl pos : Nat → Nat} {s s' : St} {op : Op} {d u : Nat} (hok : op.Ok lvl pos s)
    (h : s.step op = some s') (hf : ¬ op.frees d) (hd : (s.buf d).up = some u) :
    (s'.buf d).up = some u := by
  have hidle : ∀ n, s.buf n = B.idle → d ≠ n := by
    intro n hn e; subst e; rw [hn] at hd; cases hd
  cases op with
  | write b =>
    simp only [St.step, Option.some.injEq] at h
    subst h; rw [write_up]; exact hd
  | split p c n =>
    obtain ⟨-, -, -, h4, -⟩ := hok
    exact transact_up h (by simpa using hidle n h4) (by simp) (by rw [alloc_up]; exact hd)
  | merge p l news freed =>
    obtain ⟨-, -, h3, -⟩ := hok
    exact transact_up h (fun hx => hidle d (h3 d hx).2.2 rfl) hf (by rw [allocs_up]; exact hd)
  | create m r =>
    exact rootChanged_up h (by rw [write_up, alloc_up]; exact hd)
  | rootSplit m r c n =>
    obtain ⟨-, -, -, -, -, h6, -⟩ := hok
    rcases h1 : (s.alloc r).rootChanged m r with _ | s1
    · simp only [St.step, h1] at h; cases h
    · simp only [St.step, h1, Option.bind_some] at h
      have := rootChanged_up (d := d) (u := u) h1 (by rw [alloc_up]; exact hd)
      exact transact_up h (by simpa using hidle n h6) (by simp) (by rw [alloc_up]; exact this)
  | collapse m c =>
    exact rootChanged_up h (by rw [write_up]; exact hd)
  | rootSplitFail m r c => exact hok.elim

theorem run_up {lvl pos : Nat → Nat} {d u : Nat} : ∀ (ops : List Op) {s s' : St},
    Ok lvl pos s ops → s.run ops = some s' → (∀ op ∈ ops, ¬ op.frees d) →
    (s.buf d).up = some u → (s'.buf d).up = some u := by
  intro ops
  induction ops with
  | nil => intro s s' _ h _ hd; simp only [St.run, Option.some.injEq] at h; subst h; exact hd
  | cons op ops ih =>
    intro s s' hok h hf hd
    rcases h1 : s.step op with _ | s1
    · rw [St.run, h1] at h; cases h
    · rw [St.run, h1] at h
      exact ih (hok.2 s1 h1) h (fun o ho => hf o (List.mem_cons_of_mem _ ho))
        (step_up hok.1 h1 (hf op List.mem_cons_self) hd)

/-- Where a link to `x` really goes: a node created in this checkpoint is not waited for, but the node
it waits for itself (it is not reachable on disk before that one is written). -/
def St.target (s : St) (x : Nat) : Option Nat := if (s.buf x).new then (s.buf x).up else some x

/-- After `link_buf` the node is linked to the target, if it had no link or is linked as a sibling. -/
theorem link_sets {s s' : St} {upb down : Nat} {sib : Bool} (h : s.link upb down sib = some s')
    (hx : (s.buf down).up = none ∨ sib = true)
    (hne : s.target upb ≠ some down) : (s'.buf down).up = s.target upb := by
  unfold St.link at h
  unfold St.target at hne ⊢
  split at h
  · cases h
  · rename_i real hr
    rw [hr] at hne ⊢
    have hne : down ≠ real := by rintro rfl; exact hne rfl
    split at h
    · simp only [Option.some.injEq] at h
      subst h
      unfold St.attach St.set
      simp [hne]
    · rename_i v hv
      split at h
      · rename_i hc
        simp only [Option.some.injEq] at h
        subst h
        rcases hc with hc | hc
        · rcases hx with hx | hx
          · rw [hv] at hx; cases hx
          · rw [hc] at hx; cases hx
        · rw [hv, hc]
      · simp only [Option.some.injEq] at h
        subst h
        unfold St.attach St.release St.set
        simp [hne]

theorem run_append : ∀ (l1 l2 : List Op) (s : St),
    s.run (l1 ++ l2) = (s.run l1).bind (fun s' => s'.run l2) := by
  intro l1
  induction l1 with
  | nil => intro l2 s; rfl
  | cons op ops ih =>
    intro l2 s
    simp only [List.cons_append, St.run]
    rcases s.step op with _ | s1
    · rfl
    · exact ih l2 s1

theorem ok_append {lvl pos : Nat → Nat} : ∀ (l1 l2 : List Op) (s s1 : St), Ok lvl pos s (l1 ++ l2) →
    s.run l1 = some s1 → Ok lvl pos s l1 ∧ Ok lvl pos s1 l2 := by
  intro l1
  induction l1 with
  | nil =>
    intro l2 s s1 h hr
    simp only [St.run, Option.some.injEq] at hr
    subst hr
    exact ⟨trivial, h⟩
  | cons op ops ih =>
    intro l2 s s1 h hr
    rcases h1 : s.step op with _ | s2
    · rw [St.run, h1] at hr; cases hr
    · rw [St.run, h1] at hr
      refine ⟨⟨h.1, fun s' hs' => ?_⟩, (ih l2 s2 s1 (h.2 s2 h1) hr).2⟩
      rw [h1] at hs'
      obtain rfl := Option.some.inj hs'
      exact (ih l2 s2 s1 (h.2 s2 h1) hr).1

/-! ## The properties -/

/-- **C68**.  Every history of tree operations in a checkpoint runs without following a null link and
leaves a dirty list that the flush can finish: every schedule of the flush with one fiber can be
continued until each dirty node has been written, exactly once (`C67_flush_order_partial`,
`C67_flush_progress_partial` apply).  What is missing: a root split that fails half way
(`C68_failed_root_split_violated`). -/
theorem C68_history_flushes_partial {lvl pos : Nat → Nat} {ops : List Op} (hok : Ok lvl pos St.init ops) :
    ∃ s, St.init.run ops = some s ∧ Flush.Linked s.flushBuf s.list := by
  obtain ⟨s, h1, h2⟩ := inv_run ops _ (inv_init lvl pos) hok
  exact ⟨s, h1, linked_of_inv h2⟩

theorem before_of_link {lvl pos : Nat → Nat} {ops : List Op} (hok : Ok lvl pos St.init ops) {s : St}
    (hr : St.init.run ops = some s) {d u : Nat} (hu : (s.buf d).up = some u)
    {sched : List Flush.Op} {f : Fl}
    (hf : (Fl.init s.flushBuf s.list).run false sched = some f) (hw : u ∈ f.written) :
    Before d u f.written := by
  obtain ⟨s', h1, h2⟩ := inv_run ops _ (inv_init lvl pos) hok
  rw [hr] at h1
  obtain rfl := Option.some.inj h1
  have hd := (h2.up d u hu).1
  simp only [List.append_nil] at hd
  have hl : s.list ≠ [] := by rintro e; rw [e] at hd; cases hd
  exact (Flush.C67_flush_order_partial (linked_of_inv h2) hl hf).2.2.1 d hd u hu hw

theorem inv_link' {lvl pos : Nat → Nat} {s s' : St} {pend raw : List Nat} (h : Inv lvl pos s pend raw)
    {upb down : Nat} {sib : Bool} (hu : upb ∈ s.list) (hur : upb ∉ raw)
    (hd : down ∈ s.list ++ pend) (ho : Over lvl pos upb down) (hs : s.link upb down sib = some s') :
    Inv lvl pos s' pend (raw.erase down) ∧ s'.list = s.list ∧
      (∀ x, (s'.buf x).new = (s.buf x).new) := by
  obtain ⟨s1, e1, i1, l1, n1⟩ := inv_link h sib hu hur hd ho
  rw [hs] at e1
  obtain rfl := Option.some.inj e1
  exact ⟨i1, l1, n1⟩

theorem linkNew_new {c : Nat} : ∀ (news : List Nat) {s s' : St}, s.linkNew c news = some s' →
    ∀ x, (s'.buf x).new = (s.buf x).new := by
  intro news
  induction news with
  | nil => intro s s' h x; simp only [St.linkNew, Option.some.injEq] at h; subst h; rfl
  | cons n ns ih =>
    intro s s' h x
    rw [St.linkNew] at h
    rcases h1 : s.link c n true with _ | s1
    · rw [h1] at h; cases h
    · rw [h1] at h
      rw [ih h x]
      unfold St.link at h1
      split at h1
      · cases h1
      · rename_i real _
        split at h1
        · simp only [Option.some.injEq] at h1
          subst h1
          unfold St.attach St.set
          by_cases e1 : x = real <;> by_cases e2 : x = n <;> simp_all
        · rename_i v _
          split at h1
          · simp only [Option.some.injEq] at h1
            subst h1; rfl
          · simp only [Option.some.injEq] at h1
            subst h1
            unfold St.attach St.release St.set
            by_cases e1 : x = real <;> by_cases e2 : x = n <;> by_cases e3 : x = v <;> simp_all

/-- The new nodes of a transaction are linked to the child. -/
theorem linkNew_links {c : Nat} : ∀ (news : List Nat) {s s' : St}, s.linkNew c news = some s' →
    news.Nodup → c ∉ news → (s.buf c).new = false → ∀ n ∈ news, (s'.buf n).up = some c := by
  intro news
  induction news with
  | nil => intro s s' _ _ _ _ n hn; cases hn
  | cons a ns ih =>
    intro s s' h hnd hc hcn n hn
    obtain ⟨h1, h2⟩ := List.nodup_cons.1 hnd
    rw [St.linkNew] at h
    rcases hx : s.link c a true with _ | s1
    · rw [hx] at h; cases h
    · rw [hx] at h
      have hnew := linkNew_new [a] (s := s) (s' := s1) (c := c) (by simp [St.linkNew, hx])
      have hca : c ≠ a := fun e => hc (e ▸ List.mem_cons_self)
      have htgt : s.target c = some c := by unfold St.target; rw [hcn]; rfl
      have ha : (s1.buf a).up = some c := by
        have := link_sets hx (Or.inr rfl) (by rw [htgt]; simpa using hca)
        rw [this, htgt]
      rcases List.mem_cons.1 hn with rfl | hn
      · exact linkNew_up ns h h1 ha
      · exact ih h h2 (fun x => hc (List.mem_cons_of_mem _ x)) (by rw [hnew]; exact hcn) n hn

theorem linkFreed_keep {c f : Nat} : ∀ (fs : List Nat) {s s' : St}, s.linkFreed c fs = some s' →
    (s.buf c).new = false → (s.buf f).up = some c → (s'.buf f).up = some c := by
  intro fs
  induction fs with
  | nil => intro s s' h _ hd; simp only [St.linkFreed, Option.some.injEq] at h; subst h; exact hd
  | cons g gs ih =>
    intro s s' h hc hf
    rw [St.linkFreed] at h
    split at h
    · rcases h1 : s.link c g true with _ | s1
      · rw [h1] at h; cases h
      · rw [h1] at h
        have hnew := linkNew_new [g] (s := s) (s' := s1) (c := c) (by simp [St.linkNew, h1])
        refine ih h (by rw [hnew]; exact hc) ?_
        by_cases e : f = g
        · subst e
          have : s1 = s := by
            unfold St.link at h1
            simp only [hc, Bool.false_eq_true, if_false, hf, or_true, if_true, Option.some.injEq] at h1
            exact h1.symm
          rw [this]; exact hf
        · exact link_up h1 hf (Or.inr e)
    · exact ih h hc hf

/-- A freed node for which another node is still to be written is linked to the child. -/
theorem linkFreed_links {lvl pos : Nat → Nat} {c f d : Nat} : ∀ (fs : List Nat) {s s' : St},
    s.linkFreed c fs = some s' → Inv lvl pos s [] [] → c ∈ s.list →
    (∀ f ∈ fs, Over lvl pos c f) → (s.buf c).new = false →
    f ∈ fs → d ∉ fs → (s.buf d).up = some f → (s'.buf f).up = some c := by
  intro fs
  induction fs with
  | nil => intro s s' _ _ _ _ _ hf; cases hf
  | cons g gs ih =>
    intro s s' h hi hcl ho hc hf hd hdf
    simp only [List.mem_cons, not_or] at hd
    rw [St.linkFreed] at h
    split at h
    · rename_i hw
      rcases h1 : s.link c g true with _ | s1
      · rw [h1] at h; cases h
      · rw [h1] at h
        have hgl : g ∈ s.list := by
          by_contra hg
          refine hw ?_
          rw [hi.wait g]
          have : cnt s.buf (s.list ++ []) g = 0 := by
            unfold cnt
            rw [List.countP_eq_zero]
            intro b _ hb
            exact hg (hi.up b g (by simpa using hb)).2.1
          rw [this]; rfl
        obtain ⟨i1, l1, n1⟩ := inv_link' hi hcl (by simp) (List.mem_append_left _ hgl)
          (ho g List.mem_cons_self) h1
        simp only [List.erase_nil] at i1
        have hcg : c ≠ g := by
          rintro rfl
          have := ho c List.mem_cons_self
          unfold Over at this; omega
        by_cases e : f = g
        · subst e
          have htgt : s.target c = some c := by unfold St.target; rw [hc]; rfl
          have := link_sets h1 (Or.inr rfl) (by rw [htgt]; simpa using hcg)
          rw [htgt] at this
          exact linkFreed_keep gs h (by rw [n1]; exact hc) this
        · have hf' : f ∈ gs := by
            rcases List.mem_cons.1 hf with x | x
            · exact absurd x e
            · exact x
          exact ih h i1 (by rw [l1]; exact hcl) (fun x hx => ho x (List.mem_cons_of_mem _ hx))
            (by rw [n1]; exact hc) hf' hd.2 (link_up h1 hdf (Or.inr hd.1))
    · rename_i hw
      have e : f ≠ g := by
        rintro rfl
        exact not_target hi (by simpa using hw) d hdf
      have hf' : f ∈ gs := by
        rcases List.mem_cons.1 hf with x | x
        · exact absurd x e
        · exact x
      exact ih h hi hcl (fun x hx => ho x (List.mem_cons_of_mem _ hx)) hc hf' hd.2 hdf

/-- The links of a transaction. -/
theorem transact_links {lvl pos : Nat → Nat} {s s' : St} {pend : List Nat} {p c t : Nat}
    {news freed : List Nat} (h : Inv lvl pos s pend news) (hp : ∀ x ∈ pend, x = p)
    (hnd : news.Nodup) (hcn : c ∉ news) (hpn : p ∉ news) (hpc : Over lvl pos p c)
    (hn : ∀ n ∈ news, Over lvl pos c n) (hf : ∀ f ∈ freed, Over lvl pos c f)
    (hnf : ∀ n ∈ news, n ∉ freed) (hs : s.transact p c news freed = some s') :
    ((s.buf c).new = false → ∀ n ∈ news, (s'.buf n).up = some c) ∧
    ((s.buf c).up = none → s.target p = some t → (s'.buf c).up = some t) ∧
    ((s.buf c).new = false → ∀ f ∈ freed, ∀ d, d ∉ freed → d ∉ news → (s.buf d).up = some f →
      (s'.buf f).up = some c) := by
  obtain ⟨p1, i1, a1, b1, -⟩ := inv_writes news s pend news h
  obtain ⟨i2, m2⟩ := inv_write i1 c
  obtain ⟨i3, m3⟩ := inv_write i2 p
  have f2 := (write_frame (s.writes news) c).2.1
  have f3 := (write_frame ((s.writes news).write c) p).2.1
  have hpend : ((p1.erase c).erase p) = [] := by
    rw [List.eq_nil_iff_forall_not_mem]
    intro x hx
    have hx1 : x ∈ p1 := List.mem_of_mem_erase (List.mem_of_mem_erase hx)
    obtain rfl := hp x (a1 x hx1)
    have hnd2 : (p1.erase c).Nodup := ((List.nodup_append.1 i1.nd).2.1).erase c
    rw [List.Nodup.mem_erase_iff hnd2] at hx
    exact hx.1 rfl
  rw [hpend] at i3
  obtain ⟨w, hw⟩ : ∃ w, w = ((s.writes news).write c).write p := ⟨_, rfl⟩
  have hup : ∀ x, (w.buf x).up = (s.buf x).up := by
    intro x; rw [hw, write_up, write_up, writes_up]
  have hnw : ∀ (bs : List Nat) (s : St) x, ((s.writes bs).buf x).new = (s.buf x).new := by
    intro bs
    induction bs with
    | nil => intro s x; rfl
    | cons b bs ih => intro s x; rw [St.writes, ih, ((write_frame s b).1 x).1]
  have hnew : ∀ x, (w.buf x).new = (s.buf x).new := by
    intro x; rw [hw, ((write_frame _ p).1 x).1, ((write_frame _ c).1 x).1, hnw]
  unfold St.transact at hs
  simp only [] at hs
  rw [← hw] at hs i3 m3
  have hcl : c ∈ w.list := by rw [hw]; exact f3 c m2
  rcases h4 : w.link p c false with _ | s4
  · rw [h4] at hs; cases hs
  rw [h4, Option.bind_some] at hs
  rcases h5 : s4.linkNew c news with _ | s5
  · rw [h5] at hs; cases hs
  rw [h5, Option.bind_some] at hs
  obtain ⟨i4, l4, n4⟩ := inv_link' i3 m3 hpn (List.mem_append_left _ hcl) hpc h4
  rw [List.erase_of_not_mem hcn] at i4
  obtain ⟨s5', e5, i5, l5⟩ := inv_linkNew news s4 [] hnd hcn i4 (by rw [l4]; exact hcl)
    (fun n hx => by rw [l4, hw]; exact f3 n (f2 n (b1 n hx))) hn
  rw [h5] at e5
  obtain rfl := Option.some.inj e5
  have hc5 : (s5.buf c).new = (s.buf c).new := by rw [linkNew_new news h5, n4, hnew]
  have hcfreed : c ∉ freed := by
    intro hx
    have := hf c hx
    unfold Over at this; omega
  refine ⟨?_, ?_, ?_⟩
  · intro hc n hx
    exact linkFreed_up freed hs (hnf n hx)
      (linkNew_links news h5 hnd hcn (by rw [n4, hnew]; exact hc) n hx)
  · intro hcu ht
    have htgt : w.target p = some t := by
      unfold St.target at ht ⊢; rw [hnew, hup]; exact ht
    have htc : t ≠ c := by
      rintro rfl
      unfold St.target at ht
      split at ht
      · have := (h.up p t ht).2.2.2.trans hpc
        unfold Over at this; omega
      · obtain rfl := Option.some.inj ht
        unfold Over at hpc; omega
    have := link_sets h4 (Or.inl (by rw [hup]; exact hcu)) (by rw [htgt]; simpa using htc)
    rw [htgt] at this
    exact linkFreed_up freed hs hcfreed (linkNew_up news h5 hcn this)
  · intro hc f hff d hd hdn hdf
    have h4d : (s4.buf d).up = some f := link_up h4 (by rw [hup]; exact hdf) (Or.inl rfl)
    exact linkFreed_links freed hs i5 (by rw [l5, l4]; exact hcl) hf (by rw [hc5]; exact hc) hff hd
      (linkNew_up news h5 hdn h4d)

/-- What a structural change requires: by the operation, executed in state `s`, node `d` must reach
the disk before node `u`.  "On disk" is `new = false` (not created in this checkpoint); `up = none`
means that the node has taken part in no structural change of this checkpoint before. -/
inductive Requires (s : St) : Op → Nat → Nat → Prop where
  /-- the entries that leave a node are on disk before the node without them … -/
  | splitNew (p c n) : (s.buf c).new = false → Requires s (.split p c n) n c
  /-- … and that before the parent which knows both -/
  | splitChild (p c n) : (s.buf c).up = none → (s.buf p).new = false → Requires s (.split p c n) c p
  | mergeNew (p l news freed n) : (s.buf l).new = false → n ∈ news →
      Requires s (.merge p l news freed) n l
  | mergeChild (p l news freed) : (s.buf l).up = none → (s.buf p).new = false →
      Requires s (.merge p l news freed) l p
  /-- a node that is merged away hands on what must be written before it -/
  | mergeFreed (p l news freed f d) : (s.buf l).new = false → f ∈ freed → d ∉ freed → d ∉ news →
      (s.buf d).up = some f → Requires s (.merge p l news freed) f l
  /-- a root is on disk before the superblock that names it -/
  | create (m r) : Requires s (.create m r) r m
  | rootNew (m r c n) : Requires s (.rootSplit m r c n) r m
  | rootOld (m r c n) : (s.buf c).up = none → Requires s (.rootSplit m r c n) c m
  | rootSibling (m r c n) : (s.buf c).new = false → Requires s (.rootSplit m r c n) n c
  | collapse (m c) : (s.buf c).up = none → Requires s (.collapse m c) c m

theorem rootChanged_links {s s' : St} {m r : Nat} (hm : (s.buf m).new = false) (hmr : m ≠ r)
    (hu : (s.buf r).up = none) (hs : s.rootChanged m r = some s') : (s'.buf r).up = some m := by
  have htgt : (s.write m).target m = some m := by
    unfold St.target; rw [((write_frame s m).1 m).1, hm]; rfl
  have := link_sets hs (Or.inl (by rw [write_up]; exact hu)) (by rw [htgt]; simpa using hmr)
  rw [this, htgt]

theorem requires_links {lvl pos : Nat → Nat} {s s' : St} {op : Op} {d u : Nat}
    (h : Inv lvl pos s [] []) (hok : op.Ok lvl pos s) (hs : s.step op = some s')
    (hr : Requires s op d u) : (s'.buf d).up = some u := by
  cases op with
  | write b => cases hr
  | split p c n =>
    obtain ⟨h1, h2, h3, h4, h5, h6⟩ := hok
    have i1 := inv_alloc h h4
    have hcn : c ≠ n := fun e => h6 e.symm
    have hpn : p ≠ n := fun e => h5 e.symm
    have ec : (s.alloc n).buf c = s.buf c := by simp [St.alloc, St.set, hcn]
    have ep : (s.alloc n).buf p = s.buf p := by simp [St.alloc, St.set, hpn]
    have key := transact_links (t := p) (freed := []) i1 (by simp) (by simp) (by simpa using hcn)
      (by simpa using hpn) (Or.inl h1)
      (by intro x hx; rw [List.mem_singleton.1 hx]; exact Or.inr ⟨h2, h3⟩) (by simp) (by simp) hs
    rw [ec] at key
    cases hr with
    | splitNew _ _ _ hc => exact key.1 hc d (by simp)
    | splitChild _ _ _ hc hp => exact key.2.1 hc (by unfold St.target; rw [ep, hp]; rfl)
  | merge p l news freed =>
    obtain ⟨h1, h2, h3, h4⟩ := hok
    obtain ⟨raw', i1, a1, b1⟩ := inv_allocs news s [] [] h h2 (fun n hn => (h3 n hn).2.2)
    have i2 := inv_raw i1 (raw' := news) (fun x hx => by
      rcases a1 x hx with h | h
      · cases h
      · exact h)
    have hln : l ∉ news := by intro hl; have := (h3 l hl).2.1; omega
    have hpn : p ∉ news := by intro hp; have := (h3 p hp).1; omega
    have key := transact_links (t := p) i2 (by simp) h2 hln hpn (Or.inl h1)
      (fun n hn => Or.inr ⟨(h3 n hn).1, (h3 n hn).2.1⟩)
      (fun f hf => Or.inr ⟨(h4 f hf).1, (h4 f hf).2.1⟩)
      (fun n hn hf => (h4 n hf).2.2 hn) hs
    rw [b1 l hln] at key
    cases hr with
    | mergeNew _ _ _ _ _ hc hn => exact key.1 hc d hn
    | mergeChild _ _ _ _ hc hp => exact key.2.1 hc (by unfold St.target; rw [b1 u hpn, hp]; rfl)
    | mergeFreed _ _ _ _ _ d' hc hf hd hdn hdf =>
      exact key.2.2 hc d hf d' hd hdn (by rw [b1 d' hdn]; exact hdf)
  | create m r =>
    obtain ⟨h1, h2, h3⟩ := hok
    have hmr : m ≠ r := by rintro rfl; omega
    cases hr
    refine rootChanged_links ?_ hmr ?_ hs
    · rw [((write_frame _ d).1 u).1]; simp [St.alloc, St.set, hmr, h3]
    · rw [write_up, alloc_up, h2]; rfl
  | rootSplit m r c n =>
    obtain ⟨h1, h2, h3, h4, h5, h6, h7⟩ := hok
    have hmr : m ≠ r := by rintro rfl; omega
    have hcr : c ≠ r := by rintro rfl; omega
    have hcm : c ≠ m := by rintro rfl; omega
    have hcn : c ≠ n := by rintro rfl; omega
    have hnm : n ≠ m := by rintro rfl; omega
    have hnr : n ≠ r := by rintro rfl; omega
    have i1 := inv_alloc h h5
    have hrl : r ∉ (s.alloc r).list := by
      intro hx
      have := (h.dirty r).2 hx
      rw [h5] at this; cases this
    have i1' := inv_pend i1 hrl (by simp)
    obtain ⟨s2, e2, i2, m2, n2, l2⟩ := inv_rootChanged (m := m) (r := r) i1' (by simpa using hmr)
      (by simpa using hmr) (Or.inl h1) (by simp)
    simp only [List.erase_cons_head] at i2
    have hs2 : (s2.alloc n).transact r c [n] [] = some s' := by
      have : s.step (.rootSplit m r c n) = ((s.alloc r).rootChanged m r).bind
        (fun s1 => (s1.alloc n).transact r c [n] []) := rfl
      rw [this, e2] at hs; exact hs
    have hmnew : ((s.alloc r).buf m).new = false := by simp [St.alloc, St.set, hmr, h7]
    have hrup : (s2.buf r).up = some m :=
      rootChanged_links hmnew hmr (by rw [alloc_up, h5]; rfl) e2
    -- the rest of the state
    have hother : ∀ x, x ≠ r → x ≠ m → s2.buf x = s.buf x := by
      intro x hxr hxm
      have e := e2
      have hmn : (((s.alloc r).write m).buf m).new = false := by
        rw [((write_frame (s.alloc r) m).1 m).1, hmnew]
      have brup : (((s.alloc r).write m).buf r).up = none := by
        rw [write_up, alloc_up, h5]; rfl
      unfold St.rootChanged St.link at e
      simp only [hmn, Bool.false_eq_true, if_false, brup, Option.some.injEq] at e
      rw [← e]
      unfold St.attach St.set
      simp only [hxr, hxm, if_false]
      rw [(write_frame (s.alloc r) m).2.2.1 x hxm]
      simp [St.alloc, St.set, hxr]
    have i3 := inv_alloc i2 (by rw [hother n hnr hnm]; exact h6)
    have ec : (s2.alloc n).buf c = s.buf c := by
      have : (s2.alloc n).buf c = s2.buf c := by simp [St.alloc, St.set, hcn]
      rw [this, hother c hcr hcm]
    have hr3 : ((s2.alloc n).buf r).up = some m := by rw [alloc_up]; exact hrup
    have htgt : (s2.alloc n).target r = some m := by
      have : ((s2.alloc n).buf r).new = true := by
        have e : (s2.alloc n).buf r = s2.buf r := by
          have : r ≠ n := fun e => hnr e.symm
          simp [St.alloc, St.set, this]
        rw [e, n2]; simp [St.alloc, St.set]
      unfold St.target; rw [this, if_pos rfl, hr3]
    have key := transact_links (t := m) (freed := []) i3 (by simp) (by simp)
      (by simpa using hcn) (by simpa using fun e => hnr e.symm) (Or.inl h2)
      (by intro x hx; rw [List.mem_singleton.1 hx]; exact Or.inr ⟨h3, h4⟩) (by simp) (by simp) hs2
    rw [ec] at key
    cases hr with
    | rootNew =>
      exact transact_up hs2 (by simpa using fun e => hnr e.symm) (by simp) hr3
    | rootOld _ _ _ _ hc => exact key.2.1 hc htgt
    | rootSibling _ _ _ _ hc => exact key.1 hc d (by simp)
  | collapse m c =>
    obtain ⟨h1, h3⟩ := hok
    have hmc : m ≠ c := by rintro rfl; omega
    cases hr with
    | collapse _ _ hc =>
      refine rootChanged_links ?_ hmc ?_ hs
      · rw [((write_frame _ d).1 u).1]; exact h3
      · rw [write_up]; exact hc
  | rootSplitFail m r c => exact hok.elim

/-- **C68**, order.  In every history of the checkpoint, whatever operation `op` of it requires to be
written earlier (`Requires`) is written earlier, whatever the other operations do before and after it
(except merging that very node away) and whatever the schedule of the flush: whenever `u` has been
written, `d` was written before it.  So no crash leaves a node without the entries that moved, a
parent that names a node which is not there, or a superblock that names a root which is not there. -/
theorem C68_order_partial {lvl pos : Nat → Nat} {ops1 ops2 : List Op} {op : Op} {d u : Nat}
    (hok : Ok lvl pos St.init (ops1 ++ op :: ops2)) {s0 : St}
    (h0 : St.init.run ops1 = some s0) (hreq : Requires s0 op d u)
    (hn : ∀ o ∈ ops2, ¬ o.frees d) {s : St}
    (hs : St.init.run (ops1 ++ op :: ops2) = some s) {sched : List Flush.Op} {f : Fl}
    (hf : (Fl.init s.flushBuf s.list).run false sched = some f) (hw : u ∈ f.written) :
    Before d u f.written := by
  obtain ⟨ok1, ok2⟩ := ok_append _ _ _ _ hok h0
  obtain ⟨s0', e0, i0⟩ := inv_run ops1 _ (inv_init lvl pos) ok1
  rw [h0] at e0
  obtain rfl := Option.some.inj e0
  have hrun : s0.run (op :: ops2) = some s := by
    rw [run_append, h0] at hs; exact hs
  rcases h1 : s0.step op with _ | s1
  · rw [St.run, h1] at hrun; cases hrun
  · rw [St.run, h1] at hrun
    exact before_of_link hok hs
      (run_up ops2 (ok2.2 s1 h1) hrun hn (requires_links i0 ok2.1 h1 hreq)) hf hw

/-! ### A concrete history

Node numbers: level × 10 + position; the superblock is `99`.  The root `10` has the leaves `0`, `4`,
`8`.  Leaf `0` splits (new `1`), leaf `4` splits (new `5`), `0` and `1` merge into `0`, then `0` and `4` into
`0` and the new `2`, while `5` is kept; then the root splits: new root `20`, new sibling `15`. -/

def lvl1 (i : Nat) : Nat := i / 10
def pos1 (i : Nat) : Nat := i % 10

def hist1 : List Op :=
  [.write 8, .split 10 0 1, .split 10 4 5, .merge 10 0 [] [1], .merge 10 0 [2] [4], .rootSplit 99 20 10 15]

def after (l : List Op) : St := (St.init.run l).getD St.init

theorem after_eq {l : List Op} {s : St} (h : St.init.run l = some s) : after l = s := by
  unfold after; rw [h]; rfl

/-- `Ok`, to be computed. -/
def okb (s : St) (lvl pos : Nat → Nat) : List Op → Bool
  | [] => true
  | op :: ops =>
    (match op with
      | .write _ => true
      | .split p c n => decide (lvl c < lvl p ∧ lvl n = lvl c ∧ pos c < pos n ∧ s.buf n = B.idle ∧ n ≠ p ∧ n ≠ c)
      | .merge p l news freed => decide (lvl l < lvl p ∧ news.Nodup ∧
          (∀ n ∈ news, lvl n = lvl l ∧ pos l < pos n ∧ s.buf n = B.idle) ∧
          (∀ f ∈ freed, lvl f = lvl l ∧ pos l < pos f ∧ f ∉ news))
      | .create m r => decide (lvl r < lvl m ∧ s.buf r = B.idle ∧ (s.buf m).new = false)
      | .rootSplit m r c n => decide (lvl r < lvl m ∧ lvl c < lvl r ∧ lvl n = lvl c ∧ pos c < pos n ∧
          s.buf r = B.idle ∧ s.buf n = B.idle ∧ (s.buf m).new = false)
      | .collapse m c => decide (lvl c < lvl m ∧ (s.buf m).new = false)
      | .rootSplitFail _ _ _ => false) &&
    (match s.step op with
      | some s' => okb s' lvl pos ops
      | none => true)

theorem ok_of_okb {lvl pos : Nat → Nat} : ∀ (l : List Op) (s : St), okb s lvl pos l = true →
    Ok lvl pos s l := by
  intro l
  induction l with
  | nil => intro s _; trivial
  | cons op ops ih =>
    intro s h
    simp only [okb, Bool.and_eq_true] at h
    refine ⟨?_, ?_⟩
    · cases op <;> simp_all [Op.Ok]
    · intro s' hs'
      have h2 := h.2
      rw [hs'] at h2
      exact ih s' h2

theorem ok1 : Ok lvl1 pos1 St.init hist1 := ok_of_okb _ _ (by decide +kernel)

/-- The history leaves ten dirty nodes; `0` waits for the three that were split off or merged with
it, the superblock for the new and the old root. -/
example : ∃ s, St.init.run hist1 = some s ∧ s.list = [8, 1, 0, 10, 5, 4, 2, 99, 15, 20] ∧
    (s.buf 0).wait = 3 ∧ (s.buf 10).wait = 2 ∧ (s.buf 99).wait = 2 ∧ (s.buf 5).up = some 4 ∧
    (s.buf 4).up = some 0 := ⟨_, rfl, by decide +kernel⟩

/-- The hypotheses of `C68_order_partial`, for the merge that frees `4`. -/
example : ∃ s0, St.init.run [.write 8, .split 10 0 1, .split 10 4 5, .merge 10 0 [] [1]] = some s0 ∧
    Requires s0 (.merge 10 0 [2] [4]) 4 0 ∧ ¬ (Op.rootSplit 99 20 10 15).frees 4 := by
  refine ⟨_, rfl, .mergeFreed _ _ _ _ _ 5 (by decide +kernel) (by decide) (by decide) (by decide)
    (by decide +kernel), fun h => h⟩

/-- A schedule of its flush, to the end. -/
example : ∃ s f, St.init.run hist1 = some s ∧ (Fl.init s.flushBuf s.list).run false
    [.start 3, .begin, .begin, .begin, .complete 5, .complete 8, .complete 2, .complete 4, .complete 1,
     .complete 0, .complete 15, .complete 10, .complete 20, .complete 99] = some f ∧ f.done = true ∧
    f.written = [5, 8, 2, 4, 1, 0, 15, 10, 20, 99] := ⟨_, _, rfl, rfl, by decide +kernel, by decide +kernel⟩

/-! ## What goes wrong -/

/-- **C68** fails when a root split does not find the space for the second node: the new root has
been linked to the superblock, but is never written, so the superblock waits for ever.  Whatever the
flush does, however long, the checkpoint is not completed. -/
theorem C68_failed_root_split_violated {m r c : Nat} (hmr : m ≠ r) (hmc : m ≠ c) (hrc : r ≠ c) :
    ∃ s, St.init.run [.rootSplitFail m r c] = some s ∧ s.list = [m] ∧
      ∀ sched f, (Fl.init s.flushBuf s.list).run false sched = some f →
        f.done = false ∧ f.written = [] := by
  have hrm : r ≠ m := fun e => hmr e.symm
  have hcm : c ≠ m := fun e => hmc e.symm
  have hcr : c ≠ r := fun e => hrc e.symm
  refine ⟨_, by
    simp [St.run, St.step, St.rootChanged, St.alloc, St.set, St.write, St.init, B.idle, St.link,
      St.attach, hmr, hmc, hrm, hcm, hcr]; rfl, rfl, ?_⟩
  intro sched f hf
  -- nothing is ever picked
  have key : ∀ (sched : List Flush.Op) (g g' : Fl),
      (g.buf m = { state := .dirty, mine := true, up := none, wait := 2 } ∧ g.hand = [] ∧ g.out = [] ∧
        g.written = [] ∧ g.done = false ∧ ∀ x ∈ g.rest, x = m) →
      g.run false sched = some g' → g'.done = false ∧ g'.written = [] := by
    intro sched
    induction sched with
    | nil =>
      intro g g' h hg
      simp only [Fl.run, Option.some.injEq] at hg
      subst hg
      exact ⟨h.2.2.2.2.1, h.2.2.2.1⟩
    | cons op ops ih =>
      intro g g' h hg
      obtain ⟨h1, h2, h3, h4, h5, h6⟩ := h
      have hscan : ∀ (max : Nat) (l : List Nat), (∀ x ∈ l, x = m) →
          (Flush.scan g.buf max l).1 = [] ∧ ∀ x ∈ (Flush.scan g.buf max l).2, x = m := by
        intro max l
        induction l with
        | nil => intro _; cases max <;> simp [Flush.scan]
        | cons a l ih2 =>
          intro hl
          cases max with
          | zero => exact ⟨rfl, hl⟩
          | succ max =>
            have ha : a = m := hl a List.mem_cons_self
            have hnr : (g.buf a).ready = false := by rw [ha, h1]; rfl
            simp only [Flush.scan, hnr, Bool.false_eq_true, if_false]
            exact ih2 (fun x hx => hl x (List.mem_cons_of_mem _ hx))
      cases op with
      | start max =>
        rw [Fl.run, Fl.step, Option.bind_some] at hg
        refine ih _ g' ?_ hg
        refine ⟨h1, ?_, h3, h4, h5, ?_⟩
        · show g.hand ++ _ = []
          rw [h2, (hscan max g.rest h6).1]; rfl
        · exact (hscan max g.rest h6).2
      | begin => simp only [Fl.run, Fl.step, h2, Option.bind_none] at hg; cases hg
      | complete b =>
        simp only [Fl.run, Fl.step, h3, List.not_mem_nil, if_false, Option.bind_none] at hg
        cases hg
      | reuse b up w =>
        rw [Fl.run, Fl.step] at hg
        split at hg
        · rename_i hc
          rw [Option.bind_some] at hg
          have hb : m ≠ b := by rintro rfl; rw [h1] at hc; cases hc
          refine ih _ g' ?_ hg
          refine ⟨?_, h2, h3, h4, h5, h6⟩
          show g.set b _ m = _
          unfold Fl.set
          rw [if_neg hb]; exact h1
        · cases hg
  refine key sched _ f ⟨?_, rfl, rfl, rfl, rfl, ?_⟩ hf
  · simp [Fl.init, St.flushBuf, hmr, hmc]
  · simp [Fl.init]

/-- **C68** fails for a collapse of the root after its last two children were merged in the same
checkpoint: the child is already linked to the old root, which is freed, and not to the superblock.
The superblock can be written, naming the child as the root, before the child with the merged entries
is: a crash then loses the entries of its freed sibling. -/
theorem C68_collapse_order_violated :
    ∃ (ops : List Op) (s : St) (sched : List Flush.Op) (f : Fl), Ok lvl1 pos1 St.init ops ∧
      ops = [.merge 10 0 [] [1], .collapse 99 0] ∧ St.init.run ops = some s ∧
      (Fl.init s.flushBuf s.list).run false sched = some f ∧ 99 ∈ f.written ∧ 0 ∉ f.written :=
  ⟨_, _, [.start 2, .begin, .begin, .complete 99], _, ok_of_okb _ _ (by decide +kernel), rfl, rfl, rfl,
    by decide +kernel, by decide +kernel⟩

end HS.Index.Link
