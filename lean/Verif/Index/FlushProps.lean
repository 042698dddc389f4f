import Verif.Index.FlushLemmas
/-!
C67.  The flush of the index in a checkpoint: every dirty node is written exactly once, a node only
after all the nodes that must be on disk before it, and the flush comes to an end.

`Linked buf list` says what the tree operations leave behind when the checkpoint begins: the dirty
list has no duplicates, its nodes are dirty and belong to this checkpoint, the nodes they point to as
"write me first" are on the list too, the counters are the numbers of such nodes, and there is no
cycle.  The schedule is any list of steps: fibers starting, writes being issued, writes completing in
any order, and the next checkpoint dirtying again nodes that are already clean.
-/
namespace HS.Index.Flush

/-- `d` comes before `u` in the list of completed writes. -/
def Before (d u : Nat) (w : List Nat) : Prop := ∃ l1 l2 l3, w = l1 ++ d :: l2 ++ u :: l3

/-- **C67** (one flush fiber, the default `cache_flush_threads`).  At every point of every schedule:
* no node is written twice, and only nodes of the dirty list are written;
* whenever a node has been written, or its write has been issued, all the nodes that must be on disk
  before it have been written, and come before it;
* the checkpoint is reported complete exactly when every node of the list has been written;
* a node that has been written is clean and carries no links any more, unless the next checkpoint
  has taken it.
What is missing: more than one fiber (see `C67_two_fibers_violated`). -/
theorem C67_flush_order_partial {buf : Nat → Buf} {list : List Nat} (L : Linked buf list)
    (hl : list ≠ []) {ops : List Op} {f : Fl} (hr : (Fl.init buf list).run false ops = some f) :
    f.written.Nodup ∧ (∀ b ∈ f.written, b ∈ list) ∧
    (∀ d ∈ list, ∀ u, (buf d).up = some u → u ∈ f.written → Before d u f.written) ∧
    (∀ d ∈ list, ∀ u, (buf d).up = some u → u ∈ f.out → d ∈ f.written) ∧
    (f.done = true ↔ f.written.Perm list) ∧
    (∀ b ∈ f.written, ((f.buf b).state = .clean ∧ (f.buf b).up = none ∧ (f.buf b).wait = 0) ∨
      (f.buf b).mine = false) := by
  have h := inv_run L ops _ f (inv_init L hl) hr
  have hd := done_run L ops _ f (inv_init L hl) hr
    (Or.inr (by simpa [Fl.init] using List.length_pos_iff.2 hl))
  refine ⟨(List.nodup_append.1 h.nd).1, fun b hb => h.sub b (Or.inl hb), ?_, ?_, ?_, h.wr⟩
  · intro d hdl u hu huw
    obtain ⟨l1, l3, e⟩ := List.append_of_mem huw
    obtain ⟨l0, l2, e2⟩ := List.append_of_mem (h.order d hdl u hu l1 l3 e)
    exact ⟨l0, l2, l3, by rw [e, e2]⟩
  · intro d hdl u hu huo
    exact h.ready u (Or.inl huo) d hdl hu
  · constructor
    · intro e
      exact inv_all h (Nat.le_of_eq (h.dn e).symm)
    · intro hp
      rcases hd with e | e
      · exact e
      · rw [hp.length_eq] at e; exact absurd e (Nat.lt_irrefl _)

/-- **C67**, progress (one fiber): once a fiber that takes at least one node has started, the
checkpoint is complete, or a write can be issued, or a write is in flight; and at most `|list|`
writes complete in all.  So if the device completes the writes, the flush ends. -/
theorem C67_flush_progress_partial {buf : Nat → Buf} {list : List Nat} (L : Linked buf list)
    (hl : list ≠ []) {ops : List Op} {f : Fl} (hr : (Fl.init buf list).run false ops = some f)
    {max : Nat} (hs : Op.start (max + 1) ∈ ops) :
    (f.done = true ∨ (∃ f', f.step false .begin = some f') ∨
      ∃ b f', f.step false (.complete b) = some f') ∧
    (ops.filter (fun op => match op with | .complete _ => true | _ => false)).length ≤
      list.length := by
  have h := inv_run L ops _ f (inv_init L hl) hr
  have hd := done_run L ops _ f (inv_init L hl) hr
    (Or.inr (by simpa [Fl.init] using List.length_pos_iff.2 hl))
  have hlive := live_run L ops _ f (inv_init L hl) hr (Or.inr ⟨max, hs⟩)
  constructor
  · rcases hlive with hlive | e
    · rcases ho : f.out with _ | ⟨b, t⟩
      · rcases hh : f.hand with _ | ⟨b, t⟩
        · have hrest : f.rest = [] := by
            rcases hlive with e | e | e
            · exact e
            · exact absurd hh e
            · exact absurd ho e
          left
          have hall := stuck_all L h hrest hh ho
          rcases hd with e | e
          · exact e
          · have := (L.nodup.subperm (fun x hx => hall x hx)).length_le
            omega
        · right; left
          exact ⟨(({ f with hand := t } : Fl).submit b), by simp only [Fl.step, hh]⟩
      · right; right
        refine ⟨b, f.complete false b, ?_⟩
        have hb : b ∈ f.out := by rw [ho]; simp
        simp only [Fl.step, if_pos hb]
    · exact Or.inl e
  · -- every completion adds one to `written`
    have hcount : ∀ (ops : List Op) (g g' : Fl), g.run false ops = some g' →
        g'.written.length = g.written.length +
          (ops.filter (fun op => match op with | .complete _ => true | _ => false)).length := by
      intro ops
      induction ops with
      | nil => intro g g' hg; simp only [Fl.run, Option.some.injEq] at hg; subst hg; simp
      | cons op ops ih =>
        intro g g' hg
        simp only [Fl.run] at hg
        rcases hs : g.step false op with _ | g1
        · rw [hs] at hg; cases hg
        · rw [hs] at hg
          have := ih g1 g' hg
          rw [this]
          cases op with
          | start max =>
            simp only [Fl.step, Option.some.injEq] at hs
            subst hs; simp
          | begin =>
            simp only [Fl.step] at hs
            rcases hh : g.hand with _ | ⟨b, t⟩
            · rw [hh] at hs; cases hs
            · rw [hh] at hs
              simp only [Option.some.injEq] at hs
              subst hs
              simp [Fl.submit]
          | complete b =>
            simp only [Fl.step] at hs
            split at hs
            · simp only [Option.some.injEq] at hs
              have hw : g1.written = g.written ++ [b] := by
                subst hs
                have hdec : ∀ g : Fl, (g.decUp b).written = g.written := by
                  intro g; unfold Fl.decUp; split <;> rfl
                unfold Fl.complete
                simp only []
                split
                · rfl
                · split
                  · simp [hdec]
                  · simp [hdec, Fl.submit]
              rw [hw]
              simp
              omega
            · cases hs
          | reuse b up w =>
            simp only [Fl.step] at hs
            split at hs
            · simp only [Option.some.injEq] at hs
              subst hs; simp
            · cases hs
    have := hcount ops _ f hr
    have h2 := inv_length h
    simp [Fl.init] at this
    omega

/-! ### A concrete case: a leaf `0` split into `0` and `1`, parent `2`, and an unrelated node `3` -/

def buf1 : Nat → Buf := fun i =>
  match i with
  | 0 => { state := .dirty, mine := true, up := some 2, wait := 1 }
  | 1 => { state := .dirty, mine := true, up := some 0, wait := 0 }
  | 2 => { state := .dirty, mine := true, up := none, wait := 1 }
  | 3 => { state := .dirty, mine := true, up := none, wait := 0 }
  | _ => { state := .clean, mine := true, up := none, wait := 0 }

theorem linked1 : Linked buf1 [2, 0, 1, 3] := by
  refine ⟨by decide, by decide, ?_, by decide, fun i => if i = 1 then 0 else if i = 0 then 1 else 2, ?_⟩
  · intro b hb u hu
    simp only [List.mem_cons, List.not_mem_nil, or_false] at hb
    rcases hb with rfl | rfl | rfl | rfl <;> simp [buf1] at hu <;> subst hu <;> decide
  · intro b hb u hu
    simp only [List.mem_cons, List.not_mem_nil, or_false] at hb
    rcases hb with rfl | rfl | rfl | rfl <;> simp [buf1] at hu <;> subst hu <;> decide

/-- One schedule: `1` and `3` are issued, `3` completes first, `1` hands on `0`, which is dirtied by
the next checkpoint once it is clean, and `0` hands on `2`. -/
def ops1 : List Op :=
  [.start 2, .begin, .begin, .complete 3, .complete 1, .complete 0, .reuse 0 none 0, .complete 2]

example : ∃ f, (Fl.init buf1 [2, 0, 1, 3]).run false ops1 = some f ∧ f.done = true ∧
    f.written = [3, 1, 0, 2] := ⟨_, rfl, by decide, by decide⟩

example : [(2 : Nat), 0, 1, 3] ≠ [] ∧ Op.start (1 + 1) ∈ ops1 := by decide

/-- **C67** fails with two flush fibers: the nodes handed out by a completion stay dirty until they
are issued, so the other fiber, scanning the list, picks such a node a second time.  The two
completions of that node are both counted, and the checkpoint is reported complete although a node
was never written. -/
theorem C67_two_fibers_violated :
    ∃ (buf : Nat → Buf) (list : List Nat) (ops : List Op) (f : Fl),
      Linked buf list ∧ (Fl.init buf list).run true ops = some f ∧ f.done = true ∧
      ¬ f.written.Nodup ∧ ∃ b ∈ list, b ∉ f.written := by
  refine ⟨fun i => match i with
      | 0 => { state := .dirty, mine := true, up := some 1, wait := 0 }
      | 1 => { state := .dirty, mine := true, up := none, wait := 1 }
      | _ => { state := .dirty, mine := true, up := none, wait := 0 }, [0, 1, 2],
    [.start 1, .begin, .complete 0, .start 2, .begin, .begin, .begin, .complete 1, .complete 1], _,
    ⟨by decide, by decide, ?_, by decide, fun i => i, ?_⟩, rfl, by decide, by decide,
    2, by decide, by decide⟩
  · intro b hb u hu
    simp only [List.mem_cons, List.not_mem_nil, or_false] at hb
    rcases hb with rfl | rfl | rfl <;> simp at hu <;> subst hu <;> decide
  · intro b hb u hu
    simp only [List.mem_cons, List.not_mem_nil, or_false] at hb
    rcases hb with rfl | rfl | rfl <;> simp at hu <;> subst hu <;> decide

end HS.Index.Flush
