import Verif.Stop.Safe
/- How the pieces of the functions are put together: what each needs of the rest. -/
namespace HS.Stop
open Prog Obj

/-- A piece of a function that gives back what it takes and touches, besides the objects it is counted
on itself, only those of `X`. -/
structure Seg (A : Obj → Bool) (X : Obj → Prop) (f : Prog → Prog) : Prop where
  owed_eq : ∀ o k, owed A o (f k) = owed A o k
  ok : ∀ o k, A o = false → Wf A o k → Settled A o k → (X o → 1 ≤ owed A o k) →
    Wf A o (f k) ∧ Settled A o (f k)

/-- A piece of a function that gives back one count on `x` more than it takes. -/
structure Inner (A : Obj → Bool) (X : Obj → Prop) (x : Obj) (g : Prog → Prog) : Prop where
  owed_eq : ∀ o k, owed A o (g k) = owed A o k + if x = o then 1 else 0
  ok : ∀ o k, A o = false → Wf A o k → Settled A o k → (X o → 1 ≤ owed A o k) →
    Wf A o (g k) ∧ Settled A o (g k)

/-- no object -/
def none' : Obj → Prop := fun _ => False
/-- one object more -/
def also (X : Obj → Prop) (x : Obj) : Obj → Prop := fun o => x = o ∨ X o

variable {A : Obj → Bool} {X Y : Obj → Prop} {x : Obj} {f g h : Prog → Prog}

theorem settled_owed {o : Obj} {p : Prog} (h : Settled A o p) (h0 : ¬ 1 ≤ owed A o p) :
    Refuses A o p := h.resolve_left h0

theorem Seg.mono (hf : Seg A X f) (hXY : ∀ o, X o → Y o) : Seg A Y f :=
  ⟨hf.owed_eq, fun o k ha hw hs hx => hf.ok o k ha hw hs (fun hX => hx (hXY o hX))⟩

theorem seg_id : Seg A X (fun k => k) := ⟨fun _ _ => rfl, fun _ _ _ hw hs _ => ⟨hw, hs⟩⟩

theorem seg_comp (hf : Seg A X f) (hg : Seg A X g) : Seg A X (fun k => f (g k)) where
  owed_eq o k := by rw [hf.owed_eq, hg.owed_eq]
  ok o k ha hw hs hx := by
    obtain ⟨h1, h2⟩ := hg.ok o k ha hw hs hx
    exact hf.ok o _ ha h1 h2 (by rw [hg.owed_eq]; exact hx)

theorem seg_use (hX : X x) : Seg A X (use x) where
  owed_eq o k := rfl
  ok o k ha hw hs hx := by
    have hset : Settled A o (use x k) := by
      by_cases he : x = o
      · subst he; exact .inl (hx hX)
      · rcases hs with hs | hs
        · exact .inl hs
        · exact .inr ⟨he, hs⟩
    refine ⟨⟨?_, fun _ => hs, hw⟩, hset⟩
    rintro rfl; exact hx hX

theorem seg_alt (hf : Seg A X f) (hg : Seg A X g) : Seg A X (fun k => alt (f k) (g k)) where
  owed_eq o k := by simp only [owed, hf.owed_eq, hg.owed_eq]; omega
  ok o k ha hw hs hx := by
    obtain ⟨h1, h2⟩ := hf.ok o k ha hw hs hx
    obtain ⟨h3, h4⟩ := hg.ok o k ha hw hs hx
    refine ⟨⟨fun _ => ⟨h2, h4⟩, h1, h3⟩, ?_⟩
    by_cases h0 : 1 ≤ owed A o k
    · left; simp only [owed, hf.owed_eq, hg.owed_eq]; omega
    · right
      exact ⟨settled_owed h2 (by rw [hf.owed_eq]; exact h0),
        settled_owed h4 (by rw [hg.owed_eq]; exact h0)⟩

theorem seg_each {α : Type} {f : α → Prog → Prog} (hf : ∀ a, Seg A X (f a)) (l : List α) :
    Seg A X (each l f) := by
  induction l with
  | nil => exact seg_id
  | cons a l ih => exact seg_comp (f := f a) (g := each l f) (hf a) ih

theorem seg_fork (hf : Seg A none' f) : Seg A X (fun k => fork (f done) k) where
  owed_eq o k := by simp only [owed, hf.owed_eq]; omega
  ok o k ha hw hs hx := by
    obtain ⟨h1, h2⟩ := hf.ok o done ha trivial (.inr trivial) (fun h => h.elim)
    refine ⟨⟨fun _ => ⟨h2, hs⟩, h1, hw⟩, ?_⟩
    rcases hs with hs | hs
    · left; simp only [owed, hf.owed_eq]; omega
    · right
      exact ⟨settled_owed h2 (by rw [hf.owed_eq]; simp [owed]), hs⟩

theorem inner_dec : Inner A X x (dec x) where
  owed_eq o k := by simp only [owed]; split <;> omega
  ok o k ha hw hs hx := by
    refine ⟨⟨fun _ => hs, hw⟩, ?_⟩
    have := owed_nonneg A o k
    rcases hs with hs | hs
    · left; simp only [owed]; split <;> omega
    · exact .inr hs

theorem inner_seg (hf : Seg A (also X x) f) (hg : Inner A X x g) : Inner A X x (fun k => f (g k)) where
  owed_eq o k := by rw [hf.owed_eq, hg.owed_eq]
  ok o k ha hw hs hx := by
    obtain ⟨h1, h2⟩ := hg.ok o k ha hw hs hx
    refine hf.ok o _ ha h1 h2 ?_
    have := owed_nonneg A o k
    rw [hg.owed_eq]
    rintro (rfl | h)
    · simp; omega
    · have := hx h; split <;> omega

theorem inner_alt (hf : Inner A X x f) (hg : Inner A X x g) :
    Inner A X x (fun k => alt (f k) (g k)) where
  owed_eq o k := by simp only [owed, hf.owed_eq, hg.owed_eq]; omega
  ok o k ha hw hs hx := by
    obtain ⟨h1, h2⟩ := hf.ok o k ha hw hs hx
    obtain ⟨h3, h4⟩ := hg.ok o k ha hw hs hx
    refine ⟨⟨fun _ => ⟨h2, h4⟩, h1, h3⟩, ?_⟩
    have e1 := hf.owed_eq o k
    have e2 := hg.owed_eq o k
    by_cases h0 : 1 ≤ owed A o (f k)
    · left; simp only [owed]; omega
    · right
      exact ⟨settled_owed h2 h0, settled_owed h4 (by rw [e2, ← e1]; exact h0)⟩

/-- A path that does not give the count back. -/
theorem inner_leak (hg : Inner A X x g) : Inner A X x (fun k => alt k (g k)) where
  owed_eq o k := by simp only [owed, hg.owed_eq]; split <;> omega
  ok o k ha hw hs hx := by
    obtain ⟨h3, h4⟩ := hg.ok o k ha hw hs hx
    refine ⟨⟨fun _ => ⟨hs, h4⟩, hw, h3⟩, ?_⟩
    have e2 := hg.owed_eq o k
    by_cases h0 : 1 ≤ owed A o (g k)
    · left; simp only [owed]; omega
    · right
      refine ⟨settled_owed hs ?_, settled_owed h4 h0⟩
      rw [e2] at h0; split at h0 <;> omega

/-- The count is given back by another thread. -/
theorem inner_fork (hf : Seg A (also none' x) f) : Inner A X x (fun k => fork (f (dec x done)) k) where
  owed_eq o k := by simp only [owed, hf.owed_eq]; split <;> omega
  ok o k ha hw hs hx := by
    have hd : Settled A o (dec x done) := .inr trivial
    obtain ⟨h1, h2⟩ := hf.ok o (dec x done) ha ⟨fun _ => .inr trivial, trivial⟩ hd (by
      rintro (rfl | h)
      · simp [owed]
      · exact h.elim)
    refine ⟨⟨fun _ => ⟨h2, hs⟩, h1, hw⟩, ?_⟩
    by_cases h0 : 1 ≤ owed A o (f (dec x done))
    · have := owed_nonneg A o k
      left; simp only [owed]; omega
    · rcases hs with hs | hs
      · have := owed_nonneg A o (f (dec x done))
        left; simp only [owed]; omega
      · exact .inr ⟨settled_owed h2 h0, hs⟩

/-- Look, count, work, give back. -/
theorem seg_count (hg : Inner A X x g) : Seg A X (fun k => test x k (inc x (g k))) where
  owed_eq o k := by
    have := owed_nonneg A o k
    simp only [owed, hg.owed_eq]; split <;> split <;> omega
  ok o k ha hw hs hx := by
    obtain ⟨h1, h2⟩ := hg.ok o k ha hw hs hx
    have e := hg.owed_eq o k
    have hn := owed_nonneg A o k
    have hi : x ≠ o → Settled A o (inc x (g k)) := by
      intro hne
      rcases h2 with h2 | h2
      · left; simpa only [owed, if_neg hne] using h2
      · exact .inr h2
    have hwi : Wf A o (inc x (g k)) := ⟨fun _ => h2, h1⟩
    cases hAx : A x
    · refine ⟨?_, ?_⟩
      · simp only [Wf, hAx, Bool.false_eq_true, if_false]
        exact ⟨fun _ => ⟨hs, hi⟩, hw, hwi⟩
      · rcases hs with hs | hs
        · left; simp only [owed, hAx, Bool.false_eq_true, if_false]; omega
        · by_cases he : x = o
          · right; simp only [Refuses, hAx, Bool.false_eq_true, if_false, if_pos he]; exact hs
          · rcases hi he with h3 | h3
            · left; simp only [owed, hAx, Bool.false_eq_true, if_false] at h3 ⊢; omega
            · right; simp only [Refuses, hAx, he, Bool.false_eq_true, if_false]; exact ⟨hs, h3⟩
    · have he : x ≠ o := by rintro rfl; rw [hAx] at ha; exact absurd ha (by decide)
      refine ⟨?_, ?_⟩
      · simp only [Wf, hAx, if_true]
        exact ⟨fun _ => hi he, hwi⟩
      · rcases hi he with h3 | h3
        · left; simpa only [owed, hAx, if_true] using h3
        · right; simpa only [Refuses, hAx, if_true] using h3

/-- The same when the object is known not to be stopping, whatever would be done otherwise. -/
theorem seg_countA (hAx : A x = true) (r : Prog → Prog) (hg : Inner A X x g) :
    Seg A X (fun k => test x (r k) (inc x (g k))) where
  owed_eq o k := by
    have := owed_nonneg A o k
    simp only [owed, hg.owed_eq, hAx, if_true]; split <;> omega
  ok o k ha hw hs hx := by
    obtain ⟨h1, h2⟩ := hg.ok o k ha hw hs hx
    have he : x ≠ o := by rintro rfl; rw [hAx] at ha; exact absurd ha (by decide)
    have hi : Settled A o (inc x (g k)) := by
      rcases h2 with h2 | h2
      · left; simpa only [owed, if_neg he] using h2
      · exact .inr h2
    refine ⟨?_, ?_⟩
    · simp only [Wf, hAx, if_true]
      exact ⟨fun _ => hi, fun _ => h2, h1⟩
    · rcases hi with h3 | h3
      · left; simpa only [owed, hAx, if_true] using h3
      · right; simpa only [Refuses, hAx, if_true] using h3

/-- Count without looking, in a piece that does not touch the object. -/
theorem seg_incdec (hf : Seg A X f) (hr : ∀ k, Refuses A x k → Refuses A x (f k)) :
    Seg A X (fun k => inc x (f (dec x k))) where
  owed_eq o k := by
    have := owed_nonneg A o k
    simp only [owed, hf.owed_eq]; split <;> omega
  ok o k ha hw hs hx := by
    have hd : Settled A o (dec x k) := by
      have := owed_nonneg A o k
      rcases hs with hs | hs
      · left; simp only [owed]; split <;> omega
      · exact .inr hs
    obtain ⟨h1, h2⟩ := hf.ok o (dec x k) ha ⟨fun _ => hs, hw⟩ hd (by
      intro h; have := hx h; simp only [owed]; split <;> omega)
    refine ⟨⟨fun _ => h2, h1⟩, ?_⟩
    by_cases h0 : 1 ≤ owed A o k
    · left; simp only [owed, hf.owed_eq]; split <;> omega
    · right
      by_cases he : x = o
      · subst he
        have h3 : Refuses A x (dec x k) := settled_owed (p := k) hs h0
        exact hr _ h3
      · have h3 : Refuses A o (f (dec x k)) :=
          settled_owed h2 (by rw [hf.owed_eq]; simpa only [owed, if_neg he] using h0)
        exact h3

theorem seg_stop : Seg A X (stop x) where
  owed_eq o k := rfl
  ok o k ha hw hs hx := ⟨⟨fun _ => hs, hw⟩, hs⟩

/-- Count first and look then. -/
theorem seg_gc (hAx : A x = false) (hg : Seg A (also X x) f) :
    Seg A X (fun k => inc x (test x (dec x k) (f (dec x k)))) where
  owed_eq o k := by
    have := owed_nonneg A o k
    simp only [owed, hg.owed_eq, hAx, Bool.false_eq_true, if_false]; split <;> omega
  ok o k ha hw hs hx := by
    obtain ⟨h1, h2⟩ := (inner_dec (A := A) (X := X) (x := x)).ok o k ha hw hs hx
    have hi := inner_seg hg inner_dec
    obtain ⟨h3, h4⟩ := hi.ok o k ha hw hs hx
    have e4 := hi.owed_eq o k
    have hn := owed_nonneg A o k
    have ht : Settled A o (test x (dec x k) (f (dec x k))) := by
      by_cases h0 : 1 ≤ owed A o (f (dec x k))
      · left; simp only [owed, hAx, Bool.false_eq_true, if_false]; omega
      · right
        have h5 := settled_owed h4 h0
        have h6 : Refuses A o (dec x k) := by
          refine settled_owed h2 ?_
          rw [(inner_dec (A := A) (X := X) (x := x)).owed_eq o k, ← e4]; exact h0
        simp only [Refuses, hAx, Bool.false_eq_true, if_false]
        split
        · exact h6
        · exact ⟨h6, h5⟩
    refine ⟨⟨fun _ => ht, ?_⟩, ?_⟩
    · simp only [Wf, hAx, Bool.false_eq_true, if_false]
      exact ⟨fun _ => ⟨h2, fun _ => h4⟩, h1, h3⟩
    · rcases hs with hs | hs
      · left
        simp only [owed, hAx, hg.owed_eq, Bool.false_eq_true, if_false]; split <;> omega
      · by_cases he : x = o
        · right; simp only [Refuses, hAx, Bool.false_eq_true, if_false, if_pos he]; exact hs
        · rcases ht with h5 | h5
          · left; rw [show owed A o (inc x (test x (dec x k) (f (dec x k)))) =
              owed A o (test x (dec x k) (f (dec x k))) from by simp only [owed, if_neg he]]
            exact h5
          · exact .inr h5

/-! ### Counts and the order of waits -/

/-- A piece of a function that gives back what it takes, whose stops are of rank `r` and more. -/
structure BSeg (A : Obj → Bool) (r : Nat) (f : Prog → Prog) : Prop where
  owed_eq : ∀ o k, owed A o (f k) = owed A o k
  back_eq : ∀ o k, back A o (f k) = back A o k
  ord : ∀ k, Ord A k → (∀ o, 1 ≤ back A o k → rank o < r) → Ord A (f k)

/-- A piece of a function that gives back one count on `x` more than it takes. -/
structure BInner (A : Obj → Bool) (r : Nat) (x : Obj) (g : Prog → Prog) : Prop where
  owed_eq : ∀ o k, owed A o (g k) = owed A o k + if x = o then 1 else 0
  back_eq : ∀ o k, back A o (g k) = back A o k + if x = o then 1 else 0
  ord : ∀ k, Ord A k → (∀ o, 1 ≤ back A o k → rank o < r) → Ord A (g k)

variable {r q : Nat}

theorem bseg_id : BSeg A r (fun k => k) := ⟨fun _ _ => rfl, fun _ _ => rfl, fun _ h _ => h⟩

theorem bseg_comp (hf : BSeg A r f) (hg : BSeg A r g) : BSeg A r (fun k => f (g k)) where
  owed_eq o k := by rw [hf.owed_eq, hg.owed_eq]
  back_eq o k := by rw [hf.back_eq, hg.back_eq]
  ord k ho hr := hf.ord _ (hg.ord k ho hr) (by intro o; rw [hg.back_eq]; exact hr o)

theorem bseg_use : BSeg A r (use x) := ⟨fun _ _ => rfl, fun _ _ => rfl, fun _ h _ => h⟩

theorem bseg_alt (hf : BSeg A r f) (hg : BSeg A r g) : BSeg A r (fun k => alt (f k) (g k)) where
  owed_eq o k := by simp only [owed, hf.owed_eq, hg.owed_eq]; omega
  back_eq o k := by simp only [back, hf.back_eq, hg.back_eq]; omega
  ord k ho hr := ⟨hf.ord k ho hr, hg.ord k ho hr⟩

theorem bseg_each {α : Type} {f : α → Prog → Prog} (hf : ∀ a, BSeg A r (f a)) (l : List α) :
    BSeg A r (each l f) := by
  induction l with
  | nil => exact bseg_id
  | cons a l ih => exact bseg_comp (f := f a) (g := each l f) (hf a) ih

theorem bseg_fork (hf : BSeg A q f) : BSeg A r (fun k => fork (f done) k) where
  owed_eq o k := by simp only [owed, hf.owed_eq]; omega
  back_eq o k := by simp only [back, hf.back_eq]; omega
  ord k ho _ := ⟨hf.ord done trivial (by intro o h; simp [back] at h), ho⟩

theorem bseg_stop (hr : r ≤ rank x) : BSeg A r (stop x) where
  owed_eq _ _ := rfl
  back_eq _ _ := rfl
  ord k ho h := ⟨fun o hb => by have := h o hb; omega, ho⟩

theorem binner_dec : BInner A r x (dec x) where
  owed_eq o k := by simp only [owed]; split <;> omega
  back_eq o k := by simp only [back]; split <;> omega
  ord k ho _ := ho

theorem binner_seg (hf : BSeg A q f) (hg : BInner A r x g) (h1 : rank x < q) (h2 : r ≤ q) :
    BInner A r x (fun k => f (g k)) where
  owed_eq o k := by rw [hf.owed_eq, hg.owed_eq]
  back_eq o k := by rw [hf.back_eq, hg.back_eq]
  ord k ho hr := by
    refine hf.ord _ (hg.ord k ho hr) ?_
    intro o hb
    rw [hg.back_eq] at hb
    split at hb
    · rename_i he; subst he; exact h1
    · have := hr o (by omega); omega

/-- The same for a piece that stops nothing. -/
theorem binner_any (hf : ∀ q, BSeg A q f) (hg : BInner A r x g) : BInner A r x (fun k => f (g k)) :=
  binner_seg (hf (max r (rank x + 1))) hg (by omega) (by omega)

theorem binner_alt (hf : BInner A r x f) (hg : BInner A r x g) :
    BInner A r x (fun k => alt (f k) (g k)) where
  owed_eq o k := by simp only [owed, hf.owed_eq, hg.owed_eq]; omega
  back_eq o k := by simp only [back, hf.back_eq, hg.back_eq]; omega
  ord k ho hr := ⟨hf.ord k ho hr, hg.ord k ho hr⟩

theorem binner_fork (hf : ∀ q, BSeg A q f) :
    BInner A r x (fun k => fork (f (dec x done)) k) where
  owed_eq o k := by simp only [owed, (hf 0).owed_eq]; split <;> omega
  back_eq o k := by simp only [back, (hf 0).back_eq]; split <;> omega
  ord k ho hr := by
    refine ⟨(hf (rank x + 1)).ord (dec x done) trivial ?_, ho⟩
    intro o hb
    simp only [back] at hb
    split at hb
    · rename_i he; subst he; omega
    · omega

theorem bseg_count (hg : BInner A r x g) : BSeg A r (fun k => test x k (inc x (g k))) where
  owed_eq o k := by
    have := owed_nonneg A o k
    simp only [owed, hg.owed_eq]; split <;> split <;> omega
  back_eq o k := by simp only [back, hg.back_eq]; split <;> split <;> omega
  ord k ho hr := by
    simp only [Ord]
    split
    · exact hg.ord k ho hr
    · exact ⟨ho, hg.ord k ho hr⟩

theorem bseg_inc (hg : BInner A r x g) : BSeg A r (fun k => inc x (g k)) where
  owed_eq o k := by
    have := owed_nonneg A o k
    simp only [owed, hg.owed_eq]; split <;> omega
  back_eq o k := by simp only [back, hg.back_eq]; split <;> omega
  ord k ho hr := hg.ord k ho hr

theorem binner_test {x y : Obj} (hf : BInner A r x f) (hg : BInner A r x g) :
    BInner A r x (fun k => test y (f k) (g k)) where
  owed_eq o k := by simp only [owed, hf.owed_eq, hg.owed_eq]; split <;> omega
  back_eq o k := by simp only [back, hf.back_eq, hg.back_eq]; split <;> omega
  ord k ho hr := by
    simp only [Ord]
    split
    · exact hg.ord k ho hr
    · exact ⟨hf.ord k ho hr, hg.ord k ho hr⟩

/-- A piece that takes what it gives back on an object not stopping, whatever it would do otherwise. -/
structure ASeg (A : Obj → Bool) (f : Prog → Prog → Prog) : Prop where
  owed_eq : ∀ o r k, owed A o (f r k) = owed A o k
  back_eq : ∀ o r k, back A o (f r k) = back A o k
  ord : ∀ r k, Ord A k → Ord A (f r k)

theorem aseg_count {f : Prog → Prog → Prog} (hA : A x = true) (hf : ASeg A f) (u : Prog → Prog) :
    ASeg A (fun r k => test x r (inc x (use x (f (u r) (dec x k))))) where
  owed_eq o r k := by
    have := owed_nonneg A o k
    simp only [owed, hf.owed_eq, hA, if_true]; split <;> omega
  back_eq o r k := by simp only [back, hf.back_eq, hA, if_true]; split <;> omega
  ord r k ho := by simp only [Ord, hA, if_true]; exact hf.ord _ _ ho

end HS.Stop
