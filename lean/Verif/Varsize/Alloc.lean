import Verif.Varsize.Lemmas
/-! # Whole operations of the variable-size allocator -/
namespace HS.Varsize
set_option linter.unusedSimpArgs false

theorem highest_eq {c : Cache} (wf : WF c) : highestSlab c = 2 ^ (c.length - 1) := by
  unfold highestSlab
  have h1 := wf.1
  have : c.getLast? = c[c.length - 1]? := List.getLast?_eq_getElem?
  rw [this]
  have hlt : c.length - 1 < c.length := by omega
  have e : c[c.length - 1]? = some c[c.length - 1] := by simp [hlt]
  rw [e]
  exact (wf.2.2 _ _ e).1

theorem findSlab_mono {m n : Nat} (h : m ≤ n) (hn1 : 1 ≤ n) (hn : n ≤ 65535) : Slab.findSlab m ≤ Slab.findSlab n := by
  by_cases h0 : m = 0
  · subst h0
    have : Slab.findSlab 0 = 0 := by decide +kernel
    omega
  · apply Decidable.byContradiction
    intro hc
    have a := (Slab.C13_find_slab m (by omega) (by omega)).2 (Slab.findSlab n) (by omega)
    have b := (Slab.C13_find_slab n hn1 hn).1
    omega

theorem findSlab_le {n k : Nat} (h : n ≤ 2 ^ k) (hn1 : 1 ≤ n) (hn : n ≤ 65535) : Slab.findSlab n ≤ k := by
  apply Decidable.byContradiction
  intro hc
  have := (Slab.C13_find_slab n hn1 hn).2 k (by omega)
  omega

/-- Blocks granted. -/
def granted (st : Status) : Prop := st = .success ∨ st = .partialAlloc

theorem alloc_spec {find retries sweeps s n h K} (hn : 1 ≤ n) (hn2 : n ≤ 65535)
    (hmin : h.contiguous = false → h.minPerPiece ≤ n)
    (hfind : FindOk s.total find) (hk : KOk s.total K) (hc : Cons K s []) :
    ∃ st out s', alloc find retries sweeps s n h = some (st, out, s') ∧
      ((st = .success ∧ total out = n) ∨ (st = .partialAlloc ∧ h.partialOk = true ∧ 0 < total out ∧ total out < n) ∨
        st = .failed ∨ st = .spaceFull) ∧
      (granted st → Cons K s' out ∧ out.length ≤ maxPieces ∧ (∀ e ∈ out, 1 ≤ e.cnt) ∧
        (h.contiguous = true → h.partialOk = false → out.length = 1) ∧ s'.alloced = s.alloced + total out) ∧
      (¬ granted st → Cons K s' [] ∧ s'.alloced = s.alloced ∧ (h.contiguous = true ∨ h.partialOk = true → out = [])) ∧
      s'.total = s.total ∧ s'.bpp = s.bpp ∧ s'.useSlabs = s.useSlabs ∧ s'.cache.length = s.cache.length := by
  have hslab : ∃ out s1, (if s.useSlabs = true ∧ n ≤ highestSlab s.cache then
      allocSlabLoop find ⟨n, h.temp, h.contiguous, Slab.findSlab h.minPerPiece, s.cache.length - 1⟩ h
        (max retries 2) sweeps s
      else some ([], s)) = some (out, s1) ∧ Cons K s1 out ∧ Same s s1 ∧ OutOk n h.contiguous out ∧
      (h.contiguous = true → out ≠ [] → total out = n ∧ s.useSlabs = true ∧ n ≤ highestSlab s.cache) := by
    split
    · rename_i hu
      rw [highest_eq hc.1] at hu
      have hfs := findSlab_le hu.2 hn hn2
      obtain ⟨out, s1, e, a, b, c, d⟩ := allocSlabLoop_spec
        (req := ⟨n, h.temp, h.contiguous, Slab.findSlab h.minPerPiece, s.cache.length - 1⟩) (h := h) hn rfl
        (max retries 2) sweeps s rfl (by
          intro hf
          have := findSlab_mono (hmin hf) hn hn2
          show Slab.findSlab h.minPerPiece ≤ min (Slab.findSlab n) (s.cache.length - 1)
          omega) hfind hk hc
      exact ⟨out, s1, e, a, b, c, fun x y => ⟨d x y, hu.1, by rw [highest_eq hc.1]; exact hu.2⟩⟩
    · exact ⟨[], s, rfl, hc, Same.refl s, ⟨by simp [total], by simp, by simp, by simp⟩, by simp⟩
  obtain ⟨out, s1, e1, c1, m1, o1, p1⟩ := hslab
  unfold alloc
  simp only [e1]
  split
  · rename_i hs
    have ht : total out = n := by have := o1.le; omega
    refine ⟨_, _, _, rfl, .inl ⟨rfl, ht⟩, fun _ => ⟨c1, o1.pieces, o1.pos, ?_, ?_⟩, by simp [granted], m1.1, m1.2.1, m1.2.2.1, m1.2.2.2.1⟩
    · intro hct _
      have := o1.con hct
      cases out with
      | nil => simp [total] at ht; omega
      | cons a l => simp at this ⊢; exact this
    · simp only; rw [m1.2.2.2.2]
  · rename_i hns
    cases hd : allocDirect find h s1 (n - total out) out with
    | mk s2 r =>
      obtain ⟨k, out2⟩ := r
      simp only [hd]
      -- facts about the direct path
      have hdir : Cons K s2 out2 ∧ Same s1 s2 ∧ total out + k = total out2 ∧ total out2 ≤ n ∧ out2.length ≤ maxPieces ∧
          (∀ e ∈ out2, 1 ≤ e.cnt) ∧ (h.contiguous = true → h.partialOk = false → out2 = [] ∨ (out2.length = 1 ∧ total out2 = n)) := by
        unfold allocDirect at hd
        simp only at hd
        cases hdl : directLoop find (if h.contiguous = true ∧ ¬h.partialOk = true then n - total out else min (n - total out) h.minPerPiece)
            (if h.contiguous = true then 1 else maxPieces) s1.startPortion s1.numPortions s1.startPortion s1
            (n - total out) out with
        | mk s3 r3 =>
          obtain ⟨rem3, out3, p3⟩ := r3
          rw [hdl] at hd
          simp only [Prod.mk.injEq] at hd
          obtain ⟨rfl, rfl, rfl⟩ := hd
          obtain ⟨a1, a2, a3, a4, a5, a6⟩ := directLoop_spec n _ _ _ _ _ (by rw [m1.1]; exact hfind) c1
            (by have := o1.le; omega) o1.pos o1.pieces _ _ _ _ hdl
          have hle := o1.le
          refine ⟨a1, a2, ?_, by omega, a5, a4, ?_⟩
          · have : rem3 ≤ n - total out := by
              -- the loop only removes from the remainder
              have gen1 : ∀ m fuel cur last s rem out s' rem' out',
                  directPortion find m fuel cur last s rem out = (s', rem', out') → rem' ≤ rem := by
                intro m fuel
                induction fuel with
                | zero => intro cur last s rem out s' rem' out' h; simp [directPortion] at h; omega
                | succ fuel ih =>
                  intro cur last s rem out s' rem' out' h
                  unfold directPortion at h
                  split at h
                  · split at h
                    · simp at h; omega
                    · rename_i b n _
                      have := ih _ _ { s with bm := setBits s.bm b n true } _ _ _ _ _ h
                      omega
                  · simp at h; omega
              have gen2 : ∀ m maxP start fuel p s rem out s' rem' out' p',
                  directLoop find m maxP start fuel p s rem out = (s', rem', out', p') → rem' ≤ rem := by
                intro m maxP start fuel
                induction fuel with
                | zero => intro p s rem out s' rem' out' p' h; simp [directLoop] at h; omega
                | succ fuel ih =>
                  intro p s rem out s' rem' out' p' h
                  unfold directLoop at h
                  cases hdp : directPortion find m (s.bpp + 1) (p * s.bpp) (p * s.bpp + s.bpp - 1) s rem out with
                  | mk s1 r =>
                    obtain ⟨rem1, out1⟩ := r
                    have := gen1 _ _ _ _ _ _ _ _ _ _ hdp
                    simp only [hdp] at h
                    generalize (if p + 1 = s.numPortions then 0 else p + 1) = p2 at h
                    split at h
                    · simp at h; omega
                    · split at h
                      · have := ih _ _ _ _ _ _ _ _ h; omega
                      · simp at h; omega
              exact gen2 _ _ _ _ _ _ _ _ _ _ _ _ hdl
            omega
          · intro hct hpo
            have hout : out = [] := by
              apply Decidable.byContradiction
              intro hne
              have := p1 hct hne
              exact hns ⟨this.2.1, this.2.2, by omega⟩
            subst hout
            have ht0 : total ([] : List Entry) = 0 := rfl
            rw [if_pos ⟨hct, by simp [hpo]⟩] at hdl
            have := directLoop_one hfind _ _ s1 _ m1.1 _ _ _ _ hdl
            rcases this with ⟨h1, h2⟩ | ⟨h1, h2⟩
            · exact .inl h1
            · exact .inr ⟨h1, by omega⟩
      obtain ⟨d1, d2, d3, d4, d5, d6, d7⟩ := hdir
      have hal : s2.alloced = s.alloced := by rw [d2.2.2.2.2, m1.2.2.2.2]
      have sm := m1.trans d2
      split
      · rename_i hsucc
        refine ⟨_, _, _, rfl, .inl ⟨rfl, by omega⟩, fun _ => ⟨d1, d5, d6, fun a b => (by
            rcases d7 a b with d | d
            · subst d; have : total ([] : List Entry) = 0 := rfl
              omega
            · exact d.1), by simp only; omega⟩,
          by simp [granted], sm.1, sm.2.1, sm.2.2.1, sm.2.2.2.1⟩
      · rename_i hns1
        split
        · rename_i hpart
          refine ⟨_, _, _, rfl, .inr (.inl ⟨rfl, hpart.2, by omega, by omega⟩), fun _ => ⟨d1, d5, d6, ?_, by simp only; omega⟩,
            by simp [granted], sm.1, sm.2.1, sm.2.2.1, sm.2.2.2.1⟩
          intro _ hp
          rw [hpart.2] at hp; simp at hp
        · rename_i hnp
          obtain ⟨s3, h3, c3, f3⟩ := freeDirectAll_spec out2 K s2 [] (by rw [sm.1]; exact hk) (by simpa using d1)
          rw [h3]
          refine ⟨_, _, _, rfl, ?_, ?_, ?_, ?_⟩
          · split <;> simp
          · intro hg; exfalso; revert hg; unfold granted; split <;> simp
          · intro _
            refine ⟨c3, by rw [f3]; exact hal, fun hor => ?_⟩
            by_cases hpo : h.partialOk = true
            · have h0 : total out2 = 0 := by
                apply Decidable.byContradiction
                intro hne
                exact hnp ⟨by omega, hpo⟩
              cases hout2 : out2 with
              | nil => rfl
              | cons a l =>
                have := d6 a (by simp [hout2])
                simp [hout2, total] at h0
                omega
            · have hct : h.contiguous = true := by
                rcases hor with a | a
                · exact a
                · exact absurd a hpo
              rcases d7 hct (by simpa using hpo) with d | d
              · exact d
              · omega
          · rw [f3]; exact ⟨sm.1, sm.2.1, sm.2.2.1, sm.2.2.2.1⟩

theorem H_map_temp (l : List Entry) (t b : Nat) : H (l.map fun p => { p with temp := t }) b = H l b := by
  induction l with
  | nil => rfl
  | cons e l ih => simp only [List.map_cons, H_cons, ih]; rfl

theorem free_spec {s : St} {pieces K} (hk : KOk s.total K) (hc : Cons K s pieces)
    (hfirst : s.useSlabs = true → firstCount pieces ≤ highestSlab s.cache →
      ∀ p ∈ pieces, p.cnt ≤ highestSlab s.cache) :
    ∃ s', free s pieces = some s' ∧ Cons K s' [] ∧ s'.alloced = s.alloced - total pieces ∧
      s'.total = s.total ∧ s'.bpp = s.bpp ∧ s'.useSlabs = s.useSlabs ∧ s'.cache.length = s.cache.length := by
  unfold free
  simp only
  split
  · rename_i hu
    have hall : ∀ p ∈ pieces, p.cnt ≤ 2 ^ (s.cache.length - 1) := by
      rw [← highest_eq hc.1]
      exact hfirst hu.1 hu.2
    obtain ⟨c1, ex, e1, wf1, len1, cc1⟩ := tryFreeAll_spec (pieces.map fun p => { p with temp := 2 }) s.cache [] hc.1
      (by intro e he; simp at he; obtain ⟨a, ha, rfl⟩ := he; exact hall a ha)
    rw [e1]
    have hc1 : Cons K { s with cache := c1 } (ex ++ []) := by
      refine ⟨wf1, fun b => ?_⟩
      have h1 := cc1 b
      have h2 := hc.2 b
      rw [H_map_temp] at h1
      simp only [F, H_append, H_nil] at *
      omega
    obtain ⟨s2, h2, c2, f2⟩ := freeDirectAll_spec ex K { s with cache := c1 } [] hk hc1
    simp only [h2]
    refine ⟨_, rfl, c2, ?_⟩
    rw [f2]
    exact ⟨rfl, rfl, rfl, rfl, len1⟩
  · obtain ⟨s2, h2, c2, f2⟩ := freeDirectAll_spec pieces K s [] hk (by simpa using hc)
    simp only [h2]
    refine ⟨_, rfl, c2, ?_⟩
    rw [f2]
    exact ⟨rfl, rfl, rfl, rfl, rfl⟩

end HS.Varsize
