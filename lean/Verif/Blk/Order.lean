import Verif.Blk.Props
/-!
# C04: the order of ids with several pieces

`MultiBlkId::compare` (blk.cpp:151-185) puts the pieces of both ids into a
`boost::icl::interval_set<uint64_t>` each and compares these.  The library is not part of this code
base; modelled is its documented behaviour: a set keeps the maximal intervals of what was inserted, in
ascending order (intervals that touch or overlap are joined, empty ones ignored), and two sets are
compared like words, interval by interval, an interval being smaller when its lower bound is, or, with
equal lower bounds, its upper bound.
-/
namespace HS.Blk

/-- `interval_set::insert` of the right-open interval `[lo, hi)`. -/
def insertIv (lo hi : Nat) : List (Nat × Nat) → List (Nat × Nat)
  | [] => if lo < hi then [(lo, hi)] else []
  | (a, b) :: t =>
    if ¬ lo < hi then (a, b) :: t
    else if hi < a then (lo, hi) :: (a, b) :: t
    else if b < lo then (a, b) :: insertIv lo hi t
    else insertIv (min lo a) (max hi b) t

/-- `blk_num() + blk_count()` (blk.cpp:169, 175): 32-bit arithmetic. -/
def BlkId.endNum (b : BlkId) : BitVec 32 := b.blkNum.setWidth 32 + b.nblks.setWidth 32

/-- The two loops of `MultiBlkId::compare` (blk.cpp:166-176): the interval set of an id's pieces. -/
def MultiBlkId.intervals (m : MultiBlkId) : List (Nat × Nat) :=
  m.pieces.1.foldl (fun s b => insertIv b.blkNum.toNat b.endNum.toNat s) []

/-- `operator<` and `operator>` of interval sets, as blk.cpp:178-184 uses them. -/
def lexCompare : List (Nat × Nat) → List (Nat × Nat) → Int
  | [], [] => 0
  | [], _ :: _ => -1
  | _ :: _, [] => 1
  | (a, b) :: s, (c, d) :: t =>
    if a < c ∨ (a = c ∧ b < d) then -1
    else if c < a ∨ (a = c ∧ d < b) then 1
    else lexCompare s t

/-- `MultiBlkId::compare`, blk.cpp:151-185. -/
def MultiBlkId.compareAll (l r : MultiBlkId) : Int :=
  MultiBlkId.compare (fun l r => lexCompare l.intervals r.intervals) l r

/-! ## Interval sets -/

/-- `x` is in one of the intervals. -/
def InIv (x : Nat) (l : List (Nat × Nat)) : Prop := ∃ p ∈ l, p.1 ≤ x ∧ x < p.2

/-- Intervals are not empty, ascending and do not touch; the first starts at `n` or later. -/
def Asc : Nat → List (Nat × Nat) → Prop
  | _, [] => True
  | n, (a, b) :: t => n ≤ a ∧ a < b ∧ Asc (b + 1) t

theorem inIv_nil {x : Nat} : ¬ InIv x [] := by rintro ⟨p, hp, _⟩; cases hp

theorem inIv_cons {x a b : Nat} {t : List (Nat × Nat)} : InIv x ((a, b) :: t) ↔ (a ≤ x ∧ x < b) ∨ InIv x t := by
  simp [InIv]

theorem Asc.mono : ∀ {l : List (Nat × Nat)} {n m : Nat}, Asc n l → m ≤ n → Asc m l
  | [], _, _, _, _ => trivial
  | (_, _) :: _, _, _, h, hm => ⟨Nat.le_trans hm h.1, h.2⟩

theorem Asc.le : ∀ {l : List (Nat × Nat)} {n x : Nat}, Asc n l → InIv x l → n ≤ x
  | [], _, _, _, h => absurd h inIv_nil
  | (a, b) :: t, n, x, h, hx => by
    obtain ⟨h1, h2, h3⟩ := h
    rcases inIv_cons.1 hx with hx | hx
    · omega
    · have := h3.le hx; omega

theorem insertIv_mem (x : Nat) : ∀ (l : List (Nat × Nat)) (lo hi : Nat), InIv x (insertIv lo hi l) ↔ (lo ≤ x ∧ x < hi) ∨ InIv x l
  | [], lo, hi => by
    simp only [insertIv]
    split
    · simp [inIv_cons]
    · constructor
      · exact .inr
      · rintro (h | h)
        · omega
        · exact h
  | (a, b) :: t, lo, hi => by
    simp only [insertIv]
    by_cases h1 : ¬ lo < hi
    · rw [if_pos h1]
      constructor
      · exact .inr
      · rintro (h | h)
        · omega
        · exact h
    · rw [if_neg h1]
      by_cases h2 : hi < a
      · rw [if_pos h2, inIv_cons]
      · rw [if_neg h2]
        by_cases h3 : b < lo
        · rw [if_pos h3, inIv_cons, insertIv_mem x t, inIv_cons]
          constructor
          · rintro (h | h | h)
            · exact .inr (.inl h)
            · exact .inl h
            · exact .inr (.inr h)
          · rintro (h | h | h)
            · exact .inr (.inl h)
            · exact .inl h
            · exact .inr (.inr h)
        · rw [if_neg h3, insertIv_mem x t, inIv_cons]
          by_cases ht : InIv x t
          · simp [ht]
          · simp only [ht, or_false]
            omega

theorem insertIv_asc : ∀ (l : List (Nat × Nat)) (n lo hi : Nat), Asc n l → n ≤ lo → Asc n (insertIv lo hi l)
  | [], n, lo, hi, _, hn => by
    simp only [insertIv]
    split
    · exact ⟨hn, by assumption, trivial⟩
    · trivial
  | (a, b) :: t, n, lo, hi, h, hn => by
    obtain ⟨g1, g2, g3⟩ := h
    simp only [insertIv]
    by_cases h1 : ¬ lo < hi
    · rw [if_pos h1]; exact ⟨g1, g2, g3⟩
    · rw [if_neg h1]
      by_cases h2 : hi < a
      · rw [if_pos h2]; exact ⟨hn, by omega, by omega, g2, g3⟩
      · rw [if_neg h2]
        by_cases h3 : b < lo
        · rw [if_pos h3]; exact ⟨g1, g2, insertIv_asc t (b + 1) lo hi g3 (by omega)⟩
        · rw [if_neg h3]
          exact insertIv_asc t n _ _ (g3.mono (by omega)) (by omega)

/-- The same blocks give the same set. -/
theorem asc_ext : ∀ (l r : List (Nat × Nat)) (n : Nat), Asc n l → Asc n r → (∀ x, InIv x l ↔ InIv x r) → l = r
  | [], [], _, _, _, _ => rfl
  | [], (c, d) :: t, _, _, hr, h => absurd ((h c).2 (inIv_cons.2 (.inl ⟨Nat.le_refl _, hr.2.1⟩))) inIv_nil
  | (a, b) :: s, [], _, hl, _, h => absurd ((h a).1 (inIv_cons.2 (.inl ⟨Nat.le_refl _, hl.2.1⟩))) inIv_nil
  | (a, b) :: s, (c, d) :: t, n, ⟨l1, l2, l3⟩, ⟨r1, r2, r3⟩, h => by
    have hl : ∀ x, InIv x ((a, b) :: s) → a ≤ x := fun x hx => by
      rcases inIv_cons.1 hx with hx | hx
      · exact hx.1
      · have := l3.le hx; omega
    have hr : ∀ x, InIv x ((c, d) :: t) → c ≤ x := fun x hx => by
      rcases inIv_cons.1 hx with hx | hx
      · exact hx.1
      · have := r3.le hx; omega
    have e1 : c ≤ a := hr a ((h a).1 (inIv_cons.2 (.inl ⟨Nat.le_refl _, l2⟩)))
    have e2 : a ≤ c := hl c ((h c).2 (inIv_cons.2 (.inl ⟨Nat.le_refl _, r2⟩)))
    have e : a = c := by omega
    subst e
    have e3 : ¬ b < d := fun hlt => by
      rcases inIv_cons.1 ((h b).2 (inIv_cons.2 (.inl ⟨by omega, hlt⟩))) with hx | hx
      · omega
      · have := l3.le hx; omega
    have e4 : ¬ d < b := fun hlt => by
      rcases inIv_cons.1 ((h d).1 (inIv_cons.2 (.inl ⟨by omega, hlt⟩))) with hx | hx
      · omega
      · have := r3.le hx; omega
    have e : b = d := by omega
    subst e
    have := asc_ext s t (b + 1) l3 r3 (fun x => by
      constructor
      · intro hx
        have hb := l3.le hx
        rcases inIv_cons.1 ((h x).1 (inIv_cons.2 (.inr hx))) with g | g
        · omega
        · exact g
      · intro hx
        have hb := r3.le hx
        rcases inIv_cons.1 ((h x).2 (inIv_cons.2 (.inr hx))) with g | g
        · omega
        · exact g)
    rw [this]

/-! ## The comparison of sets -/

theorem lex_zero : ∀ (s t : List (Nat × Nat)), lexCompare s t = 0 ↔ s = t
  | [], [] => by simp [lexCompare]
  | [], _ :: _ => by simp [lexCompare]
  | _ :: _, [] => by simp [lexCompare]
  | (a, b) :: s, (c, d) :: t => by
    simp only [lexCompare, List.cons.injEq, Prod.mk.injEq]
    by_cases h1 : a < c ∨ (a = c ∧ b < d)
    · rw [if_pos h1]; simp; omega
    · rw [if_neg h1]
      by_cases h2 : c < a ∨ (a = c ∧ d < b)
      · rw [if_pos h2]; simp; omega
      · rw [if_neg h2, lex_zero s t]
        have : a = c ∧ b = d := by omega
        simp [this]

theorem lex_neg : ∀ (s t : List (Nat × Nat)), lexCompare t s = - lexCompare s t
  | [], [] => by simp [lexCompare]
  | [], _ :: _ => by simp [lexCompare]
  | _ :: _, [] => by simp [lexCompare]
  | (a, b) :: s, (c, d) :: t => by
    simp only [lexCompare]
    by_cases h1 : a < c ∨ (a = c ∧ b < d)
    · rw [if_neg (by omega), if_pos (by omega), if_pos h1]; simp
    · by_cases h2 : c < a ∨ (a = c ∧ d < b)
      · rw [if_pos (by omega), if_neg h1, if_pos h2]
      · rw [if_neg (by omega), if_neg (by omega), if_neg h1, if_neg h2]
        exact lex_neg s t

theorem lex_trans : ∀ (s t u : List (Nat × Nat)), lexCompare s t < 0 → lexCompare t u < 0 → lexCompare s u < 0
  | [], [], _, h, _ => by simp [lexCompare] at h
  | [], _ :: _, [], _, h => by simp [lexCompare] at h
  | [], _ :: _, _ :: _, _, _ => by simp [lexCompare]
  | _ :: _, [], _, h, _ => by simp [lexCompare] at h
  | _ :: _, _ :: _, [], _, h => by simp [lexCompare] at h
  | (a, b) :: s, (c, d) :: t, (e, f) :: u, h1, h2 => by
    simp only [lexCompare] at h1 h2 ⊢
    by_cases g1 : a < c ∨ (a = c ∧ b < d)
    · by_cases g3 : e < c ∨ (c = e ∧ f < d)
      · rw [if_neg (by omega), if_pos g3] at h2; omega
      · rw [if_pos (by omega)]; omega
    · rw [if_neg g1] at h1
      by_cases g2 : c < a ∨ (a = c ∧ d < b)
      · rw [if_pos g2] at h1; omega
      · rw [if_neg g2] at h1
        by_cases g3 : c < e ∨ (c = e ∧ d < f)
        · rw [if_pos (by omega)]; omega
        · rw [if_neg g3] at h2
          by_cases g4 : e < c ∨ (c = e ∧ f < d)
          · rw [if_pos g4] at h2; omega
          · rw [if_neg g4] at h2
            rw [if_neg (by omega), if_neg (by omega)]
            exact lex_trans s t u h1 h2

/-! ## Ids -/

/-- Block `x` of its chunk belongs to the id: one of the pieces that iterating it yields has it. -/
def MultiBlkId.Has (m : MultiBlkId) (x : Nat) : Prop :=
  ∃ b ∈ m.pieces.1, b.blkNum.toNat ≤ x ∧ x < b.blkNum.toNat + b.nblks.toNat

/-- The 32-bit sum does not wrap: block numbers have 31 bits. -/
theorem endNum_eq (b : BlkId) : b.endNum.toNat = b.blkNum.toNat + b.nblks.toNat := by
  have h1 : b.nblks.toNat < 2 ^ 16 := b.nblks.isLt
  have h2 : b.blkNum.toNat < 2 ^ 31 := b.blkNum.isLt
  simp only [BlkId.endNum, BitVec.toNat_add, BitVec.toNat_setWidth]
  omega

theorem intervals_aux : ∀ (ps : List BlkId) (s : List (Nat × Nat)), Asc 0 s →
    Asc 0 (ps.foldl (fun s b => insertIv b.blkNum.toNat b.endNum.toNat s) s) ∧
    ∀ x, InIv x (ps.foldl (fun s b => insertIv b.blkNum.toNat b.endNum.toNat s) s) ↔
      InIv x s ∨ ∃ b ∈ ps, b.blkNum.toNat ≤ x ∧ x < b.endNum.toNat
  | [], s, h => by simp [h]
  | b :: ps, s, h => by
    have := intervals_aux ps (insertIv b.blkNum.toNat b.endNum.toNat s) (insertIv_asc _ _ _ _ h (Nat.zero_le _))
    refine ⟨this.1, fun x => ?_⟩
    rw [List.foldl_cons, this.2 x, insertIv_mem]
    simp only [List.mem_cons, exists_eq_or_imp]
    constructor
    · rintro ((h | h) | h)
      · exact .inr (.inl h)
      · exact .inl h
      · exact .inr (.inr h)
    · rintro (h | h | h)
      · exact .inl (.inr h)
      · exact .inl (.inl h)
      · exact .inr h

theorem intervals_asc (m : MultiBlkId) : Asc 0 m.intervals := (intervals_aux m.pieces.1 [] trivial).1

theorem intervals_has (m : MultiBlkId) (x : Nat) : InIv x m.intervals ↔ m.Has x := by
  have := (intervals_aux m.pieces.1 [] trivial).2 x
  rw [MultiBlkId.intervals, this]
  simp only [inIv_nil, false_or, MultiBlkId.Has]
  constructor
  · rintro ⟨b, hb, h⟩; rw [endNum_eq b] at h; exact ⟨b, hb, h⟩
  · rintro ⟨b, hb, h⟩; refine ⟨b, hb, ?_⟩; rw [endNum_eq b]; exact h

/-- The pieces of an id with one piece. -/
theorem intervals_single (m : MultiBlkId) (h : m.numPieces = 1) :
    m.intervals = [(m.base.blkNum.toNat, m.base.blkNum.toNat + m.base.nblks.toNat)] ∧ 0 < m.base.nblks.toNat := by
  have hv : m.base.isValid = true := by
    cases hx : m.base.isValid with
    | true => rfl
    | false => simp [MultiBlkId.numPieces, hx] at h
  have hl : m.addln = [] := by
    simp [MultiBlkId.numPieces, hv] at h; exact h
  have hpos : 0 < m.base.nblks.toNat := by simpa [BlkId.isValid] using hv
  refine ⟨?_, hpos⟩
  rw [MultiBlkId.intervals, pieces_valid m hv, hl]
  simp [insertIv, endNum_eq, BlkId.mk3, hpos]

/-- The shortcut agrees with the comparison of the sets. -/
theorem compareAll_eq (l r : MultiBlkId) : l.compareAll r =
    if l.base.chunk.toNat < r.base.chunk.toNat then -1
    else if r.base.chunk.toNat < l.base.chunk.toNat then 1
    else lexCompare l.intervals r.intervals := by
  simp only [MultiBlkId.compareAll, MultiBlkId.compare, BitVec.lt_def, gt_iff_lt]
  by_cases h1 : l.base.chunk.toNat < r.base.chunk.toNat
  · rw [if_pos h1, if_pos h1]
  · rw [if_neg h1, if_neg h1]
    by_cases h2 : r.base.chunk.toNat < l.base.chunk.toNat
    · rw [if_pos h2, if_pos h2]
    · rw [if_neg h2, if_neg h2]
      by_cases h3 : l.numPieces = 1 ∧ r.numPieces = 1
      · rw [if_pos h3, (intervals_single l h3.1).1, (intervals_single r h3.2).1]
        simp only [BlkId.compare, BitVec.lt_def, gt_iff_lt, lexCompare]
        rw [if_neg h1, if_neg h2]
        split
        · rw [if_pos (by omega)]
        · split
          · rw [if_neg (by omega), if_pos (by omega)]
          · split
            · rw [if_pos (by omega)]
            · split
              · rw [if_neg (by omega), if_pos (by omega)]
              · rw [if_neg (by omega), if_neg (by omega)]
      · rw [if_neg h3]

/-- **C04** Ids with several pieces: the comparison is zero exactly on ids of the same chunk with the
same blocks, in however many pieces and in whatever order. -/
theorem C04_multi_zero (l r : MultiBlkId) :
    l.compareAll r = 0 ↔ l.base.chunk.toNat = r.base.chunk.toNat ∧ ∀ x, l.Has x ↔ r.Has x := by
  rw [compareAll_eq l r]
  by_cases h1 : l.base.chunk.toNat < r.base.chunk.toNat
  · rw [if_pos h1]; simp; omega
  · rw [if_neg h1]
    by_cases h2 : r.base.chunk.toNat < l.base.chunk.toNat
    · rw [if_pos h2]; simp; omega
    · rw [if_neg h2, lex_zero]
      constructor
      · intro e
        exact ⟨by omega, fun x => by rw [← intervals_has l, ← intervals_has r, e]⟩
      · rintro ⟨_, e⟩
        exact asc_ext _ _ 0 (intervals_asc l) (intervals_asc r) (fun x => by rw [intervals_has l, intervals_has r]; exact e x)

/-- **C04** It is antisymmetric … -/
theorem C04_multi_antisymm (l r : MultiBlkId) : r.compareAll l = - l.compareAll r := by
  rw [compareAll_eq r l, compareAll_eq l r]
  by_cases h1 : l.base.chunk.toNat < r.base.chunk.toNat
  · rw [if_neg (by omega), if_pos h1, if_pos h1]; simp
  · by_cases h2 : r.base.chunk.toNat < l.base.chunk.toNat
    · rw [if_pos h2, if_neg h1, if_pos h2]
    · rw [if_neg h2, if_neg h1, if_neg h1, if_neg h2]
      exact lex_neg _ _

/-- **C04** … and transitive, so that such ids can be keys of ordered maps. -/
theorem C04_multi_trans (l m r : MultiBlkId)
    (h1 : l.compareAll m < 0) (h2 : m.compareAll r < 0) : l.compareAll r < 0 := by
  rw [compareAll_eq l m] at h1
  rw [compareAll_eq m r] at h2
  rw [compareAll_eq l r]
  by_cases g1 : l.base.chunk.toNat < m.base.chunk.toNat
  · by_cases g2 : r.base.chunk.toNat < m.base.chunk.toNat
    · rw [if_neg (by omega), if_pos g2] at h2; omega
    · rw [if_pos (by omega)]; omega
  · rw [if_neg g1] at h1
    by_cases g2 : m.base.chunk.toNat < l.base.chunk.toNat
    · rw [if_pos g2] at h1; omega
    · rw [if_neg g2] at h1
      by_cases g3 : m.base.chunk.toNat < r.base.chunk.toNat
      · rw [if_pos (by omega)]; omega
      · rw [if_neg g3] at h2
        by_cases g4 : r.base.chunk.toNat < m.base.chunk.toNat
        · rw [if_pos g4] at h2; omega
        · rw [if_neg g4] at h2
          rw [if_neg (by omega), if_neg (by omega)]
          exact lex_trans _ _ _ h1 h2

/-- **C04** The order: by chunk, then, for ids of the same chunk with one piece each, by block number,
then by count. -/
theorem C04_multi_single (l r : MultiBlkId) (hl : l.numPieces = 1) (hr : r.numPieces = 1) :
    l.compareAll r = BlkId.compare l.base r.base := by
  simp only [MultiBlkId.compareAll, MultiBlkId.compare, hl, hr, BlkId.compare]
  repeat' split
  all_goals simp_all

/-- Two ids with the same blocks in different pieces, and a chain of three ids, two of them with
several pieces. -/
def idA : MultiBlkId := ⟨⟨1, 10, 4, 2⟩, [⟨20, 5⟩]⟩
def idB : MultiBlkId := ⟨⟨1, 20, 5, 2⟩, [⟨12, 2⟩, ⟨10, 2⟩]⟩
def idC : MultiBlkId := ⟨⟨1, 10, 4, 2⟩, [⟨21, 5⟩]⟩
def idD : MultiBlkId := ⟨⟨1, 11, 1, 2⟩, []⟩

example : idA.compareAll idB = 0 ∧ idA.compareAll idC < 0 ∧ idC.compareAll idD < 0 ∧ idA.numPieces = 2 ∧ idB.numPieces = 3 ∧
    idD.numPieces = 1 := by
  decide

end HS.Blk
