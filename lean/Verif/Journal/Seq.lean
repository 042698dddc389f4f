import Verif.Journal.Crash

namespace HS.Journal

/-- Facts about one offset inside the chunks of a stream. -/
theorem at_offset {w : World} (hw : WInv w) {s x : Nat} (h1 : (w.v.desc s).ds / w.v.cs ≤ x / w.v.cs)
    (h2 : x < (w.v.desc s).endOff) :
    ∃ c, (w.v.desc s).chunks[x / w.v.cs - (w.v.desc s).ds / w.v.cs]? = some c ∧
      offsetToChunk w.v.cs (w.v.desc s) x =
        some (c, x / w.v.cs - (w.v.desc s).ds / w.v.cs, x % w.v.cs) ∧
      byteAt w.v s x = (if x % w.v.cs < (w.v.priv c).eoc then some (w.v.data c (x % w.v.cs)) else none) ∧
      (w.v.priv c).eoc ≤ w.v.cs ∧ 0 < (w.v.priv c).eoc ∧
      (x / w.v.cs + 1) * w.v.cs ≤ (w.v.desc s).endOff := by
  have hcs := hw.g.cs
  obtain ⟨T, hT, _⟩ := hw.s s
  have hlt : x / w.v.cs < (w.v.desc s).ds / w.v.cs + (w.v.desc s).chunks.length := by
    rw [hT.endOff] at h2
    exact (Nat.div_lt_iff_lt_mul hcs).2 h2
  have hi : x / w.v.cs - (w.v.desc s).ds / w.v.cs < (w.v.desc s).chunks.length := by omega
  have hc := List.getElem?_eq_getElem hi
  generalize (w.v.desc s).chunks[x / w.v.cs - (w.v.desc s).ds / w.v.cs] = c at hc
  have ho : offsetToChunk w.v.cs (w.v.desc s) x =
        some (c, x / w.v.cs - (w.v.desc s).ds / w.v.cs, x % w.v.cs) := by
    rw [offsetToChunk_eq hcs, if_neg (by omega), hc]; rfl
  refine ⟨c, hc, ho, ?_, ?_, ?_, ?_⟩
  · unfold byteAt; rw [ho]
  · by_cases hl : x / w.v.cs - (w.v.desc s).ds / w.v.cs + 1 = (w.v.desc s).chunks.length
    · rw [hT.eocL _ c hc hl]
    · exact (hT.eocN _ c hc (by omega)).1
  · by_cases hl : x / w.v.cs - (w.v.desc s).ds / w.v.cs + 1 = (w.v.desc s).chunks.length
    · rw [hT.eocL _ c hc hl]; exact hcs
    · exact (hT.eocN _ c hc (by omega)).2.1
  · rw [hT.endOff]; exact Nat.mul_le_mul_right _ (by omega)

theorem filterMap_range' {f : Nat → Option Nat} {g : Nat → Nat} (x n : Nat)
    (h : ∀ i, i < n → f (x + i) = some (g i)) :
    (List.range' x n).filterMap f = (List.range n).map g := by
  induction n generalizing x g with
  | zero => rfl
  | succ n ih =>
    rw [List.range'_succ, List.filterMap_cons, List.range_succ_eq_map]
    have h0 := h 0 (by omega)
    simp only [Nat.add_zero] at h0
    rw [h0]
    simp only [List.map_cons, List.map_map]
    congr 1
    apply ih
    intro i hi
    have := h (i + 1) (by omega)
    rw [show x + 1 + i = x + (i + 1) by omega]
    exact this

theorem filterMap_range'_none {f : Nat → Option Nat} (x n : Nat)
    (h : ∀ i, i < n → f (x + i) = none) : (List.range' x n).filterMap f = [] := by
  rw [List.filterMap_eq_nil_iff]
  intro a ha
  rw [List.mem_range'_1] at ha
  have := h (a - x) (by omega)
  rwa [show x + (a - x) = a by omega] at this

theorem range'_split (x n m : Nat) : List.range' x (n + m) = List.range' x n ++ List.range' (x + n) m := by
  have := (List.range'_append (s := x) (m := n) (n := m) (step := 1)).symm
  simpa using this

/-- Cursor positions a sequential reader passes through: a data byte, or the very end. -/
def GoodCur (v : Dev) (s cur : Nat) : Prop :=
  cur = (v.desc s).endOff ∨
  ((v.desc s).ds / v.cs ≤ cur / v.cs ∧ cur < (v.desc s).endOff ∧ (byteAt v s cur).isSome)

theorem nextRead_good {w : World} (hw : WInv w) {s cur n : Nat} (hn : 0 < n)
    (h1 : (w.v.desc s).ds / w.v.cs ≤ cur / w.v.cs) (h2 : cur < (w.v.desc s).endOff)
    (h3 : (byteAt w.v s cur).isSome) :
    ∃ bs cur', nextRead w.v s cur n = .ok (some (bs, cur')) ∧ GoodCur w.v s cur' ∧ cur < cur' ∧
      cur' ≤ (w.v.desc s).endOff ∧
      (List.range' cur ((w.v.desc s).endOff - cur)).filterMap (byteAt w.v s) =
        bs ++ (List.range' cur' ((w.v.desc s).endOff - cur')).filterMap (byteAt w.v s) := by
  have hcs := hw.g.cs
  obtain ⟨c, hc, ho, hb, he1, he2, hE⟩ := at_offset hw h1 h2
  have hoe : cur % w.v.cs < (w.v.priv c).eoc := by
    rw [hb] at h3
    by_contra hlt
    rw [if_neg hlt] at h3; cases h3
  have hne : (w.v.desc s).chunks ≠ [] := by intro h; rw [h] at hc; simp at hc
  have hme := mod_eq cur w.v.cs
  have hE' : cur / w.v.cs * w.v.cs + w.v.cs ≤ (w.v.desc s).endOff := by
    rw [Nat.add_mul, Nat.one_mul] at hE; exact hE
  generalize hedef : (w.v.priv c).eoc = e at *
  generalize hodef : cur % w.v.cs = o at *
  -- bytes of this chunk
  have hinside : ∀ k, o + k < w.v.cs →
      byteAt w.v s (cur + k) = (if o + k < e then some (w.v.data c (o + k)) else none) := by
    intro k hk
    have hd : (cur + k) / w.v.cs = cur / w.v.cs := by
      apply div_unique
      · omega
      · rw [Nat.add_mul, Nat.one_mul]; omega
    have hm : (cur + k) % w.v.cs = o + k := by
      have := mod_eq (cur + k) w.v.cs
      rw [hd] at this; omega
    obtain ⟨c', hc', _, hb', _⟩ := at_offset (s := s) (x := cur + k) hw (by rw [hd]; exact h1) (by omega)
    rw [hd, hc] at hc'
    cases hc'
    rw [hb', hm, hedef]
  have hleft : (if o ≤ e then e - o else 2 ^ 64 - (o - e)) = e - o := if_pos (by omega)
  unfold nextRead
  simp only
  rw [if_neg hne, if_neg (by omega), if_neg (by omega), ho]
  simp only
  rw [hedef, if_neg (by omega), if_neg (by omega), hleft]
  have hpre : ∀ m, m ≤ e - o →
      pread w.v s cur m = .ok ((List.range m).map (fun i => w.v.data c (o + i))) := by
    intro m hm
    unfold pread
    rw [ho]
    simp only
    rw [Nat.min_eq_left (by omega)]
  have hbytes : ∀ m, m ≤ e - o →
      (List.range' cur m).filterMap (byteAt w.v s) = (List.range m).map (fun i => w.v.data c (o + i)) := by
    intro m hm
    apply filterMap_range'
    intro i hi
    rw [hinside i (by omega), if_pos (by omega)]
  by_cases ha : n ≥ e - o
  · simp only [ha, decide_true, if_true, true_and]
    rw [if_neg (show ¬ e - o = 0 by omega), hpre _ (le_refl _)]
    simp only
    refine ⟨_, _, rfl, ?_, by omega, by omega, ?_⟩
    · have hnext : cur + (e - o) + (w.v.cs - e) = (cur / w.v.cs + 1) * w.v.cs := by
        rw [Nat.add_mul, Nat.one_mul]; omega
      rw [hnext]
      by_cases hlast : (cur / w.v.cs + 1) * w.v.cs = (w.v.desc s).endOff
      · exact Or.inl hlast
      · right
        have hd : (cur / w.v.cs + 1) * w.v.cs / w.v.cs = cur / w.v.cs + 1 := Nat.mul_div_cancel _ hcs
        have hm : (cur / w.v.cs + 1) * w.v.cs % w.v.cs = 0 := Nat.mul_mod_left _ _
        obtain ⟨c', hc', _, hb', he1', he2', _⟩ := at_offset (s := s)
          (x := (cur / w.v.cs + 1) * w.v.cs) hw (by rw [hd]; omega) (by omega)
        refine ⟨by rw [hd]; omega, by omega, ?_⟩
        rw [hb', hm, if_pos he2']; rfl
    · rw [show (w.v.desc s).endOff - cur = (e - o) + ((w.v.cs - e) +
          ((w.v.desc s).endOff - (cur + (e - o) + (w.v.cs - e)))) by omega,
        range'_split, List.filterMap_append, hbytes _ (le_refl _), range'_split, List.filterMap_append,
        filterMap_range'_none (f := byteAt w.v s) (cur + (e - o)) (w.v.cs - e), List.nil_append]
      intro i hi
      rw [show cur + (e - o) + i = cur + ((e - o) + i) by omega, hinside _ (by omega), if_neg (by omega)]
  · have hf : decide (n ≥ e - o) = false := by simpa using ha
    simp only [hf, Bool.false_eq_true, if_false, false_and]
    rw [hpre n (by omega)]
    simp only
    refine ⟨_, _, rfl, ?_, by omega, by omega, ?_⟩
    · right
      have hd : (cur + n) / w.v.cs = cur / w.v.cs := by
        apply div_unique
        · omega
        · rw [Nat.add_mul, Nat.one_mul]; omega
      refine ⟨by rw [hd]; exact h1, by omega, ?_⟩
      rw [hinside n (by omega), if_pos (by omega)]; rfl
    · rw [show (w.v.desc s).endOff - cur = n + ((w.v.desc s).endOff - (cur + n)) by omega,
        range'_split, List.filterMap_append, hbytes n (by omega)]

theorem nextRead_end {v : Dev} {s n : Nat} : nextRead v s (v.desc s).endOff n = .ok none := by
  unfold nextRead
  simp only
  by_cases h : (v.desc s).chunks = []
  · rw [if_pos h]
  · rw [if_neg h, if_neg (by omega), if_pos (le_refl _)]

theorem readLoop_good {w : World} (hw : WInv w) {s n : Nat} (hn : 0 < n) :
    ∀ (k cur : Nat), (w.v.desc s).endOff - cur ≤ k → GoodCur w.v s cur → ∀ f, k < f →
      readLoop w.v s n f cur =
        some (.ok ((List.range' cur ((w.v.desc s).endOff - cur)).filterMap (byteAt w.v s))) := by
  intro k
  induction k with
  | zero =>
    intro cur hk hg f hf
    obtain ⟨f, rfl⟩ : ∃ m, f = m + 1 := ⟨f - 1, by omega⟩
    rcases hg with h | ⟨_, h, _⟩
    · subst h
      simp only [readLoop, nextRead_end]
      simp
    · omega
  | succ k ih =>
    intro cur hk hg f hf
    obtain ⟨f, rfl⟩ : ∃ m, f = m + 1 := ⟨f - 1, by omega⟩
    rcases hg with h | ⟨h1, h2, h3⟩
    · subst h
      simp only [readLoop, nextRead_end]
      simp
    · obtain ⟨bs, cur', e1, e2, e3, e4, e5⟩ := nextRead_good hw hn h1 h2 h3
      unfold readLoop
      rw [e1]
      simp only
      rw [ih cur' (by omega) e2 f (by omega)]
      simp only
      rw [e5]

theorem filter_range'_true {p : Nat → Bool} (x n : Nat) (h : ∀ i, i < n → p (x + i) = true) :
    (List.range' x n).filter p = List.range' x n := by
  rw [List.filter_eq_self]
  intro a ha
  rw [List.mem_range'_1] at ha
  have := h (a - x) (by omega)
  rwa [show x + (a - x) = a by omega] at this

theorem filter_range'_false {p : Nat → Bool} (x n : Nat) (h : ∀ i, i < n → p (x + i) = false) :
    (List.range' x n).filter p = [] := by
  rw [List.filter_eq_nil_iff]
  intro a ha
  rw [List.mem_range'_1] at ha
  have := h (a - x) (by omega)
  rw [show x + (a - x) = a by omega] at this
  simp [this]

theorem dataOffs_chunk {w : World} (hw : WInv w) {s i c st : Nat}
    (hc : (w.v.desc s).chunks[i]? = some c) (hst : st ≤ (w.v.priv c).eoc) :
    dataOffs w.v s (((w.v.desc s).ds / w.v.cs + i) * w.v.cs + st) =
      List.range' (((w.v.desc s).ds / w.v.cs + i) * w.v.cs + st) ((w.v.priv c).eoc - st) ++
      dataOffs w.v s (((w.v.desc s).ds / w.v.cs + (i + 1)) * w.v.cs) := by
  have hcs := hw.g.cs
  obtain ⟨T, hT, _⟩ := hw.s s
  have hi := (List.getElem?_eq_some_iff.1 hc).1
  have hEnd : ((w.v.desc s).ds / w.v.cs + (i + 1)) * w.v.cs ≤ (w.v.desc s).endOff := by
    rw [hT.endOff]; exact Nat.mul_le_mul_right _ (by omega)
  have hexp : ((w.v.desc s).ds / w.v.cs + (i + 1)) * w.v.cs =
      ((w.v.desc s).ds / w.v.cs + i) * w.v.cs + w.v.cs := by ring
  generalize hB : ((w.v.desc s).ds / w.v.cs + i) * w.v.cs = B at *
  have hb : ∀ k, k < w.v.cs → byteAt w.v s (B + k) =
      (if k < (w.v.priv c).eoc then some (w.v.data c k) else none) := by
    intro k hk
    have hd : (B + k) / w.v.cs = (w.v.desc s).ds / w.v.cs + i := by
      apply div_unique
      · omega
      · rw [Nat.add_mul, Nat.one_mul]; omega
    have hm : (B + k) % w.v.cs = k := by
      have := mod_eq (B + k) w.v.cs
      rw [hd] at this; omega
    obtain ⟨c', hc', _, hb', _⟩ := at_offset (s := s) (x := B + k) hw (by rw [hd]; omega) (by omega)
    rw [hd, show (w.v.desc s).ds / w.v.cs + i - (w.v.desc s).ds / w.v.cs = i by omega, hc] at hc'
    cases hc'
    rw [hb', hm]
  have hle : (w.v.priv c).eoc ≤ w.v.cs := by
    by_cases hl : i + 1 = (w.v.desc s).chunks.length
    · rw [hT.eocL i c hc hl]
    · exact (hT.eocN i c hc (by omega)).1
  unfold dataOffs
  rw [hexp, show (w.v.desc s).endOff - (B + st) = ((w.v.priv c).eoc - st) + ((w.v.cs - (w.v.priv c).eoc) +
    ((w.v.desc s).endOff - (B + w.v.cs))) by omega, range'_split, List.filter_append, range'_split,
    List.filter_append, filter_range'_true, filter_range'_false, List.nil_append]
  · congr 3; omega
  · intro k hk
    rw [show B + st + ((w.v.priv c).eoc - st) + k = B + ((w.v.priv c).eoc + k) by omega,
      hb _ (by omega), if_neg (by omega)]; rfl
  · intro k hk
    rw [show B + st + k = B + (st + k) by omega, hb _ (by omega), if_pos (by omega)]; rfl

theorem devOffLoop_spec {w : World} (hw : WInv w) {s : Nat} : ∀ (m i st n : Nat),
    i + m = (w.v.desc s).chunks.length →
    (∀ c, (w.v.desc s).chunks[i]? = some c → st ≤ (w.v.priv c).eoc) → (m = 0 → st = 0) →
    n ≤ (dataOffs w.v s (((w.v.desc s).ds / w.v.cs + i) * w.v.cs + st)).length →
    (dataOffs w.v s (((w.v.desc s).ds / w.v.cs + i) * w.v.cs + st) ++ [(w.v.desc s).endOff])[n]? =
      some (devOffLoop w.v.cs w.v.priv (((w.v.desc s).ds / w.v.cs + i) * w.v.cs + st) n st
        ((w.v.desc s).chunks.drop i)) := by
  have hcs := hw.g.cs
  obtain ⟨T, hT, _⟩ := hw.s s
  intro m
  induction m with
  | zero =>
    intro i st n him _ hst0 hn
    have hst := hst0 rfl
    subst hst
    have hi : i = (w.v.desc s).chunks.length := by omega
    subst hi
    rw [Nat.add_zero, ← hT.endOff] at hn ⊢
    have : dataOffs w.v s (w.v.desc s).endOff = [] := by unfold dataOffs; simp
    rw [this] at hn ⊢
    simp only [List.length_nil, Nat.le_zero] at hn
    subst hn
    simp [devOffLoop]
  | succ m ih =>
    intro i st n him hst _ hn
    have hlt : i < (w.v.desc s).chunks.length := by omega
    have hc := List.getElem?_eq_getElem hlt
    have hdrop : (w.v.desc s).chunks.drop i =
        (w.v.desc s).chunks[i] :: (w.v.desc s).chunks.drop (i + 1) := List.drop_eq_getElem_cons hlt
    generalize (w.v.desc s).chunks[i] = c at hc hdrop
    have hle : (w.v.priv c).eoc ≤ w.v.cs := by
      by_cases hl : i + 1 = (w.v.desc s).chunks.length
      · rw [hT.eocL i c hc hl]
      · exact (hT.eocN i c hc (by omega)).1
    rw [dataOffs_chunk hw hc (hst c hc)] at hn ⊢
    rw [hdrop]
    unfold devOffLoop
    simp only
    rw [Nat.min_eq_left hle]
    have hexp : ((w.v.desc s).ds / w.v.cs + (i + 1)) * w.v.cs =
      ((w.v.desc s).ds / w.v.cs + i) * w.v.cs + w.v.cs := by ring
    have hst' := hst c hc
    by_cases hr : n < (w.v.priv c).eoc - st
    · rw [if_pos hr, List.append_assoc, List.getElem?_append_left (by simpa using hr)]
      rw [List.getElem?_range' hr]; simp
    · rw [if_neg hr, List.append_assoc, List.getElem?_append_right (by simp; omega)]
      simp only [List.length_range']
      have := ih (i + 1) 0 (n - ((w.v.priv c).eoc - st)) (by omega) (fun c h => by omega) (fun _ => rfl)
        (by
          rw [Nat.add_zero]
          rw [List.length_append, List.length_range'] at hn
          omega)
      rw [Nat.add_zero] at this
      rw [this, hexp]
      congr 2; omega

end HS.Journal
