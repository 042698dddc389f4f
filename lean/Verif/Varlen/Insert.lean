import Verif.Varlen.Lemmas
/-!
# Inserting where there is room
-/
namespace HS.Varlen

/-- Nothing is written outside the records and objects. -/
def Safe (P : Params) (s s' : VN) : Prop := ∀ x, x < 6 ∨ P.size ≤ x → s'.mem x = s.mem x

theorem Safe.refl {P : Params} {s : VN} : Safe P s s := fun _ _ => rfl

theorem Safe.trans {P : Params} {s s' s'' : VN} (h : Safe P s s') (h' : Safe P s' s'') : Safe P s s'' :=
  fun x hx => (h' x hx).trans (h x hx)

theorem sum_perm {l l' : List Nat} (h : l.Perm l') : l.sum = l'.sum := by
  induction h with
  | nil => rfl
  | cons x _ ih => simp [ih]
  | swap x y l => simp; omega
  | trans _ _ h1 h2 => exact h1.trans h2

theorem pairwise_perm {l l' : List Rec} (h : l.Perm l') (hp : l.Pairwise Disj) : l'.Pairwise Disj :=
  hp.perm h (fun h => h.symm)

theorem ins_perm {A : Type} {l : List A} {i : Nat} {r : A} : (r :: l).Perm (l.take i ++ r :: l.drop i) := by
  have := (List.perm_middle (a := r) (l₁ := l.take i) (l₂ := l.drop i)).symm
  rwa [List.take_append_drop] at this

theorem sum_ins {l : List Rec} {i : Nat} {r : Rec} : ((l.take i ++ r :: l.drop i).map Rec.len).sum = r.len + (l.map Rec.len).sum := by
  rw [← sum_perm (ins_perm.map Rec.len)]
  simp

/-- The memory after `place`. -/
theorem place_mem {P : Params} {s : VN} {ind : Nat} {kb vb : Bytes} (h : Inv P s) (hi : ind ≤ s.n) (hf : P.kind.fits kb vb = true)
    (hr : recAt P.kind (s.n + 1) + kb.length + vb.length ≤ s.tail) :
    let s' := s.place P ind (kb.length + vb.length) kb vb
    s'.tail = s.tail - (kb.length + vb.length) ∧
    (∀ x, s.tail ≤ x → s'.mem x = s.mem x) ∧ (∀ x, x < 6 → s'.mem x = s.mem x) ∧
    (∀ i, i < ind → s'.nth P i = s.nth P i) ∧
    s'.nth P ind = { off := s.tail - (kb.length + vb.length), kl := kb.length, vl := vb.length } ∧
    (∀ i, ind ≤ i → i < s.n → s'.nth P (i + 1) = s.nth P i) ∧
    content s'.mem { off := s.tail - (kb.length + vb.length), kl := kb.length, vl := vb.length } = (kb, vb) := by
  have hh := h.high
  have hhi := h.hi
  have hlo := recAt_low (k := P.kind) (i := s.n + 1)
  have ht : u16 ((s.tail : Int) - ((kb.length + vb.length : Nat) : Int)) = s.tail - (kb.length + vb.length) := by
    have := u16_id (x := (s.tail : Int) - ((kb.length + vb.length : Nat) : Int)) (by omega) (by omega)
    omega
  have hrs : recAt P.kind (s.n + 1) = recAt P.kind ind + P.kind.rs + (s.n - ind) * P.kind.rs := by
    have : s.n + 1 = ind + 1 + (s.n - ind) := by omega
    rw [this, recAt_add, recAt_succ]
  generalize hT : s.tail - (kb.length + vb.length) = T at *
  have hTr : recAt P.kind (s.n + 1) ≤ T := by omega
  have hTe : T + kb.length + vb.length = s.tail := by omega
  intro s'
  have hs't : s'.tail = T := ht
  let a := recAt P.kind ind
  let m1 := write s.mem (a + P.kind.rs) (read s.mem a ((s.n - ind) * P.kind.rs))
  let m2 := setKl P.kind m1 a kb.length
  let m3 := setVl P.kind m2 a vb.length
  let m4 := setFld m3 a T
  let m5 := write m4 T kb
  let m6 := write m5 (T + kb.length) vb
  have hm : s'.mem = m6 := by
    show write (write (setFld _ _ (u16 _)) (u16 _) kb) (u16 _ + kb.length) vb = m6
    rw [ht]
  have ha6 : 6 ≤ a := recAt_low
  have hrs4 := rs_pos (k := P.kind)
  -- Below the objects nothing is written after the record.
  have e64 : ∀ x, x < T → m6 x = m4 x := by
    intro x hx
    show write m5 _ _ x = _
    rw [write_out (by omega)]
    show write m4 _ _ x = _
    rw [write_out (by omega)]
  have e41 : ∀ x, x < a ∨ a + P.kind.rs ≤ x → m4 x = m1 x := by
    intro x hx
    show setFld m3 _ _ x = _
    rw [setFld_out (by omega)]
    show setVl _ m2 _ _ x = _
    rw [setVl_out (by omega)]
    show setKl _ m1 _ _ x = _
    rw [setKl_out (by omega)]
  have e10 : ∀ x, x < a + P.kind.rs → m1 x = s.mem x := fun x hx => write_out (Or.inl hx)
  have e1s : ∀ j, j < (s.n - ind) * P.kind.rs → m1 (a + P.kind.rs + j) = s.mem (a + j) := by
    intro j hj
    show write _ _ _ _ = _
    rw [write_in (by simpa using hj), read_getD hj]
  refine ⟨hs't, ?_, ?_, ?_, ?_, ?_, ?_⟩
  · intro x hx
    rw [hm]
    show write m5 _ _ x = _
    rw [write_out (by omega)]
    show write m4 _ _ x = _
    rw [write_out (by omega), e41 x (by omega)]
    exact write_out (by rw [read_length]; omega)
  · intro x hx
    rw [hm, e64 x (by omega), e41 x (by omega), e10 x (by omega)]
  · intro i hii
    simp only [VN.nth, hm]
    apply recOf_congr
    intro j hj
    have := recAt_lt (k := P.kind) hii
    have hle : recAt P.kind ind ≤ recAt P.kind (s.n + 1) := recAt_le (by omega)
    have hax : recAt P.kind i + j < a := by show _ < recAt P.kind ind; omega
    rw [e64 _ (by omega), e41 _ (Or.inl hax), e10 _ (by omega)]
  · simp only [VN.nth, hm]
    have h64 : recOf P.kind m6 a = recOf P.kind m4 a := recOf_congr (fun j hj => e64 _ (by show recAt P.kind ind + j < T; omega))
    show recOf P.kind m6 a = _
    rw [h64]
    show recOf P.kind (setFld m3 a T) a = _
    rw [recOf_off (by omega)]
    show { recOf P.kind (setVl _ (setKl _ _ _ _) _ _) a with off := T } = _
    rw [recOf_lens hf (by omega) (by omega)]
  · intro i hi1 hi2
    simp only [VN.nth, hm]
    apply recOf_congr
    intro j hj
    have h1 : recAt P.kind (i + 1) + j = a + P.kind.rs + ((i - ind) * P.kind.rs + j) := by
      have : i + 1 = ind + 1 + (i - ind) := by omega
      rw [this, recAt_add, recAt_succ]
      show recAt P.kind ind + P.kind.rs + (i - ind) * P.kind.rs + j = recAt P.kind ind + P.kind.rs + ((i - ind) * P.kind.rs + j)
      omega
    have h2 : recAt P.kind i + j = a + ((i - ind) * P.kind.rs + j) := by
      have : i = ind + (i - ind) := by omega
      rw [this, recAt_add]
      show recAt P.kind ind + (i - (ind)) * P.kind.rs + j = recAt P.kind ind + _
      have : ind + (i - ind) - ind = i - ind := by omega
      rw [this]
      omega
    have h3 : (i - ind) * P.kind.rs + j < (s.n - ind) * P.kind.rs := by
      have : (i - ind + 1) * P.kind.rs ≤ (s.n - ind) * P.kind.rs := Nat.mul_le_mul_right _ (by omega)
      rw [Nat.add_mul] at this
      omega
    have haeq : a = recAt P.kind ind := rfl
    rw [h1, e64 _ (by omega), e41 _ (by omega), e1s _ h3, h2]
  · rw [hm]
    simp only [content, Prod.mk.injEq]
    constructor
    · show read (write m5 _ _) _ _ = _
      rw [read_other (by omega)]
      exact read_write
    · exact read_write

theorem place_inv {P : Params} {s : VN} {ind : Nat} {kb vb : Bytes} (h : Inv P s) (hi : ind ≤ s.n) (hf : P.kind.fits kb vb = true)
    (hr : recAt P.kind (s.n + 1) + kb.length + vb.length ≤ s.tail) (hav : kb.length + vb.length + P.kind.rs ≤ s.avail) :
    let s' := s.place P ind (kb.length + vb.length) kb vb
    Inv P s' ∧ s'.ents P = (s.ents P).take ind ++ (kb, vb) :: (s.ents P).drop ind ∧ Safe P s s' ∧
      s'.avail + (kb.length + vb.length + P.kind.rs) = s.avail ∧ s'.n = s.n + 1 ∧ s'.leaf = s.leaf ∧ s'.edge = s.edge := by
  obtain ⟨h1, h2, h3, h4, h5, h6, h7⟩ := place_mem h hi hf hr
  have hh := h.high
  have hhi := h.hi
  have hlow := recAt_low (k := P.kind) (i := s.n + 1)
  have hsp := h.space
  have hl := h.lo
  intro s'
  have hn : s'.n = s.n + 1 := rfl
  have hrecs : s'.recs P = (s.recs P).take ind ++ { off := s.tail - (kb.length + vb.length), kl := kb.length, vl := vb.length } :: (s.recs P).drop ind :=
    ins_map hi h4 h5 h6
  have hav' : s'.avail + (kb.length + vb.length + P.kind.rs) = s.avail := by
    have : s'.avail = u16 ((s.avail : Int) - (((kb.length + vb.length : Nat) : Int) + P.kind.rs)) := rfl
    have h8 := u16_id (x := (s.avail : Int) - (((kb.length + vb.length : Nat) : Int) + P.kind.rs)) (by omega) (by omega)
    omega
  have hold : ∀ r ∈ s.recs P, content s'.mem r = content s.mem r := by
    intro r hrm
    have := h.bnd r hrm
    exact content_congr (fun x hx _ => h2 x (by omega))
  refine ⟨⟨h.low, h.high, h.init, ?_, ?_, ?_, ?_, ?_⟩, ?_, ?_, hav', hn, rfl, rfl⟩
  · rw [hn, h1]
    omega
  · rw [h1]
    omega
  · intro r hrm
    rw [hrecs] at hrm
    have hrm := (ins_perm (A := Rec)).mem_iff.2 hrm
    rw [h1]
    rcases List.mem_cons.1 hrm with rfl | hrm
    · simp only [Rec.len]
      omega
    · have := h.bnd r hrm
      omega
  · rw [hrecs]
    refine pairwise_perm ins_perm (List.pairwise_cons.2 ⟨?_, h.disj⟩)
    intro r hrm
    have := h.bnd r hrm
    simp only [Disj, Rec.len] at *
    omega
  · rw [hrecs, hn, sum_ins, recAt_succ]
    simp only [Rec.len]
    omega
  · rw [ents_eq, hrecs, List.map_append, List.map_cons, h7, ents_eq, ← List.map_take, ← List.map_drop]
    congr 1
    · exact List.map_congr_left (fun r hrm => hold r (List.mem_of_mem_take hrm))
    · congr 1
      exact List.map_congr_left (fun r hrm => hold r (List.mem_of_mem_drop hrm))
  · intro x hx
    rcases hx with hx | hx
    · exact h3 x hx
    · exact h2 x (by omega)

end HS.Varlen
