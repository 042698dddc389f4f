import Verif.Varlen.Model
/-!
# Records, lists of records and their memory
-/
namespace HS.Varlen

theorem u16_id {x : Int} (h0 : 0 ≤ x) (h1 : x < 65536) : (u16 x : Int) = x := by
  unfold u16
  omega

theorem u16_nat {x : Nat} (h1 : x < 65536) : u16 x = x := by
  unfold u16
  omega

/-! ## Fields -/

theorem fld_congr {m m' : Mem} {a a' : Nat} (h0 : m a = m' a') (h1 : m (a + 1) = m' (a' + 1)) : fld m a = fld m' a' := by
  simp [fld, h0, h1]

theorem setFld_out {m : Mem} {a x v : Nat} (h : x < a ∨ a + 2 ≤ x) : setFld m a v x = m x := by
  apply write_out
  simpa using h

theorem fld_set {m : Mem} {a v : Nat} (h : v < 16384) : fld (setFld m a v) a = v := by
  have h0 : setFld m a v a = v % 256 := by
    have := write_in (m := m) (a := a) (i := 0) (bs := [v % 256, v / 256 % 64 + m (a + 1) / 64 % 4 * 64]) (by simp)
    simpa [setFld] using this
  have h1 : setFld m a v (a + 1) = v / 256 % 64 + m (a + 1) / 64 % 4 * 64 := by
    have := write_in (m := m) (a := a) (i := 1) (bs := [v % 256, v / 256 % 64 + m (a + 1) / 64 % 4 * 64]) (by simp)
    simpa [setFld] using this
  simp only [fld, h0, h1]
  omega

theorem fld_other {m : Mem} {a b v : Nat} (h : b + 2 ≤ a ∨ a + 2 ≤ b) : fld (setFld m a v) b = fld m b := by
  apply fld_congr
  · exact setFld_out (by omega)
  · exact setFld_out (by omega)

theorem recOf_congr {k : Kind} {m m' : Mem} {a a' : Nat} (h : ∀ j, j < k.rs → m (a + j) = m' (a' + j)) : recOf k m a = recOf k m' a' := by
  have e : ∀ j, j + 1 < k.rs → fld m (a + j) = fld m' (a' + j) := by
    intro j hj
    apply fld_congr
    · exact h j (by omega)
    · have := h (j + 1) hj
      simpa [Nat.add_assoc] using this
  cases k with
  | varKey vs =>
    simp only [recOf, Rec.mk.injEq, and_true]
    exact ⟨e 0 (by simp [Kind.rs]), e 2 (by simp [Kind.rs])⟩
  | varValue ks =>
    simp only [recOf, Rec.mk.injEq, true_and]
    exact ⟨e 0 (by simp [Kind.rs]), e 2 (by simp [Kind.rs])⟩
  | varObj =>
    simp only [recOf, Rec.mk.injEq]
    exact ⟨e 0 (by simp [Kind.rs]), e 2 (by simp [Kind.rs]), e 4 (by simp [Kind.rs])⟩

theorem rs_pos {k : Kind} : 4 ≤ k.rs := by cases k <;> simp [Kind.rs]

theorem rs_le {k : Kind} : k.rs ≤ 6 := by cases k <;> simp [Kind.rs]

theorem setKl_out {k : Kind} {m : Mem} {a x v : Nat} (h : x < a + 2 ∨ a + k.rs ≤ x) : setKl k m a v x = m x := by
  cases k with
  | varKey vs => exact setFld_out (by simp only [Kind.rs] at h; omega)
  | varValue ks => rfl
  | varObj => exact setFld_out (by simp only [Kind.rs] at h; omega)

theorem setVl_out {k : Kind} {m : Mem} {a x v : Nat} (h : x < a + 2 ∨ a + k.rs ≤ x) : setVl k m a v x = m x := by
  cases k with
  | varKey vs => rfl
  | varValue ks => exact setFld_out (by simp only [Kind.rs] at h; omega)
  | varObj => exact setFld_out (by simp only [Kind.rs] at h; omega)

/-- Writing the lengths of a record. -/
theorem recOf_lens {k : Kind} {m : Mem} {a : Nat} {kb vb : Bytes} (hf : k.fits kb vb = true) (hk : kb.length < 16384) (hv : vb.length < 16384) :
    recOf k (setVl k (setKl k m a kb.length) a vb.length) a = { off := fld m a, kl := kb.length, vl := vb.length } := by
  cases k with
  | varKey vs =>
    have hf : vb.length = vs := by simpa [Kind.fits] using hf
    simp only [recOf, setVl, setKl, Rec.mk.injEq]
    exact ⟨fld_other (by omega), fld_set hk, hf.symm⟩
  | varValue ks =>
    have hf : kb.length = ks := by simpa [Kind.fits] using hf
    simp only [recOf, setVl, setKl, Rec.mk.injEq]
    exact ⟨fld_other (by omega), hf.symm, fld_set hv⟩
  | varObj =>
    simp only [recOf, setVl, setKl, Rec.mk.injEq]
    refine ⟨?_, ?_, fld_set hv⟩
    · rw [fld_other (by omega), fld_other (by omega)]
    · rw [fld_other (by omega), fld_set hk]

theorem recOf_off {k : Kind} {m : Mem} {a o : Nat} (ho : o < 16384) :
    recOf k (setFld m a o) a = { recOf k m a with off := o } := by
  cases k with
  | varKey vs =>
    simp only [recOf, Rec.mk.injEq]
    exact ⟨fld_set ho, fld_other (by omega), trivial⟩
  | varValue ks =>
    simp only [recOf, Rec.mk.injEq]
    exact ⟨fld_set ho, trivial, fld_other (by omega)⟩
  | varObj =>
    simp only [recOf, Rec.mk.injEq]
    exact ⟨fld_set ho, fld_other (by omega), fld_other (by omega)⟩

theorem recOf_fld {k : Kind} {m : Mem} {a : Nat} : (recOf k m a).off = fld m a := by cases k <;> rfl

/-! ## Lists over the entries -/

/-- Inserting into a list over numbers. -/
theorem ins_map {A : Type} {f g : Nat → A} {n ind : Nat} {r : A} (hi : ind ≤ n) (h1 : ∀ i, i < ind → g i = f i) (h2 : g ind = r)
    (h3 : ∀ i, ind ≤ i → i < n → g (i + 1) = f i) :
    (List.range (n + 1)).map g = ((List.range n).map f).take ind ++ r :: ((List.range n).map f).drop ind := by
  apply List.ext_getElem
  · simp
    omega
  · intro i ha hb
    simp only [List.length_map, List.length_range] at ha
    simp only [List.getElem_map, List.getElem_range]
    rcases Nat.lt_trichotomy i ind with h | h | h
    · rw [List.getElem_append_left (by simp; omega)]
      simp [h1 i h]
    · subst h
      rw [List.getElem_append_right (by simp; omega)]
      simp [h2, Nat.min_eq_left hi]
    · rw [List.getElem_append_right (by simp; omega)]
      simp only [List.length_take, List.length_map, List.length_range, Nat.min_eq_left hi]
      obtain ⟨j, rfl⟩ : ∃ j, i = ind + j + 1 := ⟨i - ind - 1, by omega⟩
      have e : ind + j + 1 - ind = j + 1 := by omega
      simp only [e, List.getElem_cons_succ, List.getElem_drop, List.getElem_map, List.getElem_range]
      exact h3 (ind + j) (by omega) (by omega)

/-- Removing from a list over numbers. -/
theorem rem_map {A : Type} {f g : Nat → A} {n is cnt : Nat} (hi : is + cnt ≤ n) (h1 : ∀ i, i < is → g i = f i)
    (h2 : ∀ i, is ≤ i → i < n - cnt → g i = f (i + cnt)) :
    (List.range (n - cnt)).map g = ((List.range n).map f).take is ++ ((List.range n).map f).drop (is + cnt) := by
  apply List.ext_getElem
  · simp
    omega
  · intro i ha hb
    simp only [List.length_map, List.length_range] at ha
    simp only [List.getElem_map, List.getElem_range]
    by_cases h : i < is
    · rw [List.getElem_append_left (by simp; omega)]
      simp [h1 i h]
    · rw [List.getElem_append_right (by simp; omega)]
      simp only [List.length_take, List.length_map, List.length_range, List.getElem_drop, List.getElem_map, List.getElem_range]
      rw [h2 i (by omega) ha]
      congr 1
      omega

/-- Changing one element of a list over numbers. -/
theorem set_map {A : Type} {f g : Nat → A} {n ind : Nat} {r : A} (h1 : ∀ i, i < n → i ≠ ind → g i = f i) (h2 : g ind = r) :
    (List.range n).map g = ((List.range n).map f).set ind r := by
  apply List.ext_getElem
  · simp
  · intro i ha hb
    simp only [List.length_map, List.length_range] at ha
    simp only [List.getElem_map, List.getElem_range, List.getElem_set]
    split
    · rename_i h; subst h; exact h2
    · rename_i h; exact h1 i ha (fun e => h e.symm)

/-! ## The invariant -/

/-- The objects of two records do not overlap. -/
def Disj (a b : Rec) : Prop := a.off + a.len ≤ b.off ∨ b.off + b.len ≤ a.off

theorem Disj.symm {a b : Rec} (h : Disj a b) : Disj b a := by unfold Disj at *; omega

def VN.recs (P : Params) (s : VN) : List Rec := (List.range s.n).map (s.nth P)

/-- The key and the value of a record. -/
def content (m : Mem) (r : Rec) : Bytes × Bytes := (read m r.off r.kl, read m (r.off + r.kl) r.vl)

/-- The entries of a node, as its readers see them. -/
def VN.ents (P : Params) (s : VN) : List (Bytes × Bytes) := (List.range s.n).map (fun i => (s.key P i, s.value P i))

theorem ents_eq {P : Params} {s : VN} : s.ents P = (s.recs P).map (content s.mem) := by
  simp [VN.ents, VN.recs, content, VN.key, VN.value]

theorem content_congr {m m' : Mem} {r : Rec} (h : ∀ x, r.off ≤ x → x < r.off + r.len → m x = m' x) : content m r = content m' r := by
  simp only [content, Prod.mk.injEq]
  constructor
  · exact read_congr (fun i hi => h _ (by omega) (by simp only [Rec.len]; omega))
  · exact read_congr (fun i hi => h _ (by omega) (by simp only [Rec.len]; omega))

theorem content_length {m : Mem} {r : Rec} : (content m r).1.length + (content m r).2.length = r.len := by simp [content, Rec.len]

structure Inv (P : Params) (s : VN) : Prop where
  low : 6 ≤ P.size
  high : P.size < 16384
  init : s.init = P.size
  lo : recAt P.kind s.n ≤ s.tail
  hi : s.tail ≤ P.size
  bnd : ∀ r ∈ s.recs P, s.tail ≤ r.off ∧ r.off + r.len ≤ P.size
  disj : (s.recs P).Pairwise Disj
  space : s.avail + recAt P.kind s.n + ((s.recs P).map Rec.len).sum = P.size

theorem recAt_succ {k : Kind} {i : Nat} : recAt k (i + 1) = recAt k i + k.rs := by simp [recAt, Nat.add_mul]; omega

theorem recAt_add {k : Kind} {i j : Nat} : recAt k (i + j) = recAt k i + j * k.rs := by simp [recAt, Nat.add_mul]; omega

theorem recAt_le {k : Kind} {i j : Nat} (h : i ≤ j) : recAt k i ≤ recAt k j := by
  simp only [recAt]
  have := Nat.mul_le_mul_right k.rs h
  omega

theorem recAt_lt {k : Kind} {i j : Nat} (h : i < j) : recAt k i + k.rs ≤ recAt k j := by
  rw [← recAt_succ]
  exact recAt_le h

theorem recAt_low {k : Kind} {i : Nat} : 6 ≤ recAt k i := by simp [recAt]

theorem nth_mem {P : Params} {s : VN} {i : Nat} (h : i < s.n) : s.nth P i ∈ s.recs P := by
  simp only [VN.recs, List.mem_map, List.mem_range]
  exact ⟨i, h, rfl⟩

theorem inv_new {P : Params} {m : Mem} {leaf : Bool} (h0 : 6 ≤ P.size) (h1 : P.size < 16384) : Inv P (VN.new P m leaf) := by
  have e : u16 (P.size : Int) = P.size := u16_nat (by omega)
  have e2 : (u16 ((P.size : Int) - 6) : Int) = (P.size : Int) - 6 := u16_id (by omega) (by omega)
  refine ⟨h0, h1, e, ?_, ?_, ?_, ?_, ?_⟩
  · simpa [VN.new, e, recAt] using h0
  · simp [VN.new, e]
  · simp [VN.recs, VN.new]
  · simp [VN.recs, VN.new]
  · simp only [VN.new, VN.recs, e, recAt, List.range_zero, List.map_nil, List.sum_nil]
    omega

end HS.Varlen
