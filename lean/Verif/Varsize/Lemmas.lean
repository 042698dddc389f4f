import Verif.Varsize.Model
import Verif.Slab.Props
/-! # Conservation of blocks in the variable-size allocator -/
namespace HS.Varsize
set_option linter.unusedSimpArgs false

/-- Blocks of a list of entries. -/
def blksOf (es : List Entry) : List Nat := es.flatMap Entry.blks

/-- Blocks held in the slab cache. -/
def cachedBlks (c : Cache) : List Nat :=
  c.flatMap fun sl => sl.levels.flatMap fun lv => blksOf lv.q

def E (e : Entry) (b : Nat) : Nat := e.blks.count b
def H (es : List Entry) (b : Nat) : Nat := (blksOf es).count b
def SC (sl : Slab) (b : Nat) : Nat := (sl.levels.flatMap fun lv => blksOf lv.q).count b
def CC (c : Cache) (b : Nat) : Nat := (cachedBlks c).count b

@[simp] theorem H_nil (b) : H [] b = 0 := rfl
@[simp] theorem H_cons (e es b) : H (e :: es) b = E e b + H es b := by
  simp [H, blksOf, E, List.count_append]
@[simp] theorem H_append (a c b) : H (a ++ c) b = H a b + H c b := by
  simp [H, blksOf, List.count_append]

theorem E_split (x m n t t' t'' b : Nat) : E ⟨x, m + n, t⟩ b = E ⟨x, m, t'⟩ b + E ⟨x + m, n, t''⟩ b := by
  simp only [E, Entry.blks]
  rw [← List.count_append]
  congr 1
  have := @List.range'_append x m n 1
  simp only [Nat.one_mul] at this
  exact this.symm

theorem E_temp (x n t t' b : Nat) : E ⟨x, n, t⟩ b = E ⟨x, n, t'⟩ b := rfl
theorem E_zero (x t b : Nat) : E ⟨x, 0, t⟩ b = 0 := by simp [E, Entry.blks]

theorem E_eq (x n t b : Nat) : E ⟨x, n, t⟩ b = if x ≤ b ∧ b < x + n then 1 else 0 := by
  simp only [E, Entry.blks]
  have nd : (List.range' x n).Nodup := List.nodup_range'
  by_cases hb : x ≤ b ∧ b < x + n
  · rw [if_pos hb]
    have : b ∈ List.range' x n := by rw [List.mem_range'_1]; omega
    have h1 := List.nodup_iff_count.1 nd b
    have h2 := List.count_pos_iff.2 this
    omega
  · rw [if_neg hb]
    apply List.count_eq_zero_of_not_mem
    rw [List.mem_range'_1]; omega

theorem flatMap_set {α} (f : α → List Nat) (l : List α) (i : Nat) (x x' : α) (b : Nat)
    (h : l[i]? = some x) :
    ((l.set i x').flatMap f).count b + (f x).count b = (l.flatMap f).count b + (f x').count b := by
  induction l generalizing i with
  | nil => simp at h
  | cons a l ih =>
    cases i with
    | zero =>
      simp at h; subst h
      simp [List.count_append]; omega
    | succ i =>
      simp at h
      have := ih i h
      simp only [List.set_cons_succ, List.flatMap_cons, List.count_append]
      omega

theorem CC_set (c : Cache) (i : Nat) (sl sl' : Slab) (b : Nat) (h : c[i]? = some sl) :
    CC (c.set i sl') b + SC sl b = CC c b + SC sl' b := flatMap_set _ c i sl sl' b h

/-- Well-formed slab `i`. -/
def SlabOk (i : Nat) (sl : Slab) : Prop :=
  sl.size = 2 ^ i ∧ ∀ lv ∈ sl.levels, ∀ e ∈ lv.q, e.cnt = sl.size

/-- Well-formed cache: 1 to 16 slabs (a slab size has 16 bits), slab `i` of size `2^i`, holding entries
of exactly that size. -/
def WF (c : Cache) : Prop :=
  1 ≤ c.length ∧ c.length ≤ 16 ∧ ∀ i sl, c[i]? = some sl → SlabOk i sl

theorem WF_set {c i sl'} (h : WF c) (h' : SlabOk i sl') : WF (c.set i sl') := by
  refine ⟨by simpa using h.1, by simpa using h.2.1, ?_⟩
  intro j sl hj
  rw [List.getElem?_set] at hj
  split at hj
  · split at hj
    · simp at hj; subst hj; rename_i e _; subst e; exact h'
    · simp at hj
  · exact h.2.2 j sl hj

theorem push_spec {sl sl' : Slab} {e i} (h : sl.push e = some sl') (ok : SlabOk i sl) (he : e.cnt = sl.size) :
    SlabOk i sl' ∧ ∀ b, SC sl' b = SC sl b + E e b := by
  unfold Slab.push at h
  simp only at h
  split at h
  · rename_i l _
    split at h
    · rename_i lv hl
      simp at h; subst h
      refine ⟨⟨ok.1, ?_⟩, ?_⟩
      · intro lv' hm e' he'
        rcases List.mem_or_eq_of_mem_set hm with hm | hm
        · exact ok.2 lv' hm e' he'
        · subst hm
          simp only [List.mem_append, List.mem_singleton] at he'
          rcases he' with he' | he'
          · exact ok.2 lv (List.mem_of_getElem? hl) e' he'
          · subst he'; exact he
      · intro b
        have := flatMap_set (fun lv : Level => blksOf lv.q) sl.levels l lv ⟨lv.cap, lv.q ++ [e]⟩ b hl
        have e2 : (blksOf (lv.q ++ [e])).count b = (blksOf lv.q).count b + E e b := by
          have := H_append lv.q [e] b
          rw [H_cons, H_nil, Nat.add_zero] at this
          exact this
        simp only [e2] at this
        simp only [SC]; omega
    · simp at h
  · simp at h

theorem pop_spec {sl sl' : Slab} {e i t} (h : sl.pop t = some (e, sl')) (ok : SlabOk i sl) :
    SlabOk i sl' ∧ e.cnt = sl.size ∧ ∀ b, SC sl b = SC sl' b + E e b := by
  unfold Slab.pop at h
  simp only at h
  split at h
  · rename_i l _
    split at h
    · rename_i cap e0 q hl
      simp at h; obtain ⟨rfl, rfl⟩ := h
      refine ⟨⟨ok.1, ?_⟩, ok.2 _ (List.mem_of_getElem? hl) _ (by simp), ?_⟩
      · intro lv' hm e' he'
        rcases List.mem_or_eq_of_mem_set hm with hm | hm
        · exact ok.2 lv' hm e' he'
        · subst hm
          exact ok.2 _ (List.mem_of_getElem? hl) e' (by simp; exact Or.inr he')
      · intro b
        have := flatMap_set (fun lv : Level => blksOf lv.q) sl.levels l _ ⟨cap, q⟩ b hl
        have e2 : (blksOf (e0 :: q)).count b = E e0 b + (blksOf q).count b := H_cons e0 q b
        simp only [e2] at this
        simp only [SC]; omega
    · simp at h
  · simp at h

theorem pushSlab_spec {c idx e} (wf : WF c) (hi : idx < c.length) (he : e.cnt = 2 ^ idx) :
    ∃ c' p, pushSlab c idx e = some (c', p) ∧ WF c' ∧ c'.length = c.length ∧
      ∀ b, CC c' b = CC c b + if p then E e b else 0 := by
  unfold pushSlab
  obtain ⟨sl, hsl⟩ : ∃ sl, c[idx]? = some sl := ⟨c[idx], by simp [hi]⟩
  have ok := wf.2.2 _ _ hsl
  simp only [hsl]
  cases hp : sl.push e with
  | none => exact ⟨_, _, rfl, wf, rfl, by simp⟩
  | some sl' =>
    have := push_spec hp ok (by rw [he, ok.1])
    refine ⟨_, _, rfl, WF_set wf this.1, by simp, ?_⟩
    intro b
    have a := CC_set c idx sl sl' b hsl
    have d := this.2 b
    simp; omega

theorem tryFree_spec : ∀ fuel c ex e, WF c → e.cnt < fuel → e.cnt ≤ 2 ^ (c.length - 1) →
    ∃ c' ex', tryFree fuel c ex e = some (c', ex') ∧ WF c' ∧ c'.length = c.length ∧
      ∀ b, CC c' b + H ex' b = CC c b + H ex b + E e b := by
  intro fuel
  induction fuel with
  | zero => intro c ex e _ h; omega
  | succ fuel ih =>
    intro c ex e wf hf hle
    unfold tryFree
    by_cases h0 : e.cnt > 0
    · rw [if_pos h0]
      have hp16 : (2:Nat) ^ (c.length - 1) ≤ 2 ^ 15 := Nat.pow_le_pow_right (by omega) (by have := wf.2.1; omega)
      obtain ⟨s, r, hfr, h1, h2, h3⟩ := Slab.C13_round_down_partial e.cnt h0 (by omega)
      rw [hfr]
      have hs : s < c.length := by
        apply Decidable.byContradiction; intro hc
        have : (2:Nat) ^ c.length ≤ 2 ^ s := Nat.pow_le_pow_right (by omega) (by omega)
        have h4 : (2:Nat) ^ (c.length - 1 + 1) = 2 ^ c.length := by congr 1; have := wf.1; omega
        have := Nat.pow_succ 2 (c.length - 1)
        have h5 : (0:Nat) < 2 ^ (c.length - 1) := Nat.pow_pos (by omega)
        omega
      obtain ⟨sl, hsl⟩ : ∃ sl, c[s]? = some sl := ⟨c[s], by simp [hs]⟩
      have ok := wf.2.2 _ _ hsl
      simp only [hsl]
      obtain ⟨c1, p, hpush, wf1, len1, cc1⟩ :=
        pushSlab_spec (e := { e with cnt := sl.size }) wf hs ok.1
      simp only [hpush]
      have key : ∀ b, CC c1 b + H (if p then ex else ex ++ [{ e with cnt := sl.size }]) b =
          CC c b + H ex b + E { e with cnt := sl.size } b := by
        intro b
        have := cc1 b
        cases p <;> simp at this ⊢ <;> omega
      by_cases hr : r = 0
      · simp only [hr, if_true]
        refine ⟨_, _, rfl, wf1, len1, ?_⟩
        intro b
        rw [key b]
        have : e.cnt = sl.size := by rw [ok.1]; omega
        rw [← this]
      · rw [if_neg hr]
        obtain ⟨c2, ex2, h2', wf2, len2, cc2⟩ := ih c1
          (if p then ex else ex ++ [{ e with cnt := sl.size }]) { e with blk := e.blk + sl.size, cnt := r } wf1
          (by have h5 : (0:Nat) < 2 ^ s := Nat.pow_pos (by omega)
              simp; omega) (by simp [len1]; omega)
        refine ⟨c2, ex2, h2', wf2, by omega, ?_⟩
        intro b
        rw [cc2 b, key b]
        have : E e b = E ⟨e.blk, sl.size + r, e.temp⟩ b := by rw [ok.1, ← h3]
        rw [this, E_split e.blk sl.size r e.temp e.temp e.temp b]
        omega
    · rw [if_neg h0]
      refine ⟨_, _, rfl, wf, rfl, ?_⟩
      intro b
      have : e.cnt = 0 := by omega
      have : E e b = 0 := by simp [E, Entry.blks, this]
      omega

theorem tryFreeAll_spec : ∀ es c ex, WF c → (∀ e ∈ es, e.cnt ≤ 2 ^ (c.length - 1)) →
    ∃ c' ex', tryFreeAll c ex es = some (c', ex') ∧ WF c' ∧ c'.length = c.length ∧
      ∀ b, CC c' b + H ex' b = CC c b + H ex b + H es b := by
  intro es
  induction es with
  | nil => intro c ex wf _; exact ⟨_, _, rfl, wf, rfl, by simp⟩
  | cons e es ih =>
    intro c ex wf h
    obtain ⟨c1, ex1, h1, wf1, len1, cc1⟩ := tryFree_spec (e.cnt + 1) c ex e wf (by omega) (h e (by simp))
    obtain ⟨c2, ex2, h2, wf2, len2, cc2⟩ := ih c1 ex1 wf1 (by
      intro e' he'; rw [len1]; exact h e' (by simp [he']))
    refine ⟨c2, ex2, by simp [tryFreeAll, h1, h2], wf2, by omega, ?_⟩
    intro b
    rw [cc2, cc1]; simp; omega

theorem popLoop_spec (idx level : Nat) : ∀ n c, WF c → idx < c.length →
    ∃ c' es, popLoop idx level n c = some (c', es) ∧ WF c' ∧ c'.length = c.length ∧ es.length ≤ n ∧
      (∀ e ∈ es, e.cnt = 2 ^ idx) ∧ ∀ b, CC c' b + H es b = CC c b := by
  intro n
  induction n with
  | zero => intro c wf _; exact ⟨_, _, rfl, wf, rfl, by simp, by simp, by simp⟩
  | succ n ih =>
    intro c wf hi
    obtain ⟨sl, hsl⟩ : ∃ sl, c[idx]? = some sl := ⟨c[idx], by simp [hi]⟩
    have ok := wf.2.2 _ _ hsl
    unfold popLoop
    simp only [hsl]
    cases hp : sl.pop level with
    | none => exact ⟨_, _, rfl, wf, rfl, by simp, by simp, by simp⟩
    | some r =>
      obtain ⟨e, sl'⟩ := r
      have ps := pop_spec hp ok
      obtain ⟨c2, es, h2, wf2, len2, l2, all2, cc2⟩ := ih (c.set idx sl') (WF_set wf ps.1) (by simpa using hi)
      simp only [h2]
      refine ⟨_, _, rfl, wf2, by simpa using len2, by simp; omega, ?_, ?_⟩
      · intro e' he'
        simp at he'
        rcases he' with rfl | he'
        · rw [ps.2.1, ok.1]
        · exact all2 e' he'
      · intro b
        have a := CC_set c idx sl sl' b hsl
        have d := ps.2.2 b
        have := cc2 b
        simp; omega

theorem total_append (a b : List Entry) : total (a ++ b) = total a + total b := by
  simp [total]

theorem total_const {es : List Entry} {k : Nat} (h : ∀ e ∈ es, e.cnt = k) : total es = es.length * k := by
  induction es with
  | nil => simp [total]
  | cons e es ih =>
    have h1 := h e (by simp)
    have h2 := ih (fun e' he' => h e' (by simp [he']))
    simp only [total, List.map_cons, List.sum_cons, List.length_cons] at h2 ⊢
    rw [h2, h1, Nat.add_mul]; omega

/-- What holds of a response during an allocation of `req`. -/
def RI (req : Req) (top : Nat) (r : Resp) : Prop :=
  total r.out = r.alloced ∧ r.alloced ≤ req.nblks ∧ (∀ e ∈ r.out, 1 ≤ e.cnt ∧ e.cnt ≤ top)

/-- Outcome of a cache operation on `(c, r)`. -/
structure AOk (req : Req) (c : Cache) (r : Resp) (st : Status) (c' : Cache) (r' : Resp) : Prop where
  wf : WF c'
  len : c'.length = c.length
  ri : RI req (2 ^ (c.length - 1)) r'
  sts : st = .success ∨ st = .failed ∨ st = .partialAlloc
  suc : st = .success → r'.alloced = req.nblks
  con : req.contiguous = true → r.out = [] → (st = .success → r'.out.length = 1) ∧ (st ≠ .success → r'.out = [])
  cc : ∀ b, CC c' b + H r'.out b + H r'.excess b = CC c b + H r.out b + H r.excess b

theorem tryAllocInSlab_spec {idx req c r} (wf : WF c) (hi : idx < c.length)
    (ri : RI req (2 ^ (c.length - 1)) r) (hn : 1 ≤ req.nblks) :
    ∃ st c' r', tryAllocInSlab idx req c r = some (st, c', r') ∧ AOk req c r st c' r' := by
  obtain ⟨ri1, ri2, ri3⟩ := ri
  unfold tryAllocInSlab
  by_cases h0 : r.alloced ≥ req.nblks
  · rw [if_pos h0]
    refine ⟨_, _, _, rfl, wf, rfl, ⟨ri1, ri2, ri3⟩, .inl rfl, fun _ => by omega, ?_, by simp⟩
    intro _ he
    simp [he, total] at ri1
    omega
  rw [if_neg h0]
  obtain ⟨sl, hsl⟩ : ∃ sl, c[idx]? = some sl := ⟨c[idx], by simp [hi]⟩
  have ok := wf.2.2 _ _ hsl
  simp only [hsl]
  have hpos : 0 < sl.size := by rw [ok.1]; exact Nat.pow_pos (by omega)
  have htop : sl.size ≤ 2 ^ (c.length - 1) := by
    rw [ok.1]; exact Nat.pow_le_pow_right (by omega) (by omega)
  have hdm := Nat.div_add_mod (req.nblks - r.alloced - 1) sl.size
  have hmod := Nat.mod_lt (req.nblks - r.alloced - 1) hpos
  generalize hne : (req.nblks - r.alloced - 1) / sl.size = q at *
  have hmc : sl.size * q = q * sl.size := Nat.mul_comm _ _
  by_cases hc : req.contiguous = true ∧ q + 1 > 1
  · rw [if_pos hc]
    refine ⟨_, _, _, rfl, wf, rfl, ⟨ri1, ri2, ri3⟩, .inr (.inl rfl), by simp, ?_, by simp⟩
    intro _ he
    exact ⟨by simp, fun _ => he⟩
  rw [if_neg hc]
  obtain ⟨c1, es, hp, wf1, len1, les, all1, cc1⟩ := popLoop_spec idx req.level (q + 1) c wf hi
  simp only [hp]
  rw [← ok.1] at all1
  have ht := total_const all1
  unfold freeExcess
  simp only
  by_cases hfull : es.length = q + 1
  · have hge : r.alloced + es.length * sl.size ≥ req.nblks := by
      rw [hfull, Nat.add_mul]; omega
    by_cases hgt : r.alloced + es.length * sl.size > req.nblks
    · rw [if_pos hgt]
      have hres : r.alloced + es.length * sl.size - req.nblks < sl.size := by
        rw [hfull, Nat.add_mul]; omega
      rw [if_neg (by omega)]
      have hne' : es ≠ [] := by intro h; simp [h] at hfull
      obtain ⟨es0, lst, rfl⟩ : ∃ es0 lst, es = es0 ++ [lst] := ⟨es.dropLast, es.getLast hne', (List.dropLast_concat_getLast hne').symm⟩
      have hlc : lst.cnt = sl.size := all1 lst (by simp)
      have hassoc : r.out ++ (es0 ++ [lst]) = (r.out ++ es0) ++ [lst] := by simp
      simp only [hassoc, List.getLast?_append, List.getLast?_singleton, Option.some_or, List.dropLast_concat]
      generalize hR : r.alloced + (es0 ++ [lst]).length * sl.size - req.nblks = R at *
      obtain ⟨c2, ex2, h2, wf2, len2, cc2⟩ := tryFree_spec (R + 1) c1 r.excess
        { lst with blk := lst.blk + (sl.size - R), cnt := R } wf1 (by simp) (by simp [len1]; omega)
      simp only [h2]
      rw [if_pos hfull]
      have htot : total es0 = es0.length * sl.size := total_const (fun e he => all1 e (by simp [he]))
      have hl1 : (es0 ++ [lst]).length = es0.length + 1 := by simp
      rw [hl1, Nat.add_mul] at hR hge hgt ht
      refine ⟨_, _, _, rfl, wf2, by omega, ⟨?_, ?_, ?_⟩, .inl rfl, ?_, ?_, ?_⟩
      · simp only [total_append, htot, ri1, hl1, Nat.add_mul]
        have : total [({ lst with cnt := sl.size - R } : Entry)] = sl.size - R := by simp [total]
        rw [this]; omega
      · simp only [hl1, Nat.add_mul]; omega
      · intro e he
        simp only [List.mem_append, List.mem_singleton] at he
        rcases he with (he | he) | he
        · exact ri3 e he
        · have := all1 e (by simp [he]); omega
        · subst he; simp only; omega
      · intro _; simp only [hl1, Nat.add_mul]; omega
      · intro hct he
        refine ⟨fun _ => ?_, by simp⟩
        have : q = 0 := by
          apply Decidable.byContradiction; intro hq; exact hc ⟨hct, by omega⟩
        have : es0 = [] := List.eq_nil_of_length_eq_zero (by omega)
        simp [he, this]
      · intro b
        have a1 := cc1 b
        have a2 := cc2 b
        have a3 := E_split lst.blk (sl.size - R) R lst.temp lst.temp lst.temp b
        have a4 : E lst b = E ⟨lst.blk, sl.size - R + R, lst.temp⟩ b := by
          rw [show sl.size - R + R = lst.cnt by omega]
        simp only [H_append, H_cons, H_nil] at a1 ⊢
        omega
    · rw [if_neg hgt]
      simp only
      rw [if_pos hfull]
      refine ⟨_, _, _, rfl, wf1, len1, ⟨?_, ?_, ?_⟩, .inl rfl, ?_, ?_, ?_⟩
      · simp only [total_append]; omega
      · simp only; omega
      · intro e he
        simp only [List.mem_append] at he
        rcases he with he | he
        · exact ri3 e he
        · have := all1 e he; omega
      · intro _; simp only; omega
      · intro hct he
        refine ⟨fun _ => ?_, by simp⟩
        have : q = 0 := by
          apply Decidable.byContradiction; intro hq; exact hc ⟨hct, by omega⟩
        simp [he]; omega
      · intro b
        have a1 := cc1 b
        simp only [H_append]; omega
  · have hk : es.length * sl.size ≤ q * sl.size := Nat.mul_le_mul_right _ (by omega)
    rw [if_neg (by omega)]
    simp only
    rw [if_neg hfull]
    refine ⟨_, _, _, rfl, wf1, len1, ⟨?_, ?_, ?_⟩, ?_, ?_, ?_, ?_⟩
    · simp only [total_append]; omega
    · simp only; omega
    · intro e he
      simp only [List.mem_append] at he
      rcases he with he | he
      · exact ri3 e he
      · have := all1 e he; omega
    · split <;> simp
    · split <;> simp
    · intro hct he
      have hq : q = 0 := by
        apply Decidable.byContradiction; intro hq; exact hc ⟨hct, by omega⟩
      have : es = [] := List.eq_nil_of_length_eq_zero (by omega)
      simp [this, he]
    · intro b
      have a1 := cc1 b
      simp only [H_append]; omega

theorem dropPartial_spec {st req c0 r0 c r} (h : AOk req c0 r0 st c r) (hr : req.contiguous = true → r0.out = []) :
    dropPartial st req c r = some (c, r) ∨ ∃ ex, dropPartial st req c r = some (c, ⟨r.alloced, [], ex⟩) ∧
      r.out = [] ∧ ex = r.excess := by
  unfold dropPartial
  split
  · rename_i hc
    have := (h.con hc.2 (hr hc.2)).2 (by simp [hc.1])
    right
    simp [this, tryFreeAll]
  · left; rfl

theorem dropPartial_eq {st req c0 r0 c r} (h : AOk req c0 r0 st c r) (hr : req.contiguous = true → r0.out = []) :
    dropPartial st req c r = some (c, r) := by
  rcases dropPartial_spec h hr with h1 | ⟨ex, h1, h2, h3⟩
  · exact h1
  · rw [h1, h3, ← h2]

theorem AOk.trans {req c0 r0 st1 c1 r1 st2 c2 r2} (h1 : AOk req c0 r0 st1 c1 r1) (hs : st1 ≠ .success)
    (h2 : AOk req c1 r1 st2 c2 r2) : AOk req c0 r0 st2 c2 r2 where
  wf := h2.wf
  len := by rw [h2.len, h1.len]
  ri := by have := h2.ri; rwa [h1.len] at this
  sts := h2.sts
  suc := h2.suc
  con := fun a b => h2.con a ((h1.con a b).2 hs)
  cc := fun b => by rw [h2.cc b, h1.cc b]

/-- Ending without success. -/
theorem AOk.stop {req c r} (wf : WF c) (ri : RI req (2 ^ (c.length - 1)) r) :
    AOk req c r (endStatus r) c r where
  wf := wf
  len := rfl
  ri := ri
  sts := by unfold endStatus; split <;> simp
  suc := by unfold endStatus; split <;> simp
  con := by intro _ h; exact ⟨by unfold endStatus; split <;> simp, fun _ => h⟩
  cc := fun _ => rfl

theorem breakUp_spec {req} (hn : 1 ≤ req.nblks) : ∀ fuel idx c r, WF c →
    RI req (2 ^ (c.length - 1)) r → (req.contiguous = true → r.out = []) → idx < c.length → c.length ≤ fuel + idx →
    ∃ st c' r', breakUp fuel idx req c r = some (st, c', r') ∧ AOk req c r st c' r' := by
  intro fuel
  induction fuel with
  | zero => intro idx c r _ _ _ h1 h2; omega
  | succ fuel ih =>
    intro idx c r wf ri hr h1 h2
    unfold breakUp
    by_cases h : idx ≥ c.length - 1
    · rw [if_pos h]
      exact ⟨_, _, _, rfl, AOk.stop wf ri⟩
    · rw [if_neg h]
      obtain ⟨st, c1, r1, e1, a1⟩ := tryAllocInSlab_spec (idx := idx + 1) wf (by omega) ri hn
      rw [e1]
      have hd := dropPartial_eq a1 hr
      have fin : st ≠ .success → ∃ st' c' r', (match dropPartial st req c1 r1 with
        | none => none
        | some (c2, r2) => breakUp fuel (idx + 1) req c2 r2) = some (st', c', r') ∧ AOk req c r st' c' r' := by
        intro hs
        rw [hd]
        have rl := a1.ri
        rw [← a1.len] at rl
        obtain ⟨st', c', r', e2, a2⟩ := ih (idx + 1) c1 r1 a1.wf rl (fun a => (a1.con a (hr a)).2 hs)
          (by rw [a1.len]; omega) (by rw [a1.len]; omega)
        exact ⟨st', c', r', e2, a1.trans hs a2⟩
      cases st
      · exact ⟨_, _, _, rfl, a1⟩
      all_goals exact fin (by simp)

theorem mergeDown_spec {req} (hn : 1 ≤ req.nblks) : ∀ idx c r, WF c →
    RI req (2 ^ (c.length - 1)) r → req.contiguous = false → idx < c.length → req.minIdx ≤ idx →
    ∃ st c' r', mergeDown idx req c r = some (st, c', r') ∧ AOk req c r st c' r' := by
  intro idx
  induction idx with
  | zero =>
    intro c r wf ri hr h1 h2
    unfold mergeDown
    rw [if_pos (by omega)]
    exact ⟨_, _, _, rfl, AOk.stop wf ri⟩
  | succ idx ih =>
    intro c r wf ri hr h1 h2
    unfold mergeDown
    by_cases h : idx + 1 = req.minIdx
    · rw [if_pos h]
      exact ⟨_, _, _, rfl, AOk.stop wf ri⟩
    · rw [if_neg h]
      obtain ⟨st, c1, r1, e1, a1⟩ := tryAllocInSlab_spec (idx := idx) wf (by omega) ri hn
      rw [e1]
      have fin : st ≠ .success → ∃ st' c' r', mergeDown idx req c1 r1 = some (st', c', r') ∧ AOk req c r st' c' r' := by
        intro hs
        have rl := a1.ri
        rw [← a1.len] at rl
        obtain ⟨st', c', r', e2, a2⟩ := ih c1 r1 a1.wf rl hr (by rw [a1.len]; omega) (by omega)
        exact ⟨st', c', r', e2, a1.trans hs a2⟩
      cases st
      · exact ⟨_, _, _, rfl, a1⟩
      all_goals exact fin (by simp)

theorem tryAlloc_spec {req c} (wf : WF c) (hn : 1 ≤ req.nblks) (hmax : req.maxIdx = c.length - 1)
    (hmin : req.contiguous = false → req.minIdx ≤ min (Slab.findSlab req.nblks) (c.length - 1)) :
    ∃ st c' r', tryAlloc req c Resp.empty = some (st, c', r') ∧ AOk req c Resp.empty st c' r' := by
  unfold tryAlloc
  simp only [hmax]
  have wl := wf.1
  have hi : min (Slab.findSlab req.nblks) (c.length - 1) < c.length := by omega
  generalize hidx : min (Slab.findSlab req.nblks) (c.length - 1) = idx at *
  have ri0 : RI req (2 ^ (c.length - 1)) Resp.empty := by simp [RI, Resp.empty, total]
  have hr0 : req.contiguous = true → Resp.empty.out = [] := fun _ => rfl
  obtain ⟨st, c1, r1, e1, a1⟩ := tryAllocInSlab_spec (idx := idx) wf hi ri0 hn
  rw [e1]
  have fin : st ≠ .success → ∃ st' c' r', (match dropPartial st req c1 r1 with
    | none => none
    | some (c2, r2) => match breakUp c2.length idx req c2 r2 with
      | none => none
      | some (.success, c3, r3) => some (.success, c3, r3)
      | some (st3, c3, r3) =>
        if req.contiguous then some (st3, c3, r3) else mergeDown idx req c3 r3) = some (st', c', r') ∧
        AOk req c Resp.empty st' c' r' := by
    intro hs
    rw [dropPartial_eq a1 hr0]
    have rl := a1.ri
    rw [← a1.len] at rl
    obtain ⟨st2, c2, r2, e2, a2⟩ := breakUp_spec hn c1.length idx c1 r1 a1.wf rl
      (fun a => (a1.con a (hr0 a)).2 hs) (by rw [a1.len]; omega) (by omega)
    simp only [e2]
    have a12 := a1.trans hs a2
    have fin2 : st2 ≠ .success → ∃ st' c' r', (if req.contiguous then some (st2, c2, r2) else mergeDown idx req c2 r2)
        = some (st', c', r') ∧ AOk req c Resp.empty st' c' r' := by
      intro hs2
      by_cases hc : req.contiguous = true
      · rw [if_pos hc]; exact ⟨_, _, _, rfl, a12⟩
      · rw [if_neg hc]
        have rl2 := a12.ri
        rw [← a12.len] at rl2
        obtain ⟨st3, c3, r3, e3, a3⟩ := mergeDown_spec hn idx c2 r2 a12.wf rl2 (by simpa using hc)
          (by rw [a12.len]; omega) (hmin (by simpa using hc))
        exact ⟨st3, c3, r3, e3, a12.trans hs2 a3⟩
    cases st2
    · exact ⟨_, _, _, rfl, a12⟩
    all_goals exact fin2 (by simp)
  cases st
  · exact ⟨_, _, _, rfl, a1⟩
  all_goals exact fin (by simp)

/-! ### The bitmap -/

/-- 1 if block `b` is free: its bit is reset, or it sits in the cache (counted with multiplicity). -/
def F (s : St) (b : Nat) : Nat := (if b < s.total ∧ s.bm b = false then 1 else 0) + CC s.cache b

/-- `K b` is the number of times block `b` is available to the allocator or held by the operation in
progress. -/
def KOk (total : Nat) (K : Nat → Nat) : Prop := ∀ b, K b ≤ 1 ∧ (0 < K b → b < total)

def Cons (K : Nat → Nat) (s : St) (held : List Entry) : Prop :=
  WF s.cache ∧ ∀ b, F s b + H held b = K b

theorem E_pos {e : Entry} {b : Nat} (h1 : e.blk ≤ b) (h2 : b < e.blk + e.cnt) : E e b = 1 := by
  have := E_eq e.blk e.cnt e.temp b
  rw [if_pos ⟨h1, h2⟩] at this; exact this

theorem E_le (e : Entry) (b : Nat) : E e b = if e.blk ≤ b ∧ b < e.blk + e.cnt then 1 else 0 :=
  E_eq e.blk e.cnt e.temp b

theorem freeDirect_spec {K s e held} (hk : KOk s.total K) (h : Cons K s (e :: held)) :
    ∃ s', freeDirect s e = some s' ∧ Cons K s' held ∧ s' = { s with bm := s'.bm } := by
  have hb : ∀ b, e.blk ≤ b → b < e.blk + e.cnt → s.bm b = true ∧ b < s.total ∧ F s b = 0 := by
    intro b h1 h2
    have a := h.2 b
    have k := hk b
    rw [H_cons, E_pos h1 h2] at a
    have lt : b < s.total := k.2 (by omega)
    have f0 : F s b = 0 := by omega
    refine ⟨?_, lt, f0⟩
    unfold F at f0
    cases hbm : s.bm b
    · simp [lt, hbm] at f0
    · rfl
  have hall : bitsSet s.bm e.blk e.cnt = true := by
    unfold bitsSet
    rw [List.all_eq_true]
    intro b hm
    rw [List.mem_range'_1] at hm
    exact (hb b hm.1 hm.2).1
  refine ⟨{ s with bm := setBits s.bm e.blk e.cnt false }, by simp [freeDirect, hall], ⟨h.1, ?_⟩, rfl⟩
  intro b
  have a := h.2 b
  rw [H_cons, E_le] at a
  unfold F setBits at *
  simp only
  by_cases hin : e.blk ≤ b ∧ b < e.blk + e.cnt
  · have := hb b hin.1 hin.2
    rw [if_pos hin] at a
    simp only [if_pos hin]
    simp only [this.1, this.2.1] at a ⊢
    simp at a ⊢
    omega
  · rw [if_neg hin] at a
    simp only [if_neg hin]
    omega

theorem freeDirectAll_spec : ∀ es K s held, KOk s.total K → Cons K s (es ++ held) →
    ∃ s', freeDirectAll s es = some s' ∧ Cons K s' held ∧ s' = { s with bm := s'.bm } := by
  intro es
  induction es with
  | nil => intro K s held _ h; exact ⟨s, rfl, h, rfl⟩
  | cons e es ih =>
    intro K s held hk h
    obtain ⟨s1, h1, c1, f1⟩ := freeDirect_spec hk h
    have ht : s1.total = s.total := by rw [f1]
    obtain ⟨s2, h2, c2, f2⟩ := ih K s1 held (by rw [ht]; exact hk) c1
    refine ⟨s2, by simp [freeDirectAll, h1, h2], c2, ?_⟩
    rw [f2, f1]

/-! ### Sweep -/

theorem fillSlab_spec (idx temp : Nat) : ∀ fuel c rq blk rem, WF c → idx < c.length →
    ∃ c' rq' k, fillSlab idx (2 ^ idx) temp fuel c rq blk rem = some (c', rq', blk + k, rem - k) ∧ k ≤ rem ∧
      WF c' ∧ c'.length = c.length ∧ ∀ b, CC c' b = CC c b + E ⟨blk, k, 0⟩ b := by
  intro fuel
  induction fuel with
  | zero =>
    intro c rq blk rem wf _
    exact ⟨c, rq, 0, rfl, by omega, wf, rfl, by simp [E_zero]⟩
  | succ fuel ih =>
    intro c rq blk rem wf hi
    unfold fillSlab
    split
    · rename_i hc
      obtain ⟨c1, p, h1, wf1, len1, cc1⟩ := pushSlab_spec (e := ⟨blk, 2 ^ idx, temp⟩) wf hi rfl
      rw [h1]
      cases p
      · exact ⟨c1, _, 0, rfl, by omega, wf1, len1, by intro b; simp [E_zero, cc1 b]⟩
      · simp only
        obtain ⟨c2, rq2, k, h2, hk, wf2, len2, cc2⟩ := ih c1
          (fun i => if i = idx then ((rq i).1, (rq i).2 + 1) else rq i) (blk + 2 ^ idx) (rem - 2 ^ idx) wf1 (by omega)
        refine ⟨c2, rq2, 2 ^ idx + k, ?_, by omega, wf2, by omega, ?_⟩
        · rw [h2]
          simp only [Option.some.injEq, Prod.mk.injEq, true_and]
          omega
        · intro b
          have a := cc1 b
          have d := cc2 b
          have e := E_split blk (2 ^ idx) k 0 temp 0 b
          simp at a
          omega
    · exact ⟨c, rq, 0, rfl, by omega, wf, rfl, by simp [E_zero]⟩

theorem fillDown_spec (temp : Nat) : ∀ idx c rq blk rem, WF c → idx < c.length →
    ∃ c' rq' k, fillDown temp idx c rq blk rem = some (c', rq', blk + k, rem - k) ∧ k ≤ rem ∧
      WF c' ∧ c'.length = c.length ∧ ∀ b, CC c' b = CC c b + E ⟨blk, k, 0⟩ b := by
  intro idx
  induction idx with
  | zero =>
    intro c rq blk rem wf hi
    unfold fillDown
    obtain ⟨sl, hsl⟩ : ∃ sl, c[0]? = some sl := ⟨c[0], by simp⟩
    have ok := wf.2.2 _ _ hsl
    obtain ⟨c1, rq1, k, h1, hk, r⟩ := fillSlab_spec 0 temp (rem + 1) c rq blk rem wf hi
    simp only [hsl, ok.1, h1]
    exact ⟨_, _, k, rfl, hk, r⟩
  | succ idx ih =>
    intro c rq blk rem wf hi
    unfold fillDown
    obtain ⟨sl, hsl⟩ : ∃ sl, c[idx + 1]? = some sl := ⟨c[idx + 1], by simp [hi]⟩
    have ok := wf.2.2 _ _ hsl
    obtain ⟨c1, rq1, k, h1, hk, wf1, len1, cc1⟩ := fillSlab_spec (idx + 1) temp (rem + 1) c rq blk rem wf hi
    simp only [hsl, ok.1, h1]
    split
    · exact ⟨_, _, k, rfl, hk, wf1, len1, cc1⟩
    · obtain ⟨c2, rq2, k2, h2, hk2, wf2, len2, cc2⟩ := ih c1 rq1 (blk + k) (rem - k) wf1 (by omega)
      refine ⟨c2, rq2, k + k2, ?_, by omega, wf2, by omega, ?_⟩
      · rw [h2]; simp only [Option.some.injEq, Prod.mk.injEq, true_and]; omega
      · intro b
        have a := cc1 b
        have d := cc2 b
        have e := E_split blk k k2 0 0 0 b
        omega

theorem tryFill_spec {c rq blk n temp} (wf : WF c) :
    ∃ c' rq' k, tryFill c rq blk n temp = some (c', rq', k) ∧ k ≤ n ∧ WF c' ∧ c'.length = c.length ∧
      ∀ b, CC c' b = CC c b + E ⟨blk, k, 0⟩ b := by
  unfold tryFill
  have := wf.1
  obtain ⟨c1, rq1, k, h1, hk, wf1, len1, cc1⟩ := fillDown_spec temp (min (Slab.findSlab n) (c.length - 1)) c rq blk n wf (by omega)
  simp only [h1]
  exact ⟨c1, rq1, k, by simp; omega, hk, wf1, len1, cc1⟩

/-- The parts of the state no operation changes. -/
def Same (s s' : St) : Prop :=
  s'.total = s.total ∧ s'.bpp = s.bpp ∧ s'.useSlabs = s.useSlabs ∧ s'.cache.length = s.cache.length ∧
  s'.alloced = s.alloced

theorem Same.refl (s : St) : Same s s := ⟨rfl, rfl, rfl, rfl, rfl⟩
theorem Same.trans {a b c : St} (h1 : Same a b) (h2 : Same b c) : Same a c := by
  unfold Same at *; grind

/-- Taking free blocks of the bitmap. -/
theorem F_setBits {s : St} {b n : Nat} (hb : b + n ≤ s.total) (hf : ∀ x, b ≤ x → x < b + n → s.bm x = false)
    (x : Nat) : F { s with bm := setBits s.bm b n true } x + E ⟨b, n, 0⟩ x = F s x := by
  unfold F setBits
  rw [E_eq]
  simp only
  by_cases h : b ≤ x ∧ x < b + n
  · have : x < s.total := by omega
    simp only [if_pos h, hf x h.1 h.2, this]
    simp; omega
  · simp only [if_neg h]; omega

theorem fillPortion_spec {find temp stop} {K held} : ∀ fuel cur last s rq, FindOk s.total find →
    KOk s.total K → Cons K s held →
    ∃ s' rq', fillPortion find temp stop fuel cur last s rq = some (s', rq') ∧ Cons K s' held ∧ Same s s' := by
  intro fuel
  induction fuel with
  | zero => intro cur last s rq _ _ h; exact ⟨s, rq, rfl, h, Same.refl s⟩
  | succ fuel ih =>
    intro cur last s rq hfind hk h
    unfold fillPortion
    split
    · exact ⟨s, rq, rfl, h, Same.refl s⟩
    · split
      · exact ⟨s, rq, rfl, h, Same.refl s⟩
      · rename_i b n hfd
        obtain ⟨f1, f2, f3, f4, f5, f6, f7⟩ := hfind _ _ _ _ _ _ _ hfd
        obtain ⟨c1, rq1, k, h1, hkn, wf1, len1, cc1⟩ := tryFill_spec (rq := rq) (blk := b) (n := n) (temp := temp) h.1
        simp only [h1]
        have hbm : (if k > 0 then setBits s.bm b k true else s.bm) = setBits s.bm b k true := by
          split
          · rfl
          · have : k = 0 := by omega
            subst this
            funext x
            simp [setBits]; omega
        rw [hbm]
        have hc : Cons K { s with cache := c1, bm := setBits s.bm b k true } held := by
          refine ⟨wf1, ?_⟩
          intro x
          have e1 := F_setBits (s := s) (b := b) (n := k) (by omega) (fun y h1 h2 => f7 y h1 (by omega)) x
          have e2 := h.2 x
          have e3 := cc1 x
          have e4 : F { s with cache := c1, bm := setBits s.bm b k true } x + CC s.cache x =
              F { s with bm := setBits s.bm b k true } x + CC c1 x := by
            simp only [F]; omega
          omega
        obtain ⟨s2, rq2, h2, c2, sm⟩ := ih (b + n) last { s with cache := c1, bm := setBits s.bm b k true } rq1 hfind hk hc
        exact ⟨s2, rq2, h2, c2, Same.trans (b := { s with cache := c1, bm := setBits s.bm b k true })
          ⟨rfl, rfl, rfl, len1, rfl⟩ sm⟩

theorem sweep_spec {find} {K held} : ∀ ws s, FindOk s.total find → KOk s.total K → Cons K s held →
    ∃ s', sweep find s ws = some s' ∧ Cons K s' held ∧ Same s s' := by
  intro ws
  induction ws with
  | nil => intro s _ _ h; exact ⟨s, rfl, h, Same.refl s⟩
  | cons w ws ih =>
    intro s hf hk h
    obtain ⟨s1, rq1, h1, c1, m1⟩ := fillPortion_spec (temp := w.temp) (stop := w.stop) (s.bpp + 1)
      (w.portion * s.bpp) (w.portion * s.bpp + s.bpp - 1) s w.reqs hf hk h
    obtain ⟨s2, h2, c2, m2⟩ := ih s1 (by rw [m1.1]; exact hf) (by rw [m1.1]; exact hk) c1
    exact ⟨s2, by simp [sweep, h1, h2], c2, m1.trans m2⟩

/-! ### Allocation -/

theorem H_take_drop (es : List Entry) (k b : Nat) : H (es.take k) b + H (es.drop k) b = H es b := by
  rw [← H_append, List.take_append_drop]

theorem total_take_le (es : List Entry) (k : Nat) : total (es.take k) ≤ total es := by
  have : total (es.take k) + total (es.drop k) = total es := by
    rw [← total_append, List.take_append_drop]
  omega

/-- What an allocation attempt hands out. -/
structure OutOk (n : Nat) (contiguous : Bool) (out : List Entry) : Prop where
  le : total out ≤ n
  pieces : out.length ≤ maxPieces
  pos : ∀ e ∈ out, 1 ≤ e.cnt
  con : contiguous = true → out.length ≤ 1

theorem allocSlabLoop_spec {find req h} {K} (hn : 1 ≤ req.nblks) (hcon : req.contiguous = h.contiguous)
    : ∀ retries sweeps s, req.maxIdx = s.cache.length - 1 →
    (req.contiguous = false → req.minIdx ≤ min (Slab.findSlab req.nblks) (s.cache.length - 1)) →
    FindOk s.total find → KOk s.total K → Cons K s [] →
    ∃ out s', allocSlabLoop find req h retries sweeps s = some (out, s') ∧ Cons K s' out ∧ Same s s' ∧
      OutOk req.nblks h.contiguous out ∧ (h.contiguous = true → out ≠ [] → total out = req.nblks) := by
  intro retries
  induction retries with
  | zero =>
    intro sweeps s _ _ _ _ hc
    exact ⟨[], s, rfl, hc, Same.refl s, ⟨by simp [total], by simp, by simp, by simp⟩, by simp⟩
  | succ retries ih =>
    intro sweeps s hmax hmin hfind hk hc
    unfold allocSlabLoop
    obtain ⟨st, c1, r1, e1, a1⟩ := tryAlloc_spec hc.1 hn hmax hmin
    simp only [e1]
    have hnil : req.contiguous = true → Resp.empty.out = [] := fun _ => rfl
    have hcons : Cons K { s with cache := c1 } (r1.out ++ r1.excess) := by
      refine ⟨a1.wf, ?_⟩
      intro b
      have := a1.cc b
      have h2 := hc.2 b
      have e0 : H Resp.empty.out b = 0 := rfl
      have e00 : H Resp.empty.excess b = 0 := rfl
      simp only [F, H_append, H_nil] at *
      omega
    have conv : ∀ l1 l2 : List Entry, (∀ b, H l1 b = H l2 b) → ∀ s, Cons K s l1 → Cons K s l2 := by
      intro l1 l2 hh s hs
      exact ⟨hs.1, fun b => by rw [← hh b]; exact hs.2 b⟩
    split
    · rename_i hp
      obtain ⟨s2, h2, c2, f2⟩ := freeDirectAll_spec r1.excess K { s with cache := c1 } r1.out hk
        (conv _ _ (by intro b; simp; omega) _ hcons)
      rw [h2]
      refine ⟨_, _, rfl, c2, by rw [f2]; exact ⟨rfl, rfl, rfl, a1.len, rfl⟩, ⟨?_, hp.2, ?_, ?_⟩, ?_⟩
      · rw [a1.ri.1]; exact a1.ri.2.1
      · exact fun e he => (a1.ri.2.2 e he).1
      · intro hct
        have := a1.con (by rw [hcon]; exact hct) rfl
        by_cases hs : st = .success
        · rw [this.1 hs]; omega
        · rw [this.2 hs]; simp
      · intro hct hne
        have := a1.con (by rw [hcon]; exact hct) rfl
        by_cases hs : st = .success
        · rw [a1.ri.1, a1.suc hs]
        · exact absurd (this.2 hs) hne
    · rename_i hnp
      split
      · rename_i hp
        obtain ⟨s2, h2, c2, f2⟩ := freeDirectAll_spec (r1.excess ++ r1.out.drop maxPieces) K { s with cache := c1 }
          (r1.out.take maxPieces) hk
          (conv _ _ (by intro b; have := H_take_drop r1.out maxPieces b; simp only [H_append]; omega) _ hcons)
        rw [h2]
        have hlong : ¬ r1.out.length ≤ maxPieces := fun hh => hnp ⟨hp.1, hh⟩
        have hnc : ¬ h.contiguous = true := by
          intro hct
          have := a1.con (by rw [hcon]; exact hct) rfl
          by_cases hs : st = .success
          · have := this.1 hs; simp [maxPieces] at hlong; omega
          · have := this.2 hs; simp [this] at hlong
        refine ⟨_, _, rfl, c2, by rw [f2]; exact ⟨rfl, rfl, rfl, a1.len, rfl⟩, ⟨?_, ?_, ?_, ?_⟩, ?_⟩
        · have := total_take_le r1.out maxPieces
          have := a1.ri.1; have := a1.ri.2.1; omega
        · simp; omega
        · exact fun e he => (a1.ri.2.2 e (List.mem_of_mem_take he)).1
        · intro hct; exact absurd hct hnc
        · intro hct; exact absurd hct hnc
      · obtain ⟨c2, ex, e2, wf2, len2, cc2⟩ := tryFreeAll_spec r1.out c1 r1.excess a1.wf
          (by intro e he; rw [a1.len]; exact (a1.ri.2.2 e he).2)
        simp only [e2]
        have hc2 : Cons K { s with cache := c2 } (ex ++ []) := by
          refine ⟨wf2, ?_⟩
          intro b
          have h2 := hcons.2 b
          have h3 := cc2 b
          simp only [F, H_append, H_nil] at *
          omega
        obtain ⟨s2, h2, c2', f2⟩ := freeDirectAll_spec ex K { s with cache := c2 } [] hk hc2
        simp only [h2]
        have same2 : Same s s2 := by rw [f2]; exact ⟨rfl, rfl, rfl, by simp only; rw [len2, a1.len], rfl⟩
        split
        · exact ⟨[], s2, rfl, c2', same2, ⟨by simp [total], by simp, by simp, by simp⟩, by simp⟩
        · obtain ⟨s3, h3, c3, m3⟩ := sweep_spec (sweeps.headD []) s2 (by rw [same2.1]; exact hfind)
            (by rw [same2.1]; exact hk) c2'
          rw [h3]
          have same3 := same2.trans m3
          obtain ⟨out, s4, h4, c4, m4, o4⟩ := ih sweeps.tail s3
            (by rw [same3.2.2.2.1]; exact hmax) (by rw [same3.2.2.2.1]; exact hmin)
            (by rw [same3.1]; exact hfind) (by rw [same3.1]; exact hk) c3
          exact ⟨out, s4, h4, c4, same3.trans m4, o4⟩

theorem directPortion_spec {find minBlks} {K} (n0 : Nat) : ∀ fuel cur last s rem out,
    FindOk s.total find → Cons K s out → rem + total out = n0 → (∀ e ∈ out, 1 ≤ e.cnt) → out.length ≤ maxPieces →
    ∀ s' rem' out', directPortion find minBlks fuel cur last s rem out = (s', rem', out') →
      Cons K s' out' ∧ Same s s' ∧ rem' + total out' = n0 ∧ (∀ e ∈ out', 1 ≤ e.cnt) ∧ out'.length ≤ maxPieces ∧
      s'.cache = s.cache := by
  intro fuel
  induction fuel with
  | zero =>
    intro cur last s rem out _ hc ht hp hl s' rem' out' h
    simp [directPortion] at h
    obtain ⟨rfl, rfl, rfl⟩ := h
    exact ⟨hc, Same.refl _, ht, hp, hl, rfl⟩
  | succ fuel ih =>
    intro cur last s rem out hfind hc ht hp hl s' rem' out' h
    unfold directPortion at h
    split at h
    · rename_i hcond
      split at h
      · simp at h
        obtain ⟨rfl, rfl, rfl⟩ := h
        exact ⟨hc, Same.refl _, ht, hp, hl, rfl⟩
      · rename_i b n hfd
        obtain ⟨f1, f2, f3, f4, f5, f6, f7⟩ := hfind _ _ _ _ _ _ _ hfd
        have hc' : Cons K { s with bm := setBits s.bm b n true } (out ++ [⟨b, n, 0⟩]) := by
          refine ⟨hc.1, fun x => ?_⟩
          have e1 := F_setBits (s := s) f6 f7 x
          have e2 := hc.2 x
          simp only [H_append, H_cons, H_nil]
          omega
        have := ih (b + n) last { s with bm := setBits s.bm b n true } (rem - n) (out ++ [⟨b, n, 0⟩]) hfind hc'
          (by rw [total_append]; simp [total] at *; omega)
          (by intro e he; simp at he; rcases he with he | he
              · exact hp e he
              · subst he; exact f1)
          (by simp; omega) s' rem' out' h
        exact this
    · simp at h
      obtain ⟨rfl, rfl, rfl⟩ := h
      exact ⟨hc, Same.refl _, ht, hp, hl, rfl⟩

theorem directLoop_spec {find minBlks maxP start} {K} (n0 : Nat) : ∀ fuel p s rem out,
    FindOk s.total find → Cons K s out → rem + total out = n0 → (∀ e ∈ out, 1 ≤ e.cnt) → out.length ≤ maxPieces →
    ∀ s' rem' out' p', directLoop find minBlks maxP start fuel p s rem out = (s', rem', out', p') →
      Cons K s' out' ∧ Same s s' ∧ rem' + total out' = n0 ∧ (∀ e ∈ out', 1 ≤ e.cnt) ∧ out'.length ≤ maxPieces ∧
      s'.cache = s.cache := by
  intro fuel
  induction fuel with
  | zero =>
    intro p s rem out _ hc ht hp hl s' rem' out' p' h
    simp [directLoop] at h
    obtain ⟨rfl, rfl, rfl, rfl⟩ := h
    exact ⟨hc, Same.refl _, ht, hp, hl, rfl⟩
  | succ fuel ih =>
    intro p s rem out hfind hc ht hp hl s' rem' out' p' h
    unfold directLoop at h
    cases hdp : directPortion find minBlks (s.bpp + 1) (p * s.bpp) (p * s.bpp + s.bpp - 1) s rem out with
    | mk s1 r =>
      obtain ⟨rem1, out1⟩ := r
      obtain ⟨a1, a2, a3, a4, a5, a6⟩ := directPortion_spec n0 _ _ _ _ _ _ hfind hc ht hp hl _ _ _ hdp
      simp only [hdp] at h
      split at h
      · simp only [Prod.mk.injEq] at h
        obtain ⟨rfl, rfl, rfl, rfl⟩ := h
        exact ⟨a1, a2, a3, a4, a5, a6⟩
      · generalize (if p + 1 = s.numPortions then 0 else p + 1) = p2 at h
        split at h
        · obtain ⟨b1, b2, b3, b4, b5, b6⟩ := ih _ s1 rem1 out1 (by rw [a2.1]; exact hfind) a1 a3 a4 a5 _ _ _ _ h
          exact ⟨b1, a2.trans b2, b3, b4, b5, by rw [b6, a6]⟩
        · simp only [Prod.mk.injEq] at h
          obtain ⟨rfl, rfl, rfl, rfl⟩ := h
          exact ⟨a1, a2, a3, a4, a5, a6⟩

/-- A contiguous search that must find everything at once: at most one piece. -/
theorem directPortion_one {find} {total : Nat} (hfind : FindOk total find) : ∀ fuel cur last s rem,
    s.total = total → ∀ s' rem' out', directPortion find rem fuel cur last s rem [] = (s', rem', out') →
      (out' = [] ∧ rem' = rem) ∨ (out'.length = 1 ∧ rem' = 0) := by
  intro fuel
  cases fuel with
  | zero =>
    intro cur last s rem _ s' rem' out' h
    simp [directPortion] at h
    obtain ⟨rfl, rfl, rfl⟩ := h
    simp
  | succ fuel =>
    intro cur last s rem hs s' rem' out' h
    unfold directPortion at h
    split at h
    · split at h
      · simp only [Prod.mk.injEq] at h; obtain ⟨rfl, rfl, rfl⟩ := h; simp
      · rename_i b n hfd
        obtain ⟨f1, f2, f3, -⟩ := hfind _ _ _ _ _ _ _ hfd
        have hn : rem - n = 0 := by simp at f2; omega
        rw [hn] at h
        cases fuel with
        | zero => simp [directPortion] at h; obtain ⟨rfl, rfl, rfl⟩ := h; simp
        | succ fuel =>
          simp [directPortion] at h; obtain ⟨rfl, rfl, rfl⟩ := h; simp
    · simp only [Prod.mk.injEq] at h; obtain ⟨rfl, rfl, rfl⟩ := h; simp

theorem directLoop_one {find maxP start} {total : Nat} (hfind : FindOk total find) : ∀ fuel p s rem,
    s.total = total → ∀ s' rem' out' p', directLoop find rem maxP start fuel p s rem [] = (s', rem', out', p') →
      (out' = [] ∧ rem' = rem) ∨ (out'.length = 1 ∧ rem' = 0) := by
  intro fuel
  induction fuel with
  | zero =>
    intro p s rem _ s' rem' out' p' h
    simp [directLoop] at h
    obtain ⟨rfl, rfl, rfl, rfl⟩ := h
    simp
  | succ fuel ih =>
    intro p s rem hs s' rem' out' p' h
    unfold directLoop at h
    cases hdp : directPortion find rem (s.bpp + 1) (p * s.bpp) (p * s.bpp + s.bpp - 1) s rem [] with
    | mk s1 r =>
      obtain ⟨rem1, out1⟩ := r
      have o := directPortion_one hfind _ _ _ _ _ hs _ _ _ hdp
      have hs1 : s1.total = total := by
        rw [← hs]
        clear h o ih
        have gen : ∀ fuel cur last s rem out s' rem' out',
            directPortion find rem fuel cur last s rem out = (s', rem', out') → s'.total = s.total := by
          intro fuel
          intro cur last s rem out s' rem' out' h
          have : ∀ fuel m cur last s rem out s' rem' out',
            directPortion find m fuel cur last s rem out = (s', rem', out') → s'.total = s.total := by
            intro fuel
            induction fuel with
            | zero => intro m cur last s rem out s' rem' out' h; simp [directPortion] at h; rw [h.1]
            | succ fuel ih =>
              intro m cur last s rem out s' rem' out' h
              unfold directPortion at h
              split at h
              · split at h
                · simp at h; rw [h.1]
                · rename_i b n _
                  exact ih _ _ _ { s with bm := setBits s.bm b n true } _ _ _ _ _ h
              · simp at h; rw [h.1]
          exact this _ _ _ _ _ _ _ _ _ _ h
        exact gen _ _ _ _ _ _ _ _ _ hdp
      simp only [hdp] at h
      split at h
      · simp only [Prod.mk.injEq] at h
        obtain ⟨rfl, rfl, rfl, rfl⟩ := h
        exact o
      · rename_i hne
        have o' : out1 = [] ∧ rem1 = rem := by
          rcases o with o | o
          · exact o
          · exact absurd o.2 hne
        obtain ⟨rfl, rfl⟩ := o'
        generalize (if p + 1 = s.numPortions then 0 else p + 1) = p2 at h
        split at h
        · exact ih _ s1 rem1 hs1 _ _ _ _ h
        · simp only [Prod.mk.injEq] at h
          obtain ⟨rfl, rfl, rfl, rfl⟩ := h
          simp

end HS.Varsize
