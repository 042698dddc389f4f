import Verif.Varsize.Props
import Verif.Varsize.Session
/-!
# When the variable-size allocator may say that there is no space (C42)
-/
namespace HS.Varsize

/-- Further assumed contract of the bitset search (`sisl::Bitset::get_next_contiguous_n_reset_bits`) for a minimum of one
bit: it finds the first reset bit of the range, if there is one. -/
def FindFirst (total : Nat) (find : Find) : Prop :=
  ∀ bm lo hi mx, 1 ≤ mx →
    (find bm lo hi 1 mx = none → ∀ x, lo ≤ x → x ≤ hi → x < total → bm x = true) ∧
    ∀ b n, find bm lo hi 1 mx = some (b, n) → ∀ x, lo ≤ x → x < b → bm x = true

/-! ### The cache is used up before a request is served short -/

def EmptyAt (c : Cache) (i : Nat) : Prop := ∀ sl, c[i]? = some sl → ∀ lv ∈ sl.levels, lv.q = []

theorem pop_none {sl : Slab} {t : Nat} (h : sl.pop t = none) : ∀ lv ∈ sl.levels, lv.q = [] := by
  intro lv hm
  obtain ⟨l, hl⟩ := List.mem_iff_getElem?.1 hm
  have hln : l < sl.levels.length := (List.getElem?_eq_some_iff.1 hl).1
  have hmo := mem_order (start := min t (sl.levels.length - 1)) hln (by omega)
  unfold Slab.pop at h
  simp only at h
  split at h
  · rename_i l' hf
    have hl' : l' < sl.levels.length := by
      have := List.mem_of_find?_eq_some hf
      unfold order at this
      obtain ⟨i, _, rfl⟩ := List.mem_map.1 this
      exact Nat.mod_lt _ (by omega)
    have hs := List.find?_some hf
    rw [List.getElem?_eq_getElem hl'] at h hs
    generalize sl.levels[l'] = lv' at h hs
    obtain ⟨cap, q⟩ := lv'
    cases q with
    | nil => simp at hs
    | cons e q => simp at h
  · rename_i hf
    have := List.find?_eq_none.1 hf l hmo
    rw [hl] at this
    simpa using this

theorem popLoop_empty {idx level : Nat} : ∀ n c c' es, popLoop idx level n c = some (c', es) →
    (es.length < n → EmptyAt c' idx) ∧ ∀ j, j ≠ idx → c'[j]? = c[j]? := by
  intro n
  induction n with
  | zero => intro c c' es h; simp [popLoop] at h; obtain ⟨rfl, rfl⟩ := h; exact ⟨by simp, fun _ _ => rfl⟩
  | succ n ih =>
    intro c c' es h
    unfold popLoop at h
    split at h
    · cases h
    · rename_i sl hsl
      split at h
      · rename_i hp
        cases h
        refine ⟨fun _ s hs => ?_, fun _ _ => rfl⟩
        rw [hsl] at hs; cases hs
        exact pop_none hp
      · rename_i e sl' _
        split at h
        · cases h
        · rename_i c2 es2 h2
          cases h
          obtain ⟨i1, i2⟩ := ih _ _ _ h2
          refine ⟨fun hl => i1 (by simpa using hl), fun j hj => ?_⟩
          rw [i2 j hj, List.getElem?_set_ne (by omega)]

theorem inSlab_empty {idx : Nat} {req : Req} {c c' : Cache} {r r' : Resp} {st : Status} (wf : WF c)
    (hc : req.contiguous = false) (h : tryAllocInSlab idx req c r = some (st, c', r')) (hs : st ≠ .success) :
    EmptyAt c' idx ∧ ∀ j, j ≠ idx → c'[j]? = c[j]? := by
  unfold tryAllocInSlab at h
  split at h
  · cases h; exact absurd rfl hs
  · rename_i hge
    split at h
    · cases h
    · rename_i sl hsl
      have hpos : 0 < sl.size := by rw [(wf.2.2 _ _ hsl).1]; exact Nat.pow_pos (by omega)
      simp only [hc] at h
      rw [if_neg (by simp)] at h
      split at h
      · cases h
      · rename_i c1 es hp
        split at h
        · cases h
        · rename_i c2 r2 hf
          cases h
          obtain ⟨p1, p2⟩ := popLoop_empty _ _ _ _ hp
          have hle : es.length ≤ (req.nblks - r.alloced - 1) / sl.size + 1 := by
            have := (popLoop_spec idx req.level ((req.nblks - r.alloced - 1) / sl.size + 1) c wf
              (List.getElem?_eq_some_iff.1 hsl).1)
            obtain ⟨a, b, e, _, _, l, _⟩ := this
            rw [hp] at e
            cases e
            exact l
          have hlt : es.length < (req.nblks - r.alloced - 1) / sl.size + 1 := by
            apply Nat.lt_of_le_of_ne hle
            intro he
            rw [if_pos he] at hs
            exact hs rfl
          -- nothing is given back
          have hmul : es.length * sl.size ≤ req.nblks - r.alloced - 1 := by
            calc es.length * sl.size ≤ ((req.nblks - r.alloced - 1) / sl.size) * sl.size := Nat.mul_le_mul_right _ (by omega)
              _ ≤ _ := Nat.div_mul_le_self _ _
          unfold freeExcess at hf
          simp only at hf
          rw [if_neg (by omega)] at hf
          cases hf
          exact ⟨p1 hlt, p2⟩

theorem EmptyAt.of_eq {c c' : Cache} {i : Nat} (h : EmptyAt c i) (e : c'[i]? = c[i]?) : EmptyAt c' i := by
  intro sl hs; rw [e] at hs; exact h sl hs

theorem breakUp_empty {req : Req} (hn : 1 ≤ req.nblks) (hc : req.contiguous = false) : ∀ fuel idx c r st c' r', WF c →
    RI req (2 ^ (c.length - 1)) r → idx < c.length →
    breakUp fuel idx req c r = some (st, c', r') → st ≠ .success →
    (∀ j, idx < j → j < c.length → EmptyAt c' j) ∧ (∀ j, j ≤ idx → c'[j]? = c[j]?) ∧ c'.length = c.length := by
  intro fuel
  induction fuel with
  | zero => intro idx c r st c' r' _ _ _ h; cases h
  | succ fuel ih =>
    intro idx c r st c' r' wf ri hi h hs
    unfold breakUp at h
    split at h
    · cases h
      exact ⟨fun j h1 h2 => by omega, fun _ _ => rfl, rfl⟩
    · rename_i hlt
      obtain ⟨st1, c1, r1, e1, a1⟩ := tryAllocInSlab_spec (idx := idx + 1) wf (by omega) ri hn
      rw [e1] at h
      have key : st1 ≠ .success → (match dropPartial st1 req c1 r1 with
          | none => none
          | some (c2, r2) => breakUp fuel (idx + 1) req c2 r2) = some (st, c', r') →
          (∀ j, idx < j → j < c.length → EmptyAt c' j) ∧ (∀ j, j ≤ idx → c'[j]? = c[j]?) ∧ c'.length = c.length := by
        intro hs1 h
        rw [dropPartial_eq a1 (by rw [hc]; intro h; cases h)] at h
        simp only at h
        obtain ⟨m1, m2⟩ := inSlab_empty wf hc e1 hs1
        have rl := a1.ri
        rw [← a1.len] at rl
        obtain ⟨i1, i2, i3⟩ := ih (idx + 1) c1 r1 st c' r' a1.wf rl (by rw [a1.len]; omega) h hs
        refine ⟨fun j h1 h2 => ?_, fun j hj => ?_, by rw [i3, a1.len]⟩
        · by_cases hj : j = idx + 1
          · subst hj; exact m1.of_eq (i2 _ (Nat.le_refl _))
          · exact i1 j (by omega) (by rw [a1.len]; omega)
        · rw [i2 j (by omega), m2 j (by omega)]
      cases st1 with
      | success => cases h; exact absurd rfl hs
      | failed => exact key (by decide) h
      | spaceFull => exact key (by decide) h
      | partialAlloc => exact key (by decide) h
      | tooManyPieces => exact key (by decide) h

theorem mergeDown_empty {req : Req} (hn : 1 ≤ req.nblks) (hc : req.contiguous = false) (hm : req.minIdx = 0) :
    ∀ idx c r st c' r', WF c → RI req (2 ^ (c.length - 1)) r → idx < c.length →
    mergeDown idx req c r = some (st, c', r') → st ≠ .success →
    (∀ j, j < idx → EmptyAt c' j) ∧ (∀ j, idx ≤ j → c'[j]? = c[j]?) ∧ st = endStatus r' := by
  intro idx
  induction idx with
  | zero =>
    intro c r st c' r' _ _ _ h _
    unfold mergeDown at h
    rw [if_pos hm.symm] at h
    cases h
    exact ⟨fun j hj => by omega, fun _ _ => rfl, rfl⟩
  | succ idx ih =>
    intro c r st c' r' wf ri hi h hs
    unfold mergeDown at h
    rw [if_neg (by omega)] at h
    obtain ⟨st1, c1, r1, e1, a1⟩ := tryAllocInSlab_spec (idx := idx) wf (by omega) ri hn
    rw [e1] at h
    have key : st1 ≠ .success → mergeDown idx req c1 r1 = some (st, c', r') →
        (∀ j, j < idx + 1 → EmptyAt c' j) ∧ (∀ j, idx + 1 ≤ j → c'[j]? = c[j]?) ∧ st = endStatus r' := by
      intro hs1 h
      obtain ⟨m1, m2⟩ := inSlab_empty wf hc e1 hs1
      have rl := a1.ri
      rw [← a1.len] at rl
      obtain ⟨i1, i2, i3⟩ := ih c1 r1 st c' r' a1.wf rl (by rw [a1.len]; omega) h hs
      refine ⟨fun j hj => ?_, fun j hj => by rw [i2 j (by omega), m2 j (by omega)], i3⟩
      by_cases hj' : j = idx
      · subst hj'; exact m1.of_eq (i2 _ (Nat.le_refl _))
      · exact i1 j (by omega)
    cases st1 with
    | success => cases h; exact absurd rfl hs
    | failed => exact key (by decide) h
    | spaceFull => exact key (by decide) h
    | partialAlloc => exact key (by decide) h
    | tooManyPieces => exact key (by decide) h

/-- A request for several pieces of any size that the cache cannot serve in full leaves the cache empty. -/
theorem tryAlloc_empty {req : Req} {c c' : Cache} {r' : Resp} {st : Status} (wf : WF c) (hn : 1 ≤ req.nblks)
    (hc : req.contiguous = false) (hm : req.minIdx = 0) (hmax : req.maxIdx = c.length - 1)
    (h : tryAlloc req c Resp.empty = some (st, c', r')) (hs : st ≠ .success) :
    (∀ j, j < c'.length → EmptyAt c' j) ∧ (st = .failed → r'.out = []) := by
  obtain ⟨st0, c0, r0, e0, a0⟩ := tryAlloc_spec wf hn hmax (by rw [hm]; intro _; omega)
  have heq := e0
  rw [h] at heq
  cases heq
  have hlen : c'.length = c.length := a0.len
  unfold tryAlloc at h
  simp only [hmax] at h
  have wl := wf.1
  have hi : min (Slab.findSlab req.nblks) (c.length - 1) < c.length := by omega
  generalize min (Slab.findSlab req.nblks) (c.length - 1) = idx at *
  have ri0 : RI req (2 ^ (c.length - 1)) Resp.empty := by simp [RI, Resp.empty, total]
  obtain ⟨st1, c1, r1, e1, a1⟩ := tryAllocInSlab_spec (idx := idx) wf hi ri0 hn
  rw [e1] at h
  have key : st1 ≠ .success → (match dropPartial st1 req c1 r1 with
      | none => none
      | some (c2, r2) => match breakUp c2.length idx req c2 r2 with
        | none => none
        | some (.success, c3, r3) => some (.success, c3, r3)
        | some (st3, c3, r3) =>
          if req.contiguous then some (st3, c3, r3) else mergeDown idx req c3 r3) = some (st, c', r') →
      (∀ j, j < c'.length → EmptyAt c' j) ∧ (st = .failed → r'.out = []) := by
    intro hs1 h
    rw [dropPartial_eq a1 (by rw [hc]; intro h; cases h)] at h
    simp only at h
    obtain ⟨m1, m2⟩ := inSlab_empty wf hc e1 hs1
    have rl := a1.ri
    rw [← a1.len] at rl
    obtain ⟨st2, c2, r2, e2, a2⟩ := breakUp_spec hn c1.length idx c1 r1 a1.wf rl (by rw [hc]; intro h; cases h)
      (by rw [a1.len]; omega) (by omega)
    rw [e2] at h
    have key2 : st2 ≠ .success → (if req.contiguous then some (st2, c2, r2) else mergeDown idx req c2 r2) = some (st, c', r') →
        (∀ j, j < c'.length → EmptyAt c' j) ∧ (st = .failed → r'.out = []) := by
      intro hs2 h
      rw [if_neg (by rw [hc]; simp)] at h
      obtain ⟨b1, b2, b3⟩ := breakUp_empty hn hc _ _ _ _ _ _ _ a1.wf rl (by rw [a1.len]; omega) e2 hs2
      have a12 := a1.trans hs1 a2
      have rl2 := a12.ri
      rw [← a12.len] at rl2
      obtain ⟨d1, d2, d3⟩ := mergeDown_empty hn hc hm idx c2 r2 st c' r' a12.wf rl2 (by rw [a12.len]; omega) h hs
      refine ⟨fun j hj => ?_, fun hf => ?_⟩
      · rcases Nat.lt_trichotomy j idx with hlt | heq | hgt
        · exact d1 j hlt
        · subst heq
          exact (m1.of_eq (b2 _ (Nat.le_refl _))).of_eq (d2 _ (Nat.le_refl _))
        · exact (b1 j hgt (by rw [a1.len]; omega)).of_eq (d2 j (by omega))
      · rw [d3] at hf
        unfold endStatus at hf
        split at hf
        · cases hf
        · rename_i h0
          have ht := a0.ri.1
          have hpos := a0.ri.2.2
          cases hout : r'.out with
          | nil => rfl
          | cons e l =>
            have := (hpos e (by rw [hout]; exact List.mem_cons_self)).1
            rw [hout] at ht
            simp [total] at ht
            omega
    cases st2 with
    | success => cases h; exact absurd rfl hs
    | failed => exact key2 (by decide) h
    | spaceFull => exact key2 (by decide) h
    | partialAlloc => exact key2 (by decide) h
    | tooManyPieces => exact key2 (by decide) h
  cases st1 with
  | success => cases h; exact absurd rfl hs
  | failed => exact key (by decide) h
  | spaceFull => exact key (by decide) h
  | partialAlloc => exact key (by decide) h
  | tooManyPieces => exact key (by decide) h

theorem cached_nil {c : Cache} (h : ∀ j, j < c.length → EmptyAt c j) : cachedBlks c = [] := by
  unfold cachedBlks
  rw [List.flatMap_eq_nil_iff]
  intro sl hm
  obtain ⟨i, hi⟩ := List.mem_iff_getElem?.1 hm
  rw [List.flatMap_eq_nil_iff]
  intro lv hlv
  rw [h i (List.getElem?_eq_some_iff.1 hi).1 sl hi lv hlv]
  rfl

theorem freeDirectAll_cache : ∀ es (s s' : St), freeDirectAll s es = some s' →
    s'.cache = s.cache ∧ s'.total = s.total ∧ s'.bpp = s.bpp ∧ s'.startPortion = s.startPortion := by
  intro es
  induction es with
  | nil => intro s s' h; cases h; exact ⟨rfl, rfl, rfl, rfl⟩
  | cons e es ih =>
    intro s s' h
    unfold freeDirectAll at h
    split at h
    · cases h
    · rename_i s1 h1
      unfold freeDirect at h1
      split at h1
      · cases h1
        have hi := ih _ _ h
        exact hi
      · cases h1

theorem fillPortion_frame {find : Find} {temp : Nat} {stop : Nat → Bool} : ∀ fuel cur last (s : St) rq s' rq',
    fillPortion find temp stop fuel cur last s rq = some (s', rq') →
    s'.total = s.total ∧ s'.bpp = s.bpp ∧ s'.startPortion = s.startPortion := by
  intro fuel
  induction fuel with
  | zero => intro cur last s rq s' rq' h; cases h; exact ⟨rfl, rfl, rfl⟩
  | succ fuel ih =>
    intro cur last s rq s' rq' h
    unfold fillPortion at h
    split at h
    · cases h; exact ⟨rfl, rfl, rfl⟩
    · split at h
      · cases h; exact ⟨rfl, rfl, rfl⟩
      · split at h
        · cases h
        · have hi := ih _ _ _ _ _ _ h
          exact hi

theorem sweep_frame {find : Find} : ∀ ws (s s' : St), sweep find s ws = some s' →
    s'.total = s.total ∧ s'.bpp = s.bpp ∧ s'.startPortion = s.startPortion := by
  intro ws
  induction ws with
  | nil => intro s s' h; cases h; exact ⟨rfl, rfl, rfl⟩
  | cons w ws ih =>
    intro s s' h
    unfold sweep at h
    split at h
    · cases h
    · rename_i s1 rq1 h1
      obtain ⟨a1, a2, a3⟩ := fillPortion_frame _ _ _ _ _ _ _ h1
      obtain ⟨b1, b2, b3⟩ := ih _ _ h
      exact ⟨b1.trans a1, b2.trans a2, b3.trans a3⟩

/-- What the cache part of an allocation returns: the request in full, or six pieces, or all the cache had. -/
theorem slabLoop_empty {find : Find} {req : Req} {h : Hints} {K : Nat → Nat} (hn : 1 ≤ req.nblks) (hc : req.contiguous = false)
    (hp : h.partialOk = true) (hm : req.minIdx = 0) : ∀ retries sweeps (s : St) out s', 1 ≤ retries →
    req.maxIdx = s.cache.length - 1 → FindOk s.total find → KOk s.total K → Cons K s [] →
    allocSlabLoop find req h retries sweeps s = some (out, s') →
    (total out = req.nblks ∨ out.length = maxPieces ∨ cachedBlks s'.cache = []) ∧
    s'.total = s.total ∧ s'.bpp = s.bpp ∧ s'.startPortion = s.startPortion := by
  intro retries
  induction retries with
  | zero => intro sweeps s out s' h1; omega
  | succ retries ih =>
    intro sweeps s out s' _ hmax hfind hk hcons hl
    obtain ⟨st, c1, r, e1, a1⟩ := tryAlloc_spec hcons.1 hn hmax (by rw [hm]; intro _; omega)
    have hempty := tryAlloc_empty hcons.1 hn hc hm hmax e1
    unfold allocSlabLoop at hl
    simp only [e1] at hl
    split at hl
    · rename_i hpr
      split at hl
      · cases hl
      · rename_i s2 h2
        cases hl
        obtain ⟨f1, f2⟩ := freeDirectAll_cache _ _ _ h2
        refine ⟨?_, f2⟩
        by_cases hs : st = .success
        · exact Or.inl (a1.ri.1.trans (a1.suc hs))
        · refine Or.inr (Or.inr ?_)
          rw [f1]
          exact cached_nil (hempty hs).1
    · rename_i hpr
      split at hl
      · rename_i hpr2
        split at hl
        · cases hl
        · rename_i s2 h2
          cases hl
          obtain ⟨f1, f2⟩ := freeDirectAll_cache _ _ _ h2
          refine ⟨Or.inr (Or.inl ?_), f2⟩
          rw [List.length_take]
          have : ¬ r.out.length ≤ maxPieces := fun hle => hpr ⟨hpr2.1, hle⟩
          omega
      · rename_i hpr2
        have hnp : ¬ (st = .success ∨ (st = .partialAlloc ∧ (h.partialOk = true ∨ h.contiguous = false))) :=
          fun hh => hpr2 ⟨hh, hp⟩
        have hsf : st = .failed := by
          rcases a1.sts with h1 | h1 | h1
          · exact absurd (Or.inl h1) hnp
          · exact h1
          · exact absurd (Or.inr ⟨h1, Or.inl hp⟩) hnp
        obtain ⟨em1, em2⟩ := hempty (by rw [hsf]; decide)
        have hout := em2 hsf
        rw [hout] at hl
        simp only [tryFreeAll] at hl
        split at hl
        · cases hl
        · rename_i s2 h2
          obtain ⟨f1, f2⟩ := freeDirectAll_cache _ _ _ h2
          split at hl
          · cases hl
            refine ⟨Or.inr (Or.inr ?_), f2⟩
            rw [f1]
            exact cached_nil em1
          · rename_i hr
            -- conservation, to go on after the sweep
            have hc1 : Cons K { s with cache := c1 } (r.excess ++ []) := by
              refine ⟨a1.wf, fun b => ?_⟩
              have h1 := a1.cc b
              have h2 := hcons.2 b
              rw [hout] at h1
              simp only [F, H_append, H_nil, Resp.empty] at *
              omega
            obtain ⟨s2', e2', c2', g2'⟩ := freeDirectAll_spec r.excess K { s with cache := c1 } [] hk hc1
            have : s2' = s2 := by
              have := e2'.symm.trans h2
              exact Option.some.inj this
            subst this
            split at hl
            · cases hl
            · rename_i s3 h3
              obtain ⟨g1, g2, g3⟩ := sweep_frame _ _ _ h3
              have hts : s2'.total = s.total := f2.1
              obtain ⟨s3', e3', c3', m3⟩ := sweep_spec (sweeps.headD []) s2' (by rw [hts]; exact hfind) (by rw [hts]; exact hk) c2'
              have : s3' = s3 := Option.some.inj (e3'.symm.trans h3)
              subst this
              have hlen : s3'.cache.length = s.cache.length := by
                have := m3.2.2.2.1
                rw [this, f1]
                exact a1.len
              obtain ⟨i1, i2, i3, i4⟩ := ih sweeps.tail s3' out s' (by omega) (by rw [hlen]; exact hmax)
                (by rw [g1, hts]; exact hfind) (by rw [g1, hts]; exact hk) c3' hl
              exact ⟨i1, i2.trans (g1.trans hts), i3.trans (g2.trans f2.2.1), i4.trans (g3.trans f2.2.2)⟩

/-! ### The direct search looks everywhere -/

theorem directPortion_full {find : Find} {total : Nat} (hf : FindOk total find) (hff : FindFirst total find) :
    ∀ fuel cur last (s : St) rem out s' rem' out', s.total = total → last + 1 < cur + fuel →
    directPortion find 1 fuel cur last s rem out = (s', rem', out') →
    (rem' = 0 ∨ maxPieces ≤ out'.length ∨ ∀ x, cur ≤ x → x ≤ last → x < total → s'.bm x = true) ∧
    (∀ x, s.bm x = true → s'.bm x = true) ∧ s'.total = s.total ∧ s'.bpp = s.bpp ∧ s'.cache = s.cache ∧
    out.length ≤ out'.length := by
  intro fuel
  induction fuel with
  | zero =>
    intro cur last s rem out s' rem' out' _ hlt h
    cases h
    exact ⟨Or.inr (Or.inr fun x h1 h2 => by omega), fun _ h => h, rfl, rfl, rfl, Nat.le_refl _⟩
  | succ fuel ih =>
    intro cur last s rem out s' rem' out' ht hlt h
    unfold directPortion at h
    split at h
    · rename_i hc
      rw [show min 1 rem = 1 by omega] at h
      obtain ⟨f1, f2⟩ := hff s.bm cur last rem (by omega)
      split at h
      · rename_i hnone
        cases h
        exact ⟨Or.inr (Or.inr (f1 hnone)), fun _ h => h, rfl, rfl, rfl, Nat.le_refl _⟩
      · rename_i b n hsome
        obtain ⟨o1, _, _, o4, o5, o6, o7⟩ := hf _ _ _ _ _ _ _ hsome
        obtain ⟨i1, i2, i3, i4, i5, i6⟩ := ih (b + n) last { s with bm := setBits s.bm b n true } (rem - n) (out ++ [⟨b, n, 0⟩]) s' rem' out'
          ht (by omega) h
        have hmono : ∀ x, s.bm x = true → s'.bm x = true := by
          intro x hx
          refine i2 x ?_
          show setBits s.bm b n true x = true
          unfold setBits
          split
          · rfl
          · exact hx
        refine ⟨?_, hmono, i3, i4, i5, by simp at i6; omega⟩
        rcases i1 with h1 | h1 | h1
        · exact Or.inl h1
        · exact Or.inr (Or.inl h1)
        · refine Or.inr (Or.inr fun x hx1 hx2 hx3 => ?_)
          by_cases hxb : x < b
          · exact hmono x (f2 b n hsome x hx1 hxb)
          · by_cases hxn : x < b + n
            · refine i2 x ?_
              show setBits s.bm b n true x = true
              unfold setBits
              rw [if_pos ⟨by omega, hxn⟩]
            · exact h1 x (by omega) hx2 hx3
    · rename_i hc
      cases h
      refine ⟨?_, fun _ h => h, rfl, rfl, rfl, Nat.le_refl _⟩
      by_cases h0 : rem = 0
      · exact Or.inl h0
      · by_cases h1 : cur ≤ last
        · refine Or.inr (Or.inl ?_)
          by_contra h2
          exact hc ⟨h0, h1, by omega⟩
        · exact Or.inr (Or.inr fun x hx1 hx2 => by omega)

def PortionFull (s : St) (p : Nat) : Prop := ∀ x, p * s.bpp ≤ x → x ≤ p * s.bpp + s.bpp - 1 → x < s.total → s.bm x = true

theorem directLoop_full {find : Find} {total bpp N start : Nat} (hf : FindOk total find) (hff : FindFirst total find)
    (hb : 0 < bpp) (hst : start < N) : ∀ fuel k (s : St) rem out s' rem' out' p', s.total = total → s.bpp = bpp →
    s.numPortions = N → k + fuel = N → 0 < fuel → (∀ j, j < k → PortionFull s ((start + j) % N)) →
    directLoop find 1 maxPieces start fuel ((start + k) % N) s rem out = (s', rem', out', p') →
    (rem' = 0 ∨ maxPieces ≤ out'.length ∨ ∀ j, j < N → PortionFull s' ((start + j) % N)) ∧ s'.total = total ∧ s'.bpp = bpp ∧
    s'.cache = s.cache ∧ out.length ≤ out'.length := by
  intro fuel
  induction fuel with
  | zero => intro k s rem out s' rem' out' p' _ _ _ _ h; omega
  | succ fuel ih =>
    intro k s rem out s' rem' out' p' ht hbp hN hk _ hcov h
    unfold directLoop at h
    cases hdp : directPortion find 1 (s.bpp + 1) ((start + k) % N * s.bpp) ((start + k) % N * s.bpp + s.bpp - 1) s rem out with
    | mk s1 r =>
      obtain ⟨rem1, out1⟩ := r
      simp only [hdp] at h
      obtain ⟨d1, d2, d3, d4, d5, d6⟩ := directPortion_full hf hff _ _ _ _ _ _ _ _ _ ht (by omega) hdp
      have hN1 : s1.numPortions = N := by unfold St.numPortions; rw [d3, d4]; exact hN
      split at h
      · rename_i h0
        cases h
        exact ⟨Or.inl h0, d3.trans ht, d4.trans hbp, d5, d6⟩
      · rename_i h0
        have hcov1 : maxPieces ≤ out1.length ∨ ∀ j, j < k + 1 → PortionFull s1 ((start + j) % N) := by
          rcases d1 with h1 | h1 | h1
          · exact absurd h1 h0
          · exact Or.inl h1
          · refine Or.inr fun j hj => ?_
            by_cases hjk : j = k
            · subst hjk
              intro x hx1 hx2 hx3
              rw [d4] at hx1 hx2
              rw [d3] at hx3
              exact h1 x hx1 hx2 (by rw [← ht]; exact hx3)
            · intro x hx1 hx2 hx3
              rw [d4] at hx1 hx2
              rw [d3] at hx3
              exact d2 x (hcov j (by omega) x hx1 hx2 hx3)
        have hnext : (if (start + k) % N + 1 = s.numPortions then 0 else (start + k) % N + 1) = (start + (k + 1)) % N := by
          rw [hN]
          have hlt := Nat.mod_lt (start + k) (show 0 < N by omega)
          rw [show start + (k + 1) = (start + k) + 1 by omega, Nat.add_mod (start + k) 1 N]
          split
          · rename_i he
            by_cases h1 : N = 1
            · subst h1; simp [Nat.mod_one]
            · rw [Nat.mod_eq_of_lt (a := 1) (by omega), he, Nat.mod_self]
          · rename_i he
            have : 1 < N := by omega
            rw [Nat.mod_eq_of_lt (a := 1) this]
            exact (Nat.mod_eq_of_lt (by omega)).symm
        rw [hnext] at h
        split at h
        · rename_i hgo
          have hf0 : 0 < fuel := by
            by_contra hz
            apply hgo.1
            rw [show k + 1 = N by omega, Nat.add_mod_right, Nat.mod_eq_of_lt hst]
          rcases hcov1 with hp | hcov1
          · omega
          · obtain ⟨i1, i2, i3, i4, i5⟩ := ih (k + 1) s1 rem1 out1 s' rem' out' p' (d3.trans ht) (d4.trans hbp) hN1 (by omega) hf0 hcov1 h
            exact ⟨i1, i2, i3, i4.trans d5, by omega⟩
        · rename_i hstop
          cases h
          refine ⟨?_, d3.trans ht, d4.trans hbp, d5, d6⟩
          rcases hcov1 with hp | hcov1
          · exact Or.inr (Or.inl hp)
          · by_cases hp : out'.length < maxPieces
            · have hback : (start + (k + 1)) % N = start := by
                by_contra hne
                exact hstop ⟨hne, hp⟩
              have hk1 : k + 1 = N := by
                by_contra hne
                have hlt : k + 1 < N := by omega
                by_cases hw : start + (k + 1) < N
                · rw [Nat.mod_eq_of_lt hw] at hback; omega
                · have : (start + (k + 1)) % N = start + (k + 1) - N := by
                    rw [Nat.mod_eq_sub_mod (by omega), Nat.mod_eq_of_lt (by omega)]
                  omega
              exact Or.inr (Or.inr fun j hj => hcov1 j (by omega))
            · exact Or.inr (Or.inl (by omega))

theorem all_portions {s : St} {N start : Nat} (hN : s.numPortions = N) (hst : start < N) (hb : 0 < s.bpp)
    (h : ∀ j, j < N → PortionFull s ((start + j) % N)) : ∀ x, x < s.total → s.bm x = true := by
  intro x hx
  have hdm := Nat.div_add_mod x s.bpp
  have hml := Nat.mod_lt x hb
  have hp : x / s.bpp < N := by
    rw [← hN]
    unfold St.numPortions
    have : x / s.bpp ≤ (s.total - 1) / s.bpp := Nat.div_le_div_right (by omega)
    omega
  have hmo := mem_order (n := N) (l := x / s.bpp) (start := start) hp hst
  unfold order at hmo
  obtain ⟨j, hj, he⟩ := List.mem_map.1 hmo
  have := h j (List.mem_range.1 hj)
  rw [he] at this
  have hc : x / s.bpp * s.bpp = s.bpp * (x / s.bpp) := Nat.mul_comm _ _
  exact this x (by omega) (by omega) hx

/-! ### The theorem -/

/-- **C42.** A request for several pieces of any size, that allows a partial result and does not exceed the largest slab:
the allocator reports that there is no space only when not a single block is free; and a result is short only when six
pieces are used up or no block is left. -/
theorem C42_space_partial {find : Find} {retries : Nat} {sweeps : List (List SweepStep)} {s : St} {n : Nat} {temp : Nat}
    (hfind : FindOk s.total find) (hff : FindFirst s.total find) (inv : Inv s) (hb : 0 < s.bpp)
    (hst : s.startPortion < s.numPortions) (hn : 1 ≤ n) (hn2 : n ≤ 65535)
    (hslab : if s.useSlabs = true then n ≤ highestSlab s.cache else cachedBlks s.cache = []) :
    ∃ st out s', alloc find retries sweeps s n { temp := temp, contiguous := false, partialOk := true } = some (st, out, s') ∧
      (st = .success ∨ st = .partialAlloc ∨ st = .spaceFull) ∧
      (st = .spaceFull → ∀ b, ¬ isFree s b) ∧
      (st = .partialAlloc → out.length = maxPieces ∨ ∀ b, ¬ isFree s' b) := by
  generalize hh : ({ temp := temp, contiguous := false, partialOk := true } : Hints) = h
  have hcf : h.contiguous = false := by rw [← hh]
  have hpo : h.partialOk = true := by rw [← hh]
  have hmp : h.minPerPiece = 1 := by rw [← hh]
  obtain ⟨st, out, s', e, inv', hcase, hgr, hng, htot⟩ := C11_alloc_partial (find := find) (retries := retries) (sweeps := sweeps)
    (h := h) hfind inv hn hn2 (fun _ => by rw [hmp]; exact hn)
  have hF := F_of_inv inv
  have hk : KOk s.total (F s) := by
    intro b
    refine ⟨(hF b).1, fun hp => ?_⟩
    have h1 := (hF b).1
    exact ((hF b).2.1 (by omega)).1
  have hcons : Cons (F s) s [] := ⟨inv.1, by simp⟩
  -- the cache part
  have hpart : ∃ out1 s1, (if s.useSlabs = true ∧ n ≤ highestSlab s.cache then
      allocSlabLoop find ⟨n, h.temp, h.contiguous, Slab.findSlab h.minPerPiece, s.cache.length - 1⟩ h (max retries 2) sweeps s
      else some ([], s)) = some (out1, s1) ∧
      (total out1 = n ∨ out1.length = maxPieces ∨ cachedBlks s1.cache = []) ∧ s1.total = s.total ∧ s1.bpp = s.bpp ∧
      s1.startPortion = s.startPortion ∧ total out1 ≤ n := by
    by_cases hu : s.useSlabs = true
    · rw [if_pos hu] at hslab
      rw [if_pos ⟨hu, hslab⟩]
      have hfs1 : Slab.findSlab h.minPerPiece = 0 := by rw [hmp]; decide +kernel
      obtain ⟨o, s1, e1, _, _, ok, _⟩ := allocSlabLoop_spec
        (req := ⟨n, h.temp, h.contiguous, Slab.findSlab h.minPerPiece, s.cache.length - 1⟩) (h := h) hn rfl
        (max retries 2) sweeps s rfl (by intro _; show Slab.findSlab h.minPerPiece ≤ _; rw [hfs1]; omega) hfind hk hcons
      have := slabLoop_empty (K := F s) (req := ⟨n, h.temp, h.contiguous, Slab.findSlab h.minPerPiece, s.cache.length - 1⟩) (h := h) hn hcf hpo
        hfs1 (max retries 2) sweeps s o s1 (by omega) rfl hfind hk hcons e1
      exact ⟨o, s1, e1, this.1, this.2.1, this.2.2.1, this.2.2.2, ok.le⟩
    · rw [if_neg hu] at hslab
      rw [if_neg (fun hx => hu hx.1)]
      exact ⟨[], s, rfl, Or.inr (Or.inr hslab), rfl, rfl, rfl, by simp [total]⟩
  obtain ⟨out1, s1, e1, q1, q2, q3, q4, q5⟩ := hpart
  -- nothing free in a state with nothing cached and all bits set
  have hnofree : ∀ t : St, cachedBlks t.cache = [] → (∀ x, x < t.total → t.bm x = true) → ∀ b, ¬ isFree t b := by
    intro t h1 h2 b hfb
    obtain ⟨h3, h4 | h4⟩ := hfb
    · rw [h2 b h3] at h4; cases h4
    · rw [h1] at h4; cases h4
  refine ⟨st, out, s', e, ?_, ?_⟩
  · rcases hcase with hc | hc | hc | hc
    · exact Or.inl hc.1
    · exact Or.inr (Or.inl hc.1)
    · exfalso
      unfold alloc at e
      simp only [e1] at e
      split at e
      · cases e; cases hc
      · split at e
        · cases e; cases hc
        · split at e
          · cases e; cases hc
          · split at e
            · cases e
            · rw [hcf] at e
              simp at e
              rw [← e.1] at hc; cases hc
    · exact Or.inr (Or.inr hc)
  · unfold alloc at e
    simp only [e1] at e
    split at e
    · cases e; exact ⟨(by intro h; cases h), (by intro h; cases h)⟩
    · rename_i hns
      unfold allocDirect at e
      simp only [hcf, hpo, hmp] at e
      rw [if_neg (show ¬ (false = true) by simp), if_neg (show ¬ ((false = true) ∧ ¬ True) by simp)] at e
      simp only [Bool.false_eq_true, if_false] at e
      by_cases hfull1 : total out1 = n
      · -- all from the cache; only possible when the first branch was taken
        exfalso
        by_cases hu : s.useSlabs = true
        · rw [if_pos hu] at hslab
          exact hns ⟨hu, hslab, by omega⟩
        · rw [if_neg (fun hx => hu hx.1)] at e1
          cases e1
          simp [total] at hfull1
          omega
      · have hrem : 1 ≤ n - total out1 := by omega
        rw [show min (n - total out1) 1 = 1 by omega] at e
        have hNp : s1.numPortions = s.numPortions := by unfold St.numPortions; rw [q2, q3]
        have hpos : 0 < s.numPortions := by omega
        cases hdl : directLoop find 1 maxPieces s1.startPortion s1.numPortions s1.startPortion s1 (n - total out1) out1 with
        | mk s2 r =>
          obtain ⟨rem2, out2, p2⟩ := r
          rw [hdl] at e
          simp only at e
          have hst1 : (s1.startPortion + 0) % s1.numPortions = s1.startPortion := by
            rw [Nat.add_zero, Nat.mod_eq_of_lt (by rw [hNp, q4]; exact hst)]
          obtain ⟨l1, l2, l3, l4, l5⟩ := directLoop_full (total := s.total) (bpp := s.bpp) (N := s1.numPortions) (start := s1.startPortion) hfind hff hb
            (by rw [hNp, q4]; exact hst) s1.numPortions 0 s1 (n - total out1) out1 s2 rem2 out2 p2 q2 q3 rfl (by omega)
            (by rw [hNp]; exact hpos) (by intro j hj; omega) (by rw [hst1]; exact hdl)
          have hN2 : s2.numPortions = s1.numPortions := by unfold St.numPortions; rw [l2, l3, q2, q3]
          have hmain : rem2 ≠ 0 → out2.length < maxPieces → ∀ p a, ∀ b, ¬ isFree { s2 with startPortion := p, alloced := a } b := by
            intro hr hp p a
            apply hnofree
            · show cachedBlks s2.cache = []
              rw [l4]
              rcases q1 with h1 | h1 | h1
              · exact absurd h1 hfull1
              · omega
              · exact h1
            · show ∀ x, x < s2.total → s2.bm x = true
              rcases l1 with h1 | h1 | h1
              · exact absurd h1 hr
              · omega
              · exact all_portions hN2 (by rw [hNp, q4]; exact hst) (by rw [l3]; exact hb) h1
          split at e
          · cases e; exact ⟨(by intro h; cases h), (by intro h; cases h)⟩
          · rename_i hne
            have hr2 : rem2 ≠ 0 := by omega
            split at e
            · cases e
              refine ⟨(by intro h; cases h), fun _ => ?_⟩
              have hle := (hgr (Or.inr rfl)).2.2.2.1
              by_cases hl : out.length < maxPieces
              · exact Or.inr (hmain hr2 hl _ _)
              · exact Or.inl (by omega)
            · split at e
              · cases e
              · rename_i s3 h3
                cases e
                refine ⟨fun _ b hfb => ?_, by intro h; cases h⟩
                obtain ⟨g1, g2⟩ := hng (Or.inr rfl)
                have ho : out = [] := g2 (Or.inr hpo)
                subst ho
                cases h3
                exact hmain hr2 (by decide) p2 s2.alloced b ((g1 b).2 hfb)

theorem findRun_first (tot : Nat) : FindFirst tot (findRun tot) := by
  intro bm lo hi mx hmx
  have key : ∀ b, lo ≤ b → b ≤ hi → b < tot → bm b = false →
      1 ≤ ((List.range' b (min mx (min (hi + 1) tot - b))).takeWhile fun x => ! bm x).length := by
    intro b h1 h2 h3 h4
    obtain ⟨k, hk⟩ : ∃ k, min mx (min (hi + 1) tot - b) = k + 1 := ⟨min mx (min (hi + 1) tot - b) - 1, by omega⟩
    rw [hk, List.range'_succ, List.takeWhile_cons]
    simp [h4]
  refine ⟨fun h x h1 h2 h3 => ?_, fun b n h x h1 h2 => ?_⟩
  · unfold findRun at h
    rw [List.findSome?_eq_none_iff] at h
    by_contra hx
    have hx' : bm x = false := by simpa using hx
    have := h x (List.mem_range'_1.2 ⟨h1, by omega⟩)
    have k1 := key x h1 h2 h3 hx'
    simp only at this
    rw [if_pos ⟨k1, k1⟩] at this
    cases this
  · have hok := findRun_ok tot _ _ _ _ _ _ _ h
    obtain ⟨p1, p2, p3, p4, p5, p6, _⟩ := hok
    unfold findRun at h
    by_contra hx
    have hx' : bm x = false := by simpa using hx
    obtain ⟨l1, a, l2, e1, e2, e3⟩ := List.findSome?_eq_some_iff.1 h
    have k1 := key x h1 (by omega) (by omega) hx'
    have hab : a = b := by
      simp only at e2
      split at e2
      · cases e2; rfl
      · cases e2
    have hxl : x ∈ l1 := by
      have hmem : x ∈ List.range' lo (hi + 1 - lo) := List.mem_range'_1.2 ⟨h1, by omega⟩
      have hsort : (List.range' lo (hi + 1 - lo)).Pairwise (· < ·) := List.pairwise_lt_range' ..
      rw [e1] at hmem hsort
      rcases List.mem_append.1 hmem with hm | hm
      · exact hm
      · exfalso
        rcases List.mem_cons.1 hm with hm | hm
        · omega
        · have := (List.pairwise_append.1 hsort).2.1
          have := (List.pairwise_cons.1 this).1 x hm
          omega
    have := e3 x hxl
    simp only at this
    rw [if_pos ⟨k1, k1⟩] at this
    cases this

/-- The hypotheses are met: a chunk of 32 blocks in two portions with an empty cache of slabs 1, 2 and 4. -/
example : ∃ st out s', alloc (findRun 32) 2 [[]] w0.s 4 { temp := 0, contiguous := false, partialOk := true } = some (st, out, s') ∧
    (st = .success ∨ st = .partialAlloc ∨ st = .spaceFull) ∧ (st = .spaceFull → ∀ b, ¬ isFree w0.s b) ∧
    (st = .partialAlloc → out.length = maxPieces ∨ ∀ b, ¬ isFree s' b) :=
  C42_space_partial (findRun_ok 32) (findRun_first 32) ⟨w0_wf, by decide, by decide⟩ (by decide) (by decide) (by decide)
    (by decide) (by decide +kernel)

/-- **C42, violated.** The first 16 blocks of a chunk are in use; the sweep has moved the other 16 into the cache.  A
request for five blocks in any number of pieces is more than the largest slab, so only the bitmap is searched: the
allocator reports that there is no space. -/
theorem C42_cached_violated : ∃ w s', runOps (findRun 32) w0
    [.alloc 2 [] 16 {}, .sweep [⟨1, 1, fun _ => (6, 0), fun _ => false⟩]] = some w ∧
    (∀ b, 16 ≤ b → b < 32 → isFree w.s b) ∧
    alloc (findRun 32) 2 [] w.s 5 { contiguous := false, partialOk := true } = some (.spaceFull, [], s') := by
  have hr : (runOps (findRun 32) w0
    [.alloc 2 [] 16 {}, .sweep [⟨1, 1, fun _ => (6, 0), fun _ => false⟩]]).isSome = true := by decide +kernel
  obtain ⟨w, hw⟩ := Option.isSome_iff_exists.1 hr
  have h1 : ((runOps (findRun 32) w0
    [.alloc 2 [] 16 {}, .sweep [⟨1, 1, fun _ => (6, 0), fun _ => false⟩]]).map fun w =>
      (List.range 16).all fun k => decide (16 + k ∈ cachedBlks w.s.cache)) = some true := by decide +kernel
  have h2 : ((runOps (findRun 32) w0
    [.alloc 2 [] 16 {}, .sweep [⟨1, 1, fun _ => (6, 0), fun _ => false⟩]]).map fun w =>
      (alloc (findRun 32) 2 [] w.s 5 { contiguous := false, partialOk := true }).map fun r => (r.1, r.2.1.map (·.cnt))) =
      some (some (.spaceFull, [])) := by decide +kernel
  have h3 : ((runOps (findRun 32) w0
    [.alloc 2 [] 16 {}, .sweep [⟨1, 1, fun _ => (6, 0), fun _ => false⟩]]).map fun w => w.s.total) = some 32 := by decide +kernel
  rw [hw] at h1 h2 h3
  simp only [Option.map_some, Option.some.injEq] at h1 h2 h3
  obtain ⟨⟨st, out, s'⟩, ha, hb⟩ := Option.map_eq_some_iff.1 h2
  simp only [Prod.mk.injEq, List.map_eq_nil_iff] at hb
  obtain ⟨rfl, rfl⟩ := hb
  refine ⟨w, s', hw, fun b hb1 hb2 => ⟨by omega, Or.inr ?_⟩, ha⟩
  have := List.all_eq_true.1 h1 (b - 16) (List.mem_range.2 (by omega))
  rw [show 16 + (b - 16) = b by omega] at this
  simpa using this

end HS.Varsize
