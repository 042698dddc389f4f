import Verif.Rr.Model
import Verif.Varsize.Space

/-!
# C126: an allocation is refused only when every chunk refuses it, and allocations are spread over the chunks
-/
namespace HS.Rr
open HS.VAlloc HS.Varsize

/-- The index a call really begins with. -/
def norm (n idx : Nat) : Nat := if idx ≥ n then 0 else idx

theorem norm_lt {n idx : Nat} (hn : 0 < n) : norm n idx < n := by unfold norm; split <;> omega

theorem sel_norm {n idx a : Nat} (hn : 0 < n) :
    norm n (idxAfter n idx a) = (norm n idx + a) % n := by
  induction a with
  | zero => simp only [idxAfter, Nat.add_zero]; rw [Nat.mod_eq_of_lt (norm_lt hn)]
  | succ a ih =>
    have h1 : idxAfter n idx (a + 1) = norm n (idxAfter n idx a) + 1 := by
      simp only [idxAfter, select]
      rw [if_neg (by omega)]
      rfl
    rw [h1, ih, ← Nat.add_assoc, Nat.add_mod (norm n idx + a) 1 n]
    have hr := Nat.mod_lt (norm n idx + a) hn
    generalize (norm n idx + a) % n = r at hr ⊢
    unfold norm
    by_cases h : r + 1 = n
    · rw [if_pos (by omega)]
      by_cases h2 : n = 1
      · subst h2; simp; omega
      · rw [Nat.mod_eq_of_lt (show 1 < n by omega), h, Nat.mod_self]
    · rw [if_neg (by omega), Nat.mod_eq_of_lt (show 1 < n by omega), Nat.mod_eq_of_lt (by omega)]

/-- The chunk that the `a`-th call gets. -/
theorem sel_eq {n idx a : Nat} (hn : 0 < n) : sel n idx a = some ((norm n idx + a) % n) := by
  rw [← sel_norm hn]
  unfold sel select
  rw [if_neg (by omega)]
  rfl

theorem add_mod_inj {n x a b : Nat} (ha : a < n) (hb : b < n) (h : (x + a) % n = (x + b) % n) : a = b := by
  have hn : 0 < n := by omega
  have hr := Nat.mod_lt x hn
  rw [Nat.add_mod x a, Nat.add_mod x b, Nat.mod_eq_of_lt ha, Nat.mod_eq_of_lt hb] at h
  generalize x % n = r at h hr
  have key : ∀ c, c < n → (r + c) % n = if r + c < n then r + c else r + c - n := by
    intro c hc
    split
    · next h1 => exact Nat.mod_eq_of_lt h1
    · next h1 => rw [Nat.mod_eq_sub_mod (by omega), Nat.mod_eq_of_lt (by omega)]
  rw [key a ha, key b hb] at h
  split at h <;> split at h <;> omega

theorem add_mod_hit {n x ci : Nat} (hc : ci < n) : ∃ a < n, (x + a) % n = ci := by
  have hn : 0 < n := by omega
  have hr := Nat.mod_lt x hn
  by_cases h : x % n ≤ ci
  · refine ⟨ci - x % n, by omega, ?_⟩
    rw [Nat.add_mod, Nat.mod_eq_of_lt (show ci - x % n < n by omega), Nat.mod_eq_of_lt (by omega)]
    omega
  · refine ⟨ci + n - x % n, by omega, ?_⟩
    rw [Nat.add_mod, Nat.mod_eq_of_lt (show ci + n - x % n < n by omega),
      show x % n + (ci + n - x % n) = ci + n by omega, Nat.add_mod_right, Nat.mod_eq_of_lt hc]

/-- **C126.**  Whatever the thread did before: of as many calls in a row as there are chunks, exactly one gets each chunk. -/
theorem C126_each_once {n idx ci : Nat} (hc : ci < n) :
    ∃ a < n, sel n idx a = some ci ∧ ∀ b < n, sel n idx b = some ci → b = a := by
  obtain ⟨a, ha, h⟩ := add_mod_hit (x := norm n idx) hc
  refine ⟨a, ha, by rw [sel_eq (by omega), h], fun b hb h2 => ?_⟩
  rw [sel_eq (by omega), Option.some.injEq] at h2
  exact add_mod_inj hb ha (by rw [h2, h])

example : (List.range 4).map (sel 4 2) = [some 2, some 3, some 0, some 1] ∧
    (List.range 4).map (sel 4 4) = [some 0, some 1, some 2, some 3] := by decide

/-- A chunk that refuses its turn: its allocator, asked for the request alone, does not give what was asked for. -/
def Refuses (find : Find) (sch : Nat × List (List SweepStep)) (s : St) (n : Nat) (h : Hints) : Prop :=
  ∃ st out s', alloc find sch.1 sch.2 s n h = some (st, out, s') ∧ st ≠ .success ∧ (st = .partialAlloc → h.partialOk = false)

theorem refused_each {find : Find} {sch : Sched} {sl : Nat → Option Nat} {n : Nat} {h : Hints} (hn : 1 ≤ n) (hn2 : n ≤ 65535)
    (hmin : h.contiguous = false → h.minPerPiece ≤ n) (hcp : h.contiguous = true ∨ h.partialOk = true) :
    ∀ fuel attempt chunks o st o' chunks', o.pieces = [] → Ok find chunks →
      (∀ i ci, sl i = some ci → ci < chunks.length) →
      (∀ a b, attempt ≤ a → a < attempt + fuel → attempt ≤ b → b < attempt + fuel → sl a = sl b → a = b) →
      chunkLoop find sch sl n h true fuel attempt chunks o = some (.alloc st, o', chunks') →
      st ≠ .success → st ≠ .partialAlloc →
      ∀ a, attempt ≤ a → a < attempt + fuel → ∀ ci s, sl a = some ci → chunks[ci]? = some s →
        Refuses find (sch a) s n h := by
  intro fuel
  induction fuel with
  | zero => intro attempt chunks o st o' chunks' _ _ _ _ _ _ _ a h1 h2; omega
  | succ fuel ih =>
    intro attempt chunks o st o' chunks' ho ok hsel hinj hl hs hp a ha1 ha2 ci s hsa hcs
    unfold chunkLoop at hl
    cases hs0 : sl attempt with
    | none => simp only [hs0] at hl; simp at hl
    | some c0 =>
      simp only [hs0] at hl
      obtain ⟨st1, o1, c1, e1, ok1, len1, cs⟩ := allocFromChunk_spec (sch := sch attempt) ok (hsel _ _ hs0) hn hn2 hmin o ho
      simp only [e1] at hl
      have hbad : st1 = .failed ∨ st1 = .spaceFull := by
        rcases cs with c | c | c
        · rw [if_pos (.inl c.1)] at hl
          simp only [Option.some.injEq, Prod.mk.injEq, VStatus.alloc.injEq] at hl
          exact absurd (hl.1.symm.trans c.1) hs
        · rw [if_pos (.inr (.inr ⟨c.1, c.2.1⟩))] at hl
          simp only [Option.some.injEq, Prod.mk.injEq, VStatus.alloc.injEq] at hl
          exact absurd (hl.1.symm.trans c.1) hp
        · exact c.1
      have ho1 : o1.pieces = [] := by
        rcases cs with c | c | c
        · rcases hbad with g | g <;> simp [c.1] at g
        · rcases hbad with g | g <;> simp [c.1] at g
        · exact c.2.2 hcp
      -- the chunk asked now
      obtain ⟨s0, hs0'⟩ : ∃ s0, chunks[c0]? = some s0 := ⟨chunks[c0]'(hsel _ _ hs0), by simp [hsel _ _ hs0]⟩
      have hnow : Refuses find (sch attempt) s0 n h ∧ ∃ t, c1 = chunks.set c0 t := by
        unfold allocFromChunk at e1
        simp only [hs0', ho, if_true] at e1
        cases hr : alloc find (sch attempt).1 (sch attempt).2 s0 n h with
        | none => simp [hr] at e1
        | some r =>
          obtain ⟨sr, out, s'⟩ := r
          simp only [hr] at e1
          split at e1
          · next hpa =>
            split at e1
            · simp at e1
            · next s'' _ =>
              simp only [Option.some.injEq, Prod.mk.injEq] at e1
              exact ⟨⟨sr, out, s', hr, by rw [hpa.1]; simp, fun _ => hpa.2⟩, s'', e1.2.2.symm⟩
          · simp only [Option.some.injEq, Prod.mk.injEq] at e1
            obtain ⟨rfl, _, rfl⟩ := e1
            refine ⟨⟨sr, out, s', hr, ?_, ?_⟩, s', rfl⟩
            · rcases hbad with g | g <;> simp [g]
            · intro g'; rcases hbad with g | g <;> simp [g] at g'
      by_cases hat : a = attempt
      · subst hat
        rw [hs0, Option.some.injEq] at hsa
        subst hsa
        rw [hs0', Option.some.injEq] at hcs
        subst hcs
        exact hnow.1
      · rw [if_neg (by rcases hbad with g | g <;> simp [g])] at hl
        rw [if_neg (by omega)] at hl
        obtain ⟨t, ht⟩ := hnow.2
        have hne : c0 ≠ ci := by
          intro heq
          subst heq
          exact hat (hinj a attempt ha1 ha2 (Nat.le_refl _) (by omega) (by rw [hsa, hs0]))
        refine ih (attempt + 1) c1 o1 st o' chunks' ho1 ok1 (by rw [len1]; exact hsel)
          (fun x y h1 h2 h3 h4 h5 => hinj x y (by omega) (by omega) (by omega) (by omega) h5) hl hs hp a (by omega)
          (by omega) ci s hsa ?_
        rw [ht, List.getElem?_set, if_neg hne]
        exact hcs

/-- **C126.**  With this selector: when an allocation that may look at other chunks is refused, every chunk of the device was
asked, in the state in which it was when the allocation began, and refused the request by itself.

Partial: the request must be contiguous or allow partial results; a scattered request that must be served in full may abort
or leak (`C14_stale_id_violated`). -/
theorem C126_refused_partial {find : Find} {sch : Sched} {chunks chunks' : List St} {idx n : Nat} {h : Hints} {st : Status}
    {o : OutId} (hn : 1 ≤ n) (hn2 : n ≤ 65535) (hmin : h.contiguous = false → h.minPerPiece ≤ n)
    (hcp : h.contiguous = true ∨ h.partialOk = true) (ok : Ok find chunks)
    (he : allocBlks find sch (sel chunks.length idx) chunks n h none true = some (.alloc st, o, chunks'))
    (hs : st ≠ .success) (hp : st ≠ .partialAlloc) :
    ∀ (ci : Nat) (s : St), chunks[ci]? = some s → ∃ a < chunks.length, Refuses find (sch a) s n h := by
  intro ci s hcs
  have hc : ci < chunks.length := by
    rcases List.getElem?_eq_some_iff.1 hcs with ⟨g, _⟩; exact g
  obtain ⟨a, ha, hsa, _⟩ := C126_each_once (idx := idx) hc
  refine ⟨a, ha, ?_⟩
  unfold allocBlks at he
  simp only at he
  rw [show max chunks.length 1 = chunks.length by omega] at he
  refine refused_each hn hn2 hmin hcp chunks.length 0 chunks OutId.empty st o chunks' rfl ok ?_ ?_ he hs hp a (by omega)
    (by omega) ci s hsa hcs
  · intro i cj hi
    rw [sel_eq (by omega), Option.some.injEq] at hi
    rw [← hi]
    exact Nat.mod_lt _ (by omega)
  · intro x y _ hx _ hy hxy
    rw [sel_eq (by omega), sel_eq (by omega), Option.some.injEq] at hxy
    exact add_mod_inj (by omega) (by omega) hxy

theorem loop_alloc {find : Find} {sch : Sched} {sl : Nat → Option Nat} {n : Nat} {h : Hints} {look : Bool}
    (hsl : ∀ i, sl i ≠ none) : ∀ fuel attempt chunks o vs o' chunks',
      chunkLoop find sch sl n h look fuel attempt chunks o = some (vs, o', chunks') → ∃ st, vs = .alloc st := by
  intro fuel
  induction fuel with
  | zero => intro attempt chunks o vs o' chunks' hl; simp [chunkLoop] at hl
  | succ fuel ih =>
    intro attempt chunks o vs o' chunks' hl
    unfold chunkLoop at hl
    cases h0 : sl attempt with
    | none => exact absurd h0 (hsl _)
    | some c0 =>
      simp only [h0] at hl
      split at hl
      · simp at hl
      · split at hl
        · simp only [Option.some.injEq, Prod.mk.injEq] at hl; exact ⟨_, hl.1.symm⟩
        · split at hl
          · simp only [Option.some.injEq, Prod.mk.injEq] at hl; exact ⟨_, hl.1.symm⟩
          · exact ih _ _ _ _ _ _ hl

/-- **C126**, the other way round: if one chunk, wherever it is, can serve the request, the allocation is served. -/
theorem C126_served_partial {find : Find} {sch : Sched} {chunks : List St} {idx n : Nat} {h : Hints} (hn : 1 ≤ n)
    (hn2 : n ≤ 65535) (hmin : h.contiguous = false → h.minPerPiece ≤ n)
    (hcp : h.contiguous = true ∨ h.partialOk = true) (ok : Ok find chunks) {ci : Nat} {s : St} (hcs : chunks[ci]? = some s)
    (hcan : ∀ a, ∃ out s', alloc find (sch a).1 (sch a).2 s n h = some (.success, out, s')) :
    ∃ st o chunks', allocBlks find sch (sel chunks.length idx) chunks n h none true = some (.alloc st, o, chunks') ∧
      (st = .success ∧ total o.pieces = n ∨ st = .partialAlloc ∧ h.partialOk = true ∧ 0 < total o.pieces) := by
  have hc : ci < chunks.length := by
    rcases List.getElem?_eq_some_iff.1 hcs with ⟨g, _⟩; exact g
  have hsel : ∀ i cj, sel chunks.length idx i = some cj → cj < chunks.length := by
    intro i cj hi
    rw [sel_eq (by omega), Option.some.injEq] at hi
    rw [← hi]
    exact Nat.mod_lt _ (by omega)
  obtain ⟨vs, o, chunks', e, _, _, out⟩ := C14_alloc_partial (sch := sch) (hint := none) (look := true) hn hn2 hmin ok hsel
    (by rcases hcp with g | g
        · exact .inl g
        · exact .inr (.inl g))
  rcases out with d | d | d
  · exact ⟨.success, o, chunks', by rw [e, d.1], .inl ⟨rfl, d.2.1⟩⟩
  · exact ⟨.partialAlloc, o, chunks', by rw [e, d.1], .inr ⟨rfl, d.2.1, d.2.2.1⟩⟩
  · exfalso
    obtain ⟨st, rfl⟩ : ∃ st, vs = .alloc st := by
      have e' := e
      unfold allocBlks at e'
      exact loop_alloc (fun i => by rw [sel_eq (by omega)]; simp) _ _ _ _ _ _ _ e'
    obtain ⟨a, _, st', out', s', hr, h1, _⟩ := C126_refused_partial hn hn2 hmin hcp ok e
      (fun g => d.1 (by rw [g])) (fun g => d.2.1 (by rw [g])) ci s hcs
    obtain ⟨out2, s2, h2⟩ := hcan a
    rw [h2] at hr
    simp only [Option.some.injEq, Prod.mk.injEq] at hr
    exact h1 hr.1.symm

/-- A case of both: 3 blocks in a row are only in the last of three chunks, the thread is at the first; 15 are in none. -/
example :
    ((allocBlks (findRun 16) sch0 (sel 3 3) [chunkUsing [1, 3, 5, 7, 9, 11, 13, 15], chunkUsing (List.range 16), chunkUsing [0, 1]]
      3 {} none true).map fun r => (r.1, r.2.1)) = some (.alloc .success, ⟨2, [⟨2, 3, 0⟩]⟩) ∧
    ((allocBlks (findRun 16) sch0 (sel 3 3) [chunkUsing [1, 3, 5, 7, 9, 11, 13, 15], chunkUsing (List.range 16), chunkUsing [0, 1]]
      15 {} none true).map fun r => r.1) = some (.alloc .failed) := by decide +kernel

/-- **C126** with C42: a request of any size that may be served in several pieces and in part is refused only when no block of
any chunk of the device is free.

Partial: with slab caches the request must not be larger than the largest slab (`C42_cached_violated`). -/
theorem C126_device_full_partial {find : Find} {sch : Sched} {chunks chunks' : List St} {idx n temp : Nat} {st : Status}
    {o : OutId} (hn : 1 ≤ n) (hn2 : n ≤ 65535) (ok : Ok find chunks)
    (hch : ∀ s ∈ chunks, FindFirst s.total find ∧ 0 < s.bpp ∧ s.startPortion < s.numPortions ∧
      if s.useSlabs = true then n ≤ highestSlab s.cache else cachedBlks s.cache = [])
    (he : allocBlks find sch (sel chunks.length idx) chunks n { temp := temp, contiguous := false, partialOk := true } none true =
      some (.alloc st, o, chunks')) (hs : st ≠ .success) (hp : st ≠ .partialAlloc) :
    ∀ ci b, ¬ freeIn chunks ci b := by
  rintro ci b ⟨s, hcs, hfree⟩
  obtain ⟨a, _, st', out, s', hr, h1, h2⟩ := C126_refused_partial hn hn2 (fun _ => hn) (.inr rfl) ok he hs hp ci s hcs
  have hmem := List.mem_of_getElem? hcs
  obtain ⟨hff, hb, hst, hslab⟩ := hch s hmem
  obtain ⟨st2, out2, s2, e2, h3, h4, _⟩ := C42_space_partial (retries := (sch a).1) (sweeps := (sch a).2) (temp := temp)
    (ok s hmem).2 hff (ok s hmem).1 hb hst hn hn2 hslab
  rw [e2] at hr
  simp only [Option.some.injEq, Prod.mk.injEq] at hr
  obtain ⟨rfl, _, _⟩ := hr
  rcases h3 with g | g | g
  · exact h1 g
  · exact absurd (h2 g) (by simp)
  · exact h4 g b hfree

/-- A case: two full chunks. -/
example : ((allocBlks (findRun 16) sch0 (sel 2 1) [chunkUsing (List.range 16), chunkUsing (List.range 16)] 3
      { contiguous := false, partialOk := true } none true).map fun r => r.1) = some (.alloc .spaceFull) ∧
    (∀ s ∈ [chunkUsing (List.range 16), chunkUsing (List.range 16)], 0 < s.bpp ∧ s.startPortion < s.numPortions ∧
      if s.useSlabs = true then 3 ≤ highestSlab s.cache else cachedBlks s.cache = []) := by
  refine ⟨by decide +kernel, ?_⟩
  intro s hs
  simp only [List.mem_cons, List.not_mem_nil, or_false, or_self] at hs
  subst hs
  decide +kernel

/-! ### How the calls of a thread are spread -/

theorem mod_hit_iff {n x ci : Nat} (hc : ci < n) : n ∣ x + (n - 1 - ci) + 1 ↔ x % n = ci := by
  have hn : 0 < n := by omega
  have hr := Nat.mod_lt x hn
  have hx := Nat.div_add_mod x n
  rw [show x + (n - 1 - ci) + 1 = n * (x / n) + (x % n + (n - ci)) by omega, Nat.dvd_add_right (Nat.dvd_mul_right _ _)]
  generalize x % n = r at hr
  constructor
  · rintro ⟨q, hq⟩
    match q with
    | 0 => omega
    | 1 => omega
    | q + 2 =>
      have : n * 2 ≤ n * (q + 2) := Nat.mul_le_mul_left _ (by omega)
      omega
  · rintro rfl
    exact ⟨1, by omega⟩

theorem cnt_eq {n idx ci : Nat} (hc : ci < n) (k : Nat) :
    cnt n idx ci k + (norm n idx + (n - 1 - ci)) / n = (norm n idx + k + (n - 1 - ci)) / n := by
  induction k with
  | zero => simp [cnt]
  | succ k ih =>
    simp only [cnt]
    rw [show norm n idx + (k + 1) + (n - 1 - ci) = norm n idx + k + (n - 1 - ci) + 1 by omega, Nat.succ_div, ← ih,
      sel_eq (by omega)]
    by_cases h : (norm n idx + k) % n = ci
    · rw [if_pos (by rw [h]), if_pos ((mod_hit_iff hc).2 h)]; omega
    · rw [if_neg (by simpa using h), if_neg (fun g => h ((mod_hit_iff hc).1 g))]; omega

/-- **C126.**  Of any number `k` of calls in a row of one thread, each of `n` chunks gets `k / n`, or one more. -/
theorem C126_even {n idx ci : Nat} (hc : ci < n) (k : Nat) : k / n ≤ cnt n idx ci k ∧ cnt n idx ci k ≤ k / n + 1 := by
  have hn : 0 < n := by omega
  have h := cnt_eq (idx := idx) hc k
  generalize hx : norm n idx + (n - 1 - ci) = x at h
  rw [show norm n idx + k + (n - 1 - ci) = x + k by omega] at h
  have hk := Nat.div_add_mod k n
  have hx' := Nat.div_add_mod x n
  have hkr := Nat.mod_lt k hn
  have hxr := Nat.mod_lt x hn
  have e : (x + k) / n = x / n + k / n + (x % n + k % n) / n := by
    have : x + k = n * (x / n + k / n) + (x % n + k % n) := by rw [Nat.mul_add]; omega
    rw [this, Nat.mul_add_div hn]
  have hlt : (x % n + k % n) / n < 2 := Nat.div_lt_of_lt_mul (by omega)
  rw [e] at h
  generalize (x % n + k % n) / n = z at h hlt
  generalize x / n = y at h
  generalize k / n = w at h ⊢
  omega

example : (List.range 4).map (fun ci => cnt 4 2 ci 10) = [2, 2, 3, 3] := by decide

/-- Every thread begins with the first chunk.  So if each of `T` threads makes no more than `k` calls, the chunks from the
`k`-th on are never chosen, while each of the `T` threads takes the first one: over the threads nothing is even. -/
theorem C126_threads_violated {n k ci : Nat} (hk : 0 < k) (hc1 : k ≤ ci) (hc : ci < n) (T : Nat) :
    ((List.range T).map fun _ => cnt n 0 ci k).sum = 0 ∧ T ≤ ((List.range T).map fun _ => cnt n 0 0 k).sum := by
  have h1 : cnt n 0 ci k = 0 := by
    have h := cnt_eq (idx := 0) hc k
    have hz : norm n 0 = 0 := by unfold norm; split <;> rfl
    rw [hz, Nat.div_eq_of_lt (show 0 + (n - 1 - ci) < n by omega),
      Nat.div_eq_of_lt (show 0 + k + (n - 1 - ci) < n by omega)] at h
    omega
  have h2 : 1 ≤ cnt n 0 0 k := by
    have h := cnt_eq (idx := 0) (ci := 0) (show 0 < n by omega) k
    have hz : norm n 0 = 0 := by unfold norm; split <;> rfl
    rw [hz, Nat.div_eq_of_lt (show 0 + (n - 1 - 0) < n by omega)] at h
    have : 1 ≤ (0 + k + (n - 1 - 0)) / n := (Nat.le_div_iff_mul_le (by omega)).2 (by omega)
    omega
  induction T with
  | zero => simp
  | succ T ih =>
    rw [List.range_succ, List.map_append, List.map_append, List.sum_append, List.sum_append]
    simp only [List.map_cons, List.map_nil, List.sum_cons, List.sum_nil]
    omega

example : ((List.range 8).map fun _ => cnt 4 0 1 1).sum = 0 ∧ ((List.range 8).map fun _ => cnt 4 0 0 1).sum = 8 := by decide

end HS.Rr
