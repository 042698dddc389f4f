import Verif.VAlloc.Model
import Verif.Varsize.Props
/-!
# Allocation on a virtual device (C14)

Specification: `freeIn chunks ci b` = block `b` of chunk `ci` can be handed out.
-/
namespace HS.VAlloc
open HS.Varsize

def freeIn (chunks : List St) (ci b : Nat) : Prop := ∃ s, chunks[ci]? = some s ∧ isFree s b

/-- Every chunk satisfies the allocator invariant (which holds in all reachable states, see
`C11_history_partial`). -/
def Ok (find : Find) (chunks : List St) : Prop := ∀ s ∈ chunks, Inv s ∧ FindOk s.total find

/-- No chunk's free set changed. -/
def Unchanged (chunks chunks' : List St) : Prop := ∀ ci b, freeIn chunks' ci b ↔ freeIn chunks ci b

/-- The pieces of `o` were free, are disjoint and are exactly what stopped being free. -/
def Granted (chunks chunks' : List St) (o : OutId) : Prop :=
  (blksOf o.pieces).Nodup ∧ (∀ b ∈ blksOf o.pieces, freeIn chunks o.chunk b) ∧
  (∀ ci b, freeIn chunks' ci b ↔ freeIn chunks ci b ∧ ¬ (ci = o.chunk ∧ b ∈ blksOf o.pieces)) ∧
  o.pieces.length ≤ maxPieces

theorem freeIn_set {chunks : List St} {ci : Nat} {s s' : St} (hs : chunks[ci]? = some s) (cj b : Nat) :
    freeIn (chunks.set ci s') cj b ↔ if cj = ci then isFree s' b else freeIn chunks cj b := by
  unfold freeIn
  have hlt : ci < chunks.length := by
    rcases List.getElem?_eq_some_iff.1 hs with ⟨h, _⟩; exact h
  rw [List.getElem?_set]
  by_cases h : cj = ci
  · subst h; simp [hlt]
  · have h' : ¬ ci = cj := fun e => h e.symm
    simp [h, h']

theorem freeIn_self {chunks : List St} {ci : Nat} {s : St} (hs : chunks[ci]? = some s) (b : Nat) :
    freeIn chunks ci b ↔ isFree s b := by
  unfold freeIn; simp [hs]

theorem allocFromChunk_spec {find sch chunks ci n h} (ok : Ok find chunks) (hci : ci < chunks.length)
    (hn : 1 ≤ n) (hn2 : n ≤ 65535) (hmin : h.contiguous = false → h.minPerPiece ≤ n) (o : OutId) (ho : o.pieces = []) :
    ∃ st o' chunks', allocFromChunk find sch chunks ci n h o = some (st, o', chunks') ∧ Ok find chunks' ∧
      chunks'.length = chunks.length ∧
      ((st = .success ∧ total o'.pieces = n ∧ Granted chunks chunks' o' ∧
          (h.contiguous = true → h.partialOk = false → o'.pieces.length = 1)) ∨
       (st = .partialAlloc ∧ h.partialOk = true ∧ 0 < total o'.pieces ∧ total o'.pieces < n ∧ Granted chunks chunks' o') ∨
       ((st = .failed ∨ st = .spaceFull) ∧ Unchanged chunks chunks' ∧
          (h.contiguous = true ∨ h.partialOk = true → o'.pieces = []))) := by
  obtain ⟨s, hs⟩ : ∃ s, chunks[ci]? = some s := ⟨chunks[ci], by simp [hci]⟩
  have hmem := List.mem_of_getElem? hs
  obtain ⟨st, out, s', e, inv', cs, hg, hng, ht⟩ := C11_alloc_partial (retries := sch.1) (sweeps := sch.2)
    (ok s hmem).2 (ok s hmem).1 hn hn2 hmin
  have okset : Ok find (chunks.set ci s') := by
    intro t hmt
    rcases List.mem_or_eq_of_mem_set hmt with h1 | h1
    · exact ok t h1
    · subst h1; exact ⟨inv', by rw [ht]; exact (ok s hmem).2⟩
  unfold allocFromChunk
  simp only [hs, ho, if_true, e]
  have hcond : ¬ (st = .partialAlloc ∧ h.partialOk = false) := by
    rintro ⟨h1, h2⟩
    rcases cs with c | c | c | c
    · rw [c.1] at h1; simp at h1
    · rw [c.2.1] at h2; simp at h2
    · rw [c] at h1; simp at h1
    · rw [c] at h1; simp at h1
  rw [if_neg hcond]
  have grant : (st = .success ∨ st = .partialAlloc) → Granted chunks (chunks.set ci s') ⟨ci, out⟩ := by
    intro hst
    obtain ⟨g1, g2, g3, g4, g5⟩ := hg hst
    refine ⟨g1, ?_, ?_, g4⟩
    · intro b hb; rw [freeIn_self hs]; exact g2 b hb
    · intro cj b
      rw [freeIn_set hs]
      by_cases hc : cj = ci
      · subst hc; simp only [if_true, true_and]; rw [g3, freeIn_self hs]
      · simp [hc]
  have unch : (st = .failed ∨ st = .spaceFull) → Unchanged chunks (chunks.set ci s') := by
    intro hst cj b
    rw [freeIn_set hs]
    by_cases hc : cj = ci
    · subst hc; simp only [if_true]; rw [(hng hst).1, freeIn_self hs]
    · simp [hc]
  refine ⟨_, _, _, rfl, okset, by simp, ?_⟩
  rcases cs with c | c | c | c
  · exact .inl ⟨c.1, c.2, grant (.inl c.1), (hg (.inl c.1)).2.2.2.2⟩
  · exact .inr (.inl ⟨c.1, c.2.1, c.2.2.1, c.2.2.2, grant (.inr c.1)⟩)
  · exact .inr (.inr ⟨.inl c, unch (.inl c), (hng (.inl c)).2⟩)
  · exact .inr (.inr ⟨.inr c, unch (.inr c), (hng (.inr c)).2⟩)

/-- Outcome of the device-level call. -/
def Outcome (chunks : List St) (n : Nat) (h : Hints) (st : VStatus) (o : OutId) (chunks' : List St) : Prop :=
  (st = .alloc .success ∧ total o.pieces = n ∧ Granted chunks chunks' o ∧
      (h.contiguous = true → h.partialOk = false → o.pieces.length = 1)) ∨
  (st = .alloc .partialAlloc ∧ h.partialOk = true ∧ 0 < total o.pieces ∧ total o.pieces < n ∧ Granted chunks chunks' o) ∨
  (st ≠ .alloc .success ∧ st ≠ .alloc .partialAlloc ∧ Unchanged chunks chunks')

theorem Granted.mono {a b c : List St} {o : OutId} (h : Unchanged a b) (g : Granted b c o) : Granted a c o := by
  obtain ⟨g1, g2, g3, g4⟩ := g
  exact ⟨g1, fun x hx => (h _ _).1 (g2 x hx), fun ci x => by rw [g3, h], g4⟩

theorem Unchanged.trans {a b c : List St} (h1 : Unchanged a b) (h2 : Unchanged b c) : Unchanged a c :=
  fun ci x => by rw [h2, h1]

theorem chunkLoop_spec {find sch sel n h look} (hn : 1 ≤ n) (hn2 : n ≤ 65535)
    (hmin : h.contiguous = false → h.minPerPiece ≤ n) : ∀ fuel attempt chunks o, 1 ≤ fuel →
    (h.contiguous = true ∨ h.partialOk = true ∨ look = false ∨ fuel = 1) → Ok find chunks →
    (∀ i ci, sel i = some ci → ci < chunks.length) → o.pieces = [] →
    ∃ st o' chunks', chunkLoop find sch sel n h look fuel attempt chunks o = some (st, o', chunks') ∧
      Ok find chunks' ∧ chunks'.length = chunks.length ∧ Outcome chunks n h st o' chunks' := by
  intro fuel
  induction fuel with
  | zero => intro attempt chunks o h1; omega
  | succ fuel ih =>
    intro attempt chunks o _ hcase ok hsel ho
    unfold chunkLoop
    cases hsl : sel attempt with
    | none => exact ⟨_, _, _, rfl, ok, rfl, .inr (.inr ⟨by simp, by simp, fun _ _ => Iff.rfl⟩)⟩
    | some ci =>
      obtain ⟨st, o1, c1, e1, ok1, len1, cs⟩ := allocFromChunk_spec (sch := sch attempt) ok (hsel _ _ hsl) hn hn2 hmin o ho
      simp only [e1]
      rcases cs with c | c | c
      · rw [if_pos (.inl c.1)]
        exact ⟨_, _, _, rfl, ok1, len1, .inl ⟨by rw [c.1], c.2⟩⟩
      · rw [if_pos (.inr (.inr ⟨c.1, c.2.1⟩))]
        exact ⟨_, _, _, rfl, ok1, len1, .inr (.inl ⟨by rw [c.1], c.2⟩)⟩
      · have hne : st ≠ .success ∧ st ≠ .partialAlloc := by
          rcases c.1 with h1 | h1 <;> simp [h1]
        have fin : Outcome chunks n h (.alloc st) o1 c1 :=
          .inr (.inr ⟨by simpa using hne.1, by simpa using hne.2, c.2.1⟩)
        split
        · exact ⟨_, _, _, rfl, ok1, len1, fin⟩
        · rename_i hb
          split
          · exact ⟨_, _, _, rfl, ok1, len1, fin⟩
          · rename_i hf
            have hlook : look ≠ false := fun hl => hb (.inr (.inl hl))
            have hcp : h.contiguous = true ∨ h.partialOk = true := by
              rcases hcase with a | a | a | a
              · exact .inl a
              · exact .inr a
              · exact absurd a hlook
              · omega
            obtain ⟨st2, o2, c2, e2, ok2, len2, out2⟩ := ih (attempt + 1) c1 o1 (by omega)
              (by rcases hcp with a | a
                  · exact .inl a
                  · exact .inr (.inl a)) ok1 (by rw [len1]; exact hsel) (c.2.2 hcp)
            refine ⟨_, _, _, e2, ok2, by omega, ?_⟩
            rcases out2 with d | d | d
            · exact .inl ⟨d.1, d.2.1, d.2.2.1.mono c.2.1, d.2.2.2⟩
            · exact .inr (.inl ⟨d.1, d.2.1, d.2.2.1, d.2.2.2.1, d.2.2.2.2.mono c.2.1⟩)
            · exact .inr (.inr ⟨d.1, d.2.1, c.2.1.trans d.2.2⟩)

/-- **C14**, partial: for all chunk states, request sizes 1..65535, hints, chunk selectors and sweeps:
if the request is contiguous, or allows partial allocation, or is limited to one chunk (hint, no other
chunk allowed, or a single chunk), the call does not abort; on success it returns exactly the requested
number of blocks of one chunk, which were free; on partial success some of them; otherwise no chunk's
free set changes.  Missing: scattered all-or-nothing requests over several chunks, see
`C14_stale_id_violated`. -/
theorem C14_alloc_partial {find sch sel chunks n h hint look} (hn : 1 ≤ n) (hn2 : n ≤ 65535)
    (hmin : h.contiguous = false → h.minPerPiece ≤ n) (ok : Ok find chunks)
    (hsel : ∀ i ci, sel i = some ci → ci < chunks.length)
    (hcase : h.contiguous = true ∨ h.partialOk = true ∨ look = false ∨ hint.isSome = true ∨ chunks.length ≤ 1) :
    ∃ st o chunks', allocBlks find sch sel chunks n h hint look = some (st, o, chunks') ∧
      Ok find chunks' ∧ chunks'.length = chunks.length ∧ Outcome chunks n h st o chunks' := by
  unfold allocBlks
  cases hint with
  | some ci =>
    simp only
    split
    · rename_i hci
      obtain ⟨st, o1, c1, e1, ok1, len1, cs⟩ := allocFromChunk_spec (sch := sch 0) ok hci hn hn2 hmin OutId.empty rfl
      simp only [e1]
      refine ⟨_, _, _, rfl, ok1, len1, ?_⟩
      rcases cs with c | c | c
      · exact .inl ⟨by rw [c.1], c.2⟩
      · exact .inr (.inl ⟨by rw [c.1], c.2⟩)
      · have hne : st ≠ .success ∧ st ≠ .partialAlloc := by
          rcases c.1 with h1 | h1 <;> simp [h1]
        exact .inr (.inr ⟨by simpa using hne.1, by simpa using hne.2, c.2.1⟩)
    · exact ⟨_, _, _, rfl, ok, rfl, .inr (.inr ⟨by simp, by simp, fun _ _ => Iff.rfl⟩)⟩
  | none =>
    simp only
    exact chunkLoop_spec hn hn2 hmin _ _ _ _ (by omega)
      (by rcases hcase with a | a | a | a | a
          · exact .inl a
          · exact .inr (.inl a)
          · exact .inr (.inr (.inl a))
          · simp at a
          · exact .inr (.inr (.inr (by omega)))) ok hsel rfl

/-- Blocks of chunk `ci` among the pieces of a vector. -/
def vecBlks (out : List (Nat × Entry)) (ci : Nat) : List Nat :=
  blksOf ((out.filter (·.1 = ci)).map (·.2))

def vecTotal (out : List (Nat × Entry)) : Nat := total (out.map (·.2))

theorem vecBlks_append (a b : List (Nat × Entry)) (ci : Nat) : vecBlks (a ++ b) ci = vecBlks a ci ++ vecBlks b ci := by
  simp [vecBlks, blksOf]

theorem vecBlks_tag (c ci : Nat) (es : List Entry) :
    vecBlks (es.map fun e => (c, e)) ci = if ci = c then blksOf es else [] := by
  unfold vecBlks
  by_cases h : ci = c
  · subst h
    have h1 : (es.map fun e => (ci, e)).filter (·.1 = ci) = es.map fun e => (ci, e) := by
      rw [List.filter_eq_self]; simp
    rw [h1]; simp [Function.comp_def]
  · have h1 : (es.map fun e => (c, e)).filter (·.1 = ci) = [] := by
      rw [List.filter_eq_nil_iff]; simp; intro _ _ h2; exact h h2.symm
    rw [h1]; simp [h, blksOf]

/-- What the vector overload has granted so far. -/
def VGranted (chunks chunks' : List St) (out : List (Nat × Entry)) : Prop :=
  ∀ ci, (vecBlks out ci).Nodup ∧ (∀ b ∈ vecBlks out ci, freeIn chunks ci b) ∧
    (∀ b, freeIn chunks' ci b ↔ freeIn chunks ci b ∧ b ∉ vecBlks out ci)

theorem VGranted.step {c0 c1 c2 : List St} {out : List (Nat × Entry)} {o : OutId} (h : VGranted c0 c1 out)
    (g : Granted c1 c2 o) : VGranted c0 c2 (out ++ o.pieces.map fun e => (o.chunk, e)) := by
  intro ci
  obtain ⟨g1, g2, g3, -⟩ := g
  obtain ⟨h1, h2, h3⟩ := h ci
  rw [vecBlks_append, vecBlks_tag]
  by_cases hc : ci = o.chunk
  · subst hc
    simp only [if_true]
    refine ⟨?_, ?_, ?_⟩
    · rw [List.nodup_append]
      refine ⟨h1, g1, ?_⟩
      intro a ha b hb hab
      subst hab
      exact ((h3 a).1 (g2 a hb)).2 ha
    · intro b hb
      rcases List.mem_append.1 hb with hb | hb
      · exact h2 b hb
      · exact ((h3 b).1 (g2 b hb)).1
    · intro b
      rw [g3, h3]
      simp only [List.mem_append, true_and, not_or, and_assoc]
  · rw [if_neg hc, List.append_nil]
    refine ⟨h1, h2, fun b => ?_⟩
    rw [g3, h3]
    simp [hc]

theorem allocVec_spec {find sch sel h hint look c0} : ∀ fuel i chunks remain out st out' chunks',
    1 ≤ remain → remain ≤ 65535 → Ok find chunks →
    (∀ i j ci, sel i j = some ci → ci < chunks.length) → VGranted c0 chunks out →
    allocVec find sch sel h hint look fuel i chunks remain out = some (st, out', chunks') →
    (st = .alloc .success ∨ st = .alloc .partialAlloc) →
    vecTotal out' = vecTotal out + remain ∧ VGranted c0 chunks' out' := by
  intro fuel
  induction fuel with
  | zero => intro i chunks remain out st out' chunks' _ _ _ _ _ h; simp [allocVec] at h
  | succ fuel ih =>
    intro i chunks remain out st out' chunks' hr hr2 ok hsel hv he hst
    unfold allocVec at he
    obtain ⟨st1, o1, c1, e1, ok1, len1, oc⟩ := C14_alloc_partial (find := find) (sch := sch i) (sel := sel i) (chunks := chunks)
      (h := { h with partialOk := true, contiguous := true }) (hint := hint) (look := look) hr hr2
      (by simp) ok (hsel i) (.inl rfl)
    simp only [e1] at he
    have hvt : vecTotal (out ++ o1.pieces.map fun e => (o1.chunk, e)) = vecTotal out + total o1.pieces := by
      simp [vecTotal, total_append, Function.comp_def]
    rcases oc with c | c | c
    · rw [if_pos (.inl c.1), if_pos (by split <;> omega)] at he
      simp only [Option.some.injEq, Prod.mk.injEq] at he
      obtain ⟨-, rfl, rfl⟩ := he
      exact ⟨by rw [hvt, c.2.1], hv.step c.2.2.1⟩
    · rw [if_pos (.inr c.1), if_neg (show ¬ remain < total o1.pieces by omega), if_neg (by omega)] at he
      have := ih _ _ _ _ _ _ _ (by omega) (by omega) ok1 (by rw [len1]; exact hsel) (hv.step c.2.2.2.2) he hst
      refine ⟨?_, this.2⟩
      rw [this.1, hvt]; omega
    · have hne : ¬ (st1 = .alloc .success ∨ st1 = .alloc .partialAlloc) := by
        rintro (h1 | h1)
        · exact c.1 h1
        · exact c.2.1 h1
      rw [if_neg hne] at he
      split at he
      · simp at he
      · simp only [Option.some.injEq, Prod.mk.injEq] at he
        rw [← he.1] at hst
        exact absurd hst hne

/-- **C14**, vector overload, partial: if it reports success the returned blocks number exactly the
requested count, were free, are disjoint, and are exactly what stopped being free.  Missing: the
failure case, see `C14_vector_leak_violated` and `C14_vector_ub_violated`. -/
theorem C14_vector_partial {find sch sel h hint look chunks n fuel st out chunks'} (hn : 1 ≤ n) (hn2 : n ≤ 65535)
    (ok : Ok find chunks) (hsel : ∀ i j ci, sel i j = some ci → ci < chunks.length)
    (he : allocVec find sch sel h hint look fuel 0 chunks n [] = some (st, out, chunks'))
    (hst : st = .alloc .success ∨ st = .alloc .partialAlloc) :
    vecTotal out = n ∧ VGranted chunks chunks' out := by
  have h0 : VGranted chunks chunks [] := by
    intro ci
    simp [vecBlks, blksOf]
  have := allocVec_spec fuel 0 chunks n [] st out chunks' hn hn2 ok hsel h0 he hst
  simpa [vecTotal, total] using this

/-! ### Concrete cases -/

def sch0 : Sched := fun _ => (2, [])
def rr (k : Nat) : Nat → Option Nat := fun i => some (i % k)

/-- A chunk of 16 blocks without slab cache in which exactly the given blocks are used. -/
def chunkUsing (used : List Nat) : St :=
  ⟨16, 16, false, fun b => used.contains b, [⟨1, [⟨1, []⟩]⟩], used.length, 0⟩

theorem chunkUsing_inv (used : List Nat) : Inv (chunkUsing used) := by
  refine ⟨⟨by simp [chunkUsing], by simp [chunkUsing], ?_⟩, ?_, ?_⟩
  · intro i sl h
    match i with
    | 0 => simp [chunkUsing] at h; subst h; simp [SlabOk]
    | n + 1 => simp [chunkUsing] at h
  · simp [chunkUsing, cachedBlks, blksOf]
  · simp [chunkUsing, cachedBlks, blksOf]

/-- Non-vacuity: a contiguous request that fails on the first chunk and succeeds on the second. -/
example : (Ok (findRun 16) [chunkUsing [1, 3, 5, 7, 9, 11, 13, 15], chunkUsing [0, 1]]) ∧
    ((allocBlks (findRun 16) sch0 (rr 2) [chunkUsing [1, 3, 5, 7, 9, 11, 13, 15], chunkUsing [0, 1]] 3 {} none true).map
      fun r => (r.1, r.2.1)) = some (.alloc .success, ⟨1, [⟨2, 3, 0⟩]⟩) := by
  refine ⟨?_, by decide +kernel⟩
  intro s hs
  simp at hs
  rcases hs with rfl | rfl <;> exact ⟨chunkUsing_inv _, findRun_ok 16⟩

/-- **C14** is violated for scattered requests over several chunks: the first chunk has only isolated
free blocks, six of them are collected and given back, but they stay in the id; the allocator of the
second chunk then frees the same block numbers of *its* bitmap: blocks 0, 2, 4, ..., 10 of chunk 1, held by
somebody else, become free although the call failed. -/
theorem C14_stale_id_violated :
    let c0 := chunkUsing [1, 3, 5, 7, 9, 11, 13, 15]
    let c1 := chunkUsing (List.range 16)
    Ok (findRun 16) [c0, c1] ∧
    ((allocBlks (findRun 16) sch0 (rr 2) [c0, c1] 7 { contiguous := false } none true).map
      fun r => (r.1, r.2.2.map fun s => (List.range 16).filter fun b => ! s.bm b)) =
      some (.alloc .spaceFull, [[0, 2, 4, 6, 8, 10, 12, 14], [0, 2, 4, 6, 8, 10]]) := by
  refine ⟨?_, by decide +kernel⟩
  intro s hs
  simp at hs
  rcases hs with rfl | rfl <;> exact ⟨chunkUsing_inv _, findRun_ok 16⟩

/-- **C14** is violated for scattered requests over several chunks: with fewer than six stale pieces the
second chunk's first piece is added to an id of the first chunk, and a release assertion aborts the
process although the second chunk could satisfy the request. -/
theorem C14_stale_id_abort_violated :
    (allocBlks (findRun 16) sch0 (rr 2) [chunkUsing (List.range 14), chunkUsing []] 7 { contiguous := false } none true).isNone = true := by
  decide +kernel

/-- **C14** is violated by the vector overload: when the second round fails, the last piece obtained is
dropped from the result without being freed.  Here 4 blocks are requested and 3 are free: blocks 2 and 9
are returned with the failure status, and block 12 is leaked. -/
theorem C14_vector_leak_violated :
    ((allocVec (findRun 16) (fun _ => sch0) (fun _ => rr 1) {} none true 10 0
      [chunkUsing [0, 1, 3, 4, 5, 6, 7, 8, 10, 11, 13, 14, 15]] 4 []).map fun r =>
      (r.1, r.2.1.map (fun p => p.2.blk), r.2.2.map fun s => (List.range 16).filter fun b => ! s.bm b)) =
    some (.alloc .failed, [2, 9], [[]]) := by decide +kernel

/-- **C14** is violated by the vector overload: if the first round fails, `pop_back` is called on an
empty vector (undefined behaviour). -/
theorem C14_vector_ub_violated :
    (allocVec (findRun 16) (fun _ => sch0) (fun _ => rr 1) {} none true 10 0
      [chunkUsing (List.range 16)] 1 []).isNone = true := by decide +kernel

/-- Non-vacuity of the vector theorem: two chunks, five blocks in three pieces. -/
example : ((allocVec (findRun 16) (fun _ => sch0) (fun i j => some ((i + j) % 2)) {} none true 10 0
      [chunkUsing ((List.range 16).erase 3), chunkUsing [0, 3]] 5 []).map fun r => (r.1, r.2.1)) =
    some (.alloc .success, [(0, ⟨3, 1, 0⟩), (1, ⟨1, 2, 0⟩), (1, ⟨4, 2, 0⟩)]) := by decide +kernel

end HS.VAlloc
