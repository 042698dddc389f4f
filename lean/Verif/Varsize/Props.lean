import Verif.Varsize.Alloc
/-!
# Variable-size allocator (C11, C12)

Specification.  A block is *free* if its bit is reset or it sits in the slab cache.  A client keeps the
list of the ids it was granted and frees only ids of that list.  A history is any sequence of
allocations, frees and sweeps, with any bitset search that meets `FindOk`.
-/
namespace HS.Varsize

/-- Block `b` can still be handed out. -/
def isFree (s : St) (b : Nat) : Prop := b < s.total ∧ (s.bm b = false ∨ b ∈ cachedBlks s.cache)

/-- Invariant of the allocator alone: cached blocks are inside the chunk, cached once and marked in
the bitmap. -/
def Inv (s : St) : Prop :=
  WF s.cache ∧ (cachedBlks s.cache).Nodup ∧ ∀ b ∈ cachedBlks s.cache, b < s.total ∧ s.bm b = true

theorem F_of_inv {s : St} (h : Inv s) (b : Nat) : F s b ≤ 1 ∧ (F s b = 1 ↔ isFree s b) := by
  obtain ⟨_, nd, hb⟩ := h
  have h1 := List.nodup_iff_count.1 nd b
  have h2 := @List.count_pos_iff _ _ _ b (cachedBlks s.cache)
  unfold F isFree CC
  by_cases hm : b ∈ cachedBlks s.cache
  · have h3 := h2.2 hm
    have h4 := hb b hm
    simp [hm, h4.1, h4.2]; omega
  · have h3 : (cachedBlks s.cache).count b = 0 := by
      apply List.count_eq_zero_of_not_mem hm
    simp only [h3, hm, or_false, Nat.add_zero]
    split <;> simp_all

theorem inv_of_F {s : St} (wf : WF s.cache) (h : ∀ b, F s b ≤ 1 ∧ (0 < F s b → b < s.total)) : Inv s := by
  refine ⟨wf, ?_, ?_⟩
  · rw [List.nodup_iff_count]
    intro b
    have := (h b).1
    unfold F CC at this
    omega
  · intro b hm
    have h1 := List.count_pos_iff.2 hm
    have h2 := h b
    have h3 : 0 < F s b := by unfold F CC; omega
    refine ⟨h2.2 h3, ?_⟩
    cases hbm : s.bm b
    · have h4 := h2.1
      unfold F CC at h4
      simp [hbm, h2.2 h3] at h4
      omega
    · rfl

theorem mem_blksOf {es : List Entry} {b : Nat} : b ∈ blksOf es ↔ 0 < H es b := List.count_pos_iff.symm

/-- **C11**, one call.  For every state satisfying the invariant, every request of 1..65535 blocks and
all hints (for scattered requests `min_blks_per_piece ≤ n`): the call does not abort; on success it
returns exactly `n` blocks, on partial success (only if allowed) fewer but some; the granted blocks
were free, are pairwise disjoint, use at most 6 pieces (one piece if contiguous and complete blocks are
required) and are exactly what stops being free; on failure the free set is unchanged. -/
theorem C11_alloc_partial {find retries sweeps} {s : St} {n : Nat} {h : Hints}
    (hfind : FindOk s.total find) (inv : Inv s) (hn : 1 ≤ n) (hn2 : n ≤ 65535)
    (hmin : h.contiguous = false → h.minPerPiece ≤ n) :
    ∃ st out s', alloc find retries sweeps s n h = some (st, out, s') ∧ Inv s' ∧
      ((st = .success ∧ total out = n) ∨ (st = .partialAlloc ∧ h.partialOk = true ∧ 0 < total out ∧ total out < n) ∨
        st = .failed ∨ st = .spaceFull) ∧
      ((st = .success ∨ st = .partialAlloc) →
        (blksOf out).Nodup ∧ (∀ b ∈ blksOf out, isFree s b) ∧ (∀ b, isFree s' b ↔ isFree s b ∧ b ∉ blksOf out) ∧
        out.length ≤ maxPieces ∧ (h.contiguous = true → h.partialOk = false → out.length = 1)) ∧
      ((st = .failed ∨ st = .spaceFull) → (∀ b, isFree s' b ↔ isFree s b) ∧
        (h.contiguous = true ∨ h.partialOk = true → out = [])) ∧ s'.total = s.total := by
  have hF := F_of_inv inv
  have hk : KOk s.total (F s) := by
    intro b
    refine ⟨(hF b).1, fun hp => ?_⟩
    have h1 := (hF b).1
    exact ((hF b).2.1 (by omega)).1
  obtain ⟨st, out, s', e, cases', hg, hng, t1, t2, t3, t4⟩ :=
    alloc_spec (retries := retries) (sweeps := sweeps) hn hn2 hmin hfind hk ⟨inv.1, by simp⟩
  have fin : ∀ {held : List Entry}, Cons (F s) s' held → Inv s' ∧ (blksOf held).Nodup ∧
      (∀ b ∈ blksOf held, isFree s b) ∧ (∀ b, isFree s' b ↔ isFree s b ∧ b ∉ blksOf held) := by
    intro held hc
    have inv' : Inv s' := inv_of_F hc.1 (by
      intro b
      have h1 := hc.2 b
      have h2 := hk b
      exact ⟨by omega, fun _ => by rw [t1]; exact h2.2 (by omega)⟩)
    have hF' := F_of_inv inv'
    refine ⟨inv', ?_, ?_, ?_⟩
    · rw [List.nodup_iff_count]
      intro b
      have h1 := hc.2 b
      have h2 := (hk b).1
      unfold H at h1; omega
    · intro b hb
      rw [mem_blksOf] at hb
      have h1 := hc.2 b
      have h2 := (hk b).1
      exact (hF b).2.1 (by omega)
    · intro b
      have h1 := hc.2 b
      have h2 := (hk b).1
      rw [← (hF' b).2, ← (hF b).2, mem_blksOf]
      omega
  refine ⟨st, out, s', e, ?_, cases', ?_, ?_, t1⟩
  · by_cases hgr : granted st
    · exact (fin (hg hgr).1).1
    · exact (fin (hng hgr).1).1
  · intro hgr
    obtain ⟨g1, g2, g3, g4, g5⟩ := hg hgr
    obtain ⟨-, f2, f3, f4⟩ := fin g1
    exact ⟨f2, f3, f4, g2, g4⟩
  · intro hf
    have hgr : ¬ granted st := by
      rcases hf with rfl | rfl <;> simp [granted]
    refine ⟨fun b => ?_, (hng hgr).2.2⟩
    have := (fin (hng hgr).1).2.2.2 b
    simpa [blksOf] using this

/-- **C12**, one call.  For every state satisfying the invariant and every id whose blocks lie in the
chunk, are distinct and not free: freeing does not abort, makes exactly the blocks of the id free and
leaves every other block as it was, and the allocated count drops by their number.  Restriction: if
the first piece fits the largest slab, all pieces do (otherwise see `C12_free_violated`). -/
theorem C12_free_partial {s : St} {id : List Entry} (inv : Inv s)
    (hnd : (blksOf id).Nodup) (hin : ∀ b ∈ blksOf id, b < s.total ∧ ¬ isFree s b)
    (hslab : s.useSlabs = true → firstCount id ≤ highestSlab s.cache → ∀ p ∈ id, p.cnt ≤ highestSlab s.cache) :
    ∃ s', free s id = some s' ∧ Inv s' ∧ (∀ b, isFree s' b ↔ isFree s b ∨ b ∈ blksOf id) ∧
      s'.alloced = s.alloced - total id := by
  have hF := F_of_inv inv
  have key : ∀ b, F s b + H id b ≤ 1 ∧ (0 < F s b + H id b → b < s.total) := by
    intro b
    have h1 := List.nodup_iff_count.1 hnd b
    have h2 := (hF b)
    by_cases hb : b ∈ blksOf id
    · have h3 := hin b hb
      have h4 : F s b ≠ 1 := fun h => h3.2 (h2.2.1 h)
      unfold H
      exact ⟨by omega, fun _ => h3.1⟩
    · have h3 : H id b = 0 := by
        have := mt mem_blksOf.2 hb
        omega
      refine ⟨by omega, fun hp => ?_⟩
      exact (h2.2.1 (by omega)).1
  obtain ⟨s', e, c, ha, t1, -⟩ := free_spec (K := fun b => F s b + H id b) key ⟨inv.1, fun _ => rfl⟩ hslab
  have inv' : Inv s' := inv_of_F c.1 (by
    intro b
    have h1 := c.2 b
    have h2 := key b
    simp only [H_nil, Nat.add_zero] at h1
    rw [h1, t1]
    exact h2)
  refine ⟨s', e, inv', ?_, ha⟩
  intro b
  have h1 := c.2 b
  have h2 := key b
  simp only [H_nil, Nat.add_zero] at h1
  rw [← (F_of_inv inv' b).2, ← (hF b).2, mem_blksOf]
  have := (hF b).1
  omega

/-! ### Histories -/

/-- The allocator together with the ids its clients hold. -/
structure World where
  s : St
  ids : List (List Entry)

inductive Op where
  | alloc (retries : Nat) (sweeps : List (List SweepStep)) (n : Nat) (h : Hints)
  | free (i : Nat)                    -- the client frees the i-th id it holds
  | sweep (ws : List SweepStep)

def step (find : Find) (w : World) : Op → Option World
  | .alloc retries sweeps n h => match alloc find retries sweeps w.s n h with
    | none => none
    | some (st, out, s') =>
      if st = .success ∨ st = .partialAlloc then some ⟨s', w.ids ++ [out]⟩ else some ⟨s', w.ids⟩
  | .free i => match w.ids[i]? with
    | none => some w
    | some id => match free w.s id with
      | none => none
      | some s' => some ⟨s', w.ids.eraseIdx i⟩
  | .sweep ws => match sweep find w.s ws with
    | none => none
    | some s' => some ⟨s', w.ids⟩

/-- Preconditions of the calls: size 1..65535; scattered requests have `min_blks_per_piece ≤ n`; an id
whose first piece fits the largest slab consists of such pieces only. -/
def okOp (w : World) : Op → Prop
  | .alloc _ _ n h => 1 ≤ n ∧ n ≤ 65535 ∧ (h.contiguous = false → h.minPerPiece ≤ n)
  | .free i => ∀ id, w.ids[i]? = some id → w.s.useSlabs = true → firstCount id ≤ highestSlab w.s.cache →
      ∀ p ∈ id, p.cnt ≤ highestSlab w.s.cache
  | .sweep _ => True

/-- A history: every call meets its precondition; `none` = it ended in undefined behaviour or abort. -/
inductive Hist (find : Find) : World → Option World → Prop where
  | nil (w) : Hist find w (some w)
  | cons {w w' op o} : okOp w op → step find w op = some w' → Hist find w' o → Hist find w o
  | bad {w op} : okOp w op → step find w op = none → Hist find w none

/-- A freshly formatted allocator: all bits reset, nothing cached. -/
structure Fresh (w : World) : Prop where
  bm : ∀ b, w.s.bm b = false
  wf : WF w.s.cache
  cache : cachedBlks w.s.cache = []
  alloced : w.s.alloced = 0
  ids : w.ids = []

def WInv (total : Nat) (w : World) : Prop :=
  w.s.total = total ∧ WF w.s.cache ∧ (∀ b, F w.s b + H w.ids.flatten b = if b < total then 1 else 0) ∧
  w.s.alloced = Varsize.total w.ids.flatten

theorem H_eraseIdx {ids : List (List Entry)} {i : Nat} {id : List Entry} (h : ids[i]? = some id) (b : Nat) :
    H (ids.eraseIdx i).flatten b + H id b = H ids.flatten b := by
  induction ids generalizing i with
  | nil => simp at h
  | cons a l ih =>
    cases i with
    | zero => simp at h; subst h; simp; omega
    | succ i =>
      simp at h
      have := ih h
      simp; omega

theorem total_eraseIdx {ids : List (List Entry)} {i : Nat} {id : List Entry} (h : ids[i]? = some id) :
    Varsize.total (ids.eraseIdx i).flatten + Varsize.total id = Varsize.total ids.flatten := by
  induction ids generalizing i with
  | nil => simp at h
  | cons a l ih =>
    cases i with
    | zero => simp at h; subst h; simp [total_append]; omega
    | succ i =>
      simp at h
      have := ih h
      simp [total_append]; omega

theorem step_inv {find tot w op} (hfind : FindOk tot find) (inv : WInv tot w) (ok : okOp w op) :
    ∃ w', step find w op = some w' ∧ WInv tot w' := by
  obtain ⟨ht, wf, hF, ha⟩ := inv
  subst ht
  cases op with
  | alloc retries sweeps n h =>
    obtain ⟨o1, o2, o3⟩ := ok
    have hk : KOk w.s.total (F w.s) := by
      intro b
      have := hF b
      split at this
      · rename_i hlt; exact ⟨by omega, fun _ => hlt⟩
      · exact ⟨by omega, by omega⟩
    obtain ⟨st, out, s', e, -, hg, hng, t1, -⟩ :=
      alloc_spec (retries := retries) (sweeps := sweeps) o1 o2 o3 hfind hk ⟨wf, by simp⟩
    simp only [step, e]
    split
    · rename_i hgr
      obtain ⟨g1, -, -, -, g5⟩ := hg hgr
      refine ⟨_, rfl, t1, g1.1, ?_, ?_⟩
      · intro b
        have h1 := g1.2 b
        have h2 := hF b
        simp only [List.flatten_append, H_append, List.flatten_cons, List.flatten_nil, List.append_nil]
        omega
      · simp [total_append]; omega
    · rename_i hgr
      obtain ⟨g1, g2, -⟩ := hng hgr
      refine ⟨_, rfl, t1, g1.1, ?_, by simp only; omega⟩
      intro b
      have h1 := g1.2 b
      have h2 := hF b
      simp only [H_nil] at h1
      simp only
      omega
  | free i =>
    cases hi : w.ids[i]? with
    | none => exact ⟨w, by simp [step, hi], rfl, wf, hF, ha⟩
    | some id =>
      have hk : KOk w.s.total (fun b => F w.s b + H id b) := by
        intro b
        have h1 := hF b
        have h2 := H_eraseIdx hi b
        split at h1
        · rename_i hlt; exact ⟨by simp only; omega, fun _ => hlt⟩
        · exact ⟨by simp only; omega, by simp only; omega⟩
      obtain ⟨s', e, c, ca, t1, -⟩ := free_spec (K := fun b => F w.s b + H id b) hk ⟨wf, fun _ => rfl⟩ (ok id hi)
      refine ⟨⟨s', w.ids.eraseIdx i⟩, by simp [step, hi, e], t1, c.1, ?_, ?_⟩
      · intro b
        have h1 := c.2 b
        have h2 := H_eraseIdx hi b
        have h3 := hF b
        simp only [H_nil] at h1
        simp only
        omega
      · have := total_eraseIdx hi
        simp only; omega
  | sweep ws =>
    have hk : KOk w.s.total (F w.s) := by
      intro b
      have := hF b
      split at this
      · rename_i hlt; exact ⟨by omega, fun _ => hlt⟩
      · exact ⟨by omega, by omega⟩
    obtain ⟨s', e, c, m⟩ := sweep_spec ws w.s hfind hk (held := []) ⟨wf, by simp⟩
    refine ⟨⟨s', w.ids⟩, by simp [step, e], m.1, c.1, ?_, by simp only; rw [m.2.2.2.2]; exact ha⟩
    intro b
    have h1 := c.2 b
    have h2 := hF b
    simp only [H_nil] at h1
    simp only
    omega

theorem fresh_inv {w : World} (h : Fresh w) : WInv w.s.total w := by
  refine ⟨rfl, h.wf, ?_, by rw [h.alloced, h.ids]; rfl⟩
  intro b
  have : CC w.s.cache b = 0 := by simp [CC, h.cache]
  simp [F, this, h.ids, h.bm]

theorem hist_inv {find tot w o} (hfind : FindOk tot find) (inv : WInv tot w) (h : Hist find w o) :
    ∃ w', o = some w' ∧ WInv tot w' := by
  induction h with
  | nil w => exact ⟨w, rfl, inv⟩
  | cons ok e _ ih =>
    obtain ⟨w2, e2, inv2⟩ := step_inv hfind inv ok
    rw [e] at e2
    simp at e2; subst e2
    exact ih inv2
  | bad ok e =>
    obtain ⟨w2, e2, _⟩ := step_inv hfind inv ok
    rw [e] at e2
    simp at e2

/-- **C11/C12**, every history of a fresh allocator: no call aborts or has undefined behaviour, all
blocks held by clients are inside the chunk and pairwise distinct, a block is free exactly if no client
holds it, and the allocated count is the number of blocks held. -/
theorem C11_history_partial {find w o} (hfind : FindOk w.s.total find) (fresh : Fresh w) (h : Hist find w o) :
    ∃ w', o = some w' ∧ (blksOf w'.ids.flatten).Nodup ∧ (∀ b ∈ blksOf w'.ids.flatten, b < w.s.total) ∧
      (∀ b, isFree w'.s b ↔ b < w.s.total ∧ b ∉ blksOf w'.ids.flatten) ∧
      w'.s.alloced = (blksOf w'.ids.flatten).length := by
  obtain ⟨w', rfl, t, wf, hF, ha⟩ := hist_inv hfind (fresh_inv fresh) h
  have inv' : Inv w'.s := inv_of_F wf (by
    intro b
    have h1 := hF b
    split at h1
    · rename_i hlt; exact ⟨by omega, fun _ => by omega⟩
    · exact ⟨by omega, by omega⟩)
  refine ⟨w', rfl, ?_, ?_, ?_, ?_⟩
  · rw [List.nodup_iff_count]
    intro b
    have h1 := hF b
    unfold H at h1
    split at h1 <;> omega
  · intro b hb
    rw [mem_blksOf] at hb
    have h1 := hF b
    split at h1
    · assumption
    · omega
  · intro b
    have h1 := hF b
    rw [← (F_of_inv inv' b).2, mem_blksOf]
    split at h1
    · rename_i hlt; simp only [hlt, true_and]; omega
    · rename_i hlt; simp only [hlt, false_and, iff_false]; omega
  · rw [ha]
    simp [total, blksOf, List.length_flatMap, Entry.blks]

/-! ### A bitset search meeting `FindOk`, and concrete cases -/

/-- First run in `[lo, hi]`, scanning upwards. -/
def findRun (tot : Nat) : Find := fun bm lo hi mn mx =>
  (List.range' lo (hi + 1 - lo)).findSome? fun b =>
    let n := ((List.range' b (min mx (min (hi + 1) tot - b))).takeWhile fun x => ! bm x).length
    if 1 ≤ n ∧ mn ≤ n then some (b, n) else none

theorem findRun_ok (tot : Nat) : FindOk tot (findRun tot) := by
  intro bm lo hi mn mx b n h
  unfold findRun at h
  obtain ⟨b', hm, he⟩ := List.exists_of_findSome?_eq_some h
  simp only at he
  split at he
  · rename_i hc
    simp at he
    obtain ⟨rfl, hn⟩ := he
    rw [List.mem_range'_1] at hm
    have pre : ((List.range' b' (min mx (min (hi + 1) tot - b'))).takeWhile fun x => ! bm x) <+:
      List.range' b' (min mx (min (hi + 1) tot - b')) := List.takeWhile_prefix _
    have hle := pre.length_le
    rw [hn] at hle hc
    simp at hle
    refine ⟨hc.1, hc.2, by omega, by omega, by omega, by omega, ?_⟩
    intro x h1 h2
    have hx : x ∈ (List.range' b' (min mx (min (hi + 1) tot - b'))).takeWhile fun x => ! bm x := by
      have hlt : x - b' < ((List.range' b' (min mx (min (hi + 1) tot - b'))).takeWhile fun x => ! bm x).length := by
        omega
      have := pre.getElem hlt
      rw [List.getElem_range'] at this
      have e : x = ((List.range' b' (min mx (min (hi + 1) tot - b'))).takeWhile fun x => ! bm x)[x - b'] := by
        rw [this]; omega
      rw [e]
      exact List.getElem_mem _
    have := List.all_eq_true.1 (List.all_takeWhile (p := fun x => ! bm x)) x hx
    simpa using this
  · simp at he

/-- 32 blocks in portions of 16, three slabs (1, 2, 4 blocks) with two levels each. -/
def w0 : World := ⟨⟨32, 16, true, fun _ => false,
  [⟨1, [⟨2, []⟩, ⟨1, []⟩]⟩, ⟨2, [⟨2, []⟩, ⟨1, []⟩]⟩, ⟨4, [⟨1, []⟩, ⟨1, []⟩]⟩], 0, 0⟩, []⟩

theorem w0_wf : WF w0.s.cache := by
  refine ⟨by decide, by decide, ?_⟩
  intro i sl h
  match i with
  | 0 => simp [w0] at h; subst h; simp [SlabOk]
  | 1 => simp [w0] at h; subst h; simp [SlabOk]
  | 2 => simp [w0] at h; subst h; simp [SlabOk]
  | n + 3 => simp [w0] at h

theorem w0_fresh : Fresh w0 := ⟨fun _ => rfl, w0_wf, rfl, rfl, rfl⟩

def sw : List SweepStep := [⟨0, 1, fun _ => (3, 0), fun _ => false⟩]

def runOps (find : Find) (w : World) : List Op → Option World
  | [] => some w
  | op :: ops => (step find w op).bind fun w' => runOps find w' ops

/-- The history of the examples below: an allocation that waits for a sweep and splits a 4-block entry,
one from the 1-block slab, a free into the cache, a direct allocation in two pieces. -/
def ops0 : List Op := [.alloc 2 [sw] 3 {}, .alloc 2 [] 1 {}, .free 0, .alloc 2 [] 18 { contiguous := false }]

/-- Non-vacuity of the history theorem: the ids held after `ops0`. -/
example : ((runOps (findRun 32) w0 ops0).map fun w => w.ids.map (·.map fun e => (e.blk, e.cnt))) =
    some [[(15, 1)], [(4, 2), (16, 16)]] := by decide +kernel

theorem hist_of_runOps {find} : ∀ ops w w', (∀ w op, op ∈ ops → okOp w op) → runOps find w ops = some w' →
    Hist find w (some w') := by
  intro ops
  induction ops with
  | nil => intro w w' _ h; simp [runOps] at h; subst h; exact .nil _
  | cons op ops ih =>
    intro w w' ok h
    simp only [runOps] at h
    cases hs : step find w op with
    | none => simp [hs] at h
    | some w1 =>
      simp [hs] at h
      exact .cons (ok w op (by simp)) hs (ih w1 w' (fun w op hm => ok w op (by simp [hm])) h)

/-- Non-vacuity: a history in the sense of `Hist` with an allocation, a sweep and another allocation. -/
example : ∃ w', Hist (findRun 32) w0 (some w') ∧ w'.ids.length = 2 ∧ Inv w'.s := by
  have hr : (runOps (findRun 32) w0 [.alloc 2 [sw] 3 {}, .sweep sw, .alloc 2 [] 20 { contiguous := false, partialOk := true }]).isSome = true := by
    decide +kernel
  obtain ⟨w', hw⟩ := Option.isSome_iff_exists.1 hr
  have hh := hist_of_runOps _ w0 w' (by
    intro w op hm
    simp at hm
    rcases hm with rfl | rfl | rfl <;> simp [okOp]) hw
  refine ⟨w', hh, ?_, ?_⟩
  · have : ((runOps (findRun 32) w0 [.alloc 2 [sw] 3 {}, .sweep sw,
      .alloc 2 [] 20 { contiguous := false, partialOk := true }]).map fun w => w.ids.length) = some 2 := by decide +kernel
    rw [hw] at this
    simpa using this
  · obtain ⟨w2, e, t, wf, hF, ha⟩ := hist_inv (findRun_ok 32) (fresh_inv w0_fresh) hh
    simp at e; subst e
    exact inv_of_F wf (by
      intro b
      have h1 := hF b
      split at h1
      · rename_i hlt; exact ⟨by omega, fun _ => by rw [t]; exact hlt⟩
      · exact ⟨by omega, by omega⟩)

/-- **C12** is violated: after `ops0` the client holds an id with pieces of 2 and 16 blocks; freeing it
takes the slab path because the first piece is small, and the second piece indexes a slab that does not
exist (undefined behaviour). -/
theorem C12_free_violated : ∃ w, runOps (findRun 32) w0 ops0 = some w ∧
    (w.ids[1]?.map (·.map fun e => (e.blk, e.cnt))) = some [(4, 2), (16, 16)] ∧ step (findRun 32) w (.free 1) = none := by
  have hr : (runOps (findRun 32) w0 ops0).isSome = true := by decide +kernel
  obtain ⟨w, hw⟩ := Option.isSome_iff_exists.1 hr
  refine ⟨w, hw, ?_, ?_⟩
  · have : ((runOps (findRun 32) w0 ops0).map fun w => (w.ids[1]?.map (·.map fun e => (e.blk, e.cnt)))) =
      some (some [(4, 2), (16, 16)]) := by decide +kernel
    rw [hw] at this
    simpa using this
  · have : ((runOps (findRun 32) w0 ops0).map fun w => (step (findRun 32) w (.free 1)).isNone) = some true := by
      decide +kernel
    rw [hw] at this
    simpa using this

/-- **C11** is violated outside the precondition `min_blks_per_piece ≤ n`: the downward search passes
the minimum slab without meeting it, and the slab index wraps below 0 (undefined behaviour). -/
theorem C11_min_piece_violated :
    (alloc (findRun 32) 2 [] w0.s 1 { contiguous := false, minPerPiece := 4 }).isNone = true := by decide +kernel

end HS.Varsize
