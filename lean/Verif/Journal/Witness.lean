import Verif.Journal.Props

/-!
# Journal: reachable cases, and cases where the code breaks the property

Chunk size 10, three chunks 1, 2, 3 in the pool. Stream 5 writes 7 bytes (offsets 0-6), then 5 bytes:
these do not fit in the rest of the chunk, so chunk 1 ends at 7 and the record is at offsets 10-14.
-/
namespace HS.Journal

def w0 : World := World.init 10 4 (fun _ _ => 0)

/-- Run a list of allowed calls; `none` when one of them is not allowed or fails. -/
inductive Call
  | produce (c now : Nat)
  | alloc (s sz : Nat)
  | pwrite (s off : Nat) (bs : List Nat)

def call (w : World) : Call → Option World
  | .produce c now => (produce w.v c now).map (fun v => { w with v := v })
  | .alloc s sz =>
    if 0 < sz then
      match alloc w.v s sz with
      | .ok (v', off, _) => some { w with v := v', R := upd w.R s ((off, sz) :: w.R s) }
      | .error _ => none
    else none
  | .pwrite s off bs =>
    if (off, bs.length) ∈ w.R s then
      match pwrite w.v s off bs with
      | .ok v' => some { v := v', R := upd w.R s ((w.R s).erase (off, bs.length))
                         A := upd w.A s (fun x => if off ≤ x ∧ x < off + bs.length then bs[x - off]?
                                                  else w.A s x) }
      | .error _ => none
    else none

theorem call_step {w w' : World} {c : Call} (h : call w c = some w') : Step w w' := by
  cases c with
  | produce c now =>
    simp only [call, Option.map_eq_some_iff] at h
    obtain ⟨v, h1, rfl⟩ := h
    exact Step.produce w c now v h1
  | alloc s sz =>
    simp only [call] at h
    split at h
    · rename_i hsz
      split at h
      · rename_i v' off ws ha
        cases h
        exact Step.alloc w s sz hsz v' off ws ha
      · cases h
    · cases h
  | pwrite s off bs =>
    simp only [call] at h
    split at h
    · rename_i hr
      split at h
      · rename_i v' ha
        cases h
        exact Step.pwrite w s off bs hr v' ha
      · cases h
    · cases h

def calls (w : World) : List Call → Option World
  | [] => some w
  | c :: r => (call w c).bind (fun w' => calls w' r)

theorem calls_reach {w w' : World} {l : List Call} (hw : Reach w) (h : calls w l = some w') :
    Reach w' := by
  induction l generalizing w with
  | nil => cases h; exact hw
  | cons c r ih =>
    simp only [calls, Option.bind_eq_some_iff] at h
    obtain ⟨w1, h1, h2⟩ := h
    exact ih (Reach.step _ _ hw (call_step h1)) h2

/-- The history described at the top. -/
def demo : List Call :=
  [.produce 3 1, .produce 2 1, .produce 1 1, .alloc 5 7, .pwrite 5 0 [11, 12, 13, 14, 15, 16, 17],
   .alloc 5 5, .pwrite 5 10 [21, 22, 23, 24, 25]]

/-- Properties of a device as a decidable test. -/
def okAnd {α : Type} (r : Res α) (p : α → Bool) : Bool :=
  match r with
  | .ok x => p x
  | .error _ => false

theorem okAnd_elim {α : Type} {r : Res α} {p : α → Bool} (h : okAnd r p = true) :
    ∃ x, r = .ok x ∧ p x = true := by
  cases r with
  | ok x => exact ⟨x, rfl, h⟩
  | error e => cases h

theorem demo_some : (calls w0 demo).isSome = true := by decide +kernel

/-- The world after `demo`. -/
def wd : World := (calls w0 demo).get demo_some

theorem wd_reach : Reach wd :=
  calls_reach (Reach.init 10 4 _ (by decide)) (Option.some_get demo_some).symm

/-- Non-trivial reachable case for C31, C33, C50: two chunks in the list, live data in both. -/
example : Reach wd ∧ (wd.v.desc 5).chunks = [1, 2] ∧ (wd.v.desc 5).tail = 15 ∧ wd.A 5 12 = some 23 ∧
    Live wd.v 5 12 ∧ byteAt wd.v 5 8 = none ∧ dataOffs wd.v 5 0 = [0,1,2,3,4,5,6,10,11,12,13,14,15,16,17,18,19] := by
  refine ⟨wd_reach, ?_, ?_, ?_, ?_, ?_, ?_⟩
  · decide +kernel
  · decide +kernel
  · decide +kernel
  · exact ⟨by decide +kernel, by decide +kernel⟩
  · decide +kernel
  · decide +kernel

/-- Offset 10 is an allowed truncation point, so C32 and C33 apply there. -/
theorem valid10 : ValidTrunc wd 5 10 := by
  refine ⟨by decide +kernel, by decide +kernel, by decide +kernel, by decide +kernel, ?_⟩
  intro c i o h hlt
  have : offsetToChunk wd.v.cs (wd.v.desc 5) 10 = some (2, 1, 0) := by decide +kernel
  rw [this] at h
  simp only [Option.some.injEq, Prod.mk.injEq] at h
  obtain ⟨_, rfl, _⟩ := h
  exact absurd hlt (by decide +kernel)

example : ∃ r, truncate wd.v 5 10 (fun _ => 7) = .ok r ∧ (r.1.desc 5).chunks = [2] ∧
    (r.1.desc 5).tail = 15 := by
  obtain ⟨x, h1, h2⟩ := okAnd_elim (r := truncate wd.v 5 10 (fun _ => 7))
    (p := fun r => decide ((r.1.desc 5).chunks = [2] ∧ (r.1.desc 5).tail = 15)) (by decide +kernel)
  exact ⟨x, h1, by simpa using h2⟩

/-- C32 fails for an offset strictly inside the unused end of a chunk: the size of the unused end is
subtracted twice, the tail moves back by one, and the next reservation returns space that overlaps the
last byte of the live record. (`LogDev` only truncates at starts of groups, so it never asks for this.) -/
theorem C32_hole_violated :
    ∃ w s t, Reach w ∧ (w.v.desc s).ds ≤ t ∧ (t : Int) ≤ (w.v.desc s).tail ∧ w.R s = [] ∧
      ∃ v' ret ws, truncate w.v s t (fun _ => 7) = .ok (v', ret, ws) ∧
        (v'.desc s).tail < (w.v.desc s).tail ∧
        ∃ v2 off ws2, alloc v' s 3 = .ok (v2, off, ws2) ∧ (w.A s off).isSome ∧ t ≤ off := by
  refine ⟨wd, 5, 8, wd_reach, by decide +kernel, by decide +kernel, by decide +kernel, ?_⟩
  obtain ⟨⟨v', ret, ws⟩, h1, h2⟩ := okAnd_elim (r := truncate wd.v 5 8 (fun _ => 7))
    (p := fun r => decide ((r.1.desc 5).tail < (wd.v.desc 5).tail) &&
      okAnd (alloc r.1 5 3) (fun a => (wd.A 5 a.2.1).isSome && decide (8 ≤ a.2.1))) (by decide +kernel)
  simp only [Bool.and_eq_true, decide_eq_true_eq] at h2
  obtain ⟨h3, h4⟩ := h2
  obtain ⟨⟨v2, off, ws2⟩, h5, h6⟩ := okAnd_elim h4
  simp only [Bool.and_eq_true, decide_eq_true_eq] at h6
  exact ⟨v', ret, ws, h1, h3, v2, off, ws2, h5, h6.1, h6.2⟩

/-- C33 fails between the journal's truncation and the moment the log device persists the new start
offset (`LogDev::truncate`, `log_dev.cpp` 662-684, in this order): after a crash in between, the old
start offset is combined with the shortened chunk list, and the live byte at offset 12 is not found
there any more: the offset now lies outside the list. -/
theorem C33_old_start_violated :
    ∃ w s t v' ret ws, Reach w ∧ ValidTrunc w s t ∧ truncate w.v s t (fun _ => 7) = .ok (v', ret, ws) ∧
      ∃ x, t ≤ x ∧ (w.A s x).isSome ∧ ∀ tail f, 10 ≤ f →
        byteAt (restartDev v'.pst w.v.cs w.v.cap w.v.data f (fun s => (w.v.desc s).ds) tail) s x ≠ w.A s x := by
  obtain ⟨⟨v', ret, ws⟩, h1, h2⟩ := okAnd_elim (r := truncate wd.v 5 10 (fun _ => 7))
    (p := fun r => decide (recoverChunks 10 r.1.pst 5 = some [2])) (by decide +kernel)
  refine ⟨wd, 5, 10, v', ret, ws, wd_reach, valid10, h1, 12, by decide, by decide +kernel, ?_⟩
  intro tail f hf
  simp only [decide_eq_true_eq] at h2
  have hrec := chain_mono h2 f hf
  have hch : ∀ d, (match restartDesc wd.v.cs [2] (wd.v.desc 5).ds (tail 5) with
      | .ok d => d | .error _ => {}) = d → d.ds = 0 ∧ d.chunks.length ≤ 1 := by
    intro d hd
    unfold restartDesc updateStart at hd
    have e1 : (wd.v.desc 5).ds = 0 := by decide +kernel
    have e2 : wd.v.cs = 10 := by decide +kernel
    rw [e1, e2] at hd
    simp only [ne_eq, List.cons_ne_self, not_false_eq_true, if_true, rdown, List.length_cons,
      List.length_nil] at hd
    simp only [updateTail] at hd
    simp at hd
    subst hd; simp
  have key := hch _ rfl
  have hb : byteAt (restartDev v'.pst wd.v.cs wd.v.cap wd.v.data f (fun s => (wd.v.desc s).ds) tail) 5 12
      = none := by
    unfold byteAt
    have hcs : (restartDev v'.pst wd.v.cs wd.v.cap wd.v.data f (fun s => (wd.v.desc s).ds) tail).cs = 10 := by
      show wd.v.cs = 10; decide +kernel
    have hdd : (restartDev v'.pst wd.v.cs wd.v.cap wd.v.data f (fun s => (wd.v.desc s).ds) tail).desc 5 =
      (match restartDesc wd.v.cs [2] (wd.v.desc 5).ds (tail 5) with
      | .ok d => d | .error _ => {}) := by
      show (match restartDesc wd.v.cs ((recoverChunks f v'.pst 5).getD []) (wd.v.desc 5).ds (tail 5) with
        | .ok d => d | .error _ => {}) = _
      rw [show recoverChunks f v'.pst 5 = some [2] from hrec]; rfl
    rw [hcs, hdd]
    generalize (match restartDesc wd.v.cs [2] (wd.v.desc 5).ds (tail 5) with
      | .ok d => d | .error _ => ({} : Desc)) = d at key ⊢
    rw [offsetToChunk_eq (by decide), key.1, if_neg (by decide)]
    rw [List.getElem?_eq_none (by simpa using key.2)]
    rfl
  rw [hb]
  intro h
  have : (wd.A 5 12).isSome = true := by decide +kernel
  rw [← h] at this; cases this

/-- C50 fails when the cursor is exactly at the end of the data of a chunk: the unused end is skipped
twice, so the first bytes of the next chunk are never returned. Here a reader placed at offset 7 (the
end of the data of chunk 1) never sees the bytes at offsets 10, 11, 12. -/
theorem C50_end_of_chunk_violated :
    ∃ w s cur, Reach w ∧ Live w.v s cur ∧
      ∃ bs, readLoop w.v s 4 30 cur = some (.ok bs) ∧ (∃ b, w.A s 10 = some b ∧ b ∉ bs) := by
  refine ⟨wd, 5, 7, wd_reach, ⟨by decide +kernel, by decide +kernel⟩, [24, 25, 0, 0, 0, 0, 0], ?_, 21, ?_, ?_⟩
  · have : okAnd ((readLoop wd.v 5 4 30 7).getD (.error .abort))
        (fun b => decide (b = [24, 25, 0, 0, 0, 0, 0])) = true := by decide +kernel
    obtain ⟨x, h1, h2⟩ := okAnd_elim this
    simp only [decide_eq_true_eq] at h2
    subst h2
    cases hr : readLoop wd.v 5 4 30 7 with
    | none => rw [hr] at h1; cases h1
    | some q => rw [hr] at h1; simp only [Option.getD_some] at h1; rw [h1]
  · decide +kernel
  · decide

/-- The other half of C50's hypothesis is met by `wd`: the start is at a data byte. -/
example : (wd.v.desc 5).ds < (wd.v.desc 5).endOff → (byteAt wd.v 5 (wd.v.desc 5).ds).isSome :=
  fun _ => by decide +kernel

end HS.Journal
