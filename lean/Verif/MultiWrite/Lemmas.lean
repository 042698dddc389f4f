import Verif.MultiWrite.Model
/-!
# Lemmas about writes over several ids
-/
namespace HS.MultiWrite
open HS.DataSvc

theorem bytesOf_append (bs : Nat) (a b : List Piece) : bytesOf bs (a ++ b) = bytesOf bs a + bytesOf bs b := by
  simp [bytesOf]

theorem bytesOf_eq (bs : Nat) (id : List Piece) : bytesOf bs id = (id.map (·.n)).sum * bs := by
  induction id with
  | nil => simp [bytesOf]
  | cons p id ih =>
    rw [show bytesOf bs (p :: id) = p.n * bs + bytesOf bs id by simp [bytesOf], ih]
    simp [Nat.add_mul]

theorem sgsSize_le (bs : Nat) (id : List Piece) : sgsSize bs id ≤ bytesOf bs id := by
  rw [bytesOf_eq, sgsSize, blkCount]
  exact Nat.le_trans (Nat.mod_le _ _) (Nat.mul_le_mul_right _ (Nat.mod_le _ _))

theorem sgsSize_eq {bs : Nat} {id : List Piece} (h : (id.map (·.n)).sum < 65536)
    (h2 : bytesOf bs id < 4294967296) : sgsSize bs id = bytesOf bs id := by
  rw [bytesOf_eq] at h2 ⊢
  rw [sgsSize, blkCount, Nat.mod_eq_of_lt h, Nat.mod_eq_of_lt h2]

theorem slices_append (bs : Nat) (b : List Piece) : ∀ (a : List Piece) (buf : List UInt8),
    slices bs (a ++ b) buf = slices bs a (buf.take (bytesOf bs a)) ++ slices bs b (buf.drop (bytesOf bs a)) := by
  intro a
  induction a with
  | nil => intro buf; simp [slices, bytesOf]
  | cons p a ih =>
    intro buf
    have e : bytesOf bs (p :: a) = p.n * bs + bytesOf bs a := by simp [bytesOf]
    rw [e]
    simp only [List.cons_append, slices, ih, List.drop_take, List.drop_drop, List.take_take]
    congr 3
    · omega
    · congr 2; omega

/-- The ids of a call: sizes for which the arithmetic of the code is exact. -/
def Fits (bs : Nat) (ids : List (List Piece)) : Prop :=
  ∀ id ∈ ids, (id.map (·.n)).sum < 65536 ∧ bytesOf bs id < 4294967296

theorem svcWrite_slices (bs : Nat) (tbl : Table) : ∀ (ids : List (List Piece)) (buf : List UInt8),
    Fits bs ids → bytesOf bs ids.flatten ≤ buf.length →
    svcWrite bs tbl ids buf = (slices bs ids.flatten (buf.take (bytesOf bs ids.flatten))).map
      fun x => writePiece bs tbl x.1 x.2 := by
  intro ids
  induction ids with
  | nil => intro buf _ _; simp [svcWrite, slices]
  | cons id ids ih =>
    intro buf hf hb
    obtain ⟨h1, h2⟩ := hf id (by simp)
    have e := sgsSize_eq h1 h2
    simp only [List.flatten_cons, bytesOf_append] at hb ⊢
    rw [svcWrite, e, slices_append, List.map_append]
    rw [asyncWrite_eq bs tbl id _ (by simp only [List.length_take]; omega),
      ih _ (fun i hi => hf i (List.mem_cons_of_mem _ hi)) (by simp only [List.length_drop]; omega)]
    rw [List.take_take, List.drop_take]
    congr 4
    · omega
    · congr 2; omega

theorem svcWrite_flat {bs : Nat} {tbl : Table} {ids : List (List Piece)} {buf : List UInt8}
    (hf : Fits bs ids) (hb : bytesOf bs ids.flatten ≤ buf.length) :
    svcWrite bs tbl ids buf = asyncWrite bs tbl ids.flatten (buf.take (bytesOf bs ids.flatten)) := by
  rw [svcWrite_slices bs tbl ids buf hf hb, asyncWrite_eq]
  simp only [List.length_take]; omega

theorem svcWrite_append (bs : Nat) (tbl : Table) (b : List (List Piece)) :
    ∀ (a : List (List Piece)) (buf : List UInt8), svcWrite bs tbl (a ++ b) buf =
      svcWrite bs tbl a buf ++ svcWrite bs tbl b (buf.drop (a.map (sgsSize bs)).sum) := by
  intro a
  induction a with
  | nil => intro buf; simp [svcWrite]
  | cons id a ih => intro buf; simp [svcWrite, ih, List.drop_drop]

theorem sum_sgs {bs : Nat} {ids : List (List Piece)} (hf : Fits bs ids) :
    (ids.map (sgsSize bs)).sum = bytesOf bs ids.flatten := by
  induction ids with
  | nil => simp [bytesOf]
  | cons id ids ih =>
    obtain ⟨h1, h2⟩ := hf id (by simp)
    simp only [List.map_cons, List.sum_cons, List.flatten_cons, bytesOf_append, sgsSize_eq h1 h2]
    rw [ih (fun i hi => hf i (List.mem_cons_of_mem _ hi))]

/-- Every request writes at most the bytes of one piece, from its start. -/
theorem writeLoop_mem {bs : Nat} {tbl : Table} {w : Option Wr} : ∀ {ps : List Piece} {buf : List UInt8},
    w ∈ writeLoop bs tbl ps buf → ∃ p ∈ ps, ∃ x, x.length ≤ p.n * bs ∧ w = writePiece bs tbl p x := by
  intro ps
  induction ps with
  | nil => intro buf h; simp [writeLoop] at h
  | cons p ps ih =>
    intro buf h
    simp only [writeLoop, List.mem_cons] at h
    rcases h with h | h
    · exact ⟨p, by simp, _, by simp only [List.length_take]; omega, h⟩
    · obtain ⟨q, hq, r⟩ := ih h
      exact ⟨q, List.mem_cons_of_mem _ hq, r⟩

theorem asyncWrite_mem {bs : Nat} {tbl : Table} {w : Option Wr} {ps : List Piece} {buf : List UInt8}
    (hb : buf.length ≤ bytesOf bs ps) (h : w ∈ asyncWrite bs tbl ps buf) :
    ∃ p ∈ ps, ∃ x, x.length ≤ p.n * bs ∧ w = writePiece bs tbl p x := by
  unfold asyncWrite at h
  split at h
  · rename_i p
    simp only [List.mem_singleton] at h
    exact ⟨p, by simp, buf, by simpa [bytesOf] using hb, h⟩
  · exact writeLoop_mem h

theorem svcWrite_mem {bs : Nat} {tbl : Table} {w : Option Wr} : ∀ {ids : List (List Piece)} {buf : List UInt8},
    w ∈ svcWrite bs tbl ids buf → ∃ p ∈ ids.flatten, ∃ x, x.length ≤ p.n * bs ∧ w = writePiece bs tbl p x := by
  intro ids
  induction ids with
  | nil => intro buf h; simp [svcWrite] at h
  | cons id ids ih =>
    intro buf h
    simp only [svcWrite, List.mem_append] at h
    rcases h with h | h
    · obtain ⟨p, hp, r⟩ := asyncWrite_mem (by
        simp only [List.length_take]; have := sgsSize_le bs id; omega) h
      exact ⟨p, by simp [hp], r⟩
    · obtain ⟨p, hp, r⟩ := ih h
      refine ⟨p, ?_, r⟩
      rw [List.flatten_cons]; exact List.mem_append_right _ hp

/-- The replication device issues what the service would. -/
theorem soloLoop_cases (bs : Nat) (tbl : Table) : ∀ (ids : List (List Piece)) (buf : List UInt8)
    (acc : List (Option Wr)),
    ((ids.map (sgsSize bs)).sum ≤ buf.length ∧ soloLoop bs tbl ids buf acc = .issued (acc ++ svcWrite bs tbl ids buf)) ∨
    ∃ pre id post, ids = pre ++ id :: post ∧ (pre.map (sgsSize bs)).sum ≤ buf.length ∧
      buf.length < (pre.map (sgsSize bs)).sum + sgsSize bs id ∧
      soloLoop bs tbl ids buf acc = .refused (acc ++ svcWrite bs tbl pre buf) := by
  intro ids
  induction ids with
  | nil => intro buf acc; left; simp [soloLoop, svcWrite]
  | cons id ids ih =>
    intro buf acc
    by_cases h : sgsSize bs id ≤ buf.length
    · have e : soloLoop bs tbl (id :: ids) buf acc = soloLoop bs tbl ids (buf.drop (sgsSize bs id))
          (acc ++ asyncWrite bs tbl id (buf.take (sgsSize bs id))) := by
        rw [soloLoop, if_neg]; simp only [List.length_take, ne_eq]; omega
      rw [e]
      rcases ih (buf.drop (sgsSize bs id)) (acc ++ asyncWrite bs tbl id (buf.take (sgsSize bs id))) with
        ⟨h1, h2⟩ | ⟨pre, i, post, h1, h2, h3, h4⟩
      · left
        simp only [List.length_drop] at h1
        refine ⟨by simp only [List.map_cons, List.sum_cons]; omega, ?_⟩
        rw [h2]; simp [svcWrite]
      · right
        simp only [List.length_drop] at h2 h3
        refine ⟨id :: pre, i, post, by simp [h1], by simp only [List.map_cons, List.sum_cons]; omega,
          by simp only [List.map_cons, List.sum_cons]; omega, ?_⟩
        rw [h4]; simp [svcWrite]
    · right
      refine ⟨[], id, ids, rfl, by simp, by simp; omega, ?_⟩
      rw [soloLoop, if_pos]
      · simp [svcWrite]
      · simp only [List.length_take, ne_eq]; omega

theorem readLoop_append {bs : Nat} {tbl : Table} {d : Dev} : ∀ {a b : List Piece} {x : List UInt8},
    readLoop bs tbl d (a ++ b) = some x → readLoop bs tbl d a = some (x.take (bytesOf bs a)) ∧
      readLoop bs tbl d b = some (x.drop (bytesOf bs a)) := by
  intro a
  induction a with
  | nil => intro b x h; simpa [readLoop, bytesOf] using h
  | cons p a ih =>
    intro b x h
    simp only [List.cons_append, readLoop] at h
    cases h1 : readPiece bs tbl d p (p.n * bs) with
    | none => simp [h1] at h
    | some y =>
      cases h2 : readLoop bs tbl d (a ++ b) with
      | none => simp [h1, h2] at h
      | some z =>
        simp only [h1, h2, Option.some.injEq] at h
        obtain ⟨i1, i2⟩ := ih h2
        have hy : y.length = p.n * bs := by
          simp only [readPiece, Option.map_eq_some_iff] at h1
          obtain ⟨_, _, rfl⟩ := h1
          simp [readBytes]
        have e : bytesOf bs (p :: a) = p.n * bs + bytesOf bs a := by simp [bytesOf]
        subst h
        constructor
        · simp only [readLoop, h1, i1, e]
          rw [← hy, List.take_length_add_append]
        · rw [i2, e, ← hy, List.drop_length_add_append]

end HS.MultiWrite
