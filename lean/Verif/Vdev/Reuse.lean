import Verif.Vdev.Own
import Verif.Vdev.Exec
/-! Vocabulary and lemmas for C15 (when a block whose free was requested becomes reusable). -/
namespace HS.Vdev

/-- Executions without a crash. -/
def noCrash (_ : St) (a : Act) : Prop := a ≠ .crash

/-- During `pre`, started in `s0`, a checkpoint was switched over and flushed to the point that the
bitmap is persisted: it was written, or the flush found that there was nothing new to write. -/
def Persisted (s0 : St) (pre : List Act) : Prop :=
  List.Sublist [.switchover, .flushStart, .acquire, .write] pre ∨
  ∃ p q s1, pre = p ++ .acquire :: q ∧ List.Sublist [.switchover, .flushStart] p ∧
    Exec noCrash s0 p s1 ∧ s1.dirty = false

/-- Where the free request of block `x` is, `pre` being what happened since the request. -/
def Pending (s0 : St) (x : Blk) (pre : List Act) (s : St) : Prop :=
  (s.own x = .freeing ∧
    (x ∈ s.freeCur ∨
     (x ∈ s.freeFl ∧
      ((s.phase = .prepared ∧ List.Sublist [.switchover] pre) ∨
       (s.phase = .started ∧ List.Sublist [.switchover, .flushStart] pre) ∨
       (((∃ i, s.phase = .img i) ∨ s.phase = .xchgd) ∧ List.Sublist [.switchover, .flushStart, .acquire] pre) ∨
       ((s.phase = .written ∨ s.phase = .clean ∨ s.phase = .unlinked ∨ (∃ td, s.phase = .replaying td)) ∧
          List.Sublist [.switchover, .flushStart, .acquire, .write] pre) ∨
       ((∃ td, s.phase = .frees td ∧ x ∈ td) ∧ Persisted s0 pre))))) ∨
  ∃ p q, pre = p ++ .doFree :: q ∧ Persisted s0 p

theorem persisted_mono {s0 : St} {pre : List Act} {a : Act} (h : Persisted s0 pre) :
    Persisted s0 (pre ++ [a]) := by
  rcases h with h | ⟨p, q, s1, h1, h2, h3, h4⟩
  · exact Or.inl (h.trans (List.sublist_append_left _ _))
  · exact Or.inr ⟨p, q ++ [a], s1, by simp [h1], h2, h3, h4⟩

theorem sub_mono {l pre : List Act} {a : Act} (h : List.Sublist l pre) : List.Sublist l (pre ++ [a]) :=
  h.trans (List.sublist_append_left _ _)

theorem sub_snoc {l pre : List Act} {a : Act} (h : List.Sublist l pre) :
    List.Sublist (l ++ [a]) (pre ++ [a]) := h.append (List.Sublist.refl _)

theorem pending_frame {s0 : St} {x : Blk} {pre : List Act} {s s' : St} {a : Act}
    (hw : x ∈ s.freeCur ∨
     (x ∈ s.freeFl ∧
      ((s.phase = .prepared ∧ List.Sublist [.switchover] pre) ∨
       (s.phase = .started ∧ List.Sublist [.switchover, .flushStart] pre) ∨
       (((∃ i, s.phase = .img i) ∨ s.phase = .xchgd) ∧ List.Sublist [.switchover, .flushStart, .acquire] pre) ∨
       ((s.phase = .written ∨ s.phase = .clean ∨ s.phase = .unlinked ∨ (∃ td, s.phase = .replaying td)) ∧
          List.Sublist [.switchover, .flushStart, .acquire, .write] pre) ∨
       ((∃ td, s.phase = .frees td ∧ x ∈ td) ∧ Persisted s0 pre))))
    (ho : s'.own x = .freeing) (hc : ∀ y ∈ s.freeCur, y ∈ s'.freeCur) (hf : ∀ y ∈ s.freeFl, y ∈ s'.freeFl)
    (hp : s'.phase = s.phase) : Pending s0 x (pre ++ [a]) s' := by
  left
  refine ⟨ho, ?_⟩
  rw [hp]
  rcases hw with hw | ⟨hx, hw⟩
  · exact Or.inl (hc x hw)
  · refine Or.inr ⟨hf x hx, ?_⟩
    rcases hw with ⟨h1, h2⟩ | ⟨h1, h2⟩ | ⟨h1, h2⟩ | ⟨h1, h2⟩ | ⟨h1, h2⟩
    · exact Or.inl ⟨h1, sub_mono h2⟩
    · exact Or.inr (Or.inl ⟨h1, sub_mono h2⟩)
    · exact Or.inr (Or.inr (Or.inl ⟨h1, sub_mono h2⟩))
    · exact Or.inr (Or.inr (Or.inr (Or.inl ⟨h1, sub_mono h2⟩)))
    · exact Or.inr (Or.inr (Or.inr (Or.inr ⟨h1, persisted_mono h2⟩)))

theorem pending_step (s0 : St) (x : Blk) (pre : List Act) (s : St) (a : Act) (s' : St)
    (he : Exec noCrash s0 pre s) (hi : InvO s) (h : Pending s0 x pre s) (hok : noCrash s a)
    (hs : step s a = some s') : Pending s0 x (pre ++ [a]) s' := by
  rcases h with ⟨ho, hw⟩ | ⟨p, q, h1, h2⟩
  rotate_left
  · exact Or.inr ⟨p, q ++ [a], by simp [h1], h2⟩
  have hfree := hi.free x
  cases a with
  | crash => exact absurd rfl hok
  | alloc y =>
    simp only [step] at hs
    split at hs
    rotate_left
    · simp at hs
    simp only [Option.some.injEq] at hs
    subst hs
    exact pending_frame hw (by simp only [upd]; grind) (fun _ h => h) (fun _ h => h) rfl
  | commitBegin t xs =>
    simp only [step] at hs
    split at hs
    rotate_left
    · simp at hs
    simp only [Option.some.injEq] at hs
    subst hs
    exact pending_frame hw (by simp only [updAll]; grind) (fun _ h => h) (fun _ h => h) rfl
  | commitStep t =>
    simp only [step] at hs
    split at hs
    · rename_i hsec
      have := hi.secOwn t _ hsec x
      simp only [Option.some.injEq] at hs
      subst hs
      exact pending_frame hw (by simp only [updAll]; grind) (fun _ h => h) (fun _ h => h) rfl
    · simp only [Option.some.injEq, St.setBit] at hs
      split at hs
      · subst hs; exact pending_frame hw ho (fun _ h => h) (fun _ h => h) rfl
      · subst hs; exact pending_frame hw ho (fun _ h => h) (fun _ h => h) rfl
    · rename_i hsec
      have := hi.secOwn t _ hsec x
      simp only [Option.some.injEq] at hs
      subst hs
      exact pending_frame hw (by simp only [updAll]; grind) (fun _ h => h) (fun _ h => h) rfl
    · simp at hs
  | freeReq y o =>
    simp only [step] at hs
    split at hs
    rotate_left
    · simp at hs
    split at hs
    · split at hs
      rotate_left
      · simp at hs
      simp only [Option.some.injEq] at hs
      subst hs
      exact pending_frame hw (by simp only [upd]; grind) (fun _ h => h) (fun y h => by simp [h]) rfl
    · simp only [Option.some.injEq] at hs
      subst hs
      exact pending_frame hw (by simp only [upd]; grind) (fun y h => by simp [h]) (fun _ h => h) rfl
  | freeNow y =>
    simp only [step] at hs
    split at hs
    rotate_left
    · simp at hs
    simp only [Option.some.injEq] at hs
    subst hs
    exact pending_frame hw (by simp only [St.freeBlk, upd]; grind) (fun _ h => h) (fun _ h => h) rfl
  | switchover =>
    simp only [step] at hs
    split at hs
    rotate_left
    · simp at hs
    rename_i hp
    split at hs
    · simp at hs
    simp only [Option.some.injEq] at hs
    subst hs
    rw [hp] at hw
    rcases hw with hw | ⟨_, hw⟩
    · exact Or.inl ⟨ho, Or.inr ⟨hw, Or.inl ⟨rfl, sub_snoc (List.nil_sublist _)⟩⟩⟩
    · simp at hw
  | flushStart =>
    simp only [step] at hs
    split at hs
    rotate_left
    · simp at hs
    rename_i hp
    simp only [Option.some.injEq] at hs
    subst hs
    rw [hp] at hw
    rcases hw with hw | ⟨hx, hw⟩
    · exact Or.inl ⟨ho, Or.inl hw⟩
    · simp at hw
      exact Or.inl ⟨ho, Or.inr ⟨hx, Or.inr (Or.inl ⟨rfl, sub_snoc (l := [.switchover]) (by simpa using hw)⟩)⟩⟩
  | acquire =>
    simp only [step] at hs
    split at hs
    rotate_left
    · simp at hs
    rename_i hp
    rw [hp] at hw
    split at hs
    · simp only [Option.some.injEq] at hs
      subst hs
      rcases hw with hw | ⟨hx, hw⟩
      · exact Or.inl ⟨ho, Or.inl hw⟩
      · simp at hw
        exact Or.inl ⟨ho, Or.inr ⟨hx, Or.inr (Or.inr (Or.inl ⟨Or.inr rfl,
          sub_snoc (l := [.switchover, .flushStart]) hw⟩))⟩⟩
    · rename_i hd
      simp only [Option.some.injEq] at hs
      subst hs
      rcases hw with hw | ⟨hx, hw⟩
      · exact Or.inl ⟨ho, Or.inl hw⟩
      · simp at hw
        exact Or.inl ⟨ho, Or.inr ⟨hx, Or.inr (Or.inr (Or.inr (Or.inr ⟨⟨_, rfl, hx⟩,
          Or.inr ⟨pre, [], s, rfl, hw, he, by simpa using hd⟩⟩)))⟩⟩
  | sync1 =>
    simp only [step] at hs
    split at hs
    rotate_left
    · simp at hs
    rename_i hp
    simp only [Option.some.injEq] at hs
    subst hs
    rw [hp] at hw
    rcases hw with hw | ⟨hx, hw⟩
    · exact Or.inl ⟨ho, Or.inl hw⟩
    · simp at hw
      exact Or.inl ⟨ho, Or.inr ⟨hx, Or.inr (Or.inr (Or.inl ⟨Or.inl ⟨_, rfl⟩, sub_mono hw⟩))⟩⟩
  | write =>
    simp only [step] at hs
    split at hs
    rotate_left
    · simp at hs
    rename_i i hp
    simp only [Option.some.injEq] at hs
    subst hs
    rw [hp] at hw
    rcases hw with hw | ⟨hx, hw⟩
    · exact Or.inl ⟨ho, Or.inl hw⟩
    · simp at hw
      exact Or.inl ⟨ho, Or.inr ⟨hx, Or.inr (Or.inr (Or.inr (Or.inl ⟨Or.inl rfl,
        sub_snoc (l := [.switchover, .flushStart, .acquire]) hw⟩)))⟩⟩
  | clear =>
    simp only [step] at hs
    split at hs
    rotate_left
    · simp at hs
    rename_i hp
    simp only [Option.some.injEq] at hs
    subst hs
    rw [hp] at hw
    rcases hw with hw | ⟨hx, hw⟩
    · exact Or.inl ⟨ho, Or.inl hw⟩
    · simp at hw
      exact Or.inl ⟨ho, Or.inr ⟨hx, Or.inr (Or.inr (Or.inr (Or.inl ⟨Or.inr (Or.inl rfl), sub_mono hw⟩)))⟩⟩
  | release =>
    simp only [step] at hs
    split at hs
    rotate_left
    · simp at hs
    rename_i hp
    simp only [Option.some.injEq] at hs
    subst hs
    rw [hp] at hw
    rcases hw with hw | ⟨hx, hw⟩
    · exact Or.inl ⟨ho, Or.inl hw⟩
    · simp at hw
      exact Or.inl ⟨ho, Or.inr ⟨hx, Or.inr (Or.inr (Or.inr (Or.inl ⟨Or.inr (Or.inr (Or.inl rfl)), sub_mono hw⟩)))⟩⟩
  | sync2 =>
    simp only [step] at hs
    split at hs
    rotate_left
    · simp at hs
    rename_i hp
    simp only [Option.some.injEq] at hs
    subst hs
    rw [hp] at hw
    rcases hw with hw | ⟨hx, hw⟩
    · exact Or.inl ⟨ho, Or.inl hw⟩
    · simp at hw
      exact Or.inl ⟨ho, Or.inr ⟨hx, Or.inr (Or.inr (Or.inr (Or.inl ⟨Or.inr (Or.inr (Or.inr ⟨_, rfl⟩)), sub_mono hw⟩)))⟩⟩
  | replay =>
    simp only [step] at hs
    split at hs
    · rename_i xs rest hp
      simp only [Option.some.injEq] at hs
      obtain ⟨f1, f2, f3, _⟩ := fold_setBit_frame xs s
      subst hs
      rw [hp] at hw
      rcases hw with hw | ⟨hx, hw⟩
      · exact Or.inl ⟨by simp [St.replayOne, f1, ho], Or.inl (by simp [St.replayOne, f2, hw])⟩
      · simp at hw
        exact Or.inl ⟨by simp [St.replayOne, f1, ho], Or.inr ⟨by simp [St.replayOne, f3, hx],
          Or.inr (Or.inr (Or.inr (Or.inl ⟨Or.inr (Or.inr (Or.inr ⟨_, rfl⟩)), sub_mono hw⟩)))⟩⟩
    · rename_i hp
      simp only [Option.some.injEq] at hs
      subst hs
      rw [hp] at hw
      rcases hw with hw | ⟨hx, hw⟩
      · exact Or.inl ⟨ho, Or.inl hw⟩
      · simp at hw
        exact Or.inl ⟨ho, Or.inr ⟨hx, Or.inr (Or.inr (Or.inr (Or.inr ⟨⟨_, rfl, hx⟩, Or.inl (sub_mono hw)⟩)))⟩⟩
    · simp at hs
  | doFree =>
    simp only [step] at hs
    split at hs
    rotate_left
    · simp at hs
    rename_i y rest hp
    simp only [Option.some.injEq] at hs
    subst hs
    have hfr := hi.frees _ hp
    rw [hp] at hw
    rcases hw with hw | ⟨hx, hw⟩
    · have : x ≠ y := by
        intro e; exact hfr.2.2.2 x hw (by simp [e])
      exact Or.inl ⟨by simp [St.freeBlk, upd, this, ho], Or.inl hw⟩
    · simp at hw
      by_cases hxy : x = y
      · exact Or.inr ⟨pre, [], rfl, hw.2⟩
      · exact Or.inl ⟨by simp [St.freeBlk, upd, hxy, ho], Or.inr ⟨hx, Or.inr (Or.inr (Or.inr (Or.inr
          ⟨⟨_, rfl, by simpa [hxy] using hw.1⟩, persisted_mono hw.2⟩)))⟩⟩
  | flushDone =>
    simp only [step] at hs
    split at hs
    rotate_left
    · simp at hs
    rename_i hp
    simp only [Option.some.injEq] at hs
    subst hs
    rw [hp] at hw
    rcases hw with hw | ⟨hx, hw⟩
    · exact Or.inl ⟨ho, Or.inl hw⟩
    · simp at hw
  | initDone =>
    simp only [step, Option.some.injEq] at hs
    subst hs
    exact pending_frame hw ho (fun _ h => h) (fun _ h => h) rfl

end HS.Vdev
