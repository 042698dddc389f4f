import Verif.Pipe.Lemmas
import Mathlib.Data.List.Perm.Basic
/-! # The invariant holds in every history -/
namespace HS.Pipe
variable {D : Type}

theorem inv_reserve {s s' : St D} (h : Inv s) {c : Nat} {x : Call D} (hc : s.calls c = some x)
    (hs : s.reserve c x = some s') : Inv s' := by
  have key : x.ph = .called → s' = { s.setPh c { x with idx := some s.next } .reserved with next := s.next + 1 } →
      Inv s' := by
    intro hp he
    subst he
    have hne : ∀ c' y, s.calls c' = some y → y.ph ≠ .called → c' ≠ c := by
      rintro c' y h1 h2 rfl; rw [hc] at h1; cases h1; exact h2 hp
    have hk : ∀ c' y, s.calls c' = some y → y.ph ≠ .called →
        upd s.calls c (some { x with idx := some s.next, ph := .reserved }) c' = some y := by
      intro c' y h1 h2; rw [upd_other _ _ (hne _ _ h1 h2)]; exact h1
    have hpc : ∀ y : Call D, y.ph.past = true → y.ph ≠ .called := by
      intro y h1 h2; rw [h2] at h1; cases h1
    have hle := h.le
    constructor
    case len => exact h.len
    case le => show s.last ≤ s.next + 1; omega
    case trk =>
      intro i r h1
      obtain ⟨h2, h3, y, h4, h5, h6, h7, h8⟩ := h.trk i r h1
      exact ⟨h2, by simp only []; omega, y, hk _ _ h4 (hpc y h8), h5, h6, h7, h8⟩
    case fl =>
      intro i r h1
      obtain ⟨y, h4, h5, h6, h7, h8⟩ := h.fl i r h1
      exact ⟨y, hk _ _ h4 (hpc y h8), h5, h6, h7, h8⟩
    case half =>
      intro c' y h1 h2
      rcases upd_some h1 with ⟨-, rfl⟩ | ⟨-, k1⟩
      · refine ⟨s.next, rfl, hle, by simp only []; omega, ?_⟩
        simp only [St.setPh]
        cases ht : s.tracker s.next with
        | none => rfl
        | some r => have := (h.trk _ _ ht).2.1; omega
      · obtain ⟨i, e1, e2, e3, e4⟩ := h.half c' y k1 h2
        exact ⟨i, e1, e2, by simp only []; omega, e4⟩
    case fresh =>
      intro c' y h1 h2
      rcases upd_some h1 with ⟨-, rfl⟩ | ⟨-, k1⟩
      · cases h2
      · exact h.fresh c' y k1 h2
    case own =>
      intro c' y i h1 h2 h3 h4
      rcases upd_some h1 with ⟨-, rfl⟩ | ⟨-, k1⟩
      · cases h3
      · obtain ⟨e1, e2⟩ := h.own c' y i k1 h2 h3 h4
        exact ⟨by simp only []; omega, e2⟩
    case uniq =>
      intro c' c'' y y' h1 h2 h3 h4 h5
      rcases upd_some h1 with ⟨e1, rfl⟩ | ⟨-, k1⟩
      · rcases upd_some h2 with ⟨e2, rfl⟩ | ⟨-, k2⟩
        · rw [e1, e2]
        · obtain ⟨i, f1, -, f3, -⟩ := h.half c'' y' k2 h4
          rw [f1] at h5; simp only [] at h5; cases h5; omega
      · rcases upd_some h2 with ⟨e2, rfl⟩ | ⟨-, k2⟩
        · obtain ⟨i, f1, -, f3, -⟩ := h.half c' y k1 h3
          rw [f1] at h5; simp only [] at h5; cases h5; omega
        · exact h.uniq _ _ _ _ k1 k2 h3 h4 h5
    case cover =>
      intro i h1 h2 h3
      by_cases hi : i = s.next
      · exact ⟨c, _, upd_same _ _ _, rfl, by rw [hi]⟩
      · obtain ⟨c', y, h4, h5, h6⟩ := h.cover i h1 (by simp only [] at h2; omega) h3
        exact ⟨c', y, hk _ _ h4 (by intro e; rw [e] at h5; cases h5), h5, h6⟩
    case lock =>
      intro c' y h1 h2
      rcases upd_some h1 with ⟨-, rfl⟩ | ⟨-, k1⟩
      · cases h2
      · exact h.lock c' y k1 h2
    case held =>
      intro c' h1
      obtain ⟨y, h4, h5⟩ := h.held c' h1
      exact ⟨y, hk _ _ h4 (by intro e; rw [e] at h5; cases h5), h5⟩
    case bd =>
      intro c' y n h1 h2
      rcases upd_some h1 with ⟨-, rfl⟩ | ⟨-, k1⟩
      · cases h2
      · have := h.bd c' y n k1 h2; simp only []; omega
    case grp =>
      intro c' y g h1 h2
      rcases upd_some h1 with ⟨-, rfl⟩ | ⟨-, k1⟩
      · cases h2
      · exact h.grp c' y g k1 h2
    case disk =>
      obtain ⟨d, h5, h6⟩ := h.disk
      refine ⟨d, ⟨h5.chain, h5.whole, h5.starts, h5.view⟩, ?_⟩
      rcases h6 with ⟨c', y, g, h7, h8, h9⟩ | ⟨h7, h8⟩
      · left; exact ⟨c', y, g, hk _ _ h7 (by intro e; rw [e] at h8; cases h8), h8, h9⟩
      · right; refine ⟨?_, h8⟩
        intro c' y h1
        rcases upd_some h1 with ⟨-, rfl⟩ | ⟨-, k1⟩
        · rfl
        · exact h7 c' y k1
    case nodup => exact h.nodup
    case cbCall =>
      intro c' h1
      obtain ⟨y, h4, h5⟩ := h.cbCall c' h1
      exact ⟨y, hk _ _ h4 (hpc y h5), h5⟩
    case cbTrk => exact h.cbTrk
  simp only [St.reserve] at hs
  split at hs
  · rename_i hp; cases hs; exact key hp rfl
  · rename_i hp; cases hs; exact key hp rfl
  · cases hs

theorem inv_file {s s' : St D} (h : Inv s) {c : Nat} {x : Call D} (hc : s.calls c = some x)
    (hs : s.file c x = some s') : Inv s' := by
  simp only [St.file] at hs
  split at hs
  case h_2 => cases hs
  rename_i i hp hi
  cases hs
  have hx : x.ph.half = true := by rw [hp]; rfl
  obtain ⟨i', e1, hi1, hi2, hi3⟩ := h.half c x hc hx
  rw [hi] at e1; cases e1
  have hne : ∀ c' y, s.calls c' = some y → y.ph ≠ .counted → c' ≠ c := by
    rintro c' y h1 h2 rfl; rw [hc] at h1; cases h1; exact h2 hp
  have hk : ∀ c' y, s.calls c' = some y → y.ph ≠ .counted →
      upd s.calls c (some { x with ph := .filed }) c' = some y := by
    intro c' y h1 h2; rw [upd_other _ _ (hne _ _ h1 h2)]; exact h1
  have hpc : ∀ y : Call D, y.ph.past = true → y.ph ≠ .counted := by
    intro y h1 h2; rw [h2] at h1; cases h1
  have hle := h.le
  have htr : ∀ j r, s.tracker j = some r → upd s.tracker i (some ⟨c, x.sz, x.data⟩) j = some r := by
    intro j r h1; rw [upd_other _ _ (by rintro rfl; rw [hi3] at h1; cases h1)]; exact h1
  have hvw : ∀ j r, s.view j = some r →
      (if j < s.last then s.flushed[j]? else upd s.tracker i (some ⟨c, x.sz, x.data⟩) j) = some r := by
    intro j r h1; simp only [St.view] at h1
    split
    · rename_i hj; rw [if_pos hj] at h1; exact h1
    · rename_i hj; rw [if_neg hj] at h1; exact htr j r h1
  constructor
  case len => exact h.len
  case le => exact h.le
  case trk =>
    intro j r h1
    rcases upd_some h1 with ⟨rfl, rfl⟩ | ⟨-, k1⟩
    · exact ⟨hi1, hi2, _, upd_same _ _ _, hi, rfl, rfl, rfl⟩
    · obtain ⟨h2, h3, y, h4, h5, h6, h7, h8⟩ := h.trk j r k1
      exact ⟨h2, h3, y, hk _ _ h4 (hpc y h8), h5, h6, h7, h8⟩
  case fl =>
    intro j r h1
    obtain ⟨y, h4, h5, h6, h7, h8⟩ := h.fl j r h1
    exact ⟨y, hk _ _ h4 (hpc y h8), h5, h6, h7, h8⟩
  case half =>
    intro c' y h1 h2
    rcases upd_some h1 with ⟨-, rfl⟩ | ⟨hn, k1⟩
    · cases h2
    · obtain ⟨j, f1, f2, f3, f4⟩ := h.half c' y k1 h2
      refine ⟨j, f1, f2, f3, ?_⟩
      simp only []
      rw [upd_other _ _ ?_]
      · exact f4
      · rintro rfl; exact hn (h.uniq c' c y x k1 hc h2 hx (by rw [f1, hi]))
  case fresh =>
    intro c' y h1 h2
    rcases upd_some h1 with ⟨-, rfl⟩ | ⟨-, k1⟩
    · cases h2
    · exact h.fresh c' y k1 h2
  case own =>
    intro c' y j h1 h2 h3 h4
    rcases upd_some h1 with ⟨rfl, rfl⟩ | ⟨-, k1⟩
    · simp only [] at h4; rw [hi] at h4; cases h4
      refine ⟨hi2, ?_⟩
      exact (if_neg (show ¬ i < s.last by omega)).trans (upd_same _ _ _)
    · obtain ⟨e1, e2⟩ := h.own c' y j k1 h2 h3 h4
      exact ⟨e1, hvw _ _ e2⟩
  case uniq =>
    intro c' c'' y y' h1 h2 h3 h4 h5
    rcases upd_some h1 with ⟨e1, rfl⟩ | ⟨-, k1⟩
    · cases h3
    · rcases upd_some h2 with ⟨e2, rfl⟩ | ⟨-, k2⟩
      · cases h4
      · exact h.uniq _ _ _ _ k1 k2 h3 h4 h5
  case cover =>
    intro j h1 h2 h3
    simp only [] at h3
    have hj : j ≠ i := by rintro rfl; rw [upd_same] at h3; cases h3
    rw [upd_other _ _ hj] at h3
    obtain ⟨c', y, h4, h5, h6⟩ := h.cover j h1 h2 h3
    refine ⟨c', y, ?_, h5, h6⟩
    simp only [St.setPh]
    rw [upd_other _ _ ?_]
    · exact h4
    · rintro rfl; rw [hc] at h4; cases h4; rw [hi] at h6; cases h6; exact hj rfl
  case lock =>
    intro c' y h1 h2
    rcases upd_some h1 with ⟨-, rfl⟩ | ⟨-, k1⟩
    · cases h2
    · exact h.lock c' y k1 h2
  case held =>
    intro c' h1
    obtain ⟨y, h4, h5⟩ := h.held c' h1
    exact ⟨y, hk _ _ h4 (by intro e; rw [e] at h5; cases h5), h5⟩
  case bd =>
    intro c' y n h1 h2
    rcases upd_some h1 with ⟨-, rfl⟩ | ⟨-, k1⟩
    · cases h2
    · exact h.bd c' y n k1 h2
  case grp =>
    intro c' y g h1 h2
    rcases upd_some h1 with ⟨-, rfl⟩ | ⟨-, k1⟩
    · cases h2
    · obtain ⟨e1, e2⟩ := h.grp c' y g k1 h2
      exact ⟨e1, fun k r h3 => htr _ _ (e2 k r h3)⟩
  case disk =>
    obtain ⟨d, h5, h6⟩ := h.disk
    refine ⟨d, ⟨h5.chain, h5.whole, h5.starts, fun j r h1 => hvw j r (h5.view j r h1)⟩, ?_⟩
    rcases h6 with ⟨c', y, g, h7, h8, h9⟩ | ⟨h7, h8⟩
    · left; exact ⟨c', y, g, hk _ _ h7 (by intro e; rw [e] at h8; cases h8), h8, h9⟩
    · right; refine ⟨?_, h8⟩
      intro c' y h1
      rcases upd_some h1 with ⟨-, rfl⟩ | ⟨-, k1⟩
      · rfl
      · exact h7 c' y k1
  case nodup => exact h.nodup
  case cbCall =>
    intro c' h1
    obtain ⟨y, h4, h5⟩ := h.cbCall c' h1
    exact ⟨y, hk _ _ h4 (hpc y h5), h5⟩
  case cbTrk =>
    intro j r h1
    rcases upd_some h1 with ⟨rfl, rfl⟩ | ⟨-, k1⟩
    · intro h2
      obtain ⟨y, h4, h5⟩ := h.cbCall c h2
      rw [hc] at h4; cases h4; rw [hp] at h5; cases h5
    · exact h.cbTrk j r k1

theorem inv_callback {s s' : St D} (h : Inv s) {i : Nat} (hs : s.callback i = some s') : Inv s' := by
  simp only [St.callback] at hs
  split at hs
  case h_2 => cases hs
  rename_i c hi
  cases hs
  have hp : (s.acked ++ [c] ++ s.queue.eraseIdx i).Perm (s.acked ++ s.queue) := by
    rw [List.append_assoc]
    refine List.Perm.append_left _ ?_
    obtain ⟨hlt, he⟩ := List.getElem?_eq_some_iff.mp hi
    rw [← he]
    exact List.getElem_cons_eraseIdx_perm hlt
  exact { h with
    nodup := hp.nodup_iff.mpr h.nodup
    cbCall := fun c' h1 => h.cbCall c' (hp.mem_iff.mp h1)
    cbTrk := fun j r h1 h2 => h.cbTrk j r h1 (hp.mem_iff.mp h2)
    disk := by
      obtain ⟨d, h5, h6⟩ := h.disk
      exact ⟨d, ⟨h5.chain, h5.whole, h5.starts, h5.view⟩, h6⟩ }

theorem inv_complete {s s' : St D} (h : Inv s) {c : Nat} {x : Call D} (hc : s.calls c = some x)
    (hs : s.complete c x = some s') : Inv s' := by
  simp only [St.complete] at hs
  split at hs
  case h_2 => cases hs
  rename_i n g hp
  cases hs
  have hlen := h.len
  have hle := h.le
  obtain ⟨hg1, hg2⟩ := h.grp c x g hc (by rw [hp]; rfl)
  have hlt : ∀ k, k < g.length → ∃ r, g[k]? = some r ∧ s.tracker (s.last + k) = some r ∧ s.last + k < s.next := by
    intro k hk
    refine ⟨g[k], List.getElem?_eq_getElem hk, hg2 k _ (List.getElem?_eq_getElem hk), ?_⟩
    exact (h.trk _ _ (hg2 k _ (List.getElem?_eq_getElem hk))).2.1
  have hpos : 0 < g.length := by cases g with | nil => exact absurd rfl hg1 | cons => simp
  have hup : s.last + g.length ≤ s.next := by
    obtain ⟨r, -, -, h1⟩ := hlt (g.length - 1) (by omega); omega
  have hxf : x.ph.flushing = true := by rw [hp]; rfl
  have hk : ∀ c' y, s.calls c' = some y → ∃ y', upd s.calls c (some { x with ph := .bound n }) c' = some y' ∧
      y'.idx = y.idx ∧ y'.sz = y.sz ∧ y'.data = y.data ∧ (y.ph.past = true → y'.ph.past = true) ∧
      y'.ph.half = y.ph.half := by
    intro c' y h1
    by_cases hcc : c' = c
    · rw [hcc, hc] at h1; cases h1
      exact ⟨{ x with ph := .bound n }, by rw [hcc, upd_same], rfl, rfl, rfl, fun _ => rfl, by rw [hp]; rfl⟩
    · exact ⟨y, by rw [upd_other _ _ hcc]; exact h1, rfl, rfl, rfl, id, rfl⟩
  have hother : ∀ c' y, c' ≠ c → s.calls c' = some y → y.ph.flushing = false := by
    intro c' y hne hy
    cases hf : y.ph.flushing with
    | false => rfl
    | true =>
      have h2 := h.lock c' y hy hf
      have h3 := h.lock c x hc hxf
      rw [h2] at h3; cases h3; exact absurd rfl hne
  have hvw : ∀ j, (if j < s.last + g.length then (s.flushed ++ g)[j]? else
      if j < s.last + g.length then none else s.tracker j) = s.view j := by
    intro j
    simp only [St.view]
    by_cases h1 : j < s.last
    · rw [if_pos (by omega), if_pos h1, List.getElem?_append_left (by omega)]
    · rw [if_neg h1]
      by_cases h2 : j < s.last + g.length
      · rw [if_pos h2, List.getElem?_append_right (by omega), hlen]
        obtain ⟨r, e1, e2, -⟩ := hlt (j - s.last) (by omega)
        rw [e1, ← e2]; congr 1; omega
      · rw [if_neg h2, if_neg h2]
  have hhalf : ∀ c' y, s.calls c' = some y → y.ph.half = true → ∃ i, y.idx = some i ∧ s.last + g.length ≤ i ∧ i < s.next ∧
      s.tracker i = none := by
    intro c' y h1 h2
    obtain ⟨i, e1, e2, e3, e4⟩ := h.half c' y h1 h2
    refine ⟨i, e1, ?_, e3, e4⟩
    by_cases h3 : i < s.last + g.length
    · obtain ⟨r, -, f2, -⟩ := hlt (i - s.last) (by omega)
      rw [show s.last + (i - s.last) = i by omega, e4] at f2; cases f2
    · omega
  have hcalls : ∀ k r, g[k]? = some r → ∃ y, s.calls r.call = some y ∧ y.idx = some (s.last + k) ∧ y.ph.past = true := by
    intro k r h1
    obtain ⟨-, -, y, f1, f2, -, -, f5⟩ := h.trk _ _ (hg2 k r h1)
    exact ⟨y, f1, f2, f5⟩
  constructor
  case len => simp [hlen]
  case le => exact hup
  case trk =>
    intro i r h1
    simp only [] at h1
    split at h1
    · cases h1
    · rename_i hi
      obtain ⟨h2, h3, y, h4, h5, h6, h7, h8⟩ := h.trk i r h1
      obtain ⟨y', e1, e2, e3, e4, e5, -⟩ := hk _ _ h4
      exact ⟨by simp only []; omega, h3, y', e1, by rw [e2, h5], by rw [e3, h6], by rw [e4, h7], e5 h8⟩
  case fl =>
    intro i r h1
    simp only [] at h1
    have : ∃ y, s.calls r.call = some y ∧ y.idx = some i ∧ y.sz = r.sz ∧ y.data = r.data ∧ y.ph.past = true := by
      rw [List.getElem?_append] at h1
      split at h1
      · exact h.fl i r h1
      · have := h.trk _ _ (hg2 _ _ h1)
        rw [hlen] at this
        rw [show s.last + (i - s.last) = i by omega] at this
        exact this.2.2
    obtain ⟨y, h4, h5, h6, h7, h8⟩ := this
    obtain ⟨y', e1, e2, e3, e4, e5, -⟩ := hk _ _ h4
    exact ⟨y', e1, by rw [e2, h5], by rw [e3, h6], by rw [e4, h7], e5 h8⟩
  case half =>
    intro c' y h1 h2
    rcases upd_some h1 with ⟨-, rfl⟩ | ⟨-, k1⟩
    · cases h2
    · obtain ⟨i, e1, e2, e3, e4⟩ := hhalf c' y k1 h2
      refine ⟨i, e1, e2, e3, ?_⟩
      simp only []; rw [if_neg (by omega)]; exact e4
  case fresh =>
    intro c' y h1 h2
    rcases upd_some h1 with ⟨-, rfl⟩ | ⟨-, k1⟩
    · cases h2
    · exact h.fresh c' y k1 h2
  case own =>
    intro c' y i h1 h2 h3 h4
    have : i < s.next ∧ s.view i = some ⟨c', y.sz, y.data⟩ := by
      rcases upd_some h1 with ⟨rfl, rfl⟩ | ⟨-, k1⟩
      · exact h.own c' x i hc (by rw [hp]; rfl) (by rw [hp]; rfl) h4
      · exact h.own c' y i k1 h2 h3 h4
    refine ⟨this.1, ?_⟩
    have h5 := hvw i
    rw [this.2] at h5
    exact h5
  case uniq =>
    intro c' c'' y y' h1 h2 h3 h4 h5
    rcases upd_some h1 with ⟨e1, rfl⟩ | ⟨-, k1⟩
    · cases h3
    · rcases upd_some h2 with ⟨e2, rfl⟩ | ⟨-, k2⟩
      · cases h4
      · exact h.uniq _ _ _ _ k1 k2 h3 h4 h5
  case cover =>
    intro i h1 h2 h3
    simp only [] at h1 h2 h3
    rw [if_neg (by omega)] at h3
    obtain ⟨c', y, h4, h5, h6⟩ := h.cover i (by omega) h2 h3
    obtain ⟨y', e1, e2, -, -, -, e6⟩ := hk _ _ h4
    exact ⟨c', y', e1, by rw [e6, h5], by rw [e2, h6]⟩
  case lock =>
    intro c' y h1 h2
    rcases upd_some h1 with ⟨rfl, rfl⟩ | ⟨hne, k1⟩
    · exact h.lock c' x hc hxf
    · exact h.lock c' y k1 h2
  case held =>
    intro c' h1
    obtain ⟨y, h4, h5⟩ := h.held c' h1
    have : c' = c := by
      have := h.lock c x hc hxf
      simp only [St.setPh] at h1
      rw [this] at h1; cases h1; rfl
    subst this
    exact ⟨_, upd_same _ _ _, rfl⟩
  case bd =>
    intro c' y n' h1 h2
    rcases upd_some h1 with ⟨-, rfl⟩ | ⟨-, k1⟩
    · cases h2; exact h.bd c x n hc (by rw [hp]; rfl)
    · exact h.bd c' y n' k1 h2
  case grp =>
    intro c' y g' h1 h2
    rcases upd_some h1 with ⟨-, rfl⟩ | ⟨hne, k1⟩
    · cases h2
    · have := hother c' y hne k1
      revert h2 this; cases y.ph <;> simp [Ph.grp, Ph.flushing]
  case disk =>
    obtain ⟨d, h1, ⟨c', y, g', h2, h3, h4⟩ | ⟨h2, -⟩⟩ := h.disk
    · have hcc : c' = c := by
        apply Classical.byContradiction; intro hne
        have := hother c' y hne h2
        revert h3 this; cases y.ph <;> simp [Ph.wr, Ph.flushing]
      subst hcc
      rw [hc] at h2; cases h2
      rw [hp] at h3; cases h3
      have h5 := h1.more h hg2
      rw [← h4] at h5
      refine ⟨s.disk, ⟨Nat.le_refl _, ?_, h5.1, ?_⟩, .inr ⟨?_, rfl⟩⟩
      · intro h6 _
        simp only [Whole] at h6
        rw [h4] at h6 ⊢
        rcases accepted_append d (some ⟨s.chain, s.last, g⟩) 0 with h7 | ⟨g', h7, h8, h9, h10⟩
        · rw [h7] at h6
          have := accepted_len d 0
          simp at h6; omega
        · cases h7
          have := h1.whole h9 (by simpa using h8)
          simp only [recover, h10, allRecs_append]
          rw [← this]; simp [recover, allRecs]
      · intro j r h6
        have h7 := hvw j
        rw [h5.2 j r h6] at h7
        exact h7
      · intro c'' y h6
        rcases upd_some h6 with ⟨-, rfl⟩ | ⟨hne, k1⟩
        · rfl
        · have := hother c'' y hne k1
          revert this; cases y.ph <;> simp [Ph.wr, Ph.flushing]
    · have := h2 c x hc; rw [hp] at this; cases this
  case nodup =>
    simp only [St.setPh]
    rw [← List.append_assoc, List.nodup_append]
    refine ⟨h.nodup, ?_, ?_⟩
    · refine List.pairwise_iff_getElem.mpr ?_
      intro i j hi hj hij he
      simp only [List.length_map] at hi hj
      obtain ⟨r1, a1, -⟩ := hlt i hi
      obtain ⟨r2, a2, -⟩ := hlt j hj
      obtain ⟨_, a3⟩ := List.getElem?_eq_some_iff.mp a1
      obtain ⟨_, a4⟩ := List.getElem?_eq_some_iff.mp a2
      simp only [List.getElem_map, a3, a4] at he
      obtain ⟨y1, b1, b2, -⟩ := hcalls i r1 a1
      obtain ⟨y2, b3, b4, -⟩ := hcalls j r2 a2
      rw [he, b3] at b1; cases b1
      rw [b2] at b4; injection b4 with b4; omega
    · intro a ha b hb hab
      subst hab
      obtain ⟨r, hr, rfl⟩ := List.mem_map.mp hb
      obtain ⟨k, hk', he⟩ := List.mem_iff_getElem.mp hr
      exact h.cbTrk _ _ (hg2 k r (by rw [← he]; exact List.getElem?_eq_getElem hk')) ha
  case cbCall =>
    intro c' h1
    simp only [St.setPh] at h1
    rw [← List.append_assoc, List.mem_append] at h1
    have : ∃ y, s.calls c' = some y ∧ y.ph.past = true := by
      rcases h1 with h1 | h1
      · exact h.cbCall c' h1
      · obtain ⟨r, hr, rfl⟩ := List.mem_map.mp h1
        obtain ⟨k, hk', he⟩ := List.mem_iff_getElem.mp hr
        obtain ⟨y, a1, -, a3⟩ := hcalls k r (by rw [← he]; exact List.getElem?_eq_getElem hk')
        exact ⟨y, a1, a3⟩
    obtain ⟨y, h4, h5⟩ := this
    obtain ⟨y', e1, -, -, -, e5, -⟩ := hk _ _ h4
    exact ⟨y', e1, e5 h5⟩
  case cbTrk =>
    intro i r h1 h2
    simp only [St.setPh] at h1 h2
    split at h1
    · cases h1
    · rename_i hi
      rw [← List.append_assoc, List.mem_append] at h2
      rcases h2 with h2 | h2
      · exact h.cbTrk i r h1 h2
      · obtain ⟨r', hr, he⟩ := List.mem_map.mp h2
        obtain ⟨k, hk', hke⟩ := List.mem_iff_getElem.mp hr
        obtain ⟨y, a1, a2, -⟩ := hcalls k r' (by rw [← hke]; exact List.getElem?_eq_getElem hk')
        obtain ⟨-, -, y', b1, b2, -⟩ := h.trk i r h1
        rw [he, b1] at a1; cases a1
        rw [b2] at a2; cases a2; omega

/-- What a start would find is what the calls gave, in the order of the indices. -/
theorem recovered {s : St D} (h : Inv s) : startsOk 0 (accepted 0 s.disk) = true ∧
    ∀ i r, (recover s.disk)[i]? = some r → s.view i = some r := by
  obtain ⟨d, h1, ⟨c, x, g, h2, h3, h4⟩ | ⟨-, h3⟩⟩ := h.disk
  · have h5 := h1.more h (h.grp c x g h2 (by revert h3; cases x.ph <;> simp [Ph.wr, Ph.grp])).2
    rw [← h4] at h5; exact h5
  · rw [h3]; exact ⟨h1.starts, h1.view⟩

theorem view_call {s : St D} (h : Inv s) {i : Nat} {r : Rec D} (hv : s.view i = some r) :
    ∃ x, s.calls r.call = some x ∧ x.idx = some i ∧ x.sz = r.sz ∧ x.data = r.data ∧ x.ph.past = true := by
  simp only [St.view] at hv
  split at hv
  · exact h.fl i r hv
  · exact (h.trk i r hv).2.2

theorem cut_past (x : Call D) (h : x.ph.past = true) : x.cut.ph.past = true := by
  simp only [Call.cut]; split <;> simp_all [Ph.past]

theorem cut_idx (x : Call D) : x.cut.idx = x.idx ∧ x.cut.sz = x.sz ∧ x.cut.data = x.data ∧ x.cut.kind = x.kind := by
  simp only [Call.cut]; split <;> simp

theorem cut_ph (x : Call D) : x.cut.ph = .lost ∨ ∃ b, x.cut.ph = .ret b := by
  simp only [Call.cut]; split
  · rename_i b hb; right; exact ⟨b, hb⟩
  · left; rfl

theorem restart_disk (s : St D) (k : Nat) : accepted 0 (s.restart k).disk = accepted 0 s.disk := by
  simp only [St.restart]; split
  · rfl
  · exact accepted_map _ _

theorem inv_restart {s : St D} (h : Inv s) (k : Nat) : Inv (s.restart k) := by
  obtain ⟨hr1, hr2⟩ := recovered h
  have hph : ∀ c x, (s.restart k).calls c = some x → x.ph = .lost ∨ ∃ b, x.ph = .ret b := by
    intro c x h1
    simp only [St.restart, Option.map_eq_some_iff] at h1
    obtain ⟨y, -, rfl⟩ := h1
    exact cut_ph y
  have hcl : ∀ c x, s.calls c = some x → (s.restart k).calls c = some x.cut := by
    intro c x h1; simp [St.restart, h1]
  have hfl : ∀ i r, (s.restart k).flushed[i]? = some r → ∃ x, (s.restart k).calls r.call = some x ∧
      x.idx = some i ∧ x.sz = r.sz ∧ x.data = r.data ∧ x.ph.past = true := by
    intro i r h1
    obtain ⟨x, e1, e2, e3, e4, e5⟩ := view_call h (hr2 i r h1)
    obtain ⟨f1, f2, f3, -⟩ := cut_idx x
    exact ⟨x.cut, hcl _ _ e1, by rw [f1, e2], by rw [f2, e3], by rw [f3, e4], cut_past x e5⟩
  constructor
  case len => rfl
  case le => exact Nat.le_refl _
  case trk => intro i r h1; cases h1
  case fl => exact hfl
  case half => intro c x h1 h2; rcases hph c x h1 with h3 | ⟨b, h3⟩ <;> rw [h3] at h2 <;> cases h2
  case fresh => intro c x h1 h2; rcases hph c x h1 with h3 | ⟨b, h3⟩ <;> rw [h3] at h2 <;> cases h2
  case own => intro c x i h1 h2; rcases hph c x h1 with h3 | ⟨b, h3⟩ <;> rw [h3] at h2 <;> cases h2
  case uniq => intro c c' x x' h1 _ h2; rcases hph c x h1 with h3 | ⟨b, h3⟩ <;> rw [h3] at h2 <;> cases h2
  case cover => intro i h1 h2; simp only [St.restart] at h1 h2; omega
  case lock => intro c x h1 h2; rcases hph c x h1 with h3 | ⟨b, h3⟩ <;> rw [h3] at h2 <;> cases h2
  case held => intro c h1; cases h1
  case bd => intro c x n h1 h2; rcases hph c x h1 with h3 | ⟨b, h3⟩ <;> rw [h3] at h2 <;> cases h2
  case grp => intro c x g h1 h2; rcases hph c x h1 with h3 | ⟨b, h3⟩ <;> rw [h3] at h2 <;> cases h2
  case disk =>
    refine ⟨(s.restart k).disk, ⟨?_, ?_, by rw [restart_disk]; exact hr1, ?_⟩,
      .inr ⟨?_, rfl⟩⟩
    · have := accepted_len (s.restart k).disk 0
      rw [restart_disk] at this; exact this
    · intro _ _; simp only [recover, restart_disk]; rfl
    · intro i r h1
      simp only [recover, restart_disk] at h1
      have : i < (allRecs (accepted 0 s.disk)).length := by
        apply Classical.byContradiction; intro h2
        rw [List.getElem?_eq_none (by omega)] at h1; cases h1
      exact (if_pos this).trans h1
    · intro c x h1; rcases hph c x h1 with h3 | ⟨b, h3⟩ <;> rw [h3] <;> rfl
  case nodup => have := h.nodup; simp only [St.restart, List.append_nil]; exact (List.nodup_append.mp this).1
  case cbCall =>
    intro c h1
    simp only [St.restart, List.append_nil] at h1
    obtain ⟨x, h2, h3⟩ := h.cbCall c (List.mem_append_left _ h1)
    exact ⟨x.cut, hcl _ _ h2, cut_past x h3⟩
  case cbTrk => intro i r h1; cases h1

theorem on_some {s s' : St D} {c : Nat} {f : Call D → Option (St D)} (h : s.on c f = some s') :
    ∃ x, s.calls c = some x ∧ f x = some s' := by
  simp only [St.on] at h
  split at h
  · rename_i x hx; exact ⟨x, hx, h⟩
  · cases h

theorem inv_step {s s' : St D} (h : Inv s) (e : Ev D) (hs : s.step e = some s') : Inv s' := by
  cases e with
  | crash k => cases hs; exact inv_restart h k
  | call c k sz d =>
    simp only [St.step] at hs
    split at hs
    · cases hs
    · split at hs
      · rename_i hc; cases hs; exact inv_call h c k sz d hc
      · cases hs
  | callback i => simp only [St.step] at hs; split at hs; cases hs; exact inv_callback h hs
  | reserve c => simp only [St.step] at hs; split at hs; cases hs; obtain ⟨x, h1, h2⟩ := on_some hs; exact inv_reserve h h1 h2
  | count c => simp only [St.step] at hs; split at hs; cases hs; obtain ⟨x, h1, h2⟩ := on_some hs; exact inv_count h h1 h2
  | file c => simp only [St.step] at hs; split at hs; cases hs; obtain ⟨x, h1, h2⟩ := on_some hs; exact inv_file h h1 h2
  | fin c => simp only [St.step] at hs; split at hs; cases hs; obtain ⟨x, h1, h2⟩ := on_some hs; exact inv_fin h h1 h2
  | lock c => simp only [St.step] at hs; split at hs; cases hs; obtain ⟨x, h1, h2⟩ := on_some hs; exact inv_getLock h h1 h2
  | bound c => simp only [St.step] at hs; split at hs; cases hs; obtain ⟨x, h1, h2⟩ := on_some hs; exact inv_readBound h h1 h2
  | prep c => simp only [St.step] at hs; split at hs; cases hs; obtain ⟨x, h1, h2⟩ := on_some hs; exact inv_prep h h1 h2
  | pay c => simp only [St.step] at hs; split at hs; cases hs; obtain ⟨x, h1, h2⟩ := on_some hs; exact inv_pay h h1 h2
  | write c w => simp only [St.step] at hs; split at hs; cases hs; obtain ⟨x, h1, h2⟩ := on_some hs; exact inv_write h h1 h2
  | complete c => simp only [St.step] at hs; split at hs; cases hs; obtain ⟨x, h1, h2⟩ := on_some hs; exact inv_complete h h1 h2

theorem inv_run {s s' : St D} (h : Inv s) (es : List (Ev D)) (hs : s.run es = some s') : Inv s' := by
  induction es generalizing s with
  | nil => cases hs; exact h
  | cons e es ih =>
    simp only [St.run] at hs
    split at hs
    · rename_i s1 h1; exact ih (inv_step h e h1) hs
    · cases hs

end HS.Pipe
