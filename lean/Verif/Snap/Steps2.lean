import Verif.Snap.Steps
/-! # Every step keeps the invariant: checkpoints, snapshots, crashes -/
namespace HS.Snap

theorem swap_between (r : Resync) : r.swap.between = r.between := by cases r <;> rfl
theorem done_between (r : Resync) : r.done.between = r.between := by cases r <;> rfl

theorem inv_cpCapture (d : Dev) (h : Inv d) (hi : d.phase = .idle) : Inv { d with phase := .captured d.upto } := by
  obtain ⟨hn, hr, hp, hw⟩ := h
  refine ⟨?_, ?_, fun h1 => ?_, fun h1 => ?_⟩
  · obtain ⟨fl1, fl2, ci, fc, cg, ag, sc, us, du, cd, fs, ld, ph, wk, mp⟩ := hn
    exact ⟨fl1, fl2, ci, fc, cg, ag, sc, us, du, cd, fs, ld,
      fun l hl => by cases hl; exact ⟨Nat.le_refl _, Nat.le_trans cd du⟩, wk, mp⟩
  · unfold Reached at hr ⊢
    simp only
    cases hres : d.res with
    | ckpt l => rw [hres, hi] at hr; exact hr.2.2.2.2.elim
    | flushed l => rw [hres] at hr; exact ⟨hr.1, hr.2.1, hr.2.2.1, hr.2.2.2.1, hr.2.2.2.2.1, nofun⟩
    | _ => rw [hres] at hr; exact hr
  · obtain ⟨a, b, c, e'⟩ := hp h1; exact ⟨a, b, c, e'⟩
  · obtain ⟨li, sf, ap, wk, dk, sw, dd⟩ := hw h1; exact ⟨li, sf, ap, wk, dk, nofun, nofun⟩

theorem inv_cpSwap (d : Dev) (lsn : Nat) (h : Inv d) (hi : d.phase = .captured lsn) :
    Inv { d with phase := .swapped lsn d.app, res := d.res.swap } := by
  obtain ⟨hn, hr, hp, hw⟩ := h
  have hl := hn.ph lsn (by rw [hi]; rfl)
  refine ⟨?_, ?_, fun h1 => ?_, fun h1 => ?_⟩
  · obtain ⟨fl1, fl2, ci, fc, cg, ag, sc, us, du, cd, fs, ld, ph, wk, mp⟩ := hn
    refine ⟨fl1, fl2, ci, fc, cg, ag, sc, us, du, cd, ?_, ld,
      fun l hl' => by cases hl'; exact hl, fun hx => ⟨(wk hx).1, ?_⟩, mp⟩
    · show _ ∨ d.res.swap.between = true
      rw [swap_between]; exact fs
    · show d.res.swap.between = false
      rw [swap_between]; exact (wk hx).2
  · unfold Reached at hr ⊢
    cases hres : d.res with
    | saved l => rw [hres] at hr; exact ⟨hr.1, hr.2.1, hr.2.2.1, hr.2.2.2, hr.2.2.2⟩
    | ckpt l => rw [hres, hi] at hr; exact hr.2.2.2.2.elim
    | flushed l =>
      rw [hres] at hr
      exact ⟨hr.1, hr.2.1, hr.2.2.1, hr.2.2.2.1, hr.2.2.2.2.1, fun k snap hk => by cases hk; exact hr.2.2.2.1⟩
    | _ => rw [hres] at hr; exact hr
  · obtain ⟨a, b, c, e'⟩ := hp h1; exact ⟨a, b, c, by rw [swap_between]; exact e'⟩
  · obtain ⟨li, sf, ap, wk, dk, sw, dd⟩ := hw h1
    refine ⟨li, sf, ap, wk, dk, fun k snap hk => ?_, nofun⟩
    cases hk
    refine ap.mono ?_
    have := hn.us; have := hn.du; have := hn.cd
    simp only
    omega

theorem inv_cpData (d : Dev) (lsn : Nat) (snap) (h : Inv d) (hi : d.phase = .swapped lsn snap) :
    Inv { d with phase := .dataDone lsn, appDisk := snap } := by
  obtain ⟨hn, hr, hp, hw⟩ := h
  have hl := hn.ph lsn (by rw [hi]; rfl)
  refine ⟨?_, ?_, fun h1 => ?_, fun h1 => ?_⟩
  · obtain ⟨fl1, fl2, ci, fc, cg, ag, sc, us, du, cd, fs, ld, ph, wk, mp⟩ := hn
    exact ⟨fl1, fl2, ci, fc, cg, ag, sc, us, du, cd, fs, ld, fun l hl' => by cases hl'; exact hl, wk, mp⟩
  · unfold Reached at hr ⊢
    simp only
    cases hres : d.res with
    | ckpt l => rw [hres, hi] at hr; exact ⟨hr.1, hr.2.1, hr.2.2.1, hr.2.2.2.1, hr.2.2.2.2⟩
    | flushed l =>
      rw [hres] at hr
      exact ⟨hr.1, hr.2.1, hr.2.2.1, hr.2.2.2.1, hr.2.2.2.2.2 _ _ hi, nofun⟩
    | _ => rw [hres] at hr; exact hr
  · obtain ⟨a, b, c, e'⟩ := hp h1; exact ⟨a, b, c, e'⟩
  · obtain ⟨li, sf, ap, wk, dk, sw, dd⟩ := hw h1
    have := sw _ _ hi
    refine ⟨li, sf, ap, wk, this.mono (Nat.le_max_right _ _), nofun, fun k hk => ?_⟩
    cases hk
    exact this

theorem inv_cpRepl1 (d : Dev) (lsn : Nat) (h : Inv d) (hi : d.phase = .dataDone lsn) :
    Inv { d with phase := .replDone } := by
  obtain ⟨hn, hr, hp, hw⟩ := h
  refine ⟨?_, ?_, fun h1 => ?_, fun h1 => ?_⟩
  · obtain ⟨fl1, fl2, ci, fc, cg, ag, sc, us, du, cd, fs, ld, ph, wk, mp⟩ := hn
    exact ⟨fl1, fl2, ci, fc, cg, ag, sc, us, du, cd, fs, ld, nofun, wk, mp⟩
  · unfold Reached at hr ⊢
    simp only
    cases hres : d.res with
    | ckpt l => rw [hres, hi] at hr; exact hr
    | flushed l => rw [hres] at hr; exact ⟨hr.1, hr.2.1, hr.2.2.1, hr.2.2.2.1, hr.2.2.2.2.1, nofun⟩
    | _ => rw [hres] at hr; exact hr
  · obtain ⟨a, b, c, e'⟩ := hp h1; exact ⟨a, b, c, e'⟩
  · obtain ⟨li, sf, ap, wk, dk, sw, dd⟩ := hw h1
    exact ⟨li, sf, ap, wk, dk, nofun, nofun⟩

theorem inv_cpRepl2 (d : Dev) (lsn : Nat) (h : Inv d) (hi : d.phase = .dataDone lsn) (hl0 : d.load = none) :
    Inv { d with phase := .replDone, dc := max lsn d.dc, cp := lsn, lastCp := lsn } := by
  obtain ⟨hn, hr, hp, hw⟩ := h
  have hl := hn.ph lsn (by rw [hi]; rfl)
  refine ⟨?_, ?_, fun h1 => ?_, fun h1 => ?_⟩
  · obtain ⟨fl1, fl2, ci, fc, cg, ag, sc, us, du, cd, fs, ld, ph, wk, mp⟩ := hn
    refine ⟨fl1, fl2, ci, fc, cg, ag, sc, us, by simp only; omega, by simp only; omega, fs, ?_, nofun, wk, mp⟩
    simp only [hl0]; nofun
  · unfold Reached at hr ⊢
    simp only
    cases hres : d.res with
    | ckpt l => rw [hres, hi] at hr; exact hr
    | flushed l => rw [hres] at hr; exact ⟨hr.1, hr.2.1, hr.2.2.1, hr.2.2.2.1, hr.2.2.2.2.1, nofun⟩
    | _ => rw [hres] at hr; exact hr
  · obtain ⟨a, b, c, e'⟩ := hp h1; exact ⟨a, b, c, e'⟩
  · obtain ⟨li, sf, ap, wk, dk, sw, dd⟩ := hw h1
    refine ⟨?_, sf, ap, wk, (dd _ hi).mono (by simp only; omega), nofun, nofun⟩
    simp only; omega

theorem inv_cpDone (d : Dev) (h : Inv d) (hi : d.phase = .replDone) :
    Inv { d with phase := .idle, res := d.res.done } := by
  obtain ⟨hn, hr, hp, hw⟩ := h
  refine ⟨?_, ?_, fun h1 => ?_, fun h1 => ?_⟩
  · obtain ⟨fl1, fl2, ci, fc, cg, ag, sc, us, du, cd, fs, ld, ph, wk, mp⟩ := hn
    refine ⟨fl1, fl2, ci, fc, cg, ag, sc, us, du, cd, ?_, ld, nofun, fun hx => ⟨(wk hx).1, ?_⟩, mp⟩
    · show _ ∨ d.res.done.between = true
      rw [done_between]; exact fs
    · show d.res.done.between = false
      rw [done_between]; exact (wk hx).2
  · unfold Reached at hr ⊢
    cases hres : d.res with
    | ckpt l => rw [hres, hi] at hr; exact ⟨hr.1, hr.2.1, hr.2.2.1, hr.2.2.2.1, hr.2.2.2.2, nofun⟩
    | flushed l => rw [hres] at hr; exact ⟨hr.1, hr.2.1, hr.2.2.1, hr.2.2.2.1, hr.2.2.2.2.1, nofun⟩
    | _ => rw [hres] at hr; exact hr
  · obtain ⟨a, b, c, e'⟩ := hp h1; exact ⟨a, b, c, by rw [done_between]; exact e'⟩
  · obtain ⟨li, sf, ap, wk, dk, sw, dd⟩ := hw h1
    exact ⟨li, sf, ap, wk, dk, nofun, nofun⟩

theorem inv_dcLoad (d : Dev) (h : Inv d) : Inv { d with load := some d.upto } := by
  obtain ⟨hn, hr, hp, hw⟩ := h
  refine ⟨?_, hr, fun h1 => ?_, fun h1 => ?_⟩
  · obtain ⟨fl1, fl2, ci, fc, cg, ag, sc, us, du, cd, fs, ld, ph, wk, mp⟩ := hn
    exact ⟨fl1, fl2, ci, fc, cg, ag, sc, us, du, cd, fs,
      fun l hl => by cases hl; exact ⟨Nat.le_refl _, Nat.le_trans cd du⟩, ph, wk, mp⟩
  · obtain ⟨a, b, c, e'⟩ := hp h1; exact ⟨a, b, c, e'⟩
  · obtain ⟨li, sf, ap, wk, dk, sw, dd⟩ := hw h1; exact ⟨li, sf, ap, wk, dk, sw, dd⟩

theorem inv_dcStore (d : Dev) (lsn : Nat) (h : Inv d) (hl : d.load = some lsn) :
    Inv { d with dc := lsn, load := none } := by
  obtain ⟨hn, hr, hp, hw⟩ := h
  refine ⟨?_, hr, fun h1 => ?_, fun h1 => ?_⟩
  · obtain ⟨fl1, fl2, ci, fc, cg, ag, sc, us, du, cd, fs, ld, ph, wk, mp⟩ := hn
    exact ⟨fl1, fl2, ci, fc, cg, ag, sc, us, (ld _ hl).1, (ld _ hl).2, fs, nofun, ph, wk, mp⟩
  · obtain ⟨a, b, c, e'⟩ := hp h1; exact ⟨a, b, c, e'⟩
  · obtain ⟨li, sf, ap, wk, dk, sw, dd⟩ := hw h1; exact ⟨li, sf, ap, wk, dk, sw, dd⟩

theorem inv_boundary (d d' : Dev) (limit : Int) (h : Inv d) (hs : d.step (.boundary limit) = .ok d') : Inv d' := by
  simp only [Dev.step] at hs
  by_cases hc : min limit (d.cp : Int) ≤ d.limit
  · rw [if_pos hc] at hs; cases hs; exact h
  · rw [if_neg hc] at hs; cases hs
    obtain ⟨hn, hr, hp, hw⟩ := h
    have hcs : d.cp ≤ d.sm := by have := hn.cd; have := hn.du; have := hn.us; omega
    refine ⟨?_, ?_, fun h1 => ?_, fun h1 => ?_⟩
    · obtain ⟨fl1, fl2, ci, fc, cg, ag, sc, us, du, cd, fs, ld, ph, wk, mp⟩ := hn
      exact ⟨fl1, fl2, ci, fc, cg, ag, sc, us, du, cd, fs, ld, ph, wk, mp⟩
    · unfold Reached at hr ⊢
      simp only
      cases hres : d.res with
      | none => trivial
      | recv l => rw [hres] at hr; exact hr
      | compacted l => rw [hres] at hr; exact hr
      | _ =>
        rw [hres] at hr
        have := (hp hr.1).ss
        have := hr.2.1
        have := hr.2.2.1
        omega
    · obtain ⟨a, b, c, e'⟩ := hp h1; exact ⟨a, b, c, e'⟩
    · obtain ⟨li, sf, ap, wk, dk, sw, dd⟩ := hw h1
      exact ⟨by simp only; omega, sf, ap, wk, dk, sw, dd⟩

theorem entry_cut (d : Dev) (k n : Nat) (h : k < n) : (d.cut k).entry? n = d.entry? n := by
  unfold Dev.cut
  split
  · rfl
  · simp only [Dev.entry?]
    by_cases h2 : d.first < n
    · rw [if_pos h, if_pos h2, List.getElem?_drop]
      congr 1
      omega
    · omega

theorem cut_first (d : Dev) (k : Nat) : (d.cut k).first = max d.first k := by
  unfold Dev.cut; split
  · omega
  · simp only; omega

theorem cut_flushed (d : Dev) (k : Nat) (h : d.first ≤ d.flushed) : (d.cut k).flushed = max d.flushed k := by
  unfold Dev.cut; split
  · omega
  · rfl

theorem cut_length (d : Dev) (k : Nat) :
    (d.cut k).first + (d.cut k).log.length = max (d.first + d.log.length) k := by
  unfold Dev.cut; split
  · omega
  · simp only [List.length_drop]; omega

theorem cut_frame (d : Dev) (k : Nat) : 
    d.cut k = { d with log := (d.cut k).log, first := (d.cut k).first, flushed := (d.cut k).flushed } := by
  unfold Dev.cut; split <;> rfl

theorem entry_cut_some {d : Dev} {k n : Nat} (h : (d.cut k).first < n) : (d.cut k).entry? n = d.entry? n := by
  rw [cut_first] at h
  exact entry_cut d k n (by omega)

theorem inv_compact (d : Dev) (n : Nat) (hns : n ≤ d.sm) (h : Inv d) : Inv (d.cut (min n d.limit)) := by
  generalize hk : min n d.limit = k
  have hks : k ≤ d.sm := by omega
  have hkl : k ≤ d.limit := by omega
  obtain ⟨hn, hr, hp, hw⟩ := h
  have hent := fun m => entry_cut_some (d := d) (k := k) (n := m)
  have e1 := cut_first d k
  have e2 := cut_flushed d k hn.fl1
  have e3 := cut_length d k
  have e4 := cut_frame d k
  have hsc := hn.sc
  revert hent e1 e2 e3 e4
  generalize d.cut k = d'
  intro hent e1 e2 e3 e4
  have c1 : d'.glog = d.glog := by rw [e4]
  have c2 : d'.cidx = d.cidx := by rw [e4]
  have c3 : d'.sm = d.sm := by rw [e4]
  have c4 : d'.upto = d.upto := by rw [e4]
  have c5 : d'.dc = d.dc := by rw [e4]
  have c6 : d'.cp = d.cp := by rw [e4]
  have c7 : d'.res = d.res := by rw [e4]
  have c8 : d'.load = d.load := by rw [e4]
  have c9 : d'.phase = d.phase := by rw [e4]
  have c10 : d'.work = d.work := by rw [e4]
  have c11 : d'.snp = d.snp := by rw [e4]
  have c12 : d'.map = d.map := by rw [e4]
  have c13 : d'.limit = d.limit := by rw [e4]
  have c14 : d'.app = d.app := by rw [e4]
  have c15 : d'.appDisk = d.appDisk := by rw [e4]
  have c16 : d'.pend = d.pend := by rw [e4]
  clear e4
  refine ⟨?_, ?_, fun h1 => ?_, fun h1 => ?_⟩
  · obtain ⟨fl1, fl2, ci, fc, cg, ag, sc, us, du, cd, fs, ld, ph, wk, mp⟩ := hn
    refine ⟨by omega, by omega, by omega, by omega, by rw [c1]; omega, fun m h1 h2 => ?_, by omega, by omega, by omega,
      by omega, ?_, ?_, ?_, ?_, ?_⟩
    · rw [hent m h1, c1]; exact ag m (by omega) (by omega)
    · rw [c7]; rcases fs with h | h
      · left; omega
      · exact .inr h
    · rw [c8, c4, c6]; exact ld
    · rw [c9, c4, c6]; exact ph
    · rw [c10, c3, c2, c7]; exact wk
    · rw [c12]; intro m v h1 h2 h3 h4
      rw [hent m h2] at h4
      exact mp m v (by omega) (by omega) (by omega) h4
  · by_cases hb : d.res.between = false
    · exact reached_congr hr c7 c16 c11 c13 c1 c14 c15 c9 hb
    · cases hres : d.res with
      | compacted l =>
        unfold Reached at hr ⊢
        rw [hres] at hr
        rw [c7, hres]
        obtain ⟨r1, r2, r3, r4, r5⟩ := hr
        exact ⟨by rw [c16]; exact r1, by omega, by omega, by rw [c10]; exact r4, by omega⟩
      | _ => rw [hres] at hb; exact absurd rfl hb
  · obtain ⟨a, b, c, e'⟩ := hp (by rw [← c16]; exact h1)
    exact ⟨by omega, by rw [c1]; omega, by rw [c10, c3, c11]; exact c, by rw [c7]; exact e'⟩
  · obtain ⟨li, sf, ap, wk, dk, sw, dd⟩ := hw (by rw [← c16]; exact h1)
    refine ⟨by omega, by omega, ?_, ?_, ?_, ?_, ?_⟩
    · rw [c1, c14]; exact ap.mono (by omega)
    · rw [c10, c1, c14, c3]; exact wk
    · rw [c1, c15]; exact dk.mono (by omega)
    · rw [c9, c1]; intro k' snap hk'; exact (sw k' snap hk').mono (by omega)
    · rw [c9, c1, c15]; intro k' hk'; exact (dd k' hk').mono (by omega)

theorem inv_snpBegin (d : Dev) (l : Nat) (h : Inv d) (h1 : d.sm < l) (h2 : l ≤ d.glog.length)
    (hb : d.res.between = false) (hg : d.snp ≤ l) : Inv { d with snp := l, res := .recv l, pend := true } := by
  obtain ⟨hn, hr, hp, hw⟩ := h
  have hfs : d.first ≤ d.sm := by have := hn.fs; rw [hb] at this; simpa using this
  refine ⟨?_, ⟨rfl, rfl⟩, fun _ => ⟨by simp only; omega, h2, fun _ => by simp only; omega, rfl⟩, nofun⟩
  obtain ⟨fl1, fl2, ci, fc, cg, ag, sc, us, du, cd, fs, ld, ph, wk, mp⟩ := hn
  exact ⟨fl1, fl2, ci, fc, cg, ag, sc, us, du, cd, .inl hfs, ld, ph, fun hx => ⟨(wk hx).1, rfl⟩,
    fun n v a b c e => mp n v a b (by simp only at c; omega) e⟩

theorem inv_snpObj (d : Dev) (l : Nat) (c : List (Nat × Nat)) (h : Inv d) (hres : d.res = .recv l) :
    Inv { d with app := c } := by
  obtain ⟨hn, hr, hp, hw⟩ := h
  have hr' := hr
  unfold Reached at hr'
  rw [hres] at hr'
  refine ⟨?_, ?_, fun h1 => ?_, fun h1 => ?_⟩
  · obtain ⟨fl1, fl2, ci, fc, cg, ag, sc, us, du, cd, fs, ld, ph, wk, mp⟩ := hn
    exact ⟨fl1, fl2, ci, fc, cg, ag, sc, us, du, cd, fs, ld, ph, wk, mp⟩
  · unfold Reached; simp only [hres]; exact hr'
  · obtain ⟨a, b, c, e'⟩ := hp h1; exact ⟨a, b, c, e'⟩
  · rw [show d.pend = false from h1] at hr'; cases hr'.1

theorem inv_snpLast (d : Dev) (l : Nat) (h : Inv d) (hres : d.res = .recv l) :
    Inv { d with app := appsFrom 0 (d.glog.take l), limit := l, res := .saved l } := by
  obtain ⟨hn, hr, hp, hw⟩ := h
  have hr' := hr
  unfold Reached at hr'
  rw [hres] at hr'
  have hb : d.res.between = false := by rw [hres]; rfl
  have hfs : d.first ≤ d.sm := by have := hn.fs; rw [hb] at this; simpa using this
  refine ⟨?_, ?_, fun h1 => ?_, fun h1 => ?_⟩
  · obtain ⟨fl1, fl2, ci, fc, cg, ag, sc, us, du, cd, fs, ld, ph, wk, mp⟩ := hn
    exact ⟨fl1, fl2, ci, fc, cg, ag, sc, us, du, cd, .inl hfs, ld, ph, fun hx => ⟨(wk hx).1, rfl⟩, mp⟩
  · exact ⟨hr'.1, hr'.2, rfl, holds_apps _ _⟩
  · obtain ⟨a, b, c, e'⟩ := hp h1; exact ⟨a, b, c, rfl⟩
  · rw [show d.pend = false from h1] at hr'; cases hr'.1

theorem inv_snpCompact (d : Dev) (l : Nat) (h : Inv d) (hres : d.res = .flushed l) (hsl : d.sm ≤ l)
    (hwk : d.work = none) :
    Inv { d.cut (min l d.limit) with res := .compacted l, pend := false, cidx := max d.cidx l } := by
  obtain ⟨hn, hr, hp, hw⟩ := h
  unfold Reached at hr
  rw [hres] at hr
  obtain ⟨r1, r2, r3, r4, r5, r6⟩ := hr
  have hsg := (hp r1).sg
  have hb : d.res.between = false := by rw [hres]; rfl
  have hfs : d.first ≤ d.sm := by have := hn.fs; rw [hb] at this; simpa using this
  rw [show min l d.limit = l by omega]
  have hent := fun m => entry_cut_some (d := d) (k := l) (n := m)
  have e1 := cut_first d l
  have e2 := cut_flushed d l hn.fl1
  have e3 := cut_length d l
  have e4 := cut_frame d l
  revert hent e1 e2 e3 e4
  generalize d.cut l = d'
  intro hent e1 e2 e3 e4
  have c1 : d'.glog = d.glog := by rw [e4]
  have c2 : d'.cidx = d.cidx := by rw [e4]
  have c3 : d'.sm = d.sm := by rw [e4]
  have c4 : d'.upto = d.upto := by rw [e4]
  have c5 : d'.dc = d.dc := by rw [e4]
  have c6 : d'.cp = d.cp := by rw [e4]
  have c8 : d'.load = d.load := by rw [e4]
  have c9 : d'.phase = d.phase := by rw [e4]
  have c10 : d'.work = d.work := by rw [e4]
  have c11 : d'.snp = d.snp := by rw [e4]
  have c12 : d'.map = d.map := by rw [e4]
  have c13 : d'.limit = d.limit := by rw [e4]
  have c14 : d'.app = d.app := by rw [e4]
  have c15 : d'.appDisk = d.appDisk := by rw [e4]
  clear e4
  obtain ⟨fl1, fl2, ci, fc, cg, ag, sc, us, du, cd, fs, ld, ph, wk, mp⟩ := hn
  have hcg : max d.cidx l ≤ d.glog.length := by omega
  refine ⟨?_, ?_, nofun, fun _ => ?_⟩
  · refine ⟨by simp only; omega, by simp only; omega, by simp only; omega, by simp only; omega,
      by simp only [c1]; exact hcg, fun m h1 h2 => ?_, by simp only; omega, by simp only; omega, by simp only; omega,
      by simp only; omega, .inr rfl, ?_, ?_, ?_, ?_⟩
    · show d'.entry? m = d'.glog[m - 1]?
      have h1' : d'.first < m := h1
      have h2' : m ≤ max d.cidx l := h2
      rw [hent m h1', c1]; exact ag m (by omega) (by omega)
    · simp only [c8, c4, c6]; exact ld
    · simp only [c9, c4, c6]; exact ph
    · simp only [c10, hwk]; exact fun h => absurd rfl h
    · simp only [c12]; intro m v h1 h2 h3 h4
      have h4' : d'.entry? m = some (.app v) := h4
      rw [hent m h2] at h4'
      exact mp m v (by omega) (by omega) (by omega) h4'
  · exact ⟨rfl, by simp only; omega, by simp only; omega, by simp only [c10]; exact hwk, by simp only; omega⟩
  · refine ⟨by simp only; omega, by simp only; omega, ?_, ?_, ?_, ?_, ?_⟩
    · simp only [c1, c14]; exact r4.mono (by omega)
    · simp only [c10, hwk]; nofun
    · simp only [c1, c15]; exact r5.mono (by omega)
    · simp only [c9, c1]; intro k' snap hk'
      have := (ph k' (by rw [hk']; rfl))
      exact (r6 k' snap hk').mono (by omega)
    · simp only [c9, c1, c15]; intro k' hk'
      have := (ph k' (by rw [hk']; rfl))
      exact r5.mono (by omega)

theorem inv_snpApply (d : Dev) (l : Nat) (h : Inv d) (hres : d.res = .compacted l) :
    Inv { d with upto := l, sm := l, res := .none } := by
  obtain ⟨hn, hr, hp, hw⟩ := h
  unfold Reached at hr
  rw [hres] at hr
  obtain ⟨r1, r2, r3, r4, r5⟩ := hr
  refine ⟨?_, trivial, fun h1 => ?_, fun h1 => ?_⟩
  · obtain ⟨fl1, fl2, ci, fc, cg, ag, sc, us, du, cd, fs, ld, ph, wk, mp⟩ := hn
    refine ⟨fl1, fl2, ci, fc, cg, ag, by simp only; omega, by simp, by simp only; omega, cd, .inl (by simp only; omega),
      fun k hk => ⟨by have := (ld k hk).1; simp only; omega, (ld k hk).2⟩,
      fun k hk => ⟨by have := (ph k hk).1; simp only; omega, (ph k hk).2⟩, ?_, fun n v a b c e => ?_⟩
    · simp only [r4]; exact fun h => absurd rfl h
    · exact mp n v (by simp only at a; omega) b c e
  · rw [show d.pend = true from h1] at r1; cases r1
  · obtain ⟨li, sf, ap, wk, dk, sw, dd⟩ := hw r1
    exact ⟨li, sf, ap.mono (by simp only; omega), by simp only [r4]; nofun, dk, sw, dd⟩

end HS.Snap
