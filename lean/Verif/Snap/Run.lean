import Verif.Snap.Steps2
/-! # Crashes keep the invariant, and so does every history -/
namespace HS.Snap

theorem entry_crash (d : Dev) (n : Nat) (h : n ≤ d.flushed) : d.crash.entry? n = d.entry? n := by
  show (if d.first < n then (d.log.take (d.flushed - d.first))[n - d.first - 1]? else none) =
    if d.first < n then d.log[n - d.first - 1]? else none
  by_cases h2 : d.first < n
  · rw [if_pos h2, if_pos h2, getElem?_take_some (by omega)]
  · rw [if_neg h2, if_neg h2]

theorem inv_restart (d : Dev) (h : Inv d) : Inv d.restart := by
  obtain ⟨hn, hr, hp, hw⟩ := h
  have hA := fun p => replay_app (d.flushed - d.first) d.crash (d.first + 1) p
  have hM := fun m => replay_map (d.flushed - d.first) d.crash (d.first + 1) m
  obtain ⟨m, a, hf⟩ := replay_frame (d.flushed - d.first) d.crash (d.first + 1)
  unfold Dev.restart
  rw [hf] at hA hM ⊢
  have hds : d.dc ≤ d.sm := by have := hn.du; have := hn.us; omega
  refine ⟨?_, trivial, fun h1 => ?_, fun h1 => ?_⟩
  · obtain ⟨fl1, fl2, ci, fc, cg, ag, sc, us, du, cd, fs, ld, ph, wk, mp⟩ := hn
    refine ⟨fl1, ?_, ci, fc, cg, fun n h1 h2 => ?_, ?_, ?_, Nat.le_refl _, cd, ?_, nofun, nofun,
      fun h => absurd rfl h, fun n v h1 h2 h3 h4 => ?_⟩
    · simp only [Dev.crash, List.length_take]; omega
    · have h2' : n ≤ d.cidx := h2
      show d.crash.entry? n = _
      rw [entry_crash d n (by omega)]; exact ag n h1 h2
    · simp only [Dev.crash]; omega
    · simp only [Dev.crash]; omega
    · left; simp only [Dev.crash]; omega
    · refine (hM n).2 (.inr ⟨?_, ?_, h3, ?_, ?_, v, h4⟩)
      · have : d.first < n := h2; omega
      · have := (entry_len (d := d.crash) h4).2
        simp only [Dev.crash, List.length_take] at this
        omega
      · have : max d.dc d.first < n := h1
        show d.cp < n; omega
      · have : max d.dc d.first < n := h1
        show d.dc < n; omega
  · obtain ⟨a, b, c, e'⟩ := hp h1
    have hfs : d.first ≤ d.sm := by have := hn.fs; rw [e'] at this; simpa using this
    refine ⟨?_, b, fun h => absurd rfl h, rfl⟩
    simp only [Dev.crash]; omega
  · obtain ⟨li, sf, ap, wk, dk, sw, dd⟩ := hw h1
    refine ⟨Nat.zero_le _, sf, ⟨fun n v hn' hv => (hA (n, v)).2 ?_, fun p hp' => ?_⟩, nofun, dk, nofun, nofun⟩
    · have hn'' : n ≤ max (max d.dc d.first) d.first := hn'
      by_cases hx : n ≤ max d.cp d.first
      · exact .inl (dk.1 n v hx hv)
      · have h5 := hn.sc; have h6 := hn.ci
        refine .inr ⟨by simp only; omega, by simp only; omega, ?_, ?_, ?_, ?_⟩
        · show d.snp < n; omega
        · show d.cp < n; omega
        · show n ≤ d.dc; omega
        · show d.crash.entry? n = _
          rw [entry_crash d n (by omega), hn.ag n (by omega) (by omega)]
          exact hv.2
    · rcases (hA p).1 hp' with h2 | ⟨h2, h3, h4, h5, h6, h7⟩
      · exact dk.2 p h2
      · have h6' : p.1 ≤ d.dc := h6
        have h8 := hn.sc; have h9 := hn.ci
        rw [entry_crash d p.1 (by omega), hn.ag p.1 (by omega) (by omega)] at h7
        exact ⟨by omega, h7⟩

theorem inv_step (d d' : Dev) (op : Op) (h : Inv d) (hg : Good d op) (hs : d.step op = .ok d') : Inv d' := by
  cases op with
  | group e => cases hs; exact inv_group d e h
  | append e => cases hs; exact inv_append d e h
  | flush => cases hs; exact inv_flush d h
  | rollback n =>
    simp only [Dev.step] at hs
    by_cases hc : d.cidx < n
    · rw [if_pos hc] at hs; cases hs; exact inv_rollback d n hc h
    · rw [if_neg hc] at hs; cases hs
  | commitBegin => exact inv_commitBegin d d' h hg hs
  | commitApp => exact inv_commitApp d d' h hs
  | commitEnd => exact inv_commitEnd d d' h hs
  | cpCapture =>
    simp only [Dev.step] at hs
    by_cases hc : d.phase = .idle
    · rw [if_pos hc] at hs; cases hs; exact inv_cpCapture d h hc
    · rw [if_neg hc] at hs; cases hs
  | cpSwap =>
    simp only [Dev.step] at hs
    cases hph : d.phase with
    | captured lsn => rw [hph] at hs; cases hs; exact inv_cpSwap d lsn h hph
    | _ => rw [hph] at hs; cases hs
  | cpData =>
    simp only [Dev.step] at hs
    cases hph : d.phase with
    | swapped lsn snap => rw [hph] at hs; cases hs; exact inv_cpData d lsn snap h hph
    | _ => rw [hph] at hs; cases hs
  | cpRepl dirty =>
    simp only [Dev.step] at hs
    cases hph : d.phase with
    | dataDone lsn =>
      rw [hph] at hs
      simp only at hs
      by_cases hc : lsn = d.lastCp ∧ dirty = false
      · rw [if_pos hc] at hs; cases hs; exact inv_cpRepl1 d lsn h hph
      · rw [if_neg hc] at hs; cases hs; exact inv_cpRepl2 d lsn h hph hg
    | _ => rw [hph] at hs; cases hs
  | cpDone =>
    simp only [Dev.step] at hs
    by_cases hc : d.phase = .replDone
    · rw [if_pos hc] at hs; cases hs; exact inv_cpDone d h hc
    · rw [if_neg hc] at hs; cases hs
  | dcLoad =>
    simp only [Dev.step] at hs
    by_cases hc : d.load = none
    · rw [if_pos hc] at hs; cases hs; exact inv_dcLoad d h
    · rw [if_neg hc] at hs; cases hs
  | dcStore =>
    simp only [Dev.step] at hs
    cases hl : d.load with
    | none => rw [hl] at hs; cases hs
    | some lsn => rw [hl] at hs; cases hs; exact inv_dcStore d lsn h hl
  | boundary l => exact inv_boundary d d' l h hs
  | compact n =>
    simp only [Dev.step] at hs
    by_cases hc : n ≤ d.sm
    · rw [if_pos hc] at hs; cases hs; exact inv_compact d n hc h
    · rw [if_neg hc] at hs; cases hs
  | snpBegin l =>
    simp only [Dev.step] at hs
    by_cases hc : d.sm < l ∧ l ≤ d.glog.length ∧ d.res.between = false
    · rw [if_pos hc] at hs; cases hs; exact inv_snpBegin d l h hc.1 hc.2.1 hc.2.2 hg
    · rw [if_neg hc] at hs; cases hs
  | snpObj c =>
    simp only [Dev.step] at hs
    cases hres : d.res with
    | recv l =>
      rw [hres] at hs; simp only [Res.ok.injEq] at hs
      rw [← hs]; have := inv_snpObj d l c h hres; rw [hres] at this; exact this
    | _ => rw [hres] at hs; cases hs
  | snpLast =>
    simp only [Dev.step] at hs
    cases hres : d.res with
    | recv l =>
      rw [hres] at hs
      simp only at hs
      by_cases hc : d.sm ≤ l
      · rw [if_pos hc] at hs; cases hs; exact inv_snpLast d l h hres
      · rw [if_neg hc] at hs; cases hs
    | _ => rw [hres] at hs; cases hs
  | snpCompact =>
    simp only [Dev.step] at hs
    cases hres : d.res with
    | flushed l =>
      rw [hres] at hs
      simp only at hs
      by_cases hc : d.sm ≤ l ∧ d.work = none
      · rw [if_pos hc] at hs; cases hs; exact inv_snpCompact d l h hres hc.1 hc.2
      · rw [if_neg hc] at hs; cases hs
    | _ => rw [hres] at hs; cases hs
  | snpApply =>
    simp only [Dev.step] at hs
    cases hres : d.res with
    | compacted l => rw [hres] at hs; cases hs; exact inv_snpApply d l h hres
    | _ => rw [hres] at hs; cases hs
  | crash => cases hs; exact inv_restart d h

theorem step_nofault (d : Dev) (op : Op) (h : Inv d) (hg : Good d op) : d.step op ≠ .fault := by
  cases op with
  | commitBegin => exact commitBegin_nofault d h hg
  | _ =>
    intro hs
    simp only [Dev.step] at hs
    first
    | cases hs; done
    | ((repeat' split at hs) <;> cases hs)

theorem inv_run (ops : List Op) : ∀ d : Dev, Inv d → GoodRun d ops →
    d.run ops ≠ .fault ∧ ∀ d', d.run ops = .ok d' → Inv d' := by
  induction ops with
  | nil =>
    intro d h _
    refine ⟨(nofun), fun d' hr => ?_⟩
    simp only [Dev.run, Res.ok.injEq] at hr
    exact hr ▸ h
  | cons op ops ih =>
    intro d h hq
    have hnf := step_nofault d op h hq.1
    simp only [Dev.run]
    cases hs : d.step op with
    | na => exact ⟨(nofun), (nofun)⟩
    | fault => exact absurd hs hnf
    | ok d1 => exact ih d1 (inv_step d d1 op h hq.1 hs) (hq.2 d1 hs)

end HS.Snap
