import Verif.Snap.Lemmas
/-! # Every step keeps the invariant -/
namespace HS.Snap

theorem entry_append (d : Dev) (e : Ent) (m : List Nat) (n : Nat) :
    Dev.entry? { d with log := d.log ++ [e], map := m } n =
      if n = d.first + d.log.length + 1 then some e else d.entry? n := by
  simp only [Dev.entry?]
  by_cases h : d.first < n
  · rw [if_pos h, if_pos h]
    by_cases h2 : n = d.first + d.log.length + 1
    · rw [if_pos h2, show n - d.first - 1 = d.log.length by omega]; simp
    · rw [if_neg h2]
      by_cases h3 : n - d.first - 1 < d.log.length
      · rw [List.getElem?_append_left h3]
      · rw [List.getElem?_eq_none (by simp; omega), List.getElem?_eq_none (by omega)]
  · rw [if_neg h, if_neg h, if_neg (by omega)]

theorem entry_len {d : Dev} {n : Nat} {e : Ent} (h : d.entry? n = some e) :
    d.first < n ∧ n ≤ d.first + d.log.length := by
  simp only [Dev.entry?] at h
  split at h
  · have := (List.getElem?_eq_some_iff.1 h).1; omega
  · cases h

theorem getElem?_take_some {α} {l : List α} {i k : Nat} (h : i < k) : (l.take k)[i]? = l[i]? :=
  List.getElem?_take_of_lt h

theorem inv_group (d : Dev) (e : Ent) (h : Inv d) : Inv { d with glog := d.glog ++ [e] } := by
  obtain ⟨hn, hr, hp, hw⟩ := h
  have hS : ∀ k l, k ≤ d.glog.length → Holds d.glog k l → Holds (d.glog ++ [e]) k l :=
    fun k l hk hh => hh.snoc e hk
  refine ⟨?_, ?_, ?_, ?_⟩
  · obtain ⟨fl1, fl2, ci, fc, cg, ag, sc, us, du, cd, fs, ld, ph, wk, mp⟩ := hn
    refine ⟨fl1, fl2, ci, fc, by simp; omega, fun n h1 h2 => ?_, sc, us, du, cd, fs, ld, ph, wk, mp⟩
    show d.entry? n = _
    have h1' : d.first < n := h1
    have h2' : n ≤ d.cidx := h2
    rw [ag n h1 h2, List.getElem?_append_left (by omega)]
  · unfold Reached at hr ⊢
    simp only
    cases hres : d.res with
    | none => trivial
    | recv l => rw [hres] at hr; exact hr
    | saved l =>
      rw [hres] at hr
      obtain ⟨h1, h2, h3, h4⟩ := hr
      exact ⟨h1, h2, h3, hS _ _ (by have := (hp h1).sg; omega) h4⟩
    | ckpt l =>
      rw [hres] at hr
      obtain ⟨h1, h2, h3, h4, h5⟩ := hr
      have hl : l ≤ d.glog.length := by have := (hp h1).sg; omega
      refine ⟨h1, h2, h3, hS _ _ hl h4, ?_⟩
      cases hph : d.phase <;> rw [hph] at h5 <;> first | exact h5.elim | exact hS _ _ hl h5
    | flushed l =>
      rw [hres] at hr
      obtain ⟨h1, h2, h3, h4, h5, h6⟩ := hr
      have hl : l ≤ d.glog.length := by have := (hp h1).sg; omega
      exact ⟨h1, h2, h3, hS _ _ hl h4, hS _ _ hl h5, fun k snap hk => hS _ _ hl (h6 k snap hk)⟩
    | compacted l => rw [hres] at hr; exact hr
  · intro h1
    obtain ⟨a, b, c, e'⟩ := hp h1
    exact ⟨a, by simp; omega, c, e'⟩
  · intro h1
    obtain ⟨li, sf, ap, wk, dk, sw, dd⟩ := hw h1
    have hg : max d.sm d.first ≤ d.glog.length := by have := hn.sc; have := hn.fc; have := hn.cg; omega
    have hc : max d.cp d.first ≤ d.glog.length := by
      have := hn.cd; have := hn.du; have := hn.us; omega
    refine ⟨li, sf, hS _ _ hg ap, fun hk => hS _ _ ?_ (wk hk), hS _ _ hc dk,
      fun k snap hk => hS _ _ ?_ (sw k snap hk), fun k hk => hS _ _ ?_ (dd k hk)⟩
    · have := hn.wk (by rw [show d.work = some true from hk]; nofun); have := hn.cg; simp only; omega
    · have := hn.ph k (by rw [show d.phase = .swapped k snap from hk]; rfl); have := hn.us; simp only; omega
    · have := hn.ph k (by rw [show d.phase = .dataDone k from hk]; rfl); have := hn.us; simp only; omega

theorem inv_append (d : Dev) (e : Ent) (h : Inv d) : Inv { d with log := d.log ++ [e], map := (match e with
    | .app _ => (d.first + d.log.length + 1) :: d.map
    | .conf => d.map) } := by
  obtain ⟨hn, hr, hp, hw⟩ := h
  refine ⟨?_, hr, fun h1 => ?_, fun h1 => ?_⟩
  · obtain ⟨fl1, fl2, ci, fc, cg, ag, sc, us, du, cd, fs, ld, ph, wk, mp⟩ := hn
    refine ⟨fl1, by simp; omega, ci, fc, cg, fun n h1 h2 => ?_, sc, us, du, cd, fs, ld, ph, wk,
      fun n v h1 h2 h3 h4 => ?_⟩
    · rw [entry_append, if_neg (by simp only at h1 h2; omega)]; exact ag n h1 h2
    · rw [entry_append] at h4
      split at h4
      · rename_i hx
        cases h4
        subst hx; simp
      · have := mp n v h1 h2 h3 h4
        cases e <;> simp [this]
  · obtain ⟨a, b, c, e'⟩ := hp h1; exact ⟨a, b, c, e'⟩
  · obtain ⟨li, sf, ap, wk, dk, sw, dd⟩ := hw h1; exact ⟨li, sf, ap, wk, dk, sw, dd⟩

theorem inv_flush (d : Dev) (h : Inv d) : Inv { d with flushed := d.first + d.log.length } := by
  obtain ⟨hn, hr, hp, hw⟩ := h
  refine ⟨?_, hr, fun h1 => ?_, fun h1 => ?_⟩
  · obtain ⟨fl1, fl2, ci, fc, cg, ag, sc, us, du, cd, fs, ld, ph, wk, mp⟩ := hn
    exact ⟨by simp, by simp, by simp only; omega, fc, cg, ag, sc, us, du, cd, fs, ld, ph, wk, mp⟩
  · obtain ⟨a, b, c, e'⟩ := hp h1; exact ⟨a, b, c, e'⟩
  · obtain ⟨li, sf, ap, wk, dk, sw, dd⟩ := hw h1; exact ⟨li, sf, ap, wk, dk, sw, dd⟩

theorem inv_rollback (d : Dev) (k : Nat) (hk : d.cidx < k) (h : Inv d) :
    Inv { d with log := d.log.take (k - d.first - 1), flushed := min d.flushed (k - 1),
                 map := d.map.filter (· < k) } := by
  obtain ⟨hn, hr, hp, hw⟩ := h
  refine ⟨?_, hr, fun h1 => ?_, fun h1 => ?_⟩
  · obtain ⟨fl1, fl2, ci, fc, cg, ag, sc, us, du, cd, fs, ld, ph, wk, mp⟩ := hn
    refine ⟨?_, ?_, ?_, fc, cg, fun n h1 h2 => ?_, sc, us, du, cd, fs, ld, ph, wk,
      fun n v h1 h2 h3 h4 => ?_⟩
    · simp only; omega
    · simp only [List.length_take]; omega
    · simp only; omega
    · rw [← ag n h1 h2]
      simp only [Dev.entry?]
      simp only at h1 h2
      rw [if_pos h1, if_pos h1, getElem?_take_some (by omega)]
    · have hl := entry_len h4
      simp only [List.length_take] at hl
      have h5 : d.entry? n = some (.app v) := by
        simp only [Dev.entry?] at h4 ⊢
        rw [if_pos h2] at h4
        rw [if_pos h2, ← h4, getElem?_take_some (by omega)]
      exact List.mem_filter.2 ⟨mp n v h1 h2 h3 h5, by simp; omega⟩
  · obtain ⟨a, b, c, e'⟩ := hp h1; exact ⟨a, b, c, e'⟩
  · obtain ⟨li, sf, ap, wk, dk, sw, dd⟩ := hw h1; exact ⟨li, sf, ap, wk, dk, sw, dd⟩

theorem between_false {r : Resync} (h : r.between = false) (l : Nat) : r ≠ .compacted l := by
  rintro rfl; cases h

/-- The transfer's facts do not depend on the numbers of the log. -/
theorem reached_congr {d d' : Dev} (h : Reached d) (e1 : d'.res = d.res) (e2 : d'.pend = d.pend)
    (e3 : d'.snp = d.snp) (e4 : d'.limit = d.limit) (e5 : d'.glog = d.glog) (e6 : d'.app = d.app)
    (e7 : d'.appDisk = d.appDisk) (e8 : d'.phase = d.phase) (hb : d.res.between = false) : Reached d' := by
  unfold Reached at h ⊢
  rw [e1]
  cases hres : d.res with
  | none => trivial
  | compacted l => exact absurd hres (between_false hb l)
  | recv l => rw [hres] at h; simp only [e2, e3]; exact h
  | saved l => rw [hres] at h; simp only [e2, e3, e4, e5, e6]; exact h
  | ckpt l => rw [hres] at h; simp only [e2, e3, e4, e5, e6, e7, e8]; exact h
  | flushed l => rw [hres] at h; simp only [e2, e3, e4, e5, e6, e7, e8]; exact h

theorem holds_conf {g : List Ent} {k : Nat} {l} (h : Holds g k l) (hc : g[k]? = some .conf) : Holds g (k + 1) l := by
  refine ⟨fun n v hn hv => ?_, h.2⟩
  by_cases hx : n = k + 1
  · have := hv.2; rw [hx, show k + 1 - 1 = k by omega, hc] at this; cases this
  · exact h.1 n v (by omega) hv

/-- The library's index moves over an entry whose commit is skipped. -/
theorem inv_skip (d : Dev) (h : Inv d) (hb : d.res.between = false) (hw0 : d.work = none)
    (hf : d.sm < d.flushed) (he : d.entry? (d.sm + 1) = d.glog[d.sm]?) (hs : (d.entry? (d.sm + 1)).isSome)
    (hsk : d.sm + 1 ≤ d.snp) : Inv { d with sm := d.sm + 1, cidx := max d.cidx (d.sm + 1) } := by
  obtain ⟨hn, hr, hp, hw⟩ := h
  have hpt : d.pend = true := by
    cases hpd : d.pend with
    | true => rfl
    | false =>
      have := (hw hpd).sf
      have := hn.fs
      rw [hb] at this
      simp at this
      omega
  have hlt : d.sm < d.glog.length := by
    rw [he] at hs
    exact (List.getElem?_eq_some_iff.1 (Option.isSome_iff_exists.1 hs).choose_spec).1
  refine ⟨?_, reached_congr hr rfl rfl rfl rfl rfl rfl rfl rfl hb, fun h1 => ?_, fun h1 => ?_⟩
  · obtain ⟨fl1, fl2, ci, fc, cg, ag, sc, us, du, cd, fs, ld, ph, wk, mp⟩ := hn
    refine ⟨fl1, fl2, by simp only; omega, by simp only; omega, by simp only; omega, fun n h1 h2 => ?_,
      by simp only; omega, by simp only; omega, du, cd, ?_, ld, ph, ?_, fun n v h1 h2 h3 h4 => ?_⟩
    · simp only at h2
      by_cases hx : n ≤ d.cidx
      · exact ag n h1 hx
      · have : n = d.sm + 1 := by omega
        rw [this]; exact he
    · rcases fs with h | h
      · left; simp only; omega
      · exact .inr h
    · simp only; rw [hw0]; exact fun h => absurd rfl h
    · exact mp n v (by simp only at h1; omega) h2 h3 h4
  · obtain ⟨a, b, c, e'⟩ := hp h1
    exact ⟨hsk, b, by simp only; rw [hw0]; exact fun h => absurd rfl h, e'⟩
  · rw [show d.pend = false from h1] at hpt; cases hpt

theorem inv_commitBegin (d d' : Dev) (h : Inv d) (hg : Good d .commitBegin) (hs : d.step .commitBegin = .ok d') :
    Inv d' := by
  simp only [Dev.step] at hs
  by_cases hc : d.work = none ∧ d.res.between = false ∧ d.sm < d.flushed ∧ d.entry? (d.sm + 1) = d.glog[d.sm]?
  · rw [if_pos hc] at hs
    obtain ⟨hw0, hb, hf, he⟩ := hc
    have hfs : d.first ≤ d.sm := by
      have := h.num.fs; rw [hb] at this; simpa using this
    cases hent : d.entry? (d.sm + 1) with
    | none => rw [hent] at hs; cases hs
    | some e =>
      rw [hent] at hs
      have hsome : (d.entry? (d.sm + 1)).isSome := by rw [hent]; rfl
      have hlt : d.sm < d.glog.length := by
        rw [hent] at he
        exact (List.getElem?_eq_some_iff.1 he.symm).1
      by_cases hk : d.sm + 1 ≤ d.snp
      · have hsk : d.skips (d.sm + 1) = true := by simp [Dev.skips, hk]
        cases e <;> simp only [hsk, if_true, Res.ok.injEq] at hs <;> subst hs <;>
          exact inv_skip d h hb hw0 hf he hsome hk
      · have hsk : d.skips (d.sm + 1) = false := by simp [Dev.skips]; omega
        have hpf : d.pend = false := by
          cases hpd : d.pend with
          | false => rfl
          | true => exact absurd (hg hpd) hk
        obtain ⟨hn, hr, hp, hw⟩ := h
        obtain ⟨li, sf, ap, wk', dk, sw, dd⟩ := hw hpf
        obtain ⟨fl1, fl2, ci, fc, cg, ag, sc, us, du, cd, fs, ld, ph, wk, mp⟩ := hn
        have hag : ∀ n, d.first < n → n ≤ max d.cidx (d.sm + 1) → d.entry? n = d.glog[n - 1]? := by
          intro n h1 h2
          by_cases hx : n ≤ d.cidx
          · exact ag n h1 hx
          · have : n = d.sm + 1 := by omega
            rw [this]; exact he
        cases e with
        | app v =>
          simp only [hsk] at hs
          rw [if_neg (by simp)] at hs
          by_cases hm : d.sm + 1 ∈ d.map
          · rw [if_pos hm] at hs
            simp only [Res.ok.injEq] at hs; subst hs
            refine ⟨⟨fl1, fl2, by simp only; omega, by simp only; omega, by simp only; omega, hag,
              by simp only; omega, us, du, cd, fs, ld, ph, fun _ => ⟨by simp only; omega, hb⟩, mp⟩,
              reached_congr hr rfl rfl rfl rfl rfl rfl rfl rfl hb, fun h1 => ?_,
              fun _ => ⟨li, sf, ap, by simp, dk, sw, dd⟩⟩
            rw [show d.pend = true from h1] at hpf; cases hpf
          · rw [if_neg hm] at hs; cases hs
        | conf =>
          simp only [hsk] at hs
          rw [if_neg (by simp)] at hs
          simp only [Res.ok.injEq] at hs; subst hs
          rw [hent] at he
          have hap : Holds d.glog (max (d.sm + 1) d.first) d.app := by
            have := holds_conf (ap.mono (Nat.le_max_left _ _)) he.symm
            exact this.mono (by omega)
          refine ⟨⟨fl1, fl2, by simp only; omega, by simp only; omega, by simp only; omega, hag,
              by simp only; omega, by simp, by simp only; omega, cd, .inl (by simp only; omega),
              fun l hl => ⟨by have := (ld l hl).1; simp only; omega, (ld l hl).2⟩,
              fun l hl => ⟨by have := (ph l hl).1; simp only; omega, (ph l hl).2⟩,
              by simp [hw0], fun n v h1 => mp n v (by simp only at h1; omega)⟩,
              reached_congr hr rfl rfl rfl rfl rfl rfl rfl rfl hb, fun h1 => ?_,
              fun _ => ⟨li, sf, hap, by simp [hw0], dk, sw, dd⟩⟩
          rw [show d.pend = true from h1] at hpf; cases hpf
  · rw [if_neg hc] at hs; cases hs

theorem commitBegin_nofault (d : Dev) (h : Inv d) (hg : Good d .commitBegin) : d.step .commitBegin ≠ .fault := by
  simp only [Dev.step]
  by_cases hc : d.work = none ∧ d.res.between = false ∧ d.sm < d.flushed ∧ d.entry? (d.sm + 1) = d.glog[d.sm]?
  · rw [if_pos hc]
    obtain ⟨hw0, hb, hf, he⟩ := hc
    have hfs : d.first ≤ d.sm := by
      have := h.num.fs; rw [hb] at this; simpa using this
    cases hent : d.entry? (d.sm + 1) with
    | none => nofun
    | some e =>
      cases e with
      | conf => simp only; split <;> nofun
      | app v =>
        simp only
        by_cases hk : d.sm + 1 ≤ d.snp
        · simp [Dev.skips, hk]
        · have hsk : d.skips (d.sm + 1) = false := by simp [Dev.skips]; omega
          rw [hsk, if_neg (by simp), if_pos (h.num.mp _ v (by omega) (by omega) (by omega) hent)]
          nofun
  · rw [if_neg hc]; nofun

theorem reached_add {d : Dev} {p : Nat × Nat} {w : Option Bool} (h : Reached d) (hb : d.res.between = false)
    (hp : Com d.glog p.1 p.2) : Reached { d with work := w, app := d.app ++ [p] } := by
  unfold Reached at h ⊢
  simp only
  cases hres : d.res with
  | none => trivial
  | compacted l => exact absurd hres (between_false hb l)
  | recv l => rw [hres] at h; exact h
  | saved l => rw [hres] at h; exact ⟨h.1, h.2.1, h.2.2.1, h.2.2.2.add hp⟩
  | ckpt l => rw [hres] at h; exact ⟨h.1, h.2.1, h.2.2.1, h.2.2.2.1.add hp, h.2.2.2.2⟩
  | flushed l => rw [hres] at h; exact ⟨h.1, h.2.1, h.2.2.1, h.2.2.2.1.add hp, h.2.2.2.2⟩

theorem inv_commitApp (d d' : Dev) (h : Inv d) (hs : d.step .commitApp = .ok d') : Inv d' := by
  simp only [Dev.step] at hs
  cases hwk : d.work with
  | none => rw [hwk] at hs; simp at hs
  | some b =>
    cases b with
    | true => rw [hwk] at hs; simp at hs
    | false =>
      rw [hwk] at hs
      cases hent : d.entry? (d.sm + 1) with
      | none => rw [hent] at hs; simp at hs
      | some e =>
        cases e with
        | conf => rw [hent] at hs; simp at hs
        | app v =>
          rw [hent] at hs
          simp only [Res.ok.injEq] at hs; subst hs
          obtain ⟨hn, hr, hp, hw⟩ := h
          obtain ⟨hc, hb⟩ := hn.wk (by rw [hwk]; nofun)
          have hfs : d.first ≤ d.sm := by have := hn.fs; rw [hb] at this; simpa using this
          have hcom : Com d.glog (d.sm + 1) v := by
            refine ⟨by omega, ?_⟩
            rw [← hn.ag (d.sm + 1) (by omega) hc]; exact hent
          refine ⟨?_, reached_add hr hb hcom, fun h1 => ?_, fun h1 => ?_⟩
          · obtain ⟨fl1, fl2, ci, fc, cg, ag, sc, us, du, cd, fs, ld, ph, wk, mp⟩ := hn
            exact ⟨fl1, fl2, ci, fc, cg, ag, sc, us, du, cd, fs, ld, ph, fun _ => ⟨hc, hb⟩, mp⟩
          · obtain ⟨a, b, c, e'⟩ := hp h1
            exact ⟨a, b, fun _ => c (by rw [hwk]; nofun), e'⟩
          · obtain ⟨li, sf, ap, wk', dk, sw, dd⟩ := hw h1
            refine ⟨li, sf, ap.add hcom, fun _ => ⟨fun n w hn' hv => ?_, (ap.add hcom).2⟩, dk, sw, dd⟩
            by_cases hx : n = d.sm + 1
            · subst hx
              have e : some (Ent.app w) = some (Ent.app v) := by
                rw [← hv.2, ← hcom.2]
              cases e; simp
            · exact (ap.add hcom).1 n w (by simp only at hn'; omega) hv

theorem inv_commitEnd (d d' : Dev) (h : Inv d) (hs : d.step .commitEnd = .ok d') : Inv d' := by
  simp only [Dev.step] at hs
  cases hwk : d.work with
  | none => rw [hwk] at hs; simp at hs
  | some b =>
    cases b with
    | false => rw [hwk] at hs; simp at hs
    | true =>
      rw [hwk] at hs
      simp only [Res.ok.injEq] at hs; subst hs
      obtain ⟨hn, hr, hp, hw⟩ := h
      obtain ⟨hc, hb⟩ := hn.wk (by rw [hwk]; nofun)
      have hfs : d.first ≤ d.sm := by have := hn.fs; rw [hb] at this; simpa using this
      refine ⟨?_, reached_congr hr rfl rfl rfl rfl rfl rfl rfl rfl hb, fun h1 => ?_, fun h1 => ?_⟩
      · obtain ⟨fl1, fl2, ci, fc, cg, ag, sc, us, du, cd, fs, ld, ph, wk, mp⟩ := hn
        exact ⟨fl1, fl2, ci, fc, cg, ag, hc, by simp, by simp only; omega, cd, .inl (by simp only; omega),
          fun l hl => ⟨by have := (ld l hl).1; simp only; omega, (ld l hl).2⟩,
          fun l hl => ⟨by have := (ph l hl).1; simp only; omega, (ph l hl).2⟩,
          by simp, fun n v h1 h2 h3 h4 => List.mem_filter.2
            ⟨mp n v (by simp only at h1; omega) h2 h3 h4, by simp only at h1; simp; omega⟩⟩
      · obtain ⟨a, b, c, e'⟩ := hp h1
        exact ⟨c (by rw [hwk]; nofun), b, by simp, e'⟩
      · obtain ⟨li, sf, ap, wk', dk, sw, dd⟩ := hw h1
        exact ⟨li, sf, (wk' hwk).mono (by simp only; omega), by simp, dk, sw, dd⟩

end HS.Snap
