import Verif.Journal.Trunc

namespace HS.Journal

theorem nodup_idx {l : List Nat} (h : l.Nodup) {i j c : Nat} (hi : l[i]? = some c) (hj : l[j]? = some c) :
    i = j := by
  have h1 := List.getElem?_eq_some_iff.1 hi
  have h2 := List.getElem?_eq_some_iff.1 hj
  exact (List.Nodup.getElem_inj_iff h).1 (h1.2.trans h2.2.symm)

theorem not_mem_take {l : List Nat} (h : l.Nodup) {j i c : Nat} (hi : (l.drop j)[i]? = some c) :
    c ∉ l.take j := by
  intro hc
  obtain ⟨k, hk⟩ := List.mem_iff_getElem?.1 hc
  rw [List.getElem?_drop] at hi
  rw [List.getElem?_take] at hk
  split at hk
  · have := nodup_idx h hi hk; omega
  · cases hk

theorem mem_take_or_drop {l : List Nat} {c : Nat} (j : Nat) :
    c ∈ l ↔ c ∈ l.take j ∨ c ∈ l.drop j := by
  conv_lhs => rw [← List.take_append_drop j l]
  exact List.mem_append

/-- Truncating at an allowed offset succeeds, keeps the invariant, and has the stated effect. -/
theorem truncate_inv {w : World} (hw : WInv w) {s t : Nat} (hv : ValidTrunc w s t) {now : Nat → Nat}
    (hnow : ∀ c, 0 < now c) {T : Nat} (hT : SInv w.v.cs w.v.priv s (w.v.desc s) T) :
    ∃ v' ws nh j, truncate w.v s t now = .ok (v', (v'.desc s).ds, ws) ∧
      WInv { w with v := v', A := upd w.A s (fun x => if x < t then none else w.A s x) } ∧
      TruncPt w.v.cs w.v.priv (w.v.desc s) T t nh j (v'.desc s).ds ∧
      (v'.desc s).chunks = (w.v.desc s).chunks.drop j ∧ v'.data = w.v.data ∧ v'.cs = w.v.cs ∧
      (∀ s', s' ≠ s → v'.desc s' = w.v.desc s') ∧
      (j < (w.v.desc s).chunks.length → (v'.desc s).tail = T) ∧
      (j = (w.v.desc s).chunks.length → (v'.desc s).tail = (v'.desc s).ds) ∧
      (∀ c, c ∉ (w.v.desc s).chunks.take j → (c ∈ v'.pool ↔ c ∈ w.v.pool)) ∧
      ws = .set nh { w.v.priv nh with isHead := true, logdev := s } ::
        (releaseAll now (w.v.setPriv nh { w.v.priv nh with isHead := true, logdev := s })
          ((w.v.desc s).chunks.take j)).2 ∧
      (v'.pst = (releaseAll now (w.v.setPriv nh { w.v.priv nh with isHead := true, logdev := s })
          ((w.v.desc s).chunks.take j)).1.pst) := by
  have hcs := hw.g.cs
  obtain ⟨T', hT', hR, hA⟩ := hw.s s
  have hTT : T' = T := by
    have a := hT'.tail; have b := hT.tail; rw [a] at b; exact_mod_cast b
  subst hTT
  obtain ⟨nh, j, ds', wsz', hpt, htl1, htl2, heq⟩ := truncate_eq hw hv hT now
  simp only at heq
  obtain ⟨hne, hds, htT, hres, _⟩ := hv
  have hND := hw.g.strND s
  generalize hp : ({ w.v.priv nh with isHead := true, logdev := s } : Priv) = p at *
  generalize hd' : ({ ds := ds', wsz := wsz', rsv := (w.v.desc s).rsv, chunks := (w.v.desc s).chunks.drop j
                      total := ((w.v.desc s).chunks.length - j) * w.v.cs
                      endOff := (ds' / w.v.cs + ((w.v.desc s).chunks.length - j)) * w.v.cs } : Desc) = d' at *
  have hd1 : d'.ds = ds' := by rw [← hd']
  have hd2 : d'.chunks = (w.v.desc s).chunks.drop j := by rw [← hd']
  have hrelND : ((w.v.desc s).chunks.take j).Nodup := hND.sublist (List.take_sublist _ _)
  have hrelMem : ∀ c ∈ (w.v.desc s).chunks.take j, c ∈ (w.v.desc s).chunks := fun c h => List.mem_of_mem_take h
  have hspec := releaseAll_spec (now := now) ((w.v.desc s).chunks.take j) (w.v.setPriv nh p) hrelND
    (fun c hc hcp => hw.g.poolDisj s c hcp (hrelMem c hc))
    (fun c hc => (hw.g.own c).2 (Or.inr ⟨s, hrelMem c hc⟩)) hw.g.poolND
    (fun c hc => (hw.g.own c).2 (Or.inl hc)) hw.g.allND
  simp only at hspec
  obtain ⟨q1, q2, q3, q4, q5, q6, q7, q8, q9, q10, q11⟩ := hspec
  generalize hr : releaseAll now (w.v.setPriv nh p) ((w.v.desc s).chunks.take j) = r at *
  replace q1 : r.1.cs = w.v.cs := q1
  replace q4 : r.1.data = w.v.data := q4
  replace q9 : ∀ c ∈ (w.v.desc s).chunks.take j, c ∈ r.1.all → r.1.priv c = initPriv w.v.cs (now c) := q9
  have hdesc : ∀ s', s' ≠ s → (r.1.setDesc s d').desc s' = w.v.desc s' := by
    intro s' hs'
    simp only [Dev.setDesc, upd_ne hs', q3]; rfl
  have hdescS : (r.1.setDesc s d').desc s = d' := by simp only [Dev.setDesc, upd_same]
  have hpr : ∀ c, c ∉ (w.v.desc s).chunks.take j → c ≠ nh → r.1.priv c = w.v.priv c := by
    intro c h1 h2
    rw [q8 c h1]; simp only [Dev.setPriv, upd_ne h2]
  have hprnh : nh ∉ (w.v.desc s).chunks.take j → r.1.priv nh = p := by
    intro h1; rw [q8 nh h1]; simp only [Dev.setPriv, upd_same]
  have hpre : ∀ c, c ∉ (w.v.desc s).chunks.take j → (r.1.priv c).eoc = (w.v.priv c).eoc ∧
      (r.1.priv c).next = (w.v.priv c).next ∧ (r.1.priv c).created = (w.v.priv c).created := by
    intro c h1
    by_cases h2 : c = nh
    · subst h2; rw [hprnh h1, ← hp]; exact ⟨rfl, rfl, rfl⟩
    · rw [hpr c h1 h2]; exact ⟨rfl, rfl, rfl⟩
  have hcreated : ∀ c ∈ r.1.all, 0 < (r.1.priv c).created := by
    intro c hc
    by_cases h1 : c ∈ (w.v.desc s).chunks.take j
    · rw [q9 c h1 hc]; exact hnow c
    · rw [(hpre c h1).2.2]; exact hw.g.created c ((q6 c h1).1 hc)
  have hnhN : ∀ s', s' ≠ s → nh ∉ (w.v.desc s').chunks := fun s' hs' h =>
    hs' (hw.g.strDisj s' s nh h hpt.nhmem)
  have htkN : ∀ s' c, s' ≠ s → c ∈ (w.v.desc s').chunks → c ∉ (w.v.desc s).chunks.take j := fun s' c hs' h h2 =>
    hs' (hw.g.strDisj s' s c h (hrelMem c h2))
  refine ⟨r.1.setDesc s d', .set nh p :: r.2, nh, j, ?_, ?_, ?_, ?_, ?_, ?_, hdesc, ?_, ?_, ?_, ?_, ?_⟩
  · rw [heq, hdescS, hd1]
  · constructor
    · -- ownership
      have hch : ∀ s' c, c ∈ ((r.1.setDesc s d').desc s').chunks ↔
          c ∈ (w.v.desc s').chunks ∧ (s' = s → c ∉ (w.v.desc s).chunks.take j) := by
        intro s' c
        by_cases hs' : s' = s
        · subst hs'
          rw [hdescS, hd2]
          constructor
          · intro h
            refine ⟨List.mem_of_mem_drop h, fun _ => ?_⟩
            obtain ⟨i, hi⟩ := List.mem_iff_getElem?.1 h
            exact not_mem_take hND hi
          · rintro ⟨h1, h2⟩
            exact ((mem_take_or_drop j).1 h1).resolve_left (h2 rfl)
        · rw [hdesc s' hs']; simp [hs']
      constructor
      · show 0 < r.1.cs; rw [q1]; exact hcs
      · show 0 ∉ r.1.all
        intro h
        by_cases h1 : (0 : Nat) ∈ (w.v.desc s).chunks.take j
        · exact hw.g.zero (q7 0 h1 h)
        · exact hw.g.zero ((q6 0 h1).1 h)
      · intro c
        show c ∈ r.1.all ↔ c ∈ r.1.pool ∨ _
        rw [q5 c]
        by_cases h1 : c ∈ (w.v.desc s).chunks.take j
        · constructor
          · intro h; exact Or.inl (Or.inr ⟨h1, h⟩)
          · rintro ((h | h) | ⟨s', h⟩)
            · exact absurd (hrelMem c h1) (fun h2 => hw.g.poolDisj s c h h2)
            · exact h.2
            · have := (hch s' c).1 h
              by_cases hs' : s' = s
              · exact absurd h1 (this.2 hs')
              · exact absurd (hw.g.strDisj s' s c this.1 (hrelMem c h1)) hs'
        · rw [q6 c h1]
          show c ∈ w.v.all ↔ _
          rw [hw.g.own c]
          constructor
          · rintro (h | ⟨s', h⟩)
            · exact Or.inl (Or.inl h)
            · exact Or.inr ⟨s', (hch s' c).2 ⟨h, fun _ => h1⟩⟩
          · rintro ((h | h) | ⟨s', h⟩)
            · exact Or.inl h
            · exact absurd h.1 h1
            · exact Or.inr ⟨s', ((hch s' c).1 h).1⟩
      · exact q10
      · exact q11
      · intro s'
        by_cases hs' : s' = s
        · subst hs'
          show ((r.1.setDesc s' d').desc s').chunks.Nodup
          rw [hdescS, hd2]; exact hND.sublist (List.drop_sublist _ _)
        · show ((r.1.setDesc s d').desc s').chunks.Nodup
          rw [hdesc s' hs']; exact hw.g.strND s'
      · intro s1 s2 c h1 h2
        exact hw.g.strDisj s1 s2 c ((hch s1 c).1 h1).1 ((hch s2 c).1 h2).1
      · intro s' c h1 h2
        have h2' := (hch s' c).1 h2
        rcases (q5 c).1 h1 with h | h
        · exact hw.g.poolDisj s' c h h2'.1
        · by_cases hs' : s' = s
          · exact h2'.2 hs' h.1
          · exact hs' (hw.g.strDisj s' s c h2'.1 (hrelMem c h.1))
      · intro c hc
        show (r.1.priv c).isHead = false ∧ (r.1.priv c).next = 0 ∧ (r.1.priv c).eoc = r.1.cs
        rw [q1]
        rcases (q5 c).1 hc with h | h
        · have hnt : c ∉ (w.v.desc s).chunks.take j := fun h2 => hw.g.poolDisj s c h (hrelMem c h2)
          have hcn : c ≠ nh := fun h2 => hw.g.poolDisj s c h (h2 ▸ hpt.nhmem)
          rw [hpr c hnt hcn]; exact hw.g.poolPriv c h
        · rw [q9 c h.1 h.2]; exact ⟨rfl, rfl, rfl⟩
      · exact hcreated
    · intro s'
      show Str r.1.cs r.1.priv r.1.data s' _ _ _
      rw [q1, q4]
      by_cases hs' : s' = s
      · subst hs'
        rw [hdescS]
        simp only [upd_same]
        by_cases hjn : j < (w.v.desc s').chunks.length
        · -- some chunks remain
          obtain ⟨hjnh, hq, hdsT, hmod⟩ := hpt.lt hjn
          have hchunk : ∀ {i c : Nat}, d'.chunks[i]? = some c → (w.v.desc s').chunks[j + i]? = some c := by
            intro i c hi; rw [hd2, List.getElem?_drop] at hi; exact hi
          have hnt : ∀ {i c : Nat}, d'.chunks[i]? = some c → c ∉ (w.v.desc s').chunks.take j := by
            intro i c hi; rw [hd2] at hi; exact not_mem_take hND hi
          have hlen : d'.chunks.length = (w.v.desc s').chunks.length - j := by rw [hd2, List.length_drop]
          have hcnv : ∀ {x c : Nat}, ds' ≤ x → (w.v.desc s').chunks[x / w.v.cs - (w.v.desc s').ds / w.v.cs]? = some c →
              d'.chunks[x / w.v.cs - ds' / w.v.cs]? = some c := by
            intro x c hx hc
            have := Nat.div_le_div_right (c := w.v.cs) hx
            rw [hd2, List.getElem?_drop, ← hc]
            congr 1; omega
          refine ⟨T', ⟨?_, ?_, ?_, ?_, ?_, ?_, ?_, ?_, ?_, ?_, ?_⟩, ⟨?_, ?_, hR.disj⟩, ?_⟩
          · have := htl1 hjn
            rw [← hd']; simp only [Desc.tail]; omega
          · rw [hlen]; rw [← hd']
          · rw [hlen, hd1]; rw [← hd']
          · rw [hd1]; exact hdsT
          · intro h; rw [h] at hlen; simp at hlen; omega
          · intro _
            rw [hlen, hd1, hq]
            have := hT.last hne; omega
          · intro i c hi
            rw [(hpre c (hnt hi)).2.1, hT.next _ c (hchunk hi), hd2, List.getElem?_drop]
            rfl
          · intro i c hi hlast
            rw [(hpre c (hnt hi)).1]
            exact hT.eocL _ c (hchunk hi) (by omega)
          · intro i c hi hlt
            rw [(hpre c (hnt hi)).1]
            have := hT.eocN _ c (hchunk hi) (by omega)
            refine ⟨this.1, this.2.1, ?_⟩
            intro hi0
            subst hi0
            have hc1 := hchunk hi
            rw [Nat.add_zero, hjnh] at hc1
            cases hc1
            rw [hd1]; exact hmod (by omega)
          · intro c hc
            have hc1 := hchunk hc
            rw [Nat.add_zero, hjnh] at hc1
            cases hc1
            rw [hprnh (hnt hc), ← hp]; exact ⟨rfl, rfl⟩
          · intro i c hi h0
            have hc1 := hchunk hi
            have hcn : c ≠ nh := by
              intro h; subst h
              have := nodup_idx hND hjnh hc1; omega
            rw [hpr c (hnt hi) hcn]
            exact hT.nonhead _ c hc1 (by omega)
          · rw [hR.sum, ← hd']
          · intro x hx
            obtain ⟨a, b, e, k, hk, hk2⟩ := hR.each x hx
            have hup : ds' ≤ x.1 := hpt.up x.1 (hres x hx) (by omega) k hk (by omega)
            have hk' := hcnv hup hk
            exact ⟨a, by rw [hd1]; exact hup, e, k, by rw [hd1]; exact hk', by rw [(hpre k (hnt hk')).1]; exact hk2⟩
          · intro x b hx
            simp only at hx
            by_cases hxt : x < t
            · rw [if_pos hxt] at hx; cases hx
            · rw [if_neg hxt] at hx
              obtain ⟨h1, h2, ⟨k, hk, hk2, hk3⟩, h4⟩ := hA x b hx
              have hup : ds' ≤ x := hpt.up x (by omega) h2 k hk hk2
              have hk' := hcnv hup hk
              exact ⟨by rw [hd1]; exact hup, h2, ⟨k, by rw [hd1]; exact hk', by rw [(hpre k (hnt hk')).1]; exact hk2, hk3⟩, h4⟩
        · -- all chunks are gone
          have hjn' : j = (w.v.desc s').chunks.length := by have := hpt.jle; omega
          obtain ⟨htT2, hdsr, _⟩ := hpt.eq hjn'
          have hRnil : w.R s' = [] := by
            rcases hRs : w.R s' with _ | ⟨x, l⟩
            · rfl
            · have h1 := hR.each x (by rw [hRs]; exact List.mem_cons_self)
              have h2 := hres x (by rw [hRs]; exact List.mem_cons_self)
              omega
          have hrsv : (w.v.desc s').rsv = 0 := by have := hR.sum; rw [hRnil] at this; simpa using this.symm
          have hwsz : wsz' = 0 := by have := htl2 hjn'; rw [hrsv] at this; simpa using this
          have hcn : d'.chunks = [] := by rw [hd2, List.drop_eq_nil_iff]; omega
          have hmod : ds' % w.v.cs = 0 := by rw [hdsr]; exact (rup_mod hcs).1
          have hnone : ∀ {i c : Nat}, ¬ d'.chunks[i]? = some c := by intro i c h; rw [hcn] at h; simp at h
          refine ⟨ds', ⟨?_, ?_, ?_, ?_, ?_, ?_, ?_, ?_, ?_, ?_, ?_⟩, ⟨?_, ?_, hR.disj⟩, ?_⟩
          · rw [← hd']; simp [Desc.tail, hwsz, hrsv]
          · rw [hcn, ← hd', hjn']; simp
          · rw [hcn, hd1, ← hd', hjn']; simp
          · rw [hd1]
          · intro _; rw [hd1]
            refine ⟨hmod, ?_, ?_⟩
            · rw [← hd', hwsz]
            · rw [← hd', hrsv]
          · intro h; exact absurd hcn h
          · intro i c h; exact absurd h hnone
          · intro i c h; exact absurd h hnone
          · intro i c h; exact absurd h hnone
          · intro c h; exact absurd h hnone
          · intro i c h; exact absurd h hnone
          · rw [hR.sum, ← hd']
          · intro x hx; rw [hRnil] at hx; cases hx
          · intro x b hx
            simp only at hx
            by_cases hxt : x < t
            · rw [if_pos hxt] at hx; cases hx
            · rw [if_neg hxt] at hx
              have := (hA x b hx).2.1; omega
      · rw [hdesc s' hs']
        simp only [upd_ne hs']
        refine (hw.s s').congr ?_ (fun _ _ => rfl)
        intro c hc
        exact hpr c (htkN s' c hs' hc) (fun h => hnhN s' hs' (h ▸ hc))
  · rw [hdescS, hd1]; exact hpt
  · rw [hdescS, hd2]
  · show r.1.data = _; rw [q4]
  · show r.1.cs = _; rw [q1]
  · intro h; rw [hdescS, ← hd']; simp only [Desc.tail]; exact htl1 h
  · intro h; rw [hdescS, ← hd']; simp only [Desc.tail]; have := htl2 h; omega
  · intro c hc
    show c ∈ r.1.pool ↔ _
    rw [q5 c]
    constructor
    · rintro (h | h)
      · exact h
      · exact absurd h.1 hc
    · exact Or.inl
  · rw [hp, hr]
  · rw [hp, hr]; rfl

end HS.Journal
