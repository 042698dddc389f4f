import Verif.Journal.Append

namespace HS.Journal

theorem GInv.congr {v v1 : Dev} (hg : GInv v) (h1 : v1.cs = v.cs) (h2 : v1.all = v.all)
    (h3 : v1.pool = v.pool) (h4 : v1.priv = v.priv)
    (h5 : ∀ s, (v1.desc s).chunks = (v.desc s).chunks) : GInv v1 := by
  constructor
  · rw [h1]; exact hg.cs
  · rw [h2]; exact hg.zero
  · intro c; simp only [h2, h3, h5]; exact hg.own c
  · rw [h3]; exact hg.poolND
  · rw [h2]; exact hg.allND
  · intro s; rw [h5]; exact hg.strND s
  · intro s s' c a b; rw [h5] at a b; exact hg.strDisj s s' c a b
  · intro s c a b; rw [h3] at a; rw [h5] at b; exact hg.poolDisj s c a b
  · rw [h1, h3, h4]; exact hg.poolPriv
  · rw [h2, h4]; exact hg.created

theorem setDesc_chunks {v : Dev} {s : Nat} {d : Desc} (h : d.chunks = (v.desc s).chunks) (s' : Nat) :
    ((v.setDesc s d).desc s').chunks = (v.desc s').chunks := by
  by_cases hs : s' = s
  · subst hs; simp only [Dev.setDesc, upd_same]; exact h
  · simp only [Dev.setDesc, upd_ne hs]

theorem tailChk_ok {cs : Nat} (hcs : 0 < cs) {priv : Nat → Priv} {s : Nat} {d : Desc} {T : Nat}
    (h : SInv cs priv s d T) : d.tailChk = .ok T ∧ T ≤ d.endOff ∧ (d.chunks ≠ [] → T < d.endOff) := by
  have hlt : d.chunks ≠ [] → T < d.endOff := by
    intro hne
    have h1 := h.last hne
    have h2 := (div_bounds T hcs).2
    rw [h1, ← h.endOff] at h2; exact h2
  have hle : T ≤ d.endOff := by
    by_cases hne : d.chunks = []
    · have h1 := h.nil hne
      have h2 := h.tail
      have h3 := h.endOff
      have h4 := mod_eq d.ds cs
      simp only [Desc.tail, h1.2.1, h1.2.2] at h2
      rw [hne] at h3; simp at h3; omega
    · exact Nat.le_of_lt (hlt hne)
  refine ⟨?_, hle, hlt⟩
  unfold Desc.tailChk
  rw [h.tail, if_pos ⟨by exact_mod_cast hle, by omega⟩]
  simp

/-- `alloc` on an allowed request: waits for the pool, or succeeds and keeps the invariant. -/
theorem alloc_inv {w : World} (hw : WInv w) {s sz : Nat} (hsz : 0 < sz) (hlt : sz < w.v.cs) :
    (alloc w.v s sz = .error .blocked ∧ w.v.pool = []) ∨
    ∃ v' off ws, alloc w.v s sz = .ok (v', off, ws) ∧
      WInv { w with v := v', R := upd w.R s ((off, sz) :: w.R s) } ∧
      (w.v.desc s).tail ≤ off := by
  have hcs := hw.g.cs
  obtain ⟨T, hT, hR, hA⟩ := hw.s s
  obtain ⟨hck, hle, hltE⟩ := tailChk_ok hcs hT
  unfold alloc
  rw [if_neg (by omega), hck]
  simp only
  by_cases hfit : T + sz ≥ (w.v.desc s).endOff
  · rw [if_pos hfit]
    cases hp : w.v.pool with
    | nil => left; simp [appendChunk, hp]
    | cons c pool' =>
      right
      have ho : (w.v.desc s).chunks ≠ [] → T % w.v.cs ≠ 0 := by
        intro hne h0
        have h1 := hT.last hne
        have h2 := hT.endOff
        have h3 := mod_eq T w.v.cs
        rw [← h1, Nat.add_mul] at h2
        omega
      obtain ⟨v1, ws, h1, hcs1, hcap1, hdata1, hg1, hstr1, hds1, T1, hT1, hTT, hend1⟩ :=
        append_inv hw.g hw.s hT hp ho
      rw [h1]
      simp only
      obtain ⟨hck1, hle1, hltE1⟩ := tailChk_ok hg1.cs hT1
      rw [hck1]
      simp only
      rw [if_pos ⟨by rw [← hend1, hcs1]; omega, hT1.dsT⟩]
      refine ⟨_, _, _, rfl, ?_, ?_⟩
      · obtain ⟨T1', hT1', hR1, hA1⟩ := hstr1 s
        have : T1' = T1 := by
          have a := hT1'.tail; have b := hT1.tail; rw [a] at b; exact_mod_cast b
        subst this
        constructor
        · exact hg1.congr rfl rfl rfl rfl (setDesc_chunks rfl)
        · intro s'
          by_cases hs' : s' = s
          · subst hs'
            simp only [Dev.setDesc, upd_same]
            exact reserve_str hg1.cs hT1' hR1 hA1 hsz (by rw [← hend1, hcs1]; omega)
          · simp only [Dev.setDesc, upd_ne hs']
            exact hstr1 s'
      · rw [hT.tail]; exact_mod_cast hTT
  · right
    rw [if_neg hfit, if_pos hT.dsT]
    refine ⟨_, _, _, rfl, ?_, by rw [hT.tail]⟩
    constructor
    · exact hw.g.congr rfl rfl rfl rfl (setDesc_chunks rfl)
    · intro s'
      by_cases hs' : s' = s
      · subst hs'
        simp only [Dev.setDesc, upd_same]
        exact reserve_str hcs hT hR hA hsz (by omega)
      · simp only [Dev.setDesc, upd_ne hs']
        exact hw.s s'

theorem putBytes_in {f : Nat → Nat} {o i : Nat} {bs : List Nat} (h1 : o ≤ i) (h2 : i < o + bs.length) :
    putBytes f o bs i = bs.getD (i - o) 0 := by
  simp [putBytes, h1, h2]

theorem putBytes_out {f : Nat → Nat} {o i : Nat} {bs : List Nat} (h : i < o ∨ o + bs.length ≤ i) :
    putBytes f o bs i = f i := by
  unfold putBytes; rw [if_neg]; omega

theorem sum_erase {R : List (Nat × Nat)} {r : Nat × Nat} (h : r ∈ R) :
    (R.map Prod.snd).sum = r.2 + ((R.erase r).map Prod.snd).sum := by
  induction R with
  | nil => cases h
  | cons x l ih =>
    by_cases hx : x = r
    · subst hx; simp
    · rw [List.erase_cons_tail (by simpa using hx)]
      have := ih ((List.mem_cons.1 h).resolve_left (Ne.symm hx))
      simp only [List.map_cons, List.sum_cons]; omega

theorem pairwise_ne {R : List (Nat × Nat)} {a b : Nat × Nat}
    (hd : R.Pairwise (fun a b => a.1 + a.2 ≤ b.1 ∨ b.1 + b.2 ≤ a.1))
    (hpos : ∀ r ∈ R, 0 < r.2) (ha : a ∈ R) (hb : b ∈ R.erase a) :
    a.1 + a.2 ≤ b.1 ∨ b.1 + b.2 ≤ a.1 := by
  induction R with
  | nil => cases ha
  | cons x l ih =>
    rw [List.pairwise_cons] at hd
    by_cases hxa : x = a
    · subst hxa
      rw [List.erase_cons_head] at hb
      exact hd.1 b hb
    · rw [List.erase_cons_tail (by simpa using hxa)] at hb
      have hal := (List.mem_cons.1 ha).resolve_left (Ne.symm hxa)
      rcases List.mem_cons.1 hb with h | h
      · subst h; exact (hd.1 a hal).symm
      · exact ih hd.2 (fun r hr => hpos r (List.mem_cons_of_mem _ hr)) hal h

/-- A write of exactly an outstanding reservation succeeds and keeps the invariant. -/
theorem pwrite_inv {w : World} (hw : WInv w) {s off : Nat} {bs : List Nat}
    (hr : (off, bs.length) ∈ w.R s) :
    ∃ v', pwrite w.v s off bs = .ok v' ∧
      WInv { v := v', R := upd w.R s ((w.R s).erase (off, bs.length))
             A := upd w.A s (fun x => if off ≤ x ∧ x < off + bs.length then bs[x - off]?
                                      else w.A s x) } := by
  have hcs := hw.g.cs
  obtain ⟨T, hT, hR, hA⟩ := hw.s s
  obtain ⟨hpos, hds, hend, c, hc, heoc⟩ := hR.each _ hr
  simp only at hpos hds hend hc heoc
  have hne : (w.v.desc s).chunks ≠ [] := by intro h; rw [h] at hc; simp at hc
  have hloc : offsetToChunk w.v.cs (w.v.desc s) off =
      some (c, off / w.v.cs - (w.v.desc s).ds / w.v.cs, off % w.v.cs) := by
    rw [offsetToChunk_eq hcs, if_neg, hc]
    · rfl
    · have := Nat.div_le_div_right (c := w.v.cs) hds; omega
  have heocle : (w.v.priv c).eoc ≤ w.v.cs := by
    have hi := (List.getElem?_eq_some_iff.1 hc).1
    by_cases h : off / w.v.cs - (w.v.desc s).ds / w.v.cs + 1 = (w.v.desc s).chunks.length
    · rw [hT.eocL _ c hc h]
    · exact (hT.eocN _ c hc (by omega)).1
  have hsum := sum_erase hr
  rw [hR.sum] at hsum
  simp only at hsum
  refine ⟨_, by unfold pwrite; simp only; rw [if_neg (by omega), hloc]; simp only; rw [if_neg (by omega)], ?_⟩
  have hcmem := mem_of_getElem? hc
  have inChunk : ∀ y, off ≤ y → y < off + bs.length → y / w.v.cs = off / w.v.cs ∧
      y % w.v.cs = off % w.v.cs + (y - off) := by
    intro y h1 h2
    have h3 := mod_eq off w.v.cs
    have h4 : y / w.v.cs = off / w.v.cs := by
      apply div_unique
      · omega
      · rw [Nat.add_mul]; omega
    refine ⟨h4, ?_⟩
    have h5 := mod_eq y w.v.cs
    rw [h4] at h5; omega
  constructor
  · exact hw.g.congr rfl rfl rfl rfl (setDesc_chunks rfl)
  · intro s'
    by_cases hs' : s' = s
    · subst hs'
      simp only [Dev.setDesc, upd_same]
      refine ⟨T, ⟨?_, hT.total, hT.endOff, hT.dsT, fun h => absurd h hne, hT.last, hT.next, hT.eocL,
        hT.eocN, hT.head, hT.nonhead⟩, ⟨?_, ?_, ?_⟩, ?_⟩
      · have := hT.tail; simp only [Desc.tail] at this ⊢; omega
      · show _ = (w.v.desc s').rsv - bs.length; omega
      · intro r h; exact hR.each r (List.mem_of_mem_erase h)
      · exact hR.disj.sublist List.erase_sublist
      · intro x b hx
        simp only at hx
        by_cases hin : off ≤ x ∧ x < off + bs.length
        · rw [if_pos hin] at hx
          obtain ⟨h1, h2⟩ := inChunk x hin.1 hin.2
          refine ⟨by show (w.v.desc s').ds ≤ x; omega, by omega, ⟨c, ?_, ?_, ?_⟩, ?_⟩
          · show (w.v.desc s').chunks[x / w.v.cs - (w.v.desc s').ds / w.v.cs]? = _
            rw [h1]; exact hc
          · omega
          · rw [upd_same, h2, putBytes_in (by omega) (by omega)]
            have : off % w.v.cs + (x - off) - off % w.v.cs = x - off := by omega
            rw [this]
            simp [List.getD_eq_getElem?_getD, hx]
          · intro r h
            have := pairwise_ne hR.disj (fun r h => (hR.each r h).1) hr h
            simp only at this; omega
        · rw [if_neg hin] at hx
          obtain ⟨h1, h2, ⟨k, hk, hk2, hk3⟩, h4⟩ := hA x b hx
          refine ⟨h1, h2, ⟨k, hk, hk2, ?_⟩, fun r h => h4 r (List.mem_of_mem_erase h)⟩
          by_cases hkc : k = c
          · subst hkc
            rw [upd_same, putBytes_out, hk3]
            have hi := (List.getElem?_eq_some_iff.1 hk)
            have hj := (List.getElem?_eq_some_iff.1 hc)
            have hij := (List.Nodup.getElem_inj_iff (hw.g.strND s')).1 (hi.2.trans hj.2.symm)
            have a1 : (w.v.desc s').ds / w.v.cs ≤ x / w.v.cs := Nat.div_le_div_right h1
            have a2 : (w.v.desc s').ds / w.v.cs ≤ off / w.v.cs := Nat.div_le_div_right hds
            have hq : x / w.v.cs = off / w.v.cs := by omega
            have e1 := mod_eq x w.v.cs
            have e2 := mod_eq off w.v.cs
            rw [hq] at e1
            omega
          · rw [upd_ne hkc]; exact hk3
    · simp only [Dev.setDesc, upd_ne hs']
      refine (hw.s s').congr (fun _ _ => rfl) ?_
      intro x hx
      have : x ≠ c := fun h => hs' (hw.g.strDisj s' s x hx (h ▸ hcmem))
      exact upd_ne this

end HS.Journal
