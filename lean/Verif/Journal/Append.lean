import Verif.Journal.Inv

namespace HS.Journal

theorem getElem?_append_one {l : List Nat} {c i x : Nat} (h : (l ++ [c])[i]? = some x) :
    (l[i]? = some x ∧ i < l.length) ∨ (i = l.length ∧ x = c) := by
  rw [List.getElem?_append] at h
  split at h
  · rename_i hi; exact Or.inl ⟨h, hi⟩
  · rename_i hi
    right
    have h0 : i - l.length = 0 := by
      by_contra hne
      obtain ⟨k, hk⟩ := Nat.exists_eq_succ_of_ne_zero hne
      rw [hk] at h; simp at h
    rw [h0] at h; simp at h; omega

/-- Ownership after moving the first pool chunk to the end of stream `s`. -/
theorem append_own {v v1 : Dev} {s c : Nat} {pool' : List Nat} (hg : GInv v) (hp : v.pool = c :: pool')
    (h1 : v1.cs = v.cs) (h2 : v1.all = v.all) (h3 : v1.pool = pool')
    (h4 : ∀ s', s' ≠ s → (v1.desc s').chunks = (v.desc s').chunks)
    (h5 : (v1.desc s).chunks = (v.desc s).chunks ++ [c])
    (h6 : ∀ x ∈ pool', v1.priv x = v.priv x)
    (h7 : ∀ x, (v1.priv x).created = (v.priv x).created) : GInv v1 := by
  have hcp : c ∈ v.pool := by rw [hp]; exact List.mem_cons_self
  have hnd := hg.poolND
  rw [hp] at hnd
  have hcp' := (List.nodup_cons.1 hnd).1
  have hsub : ∀ x ∈ pool', x ∈ v.pool := fun x h => by rw [hp]; exact List.mem_cons_of_mem _ h
  have hmem : ∀ s' x, x ∈ (v1.desc s').chunks ↔ x ∈ (v.desc s').chunks ∨ (s' = s ∧ x = c) := by
    intro s' x
    by_cases h : s' = s
    · subst h; rw [h5]; simp
    · rw [h4 s' h]; simp [h]
  constructor
  · rw [h1]; exact hg.cs
  · rw [h2]; exact hg.zero
  · intro x
    rw [h2, h3, hg.own x, hp]
    constructor
    · rintro (h | ⟨s', h⟩)
      · rcases List.mem_cons.1 h with h | h
        · exact Or.inr ⟨s, (hmem s x).2 (Or.inr ⟨rfl, h⟩)⟩
        · exact Or.inl h
      · exact Or.inr ⟨s', (hmem s' x).2 (Or.inl h)⟩
    · rintro (h | ⟨s', h⟩)
      · exact Or.inl (List.mem_cons_of_mem _ h)
      · rcases (hmem s' x).1 h with h | ⟨_, h⟩
        · exact Or.inr ⟨s', h⟩
        · exact Or.inl (h ▸ List.mem_cons_self)
  · rw [h3]; exact (List.nodup_cons.1 hnd).2
  · rw [h2]; exact hg.allND
  · intro s'
    by_cases h : s' = s
    · subst h; rw [h5]
      rw [List.nodup_append]
      refine ⟨hg.strND _, List.nodup_singleton _, ?_⟩
      intro a ha b hb hab
      simp at hb; subst hb; subst hab
      exact hg.poolDisj _ _ hcp ha
    · rw [h4 s' h]; exact hg.strND s'
  · intro s1 s2 x hx1 hx2
    rcases (hmem s1 x).1 hx1 with a | ⟨a, a'⟩ <;> rcases (hmem s2 x).1 hx2 with b | ⟨b, b'⟩
    · exact hg.strDisj s1 s2 x a b
    · subst b'; exact (hg.poolDisj _ _ hcp a).elim
    · subst a'; exact (hg.poolDisj _ _ hcp b).elim
    · rw [a, b]
  · intro s' x hx hx2
    rw [h3] at hx
    rcases (hmem s' x).1 hx2 with a | ⟨_, a⟩
    · exact hg.poolDisj s' x (hsub x hx) a
    · subst a; exact hcp' hx
  · intro x hx
    rw [h3] at hx
    rw [h6 x hx, h1]; exact hg.poolPriv x (hsub x hx)
  · intro x hx
    rw [h2] at hx; rw [h7]; exact hg.created x hx

theorem append_inv {v : Dev} {s c T : Nat} {pool' : List Nat} {R : Nat → List (Nat × Nat)}
    {A : Nat → Nat → Option Nat} (hg : GInv v)
    (hstr : ∀ s, Str v.cs v.priv v.data s (v.desc s) (R s) (A s))
    (hT : SInv v.cs v.priv s (v.desc s) T) (hp : v.pool = c :: pool')
    (ho : (v.desc s).chunks ≠ [] → T % v.cs ≠ 0) :
    ∃ v1 ws, appendChunk v s = .ok (v1, ws) ∧ v1.cs = v.cs ∧ v1.cap = v.cap ∧ v1.data = v.data ∧
      GInv v1 ∧ (∀ s, Str v1.cs v1.priv v1.data s (v1.desc s) (R s) (A s)) ∧
      (v1.desc s).ds = (v.desc s).ds ∧
      ∃ T1, SInv v1.cs v1.priv s (v1.desc s) T1 ∧ T ≤ T1 ∧ T1 + v1.cs = (v1.desc s).endOff := by
  have hcs := hg.cs
  have hcp : c ∈ v.pool := by rw [hp]; exact List.mem_cons_self
  have hcn : ∀ s', c ∉ (v.desc s').chunks := fun s' h => hg.poolDisj s' c hcp h
  have hnd := hg.poolND
  rw [hp] at hnd
  have hcp' := (List.nodup_cons.1 hnd).1
  have hcpriv := hg.poolPriv c hcp
  obtain ⟨T0, hT0, hR, hA⟩ := hstr s
  have hTT : T0 = T := by
    have h1 := hT.tail; have h2 := hT0.tail; rw [h1] at h2; exact_mod_cast h2.symm
  subst hTT
  by_cases hne : (v.desc s).chunks = []
  · -- first chunk of the stream
    have hN := hT.nil hne
    have hTds : T0 = (v.desc s).ds := by
      have := hT.tail; simp only [Desc.tail, hN.2.1, hN.2.2] at this; omega
    have hRnil : R s = [] := by
      have h1 := hR.sum; rw [hN.2.2] at h1
      rcases hRs : R s with _ | ⟨r, l⟩
      · rfl
      · have h2 := hR.each r (by rw [hRs]; exact List.mem_cons_self)
        rw [hRs] at h1; simp at h1; omega
    have hAnil : ∀ x, A s x = none := by
      intro x
      by_contra h
      obtain ⟨b, hb⟩ := Option.ne_none_iff_exists'.1 h
      have := hA x b hb; omega
    let p := { v.priv c with isHead := true, logdev := s, eoc := v.cs }
    let d1 := { v.desc s with total := (v.desc s).total + v.cs, endOff := (v.desc s).endOff + v.cs,
                              chunks := (v.desc s).chunks ++ [c] }
    refine ⟨{ (v.setPriv c p).setDesc s d1 with pool := pool' }, [.set c p], ?_, rfl, rfl, rfl, ?_, ?_, ?_, ?_⟩
    · unfold appendChunk
      rw [hp]
      have : (v.desc s).chunks.getLast? = none := by rw [hne]; rfl
      simp only [this]
      rfl
    · refine append_own (s := s) hg hp rfl rfl rfl ?_ ?_ ?_ ?_
      · intro s' hs'; simp [Dev.setDesc, Dev.setPriv, upd, hs']
      · simp [Dev.setDesc, upd, d1]
      · intro x hx
        have : x ≠ c := fun h => hcp' (h ▸ hx)
        simp [Dev.setDesc, Dev.setPriv, upd, this]
      · intro x; simp only [Dev.setDesc, Dev.setPriv, upd]
        by_cases h : x = c
        · subst h; simp [p]
        · simp [h]
    · intro s'
      by_cases hs' : s' = s
      · subst hs'
        refine ⟨T0, ?_, ?_, ?_⟩
        · simp only [Dev.setDesc, Dev.setPriv, upd_same]
          refine ⟨hT.tail, ?_, ?_, hT.dsT, ?_, ?_, ?_, ?_, ?_, ?_, ?_⟩
          · simp [d1, hT.total, hne]
          · simp only [d1, hT.endOff, hne]
            simp; ring
          · simp [d1]
          · intro _; simp [d1, hne, hTds]
          · intro i x hi
            simp only [d1, hne, List.nil_append] at hi
            have : i = 0 ∧ x = c := by
              rcases i with _ | i
              · simpa using hi.symm
              · simp at hi
            obtain ⟨rfl, rfl⟩ := this
            simp [upd, p, d1, hne, hcpriv.2.1]
          · intro i x hi _
            have : x = c := by
              have := mem_of_getElem? hi; simpa [d1, hne] using this
            subst this; simp [upd, p]
          · intro i x hi h2; simp [d1, hne] at h2
          · intro x hx
            have : x = c := by
              have := mem_of_getElem? hx; simpa [d1, hne] using this
            subst this; simp [upd, p]
          · intro i x hi h0
            simp only [d1, hne, List.nil_append] at hi
            rcases i with _ | i
            · omega
            · simp at hi
        · rw [hRnil]
          refine ⟨?_, by simp, by simp⟩
          simp [Dev.setDesc, upd, d1, hN.2.2]
        · intro x b hx; rw [hAnil] at hx; cases hx
      · have : ({ (v.setPriv c p).setDesc s d1 with pool := pool' } : Dev).desc s' = v.desc s' := by
          simp [Dev.setDesc, Dev.setPriv, upd, hs']
        rw [this]
        refine (hstr s').congr ?_ (fun _ _ => rfl)
        intro x hx
        have : x ≠ c := fun h => hcn s' (h ▸ hx)
        simp [Dev.setDesc, Dev.setPriv, upd, this]
    · simp [Dev.setDesc, upd, d1]
    · refine ⟨T0, ?_, Nat.le_refl _, ?_⟩
      · simp only [Dev.setDesc, Dev.setPriv, upd_same]
        refine ⟨hT.tail, ?_, ?_, hT.dsT, ?_, ?_, ?_, ?_, ?_, ?_, ?_⟩
        · simp [d1, hT.total, hne]
        · simp only [d1, hT.endOff, hne]
          simp; ring
        · simp [d1]
        · intro _; simp [d1, hne, hTds]
        · intro i x hi
          simp only [d1, hne, List.nil_append] at hi
          have : i = 0 ∧ x = c := by
            rcases i with _ | i
            · simpa using hi.symm
            · simp at hi
          obtain ⟨rfl, rfl⟩ := this
          simp [upd, p, d1, hne, hcpriv.2.1]
        · intro i x hi _
          have : x = c := by
            have := mem_of_getElem? hi; simpa [d1, hne] using this
          subst this; simp [upd, p]
        · intro i x hi h2; simp [d1, hne] at h2
        · intro x hx
          have : x = c := by
            have := mem_of_getElem? hx; simpa [d1, hne] using this
          subst this; simp [upd, p]
        · intro i x hi h0
          simp only [d1, hne, List.nil_append] at hi
          rcases i with _ | i
          · omega
          · simp at hi
      · simp only [Dev.setDesc, upd_same, d1, hT.endOff, hne, Dev.setPriv]
        have h1 := mod_eq (v.desc s).ds v.cs
        simp; rw [hTds]; omega
  · -- another chunk
    have ho' := ho hne
    obtain ⟨last, hlast⟩ : ∃ last, (v.desc s).chunks.getLast? = some last := by
      cases h : (v.desc s).chunks.getLast? with
      | none => exact absurd (List.getLast?_eq_none_iff.1 h) hne
      | some x => exact ⟨x, rfl⟩
    have hlen : 0 < (v.desc s).chunks.length := List.length_pos_iff.2 hne
    have hlastI : (v.desc s).chunks[(v.desc s).chunks.length - 1]? = some last := by
      rw [← List.getLast?_eq_getElem?]; exact hlast
    have hlmem := mem_of_getElem? hlastI
    have hlc : last ≠ c := fun h => hcn s (h ▸ hlmem)
    have hquo := hT.last hne
    have hTm := mod_eq T0 v.cs
    have hTlt := Nat.mod_lt T0 hcs
    have hsTail := hT.tail
    let o := T0 % v.cs
    let p := { { v.priv last with next := c } with eoc := o }
    let d1 := { v.desc s with total := (v.desc s).total + v.cs, endOff := (v.desc s).endOff + v.cs,
                              chunks := (v.desc s).chunks ++ [c] }
    let d2 := { d1 with wsz := d1.wsz + ((v.cs : Int) - (o : Int)) }
    have hend : (v.desc s).endOff = T0 / v.cs * v.cs + v.cs := by
      rw [hT.endOff, ← hquo, Nat.add_mul]; omega
    have hchk : d1.tailChk = .ok T0 := by
      unfold Desc.tailChk
      have : d1.tail = (T0 : Int) := hsTail
      rw [this, if_pos]
      · simp
      · constructor
        · show (T0 : Int) ≤ ((v.desc s).endOff + v.cs : Nat)
          have : T0 ≤ (v.desc s).endOff + v.cs := by omega
          exact_mod_cast this
        · omega
    have hT1 : SInv v.cs (upd v.priv last p) s d2 (T0 / v.cs * v.cs + v.cs) := by
      have hdv : (T0 / v.cs * v.cs + v.cs) / v.cs = T0 / v.cs + 1 := by
        apply div_unique
        · rw [Nat.add_mul]; omega
        · rw [Nat.add_mul, Nat.add_mul]; omega
      have key : ∀ i x, (v.desc s).chunks[i]? = some x → i + 1 < (v.desc s).chunks.length → x ≠ last := by
        intro i x hi hlt hx
        subst hx
        have hi' : i < (v.desc s).chunks.length := by omega
        have h1 := (List.getElem?_eq_some_iff.1 hi).2
        have h2 := (List.getElem?_eq_some_iff.1 hlastI).2
        have := (List.Nodup.getElem_inj_iff (hg.strND s)).1 (h1.trans h2.symm)
        omega
      refine ⟨?_, ?_, ?_, ?_, ?_, ?_, ?_, ?_, ?_, ?_, ?_⟩
      · simp only [Desc.tail, d2, d1] at hsTail ⊢
        have e : T0 / v.cs * v.cs + v.cs = T0 + (v.cs - o) := by simp only [o]; omega
        have e2 : o < v.cs := hTlt
        rw [e]; omega
      · simp only [d2, d1, hT.total, List.length_append, List.length_singleton]; ring
      · simp only [d2, d1, hT.endOff, List.length_append, List.length_singleton]; ring
      · have := hT.dsT; show (v.desc s).ds ≤ _; omega
      · intro h; simp [d2, d1] at h
      · intro _; rw [hdv]; simp only [d2, d1, List.length_append, List.length_singleton]; omega
      · intro i x hi
        simp only [d2, d1] at hi ⊢
        rcases getElem?_append_one hi with ⟨h, hlt⟩ | ⟨h, hx⟩
        · by_cases hl : i + 1 < (v.desc s).chunks.length
          · rw [upd_ne (key i x h hl), hT.next i x h, List.getElem?_append_left hl]
          · have : i = (v.desc s).chunks.length - 1 := by omega
            subst this
            rw [hlastI] at h; cases h
            rw [upd_same]
            have : (v.desc s).chunks.length - 1 + 1 = (v.desc s).chunks.length := by omega
            rw [this]; simp [p]
        · subst h; subst hx
          rw [upd_ne (Ne.symm hlc), hcpriv.2.1]
          simp
      · intro i x hi hlen'
        simp only [d2, d1, List.length_append, List.length_singleton] at hi hlen'
        rcases getElem?_append_one hi with ⟨h, hlt⟩ | ⟨h, hx⟩
        · omega
        · subst hx; rw [upd_ne (Ne.symm hlc)]; exact hcpriv.2.2
      · intro i x hi hlen'
        simp only [d2, d1, List.length_append, List.length_singleton] at hi hlen'
        rcases getElem?_append_one hi with ⟨h, hlt⟩ | ⟨h, hx⟩
        · by_cases hl : i + 1 < (v.desc s).chunks.length
          · rw [upd_ne (key i x h hl)]; exact hT.eocN i x h hl
          · have hii : i = (v.desc s).chunks.length - 1 := by omega
            subst hii
            rw [hlastI] at h; cases h
            rw [upd_same]
            refine ⟨by simp only [p, o]; omega, by simp only [p, o]; omega, ?_⟩
            intro h0
            simp only [d2, d1, p, o]
            have h1 : (v.desc s).ds / v.cs = T0 / v.cs := by omega
            have := mod_le_of_div_eq (k := 0) h1 hT.dsT
            omega
        · omega
      · intro x hx
        simp only [d2, d1] at hx
        rcases getElem?_append_one hx with ⟨h, hlt⟩ | ⟨h, hx⟩
        · have := hT.head x h
          by_cases hxl : x = last
          · subst hxl; rw [upd_same]; exact this
          · rw [upd_ne hxl]; exact this
        · omega
      · intro i x hi h0
        simp only [d2, d1] at hi
        rcases getElem?_append_one hi with ⟨h, hlt⟩ | ⟨h, hx⟩
        · have := hT.nonhead i x h h0
          by_cases hxl : x = last
          · subst hxl; rw [upd_same]; exact this
          · rw [upd_ne hxl]; exact this
        · subst hx; rw [upd_ne (Ne.symm hlc)]; exact hcpriv.1
    have eocOf : ∀ i x k y, (v.desc s).chunks[i]? = some x → y + k ≤ T0 →
        i = y / v.cs - (v.desc s).ds / v.cs → (v.desc s).ds ≤ y → y % v.cs + k ≤ (v.priv x).eoc →
        y % v.cs + k ≤ (upd v.priv last p x).eoc := by
      intro i x k y hi hk hiy hds hle
      by_cases hxl : x = last
      · subst hxl
        have h1 := (List.getElem?_eq_some_iff.1 hi)
        have h2 := (List.getElem?_eq_some_iff.1 hlastI)
        have h3 := (List.Nodup.getElem_inj_iff (hg.strND s)).1 (h1.2.trans h2.2.symm)
        have hle' : (v.desc s).ds / v.cs ≤ y / v.cs := Nat.div_le_div_right hds
        have h4 : y / v.cs = T0 / v.cs := by omega
        rw [upd_same]
        exact mod_le_of_div_eq h4 hk
      · rw [upd_ne hxl]; exact hle
    refine ⟨{ (v.setPriv last p).setDesc s d2 with pool := pool' }, [.set last p], ?_, rfl, rfl, rfl, ?_, ?_, ?_, ?_⟩
    · unfold appendChunk
      rw [hp]
      simp only [hlast]
      have : ({ v.desc s with total := (v.desc s).total + v.cs, endOff := (v.desc s).endOff + v.cs,
                              chunks := (v.desc s).chunks ++ [c] } : Desc).tailChk = .ok T0 := hchk
      rw [this]
      simp only [if_pos ho']
      rfl
    · refine append_own (s := s) hg hp rfl rfl rfl ?_ ?_ ?_ ?_
      · intro s' hs'; simp [Dev.setDesc, Dev.setPriv, upd, hs']
      · simp [Dev.setDesc, upd, d2, d1]
      · intro x hx
        have : x ≠ last := by
          intro h; subst h
          exact hg.poolDisj s x (by rw [hp]; exact List.mem_cons_of_mem _ hx) hlmem
        simp [Dev.setDesc, Dev.setPriv, upd, this]
      · intro x; simp only [Dev.setDesc, Dev.setPriv, upd]
        by_cases h : x = last
        · subst h; simp [p]
        · simp [h]
    · intro s'
      by_cases hs' : s' = s
      · subst hs'
        refine ⟨T0 / v.cs * v.cs + v.cs, ?_, ?_, ?_⟩
        · simp only [Dev.setDesc, Dev.setPriv, upd_same]; exact hT1
        · simp only [Dev.setDesc, Dev.setPriv, upd_same]
          refine ⟨hR.sum, ?_, hR.disj⟩
          intro r hr
          obtain ⟨a, b, e, k, hk, hk2⟩ := hR.each r hr
          refine ⟨a, b, by omega, k, ?_, ?_⟩
          · show ((v.desc s').chunks ++ [c])[_]? = _
            rw [List.getElem?_append_left (List.getElem?_eq_some_iff.1 hk).1]; exact hk
          · exact eocOf _ k r.2 r.1 hk e rfl b hk2
        · simp only [Dev.setDesc, Dev.setPriv, upd_same]
          intro x b hx
          obtain ⟨h1, h2, ⟨k, hk, hk2, hk3⟩, h4⟩ := hA x b hx
          refine ⟨h1, by omega, ⟨k, ?_, ?_, hk3⟩, h4⟩
          · show ((v.desc s').chunks ++ [c])[_]? = _
            rw [List.getElem?_append_left (List.getElem?_eq_some_iff.1 hk).1]; exact hk
          · exact eocOf _ k 1 x hk h2 rfl h1 hk2
      · have : ({ (v.setPriv last p).setDesc s d2 with pool := pool' } : Dev).desc s' = v.desc s' := by
          simp [Dev.setDesc, Dev.setPriv, upd, hs']
        rw [this]
        refine (hstr s').congr ?_ (fun _ _ => rfl)
        intro x hx
        have : x ≠ last := fun h => hs' (hg.strDisj s' s x hx (h ▸ hlmem))
        simp [Dev.setDesc, Dev.setPriv, upd, this]
    · simp [Dev.setDesc, upd, d2, d1]
    · refine ⟨T0 / v.cs * v.cs + v.cs, ?_, by omega, ?_⟩
      · simp only [Dev.setDesc, Dev.setPriv, upd_same]; exact hT1
      · simp only [Dev.setDesc, upd_same, d2, d1, Dev.setPriv]
        omega

end HS.Journal
