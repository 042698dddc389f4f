import Verif.Prefix.Ops

/-! Copying and moving entries between prefix nodes. -/

namespace HS.Prefix

/-- Number of prefix slots in `l` that are not in `seen`. -/
def newPre : List SE → List Nat → Nat
  | [], _ => 0
  | e :: l, seen => if e.slot ∈ seen then newPre l seen else newPre l (e.slot :: seen) + 1

theorem newPre_cons (e : SE) (l : List SE) (seen : List Nat) :
    newPre (e :: l) seen = if e.slot ∈ seen then newPre l seen else newPre l (e.slot :: seen) + 1 := rfl

theorem lookup_isSome {m : List (Nat × Nat)} {a : Nat} : (lookup m a).isSome = true ↔ a ∈ m.map Prod.fst := by
  simp only [lookup, Option.isSome_map, List.find?_isSome, decide_eq_true_eq, List.mem_map]

theorem lookup_none {m : List (Nat × Nat)} {a : Nat} : lookup m a = none ↔ ¬ a ∈ m.map Prod.fst := by
  rw [← lookup_isSome]
  cases lookup m a <;> simp

theorem lookup_cons (a i : Nat) (m : List (Nat × Nat)) (b : Nat) :
    lookup ((a, i) :: m) b = if a = b then some i else lookup m b := by
  simp only [lookup, List.find?_cons]
  by_cases h : a = b <;> simp [h]

/-- The slot map: the slots it gives are in use and hold what the slots of the source hold. -/
def MapOk (src s : PN) (m : List (Nat × Nat)) : Prop :=
  ∀ a i, lookup m a = some i → s.bit i = true ∧ (s.pre i).kp = (src.pre a).kp ∧ (s.pre i).vp = (src.pre a).vp

/-- A new entry that names a slot just written. -/
theorem push_inv {P : Params} {s : PN} {L : List SE} {i : Nat} (x : PE) (e : SE) (he : e.slot = i) (h : Inv P s L)
    (hb : s.bit i = true) (hi : ∀ e ∈ L, e.slot ≠ i) (hx : 1 ≤ x.ref) :
    Inv P { s with pre := setPre s.pre i x } (e :: L) := by
  subst he
  refine ⟨h.lt, h.tailb, h.used, ?_, ?_⟩
  · intro y hy
    rcases List.mem_cons.mp hy with rfl | hy
    · exact hb
    · exact h.slots y hy
  · intro j
    rw [cnt_cons]
    have := h.refs j
    show _ ≤ (setPre s.pre e.slot x j).ref
    by_cases hj : e.slot = j
    · subst hj
      rw [cnt_zero hi]
      simp [setPre]
      omega
    · have hj' : ¬ j = e.slot := fun hc => hj hc.symm
      simp only [setPre, hj', if_false, hj]
      omega

/-- One entry copied. -/
theorem copyOne_spec {P : Params} {s src t : PN} {m m' : List (Nat × Nat)} {e : SE} (h : Good P s) (hm : MapOk src s m)
    (hr : s.copyOne P src m e = some (m', t)) :
    Good P t ∧ t.ents P = s.ents P ++ [src.ent P e] ∧ MapOk src t m' ∧ t.suf.length = s.suf.length + 1 ∧
      t.tail ≤ s.tail + (if e.slot ∈ m.map Prod.fst then 0 else 1) ∧
      m'.map Prod.fst = (if e.slot ∈ m.map Prod.fst then m.map Prod.fst else e.slot :: m.map Prod.fst) ∧
      (∀ j, s.bit j = true → t.bit j = true) := by
  simp only [PN.copyOne] at hr
  cases hl : lookup m e.slot with
  | none =>
    have hnm := lookup_none.mp hl
    rw [hl] at hr
    simp only at hr
    cases ha : s.alloc P with
    | none => rw [ha] at hr; exact absurd hr (by simp)
    | some r =>
      obtain ⟨i, u⟩ := r
      rw [ha] at hr
      simp only at hr
      obtain ⟨a1, a2, a3, a4, a5, a6, _, _, _, a10, a11⟩ := alloc_spec h.inv ha
      by_cases hf : P.fits u.tail (s.suf.length + 1) = true
      · rw [if_pos hf] at hr
        simp only [Option.some.injEq, Prod.mk.injEq] at hr
        obtain ⟨rfl, rfl⟩ := hr
        have hns := not_slot h.inv a5
        have hinv := push_inv (P := P) { src.pre e.slot with ref := 1 } { e with slot := i } rfl a1 a4 hns (Nat.le_refl _)
        have hsm := (setPre_inv (P := P) (i := i) { src.pre e.slot with ref := 1 } a1 hns).2
        refine ⟨⟨?_, ?_⟩, ?_, ?_, ?_, ?_, ?_, a10⟩
        · show Inv P _ (u.suf ++ [{ e with slot := i }])
          rw [a3]
          exact (hinv.perm (by simpa using (List.perm_append_singleton _ _).symm)).suf
        · show P.fits u.tail (u.suf ++ [{ e with slot := i }]).length = true
          rw [a3]; simpa using hf
        · rw [ents_eq]
          show (u.suf ++ [{ e with slot := i }]).map _ = _
          rw [a3, List.map_append]
          congr 1
          · rw [ents_eq]
            have h2 := hsm.map_ent (P := P)
            have h3 : s.suf.map (u.ent P) = s.suf.map (s.ent P) := by
              apply List.map_congr_left
              intro y hy
              simp [PN.ent, PN.key, PN.val, a2]
            rw [← h3, ← h2]
            rfl
          · simp [PN.ent, PN.key, PN.val, setPre]
        · intro a j hj
          rw [lookup_cons] at hj
          by_cases hea : e.slot = a
          · rw [if_pos hea] at hj
            simp only [Option.some.injEq] at hj
            subst hj hea
            refine ⟨a4, ?_, ?_⟩ <;> simp [setPre]
          · rw [if_neg hea] at hj
            obtain ⟨m1, m2, m3⟩ := hm a j hj
            have hne : j ≠ i := by
              intro hc
              rw [hc, a5] at m1
              exact absurd m1 (by simp)
            refine ⟨a10 j m1, ?_, ?_⟩ <;> simp [setPre, hne, a2, m2, m3]
        · show (u.suf ++ [{ e with slot := i }]).length = _
          rw [a3]; simp
        · rw [if_neg hnm]; exact a6
        · rw [if_neg hnm]; rfl
      · rw [if_neg hf] at hr
        exact absurd hr (by simp)
  | some i =>
    have hmem : e.slot ∈ m.map Prod.fst := lookup_isSome.mp (by rw [hl]; rfl)
    rw [hl] at hr
    simp only at hr
    by_cases hf : P.fits s.tail (s.suf.length + 1) = true
    · rw [if_pos hf] at hr
      simp only [Option.some.injEq, Prod.mk.injEq] at hr
      obtain ⟨rfl, rfl⟩ := hr
      obtain ⟨m1, m2, m3⟩ := hm _ _ hl
      obtain ⟨r1, r2⟩ := ref_inv ({ e with slot := i } : SE) h.inv m1
      refine ⟨⟨?_, ?_⟩, ?_, ?_, ?_, ?_, ?_, fun j hj => hj⟩
      · show Inv P _ (s.suf ++ [{ e with slot := i }])
        exact (r1.perm (by simpa using (List.perm_append_singleton _ _).symm)).suf
      · show P.fits s.tail (s.suf ++ [{ e with slot := i }]).length = true
        simpa using hf
      · rw [ents_eq]
        show (s.suf ++ [{ e with slot := i }]).map _ = _
        rw [List.map_append]
        congr 1
        · rw [ents_eq]
          exact (r2 s.suf).map_ent (P := P)
        · simp [PN.ent, PN.key, PN.val, setPre, m2, m3]
      · intro a j hj
        obtain ⟨n1, n2, n3⟩ := hm a j hj
        refine ⟨n1, ?_, ?_⟩
        · simp only [setPre]
          split
          · rename_i hc; subst hc; exact n2
          · exact n2
        · simp only [setPre]
          split
          · rename_i hc; subst hc; exact n3
          · exact n3
      · show (s.suf ++ [{ e with slot := i }]).length = _
        simp
      · rw [if_pos hmem]; exact Nat.le_refl _
      · rw [if_pos hmem]
    · rw [if_neg hf] at hr
      exact absurd hr (by simp)

theorem copyOne_isSome {P : Params} {s src : PN} {m : List (Nat × Nat)} {e : SE} (h : Good P s)
    (hb : s.tail < P.bits) (hf : P.fits (s.tail + (if e.slot ∈ m.map Prod.fst then 0 else 1)) (s.suf.length + 1) = true) :
    ∃ r, s.copyOne P src m e = some r := by
  simp only [PN.copyOne]
  cases hl : lookup m e.slot with
  | none =>
    rw [if_neg (lookup_none.mp hl)] at hf
    obtain ⟨i, u, ha⟩ := alloc_isSome h.inv (Or.inl hb)
    obtain ⟨_, _, _, _, _, a6, _⟩ := alloc_spec h.inv ha
    simp only [ha]
    rw [if_pos (fits_mono hf a6 (Nat.le_refl _))]
    exact ⟨_, rfl⟩
  | some i =>
    rw [if_pos (lookup_isSome.mp (by rw [hl]; rfl)), Nat.add_zero] at hf
    simp only
    rw [if_pos hf]
    exact ⟨_, rfl⟩

/-- The loop of a copy: what is appended are the first entries it is given, as many as it says. -/
theorem copyLoop_spec {P : Params} {src : PN} {bySize : Bool} {limit n0 : Nat} : ∀ (l : List SE) (s : PN) (m : List (Nat × Nat))
    (num size num' size' : Nat) (t : PN), Good P s → MapOk src s m →
    PN.copyLoop P src bySize limit n0 l s m num size = some (num', size', t) →
    ∃ k, k ≤ l.length ∧ num' = num + k ∧ Good P t ∧ t.ents P = s.ents P ++ (l.take k).map (src.ent P) ∧
      (bySize = false → num ≤ limit → num' ≤ limit) ∧
      (bySize = false → size' = size + newPre (l.take k) (m.map Prod.fst) * P.ps + k * P.ss) ∧
      (bySize = true → size ≤ limit → size + newPre (l.take k) (m.map Prod.fst) * P.ps + k * P.ss ≤ limit)
  | [], s, m, num, size, num', size', t, h, hm, hr => by
    simp only [PN.copyLoop, Option.some.injEq, Prod.mk.injEq] at hr
    obtain ⟨rfl, rfl, rfl⟩ := hr
    exact ⟨0, Nat.le_refl _, rfl, h, by simp, fun _ h => h, fun _ => by simp [newPre], fun _ h => by simpa [newPre] using h⟩
  | e :: l, s, m, num, size, num', size', t, h, hm, hr => by
    unfold PN.copyLoop at hr
    split at hr
    · by_cases h1 : bySize = false ∧ limit ≤ num
      · rw [if_pos h1] at hr
        simp only [Option.some.injEq, Prod.mk.injEq] at hr
        obtain ⟨rfl, rfl, rfl⟩ := hr
        exact ⟨0, Nat.zero_le _, rfl, h, by simp, fun _ h => h, fun _ => by simp [newPre], fun _ h => by simpa [newPre] using h⟩
      · rw [if_neg h1] at hr
        simp only at hr
        by_cases h2 : bySize = true ∧ limit < size + (if (lookup m e.slot).isSome = true then P.ss else P.ps + P.ss)
        · rw [if_pos h2] at hr
          simp only [Option.some.injEq, Prod.mk.injEq] at hr
          obtain ⟨rfl, rfl, rfl⟩ := hr
          refine ⟨0, Nat.zero_le _, rfl, h, by simp, fun _ h => h, fun hb => ?_, fun _ h => by simpa [newPre] using h⟩
          rw [h2.1] at hb
          exact absurd hb (by simp)
        · rw [if_neg h2] at hr
          cases hc : s.copyOne P src m e with
          | none => rw [hc] at hr; exact absurd hr (by simp)
          | some r =>
            obtain ⟨m', u⟩ := r
            rw [hc] at hr
            simp only at hr
            obtain ⟨c1, c2, c3, c4, c5, c6, _⟩ := copyOne_spec h hm hc
            obtain ⟨k, k1, k2, k3, k4, k5, k6, k7⟩ := copyLoop_spec l u m' _ _ num' size' t c1 c3 hr
            -- what this entry costs
            have hcost : (if (lookup m e.slot).isSome = true then P.ss else P.ps + P.ss) + (newPre (l.take k) (m'.map Prod.fst) * P.ps + k * P.ss)
                = newPre ((e :: l).take (k + 1)) (m.map Prod.fst) * P.ps + (k + 1) * P.ss := by
              rw [List.take_succ_cons, newPre_cons, c6]
              by_cases hmem : e.slot ∈ m.map Prod.fst
              · rw [if_pos hmem, if_pos hmem, if_pos (lookup_isSome.mpr hmem), Nat.add_mul]
                omega
              · rw [if_neg hmem, if_neg hmem, if_neg (fun hcc => hmem (lookup_isSome.mp hcc)), Nat.add_mul, Nat.add_mul]
                omega
            refine ⟨k + 1, by simp; omega, by omega, k3, ?_, ?_, ?_, ?_⟩
            · rw [k4, c2]; simp
            · intro hb hn
              apply k5 hb
              have : ¬ limit ≤ num := fun hcc => h1 ⟨hb, hcc⟩
              omega
            · intro hb
              rw [k6 hb]
              omega
            · intro hb hs
              have : ¬ limit < size + (if (lookup m e.slot).isSome = true then P.ss else P.ps + P.ss) := fun hcc => h2 ⟨hb, hcc⟩
              have := k7 hb (by omega)
              omega
    · simp only [Option.some.injEq, Prod.mk.injEq] at hr
      obtain ⟨rfl, rfl, rfl⟩ := hr
      exact ⟨0, Nat.zero_le _, rfl, h, by simp, fun _ h => h, fun _ => by simp [newPre], fun _ h => by simpa [newPre] using h⟩

/-- The loop of a copy by number of entries copies all of them if there is room for them behind what
is there, and for one more prefix. -/
theorem copyLoop_all {P : Params} (hP : P.Ok) {src : PN} {limit n0 : Nat} : ∀ (l : List SE) (s : PN) (m : List (Nat × Nat))
    (num size : Nat), Good P s → MapOk src s m → num + l.length ≤ limit → n0 ≤ s.suf.length →
    P.fits (s.tail + newPre l (m.map Prod.fst)) (s.suf.length + l.length) = true →
    P.fits (s.tail + newPre l (m.map Prod.fst) + 1) (n0 + 1) = true →
    ∃ size' t, PN.copyLoop P src false limit n0 l s m num size = some (num + l.length, size', t)
  | [], s, m, num, size, _, _, _, _, _, _ => ⟨_, _, rfl⟩
  | e :: l, s, m, num, size, h, hm, hlim, hn0, hf1, hf2 => by
    unfold PN.copyLoop
    have hroom : P.fits (s.tail + 1) (n0 + 1) = true := fits_mono hf2 (by omega) (Nat.le_refl _)
    have hroom' := hroom
    simp only [Params.fits, decide_eq_true_eq] at hroom'
    have hbits : s.tail < P.bits := by
      by_cases hc : s.tail < P.bits
      · exact hc
      · exfalso
        have h1 : (P.bits + 1) * P.ps ≤ (s.tail + 1) * P.ps := Nat.mul_le_mul_right _ (by omega)
        have := hP.room
        have h2 : (n0 + 1) * P.ss = n0 * P.ss + P.ss := by rw [Nat.add_mul]; omega
        omega
    rw [if_pos (by
      have h2 : (n0 + 1) * P.ss = n0 * P.ss + P.ss := by rw [Nat.add_mul]; omega
      have h3 : (s.tail + 1) * P.ps = s.tail * P.ps + P.ps := by rw [Nat.add_mul]; omega
      omega)]
    rw [if_neg (by simp only [List.length_cons] at hlim; omega)]
    simp only
    rw [if_neg (by simp)]
    have hle : s.tail + (if e.slot ∈ m.map Prod.fst then 0 else 1) ≤ s.tail + newPre (e :: l) (m.map Prod.fst) := by
      rw [newPre_cons]
      split <;> omega
    obtain ⟨⟨m', u⟩, hc⟩ := copyOne_isSome (src := src) (m := m) (e := e) h hbits (fits_mono hf1 hle (by simp))
    rw [hc]
    simp only
    obtain ⟨c1, c2, c3, c4, c5, c6, _⟩ := copyOne_spec h hm hc
    have hnp : u.tail + newPre l (m'.map Prod.fst) ≤ s.tail + newPre (e :: l) (m.map Prod.fst) := by
      rw [c6, newPre_cons]
      split
      · rename_i hmem; rw [if_pos hmem] at c5; omega
      · rename_i hmem; rw [if_neg hmem] at c5; omega
    have hl1 : num + 1 + l.length ≤ limit := by simp only [List.length_cons] at hlim; omega
    have hl2 : n0 ≤ u.suf.length := by omega
    obtain ⟨sz, t, ht⟩ := copyLoop_all hP l u m' (num + 1) (size + (if (lookup m e.slot).isSome = true then P.ss else P.ps + P.ss)) c1 c3 hl1 hl2
      (fits_mono hf1 hnp (by rw [c4]; simp; omega)) (fits_mono hf2 (by omega) (Nat.le_refl _))
    refine ⟨sz, t, ?_⟩
    rw [ht]
    simp only [List.length_cons]
    congr 2
    omega

/-- The loop of a copy by size does not destroy the node if the size is not more than what is free. -/
theorem copyLoop_size_isSome {P : Params} (hP : P.Ok) {src : PN} {limit n0 : Nat} : ∀ (l : List SE) (s : PN) (m : List (Nat × Nat))
    (num size : Nat), Good P s → MapOk src s m → s.tail * P.ps + (P.base + s.suf.length * P.ss) + limit ≤ P.data + size →
    ∃ r, PN.copyLoop P src true limit n0 l s m num size = some r
  | [], s, m, num, size, _, _, _ => ⟨_, rfl⟩
  | e :: l, s, m, num, size, h, hm, hsz => by
    unfold PN.copyLoop
    split
    · rename_i hroom
      rw [if_neg (by simp)]
      simp only
      by_cases hlim : True ∧ limit < size + (if (lookup m e.slot).isSome = true then P.ss else P.ps + P.ss)
      · rw [if_pos hlim]
        exact ⟨_, rfl⟩
      · rw [if_neg hlim]
        have hbits : s.tail < P.bits := by
          by_cases hc : s.tail < P.bits
          · exact hc
          · exfalso
            have h1 : (P.bits + 1) * P.ps ≤ (s.tail + 1) * P.ps := Nat.mul_le_mul_right _ (by omega)
            have := hP.room
            simp only [Nat.add_mul] at h1 this
            have h0 := h.fits
            simp only [Params.fits, decide_eq_true_eq] at h0
            omega
        have hlim' : size + (if (lookup m e.slot).isSome = true then P.ss else P.ps + P.ss) ≤ limit := by
          by_cases hc : size + (if (lookup m e.slot).isSome = true then P.ss else P.ps + P.ss) ≤ limit
          · exact hc
          · exact absurd ⟨trivial, by omega⟩ hlim
        have hcost : (s.tail + (if e.slot ∈ m.map Prod.fst then 0 else 1)) * P.ps + (P.base + (s.suf.length + 1) * P.ss) + limit ≤
            P.data + (size + (if (lookup m e.slot).isSome = true then P.ss else P.ps + P.ss)) := by
          by_cases hmem : e.slot ∈ m.map Prod.fst
          · rw [if_pos hmem, if_pos (lookup_isSome.mpr hmem)]
            simp only [Nat.add_mul]
            omega
          · rw [if_neg hmem, if_neg (fun hcc => hmem (lookup_isSome.mp hcc))]
            simp only [Nat.add_mul]
            omega
        obtain ⟨⟨m', u⟩, hc⟩ := copyOne_isSome (src := src) (m := m) (e := e) h hbits (by
          simp only [Params.fits, decide_eq_true_eq]
          omega)
        rw [hc]
        simp only
        obtain ⟨c1, c2, c3, c4, c5, c6, _⟩ := copyOne_spec h hm hc
        refine copyLoop_size_isSome hP l u m' _ _ c1 c3 ?_
        have h1 : u.tail * P.ps ≤ (s.tail + (if e.slot ∈ m.map Prod.fst then 0 else 1)) * P.ps := Nat.mul_le_mul_right _ c5
        rw [c4]
        omega
    · exact ⟨_, rfl⟩

theorem mapOk_nil (src s : PN) : MapOk src s [] := by
  intro a i h
  simp [lookup] at h

theorem drop_map (P : Params) (src : PN) (start : Nat) : (src.suf.drop start).map (src.ent P) = (src.ents P).drop start := by
  rw [ents_eq, List.map_drop]

/-- `copy_internal`. -/
theorem copyInternal_spec {P : Params} {s src t : PN} {start limit num size : Nat} {bySize : Bool} (h : Good P s)
    (hr : s.copyInternal P src start bySize limit = some (num, size, t)) :
    num ≤ (src.ents P).length - start ∧ Good P t ∧ t.ents P = s.ents P ++ ((src.ents P).drop start).take num ∧
      (bySize = false → num ≤ limit) := by
  simp only [PN.copyInternal] at hr
  obtain ⟨k, k1, k2, k3, k4, k5, _⟩ := copyLoop_spec _ _ _ _ _ _ _ _ h (mapOk_nil src s) hr
  rw [Nat.zero_add] at k2
  subst k2
  refine ⟨?_, k3, ?_, fun hb => k5 hb (Nat.zero_le _)⟩
  · rw [ents_length]; simpa using k1
  · rw [k4, List.map_take, drop_map]

/-- `copy_by_size`. -/
theorem copyBySize_spec {P : Params} {s src t : PN} {start size num : Nat} (h : Good P s)
    (hr : s.copyBySize P src start size = some (num, t)) :
    num ≤ (src.ents P).length - start ∧ Good P t ∧ t.ents P = s.ents P ++ ((src.ents P).drop start).take num ∧
      newPre ((src.suf.drop start).take num) [] * P.ps + num * P.ss ≤ size := by
  simp only [PN.copyBySize] at hr
  cases hc : s.copyInternal P src start true size with
  | none => rw [hc] at hr; exact absurd hr (by simp)
  | some r =>
    obtain ⟨n, sz, u⟩ := r
    rw [hc] at hr
    simp only [Option.map_some, Option.some.injEq, Prod.mk.injEq] at hr
    obtain ⟨rfl, rfl⟩ := hr
    obtain ⟨c1, c2, c3, _⟩ := copyInternal_spec h hc
    refine ⟨c1, c2, c3, ?_⟩
    simp only [PN.copyInternal] at hc
    obtain ⟨k, k1, k2, k3, k4, k5, k6, k7⟩ := copyLoop_spec _ _ _ _ _ _ _ _ h (mapOk_nil src s) hc
    rw [Nat.zero_add] at k2
    subst k2
    have := k7 rfl (Nat.zero_le _)
    simpa using this

theorem copyBySize_isSome {P : Params} (hP : P.Ok) {s src : PN} {start size : Nat} (h : Good P s) (hsz : size ≤ s.avail P) :
    ∃ r, s.copyBySize P src start size = some r := by
  have hf := h.fits
  simp only [Params.fits, decide_eq_true_eq] at hf
  obtain ⟨r, hr⟩ := copyLoop_size_isSome hP (src := src) (limit := size) (n0 := s.suf.length) (src.suf.drop start) s [] 0 0 h
    (mapOk_nil _ _) (by simp only [PN.avail] at hsz; omega)
  exact ⟨(r.1, r.2.2), by simp only [PN.copyBySize, PN.copyInternal, hr, Option.map_some]⟩

/-- `copy_by_entries`. -/
theorem copyByEntries_spec {P : Params} {s src t : PN} {start n sz : Nat} (h : Good P s)
    (hr : s.copyByEntries P src start n = some (sz, t)) :
    ∃ num, num ≤ n ∧ num ≤ (src.ents P).length - start ∧ Good P t ∧ t.ents P = s.ents P ++ ((src.ents P).drop start).take num ∧
      sz = newPre ((src.suf.drop start).take num) [] * P.ps + num * P.ss := by
  simp only [PN.copyByEntries] at hr
  by_cases hn : n = 0
  · rw [if_pos hn] at hr
    simp only [Option.some.injEq, Prod.mk.injEq] at hr
    obtain ⟨rfl, rfl⟩ := hr
    exact ⟨0, by omega, Nat.zero_le _, h, by simp, by simp [newPre]⟩
  · rw [if_neg hn] at hr
    have hpre : ∀ u, (if (!s.hasRoom P (n % 65536) && s.hasRoomC P (n % 65536)) = true then s.compact P else some s) = some u →
        Good P u ∧ u.ents P = s.ents P := by
      intro u hu
      split at hu
      · obtain ⟨v, v1, v2, v3, _⟩ := compact_good h
        rw [v1] at hu
        simp only [Option.some.injEq] at hu
        subst hu
        exact ⟨v2, v3⟩
      · simp only [Option.some.injEq] at hu
        subst hu
        exact ⟨h, rfl⟩
    cases hu : (if (!s.hasRoom P (n % 65536) && s.hasRoomC P (n % 65536)) = true then s.compact P else some s) with
    | none => rw [hu] at hr; exact absurd hr (by simp)
    | some u =>
      obtain ⟨u1, u2⟩ := hpre u hu
      rw [hu] at hr
      simp only at hr
      cases hc : u.copyInternal P src start false n with
      | none => rw [hc] at hr; exact absurd hr (by simp)
      | some r =>
        obtain ⟨num, size, w⟩ := r
        rw [hc] at hr
        simp only [Option.map_some, Option.some.injEq, Prod.mk.injEq] at hr
        obtain ⟨rfl, rfl⟩ := hr
        obtain ⟨c1, c2, c3, c4⟩ := copyInternal_spec u1 hc
        refine ⟨num, c4 rfl, c1, c2, by rw [c3, u2], ?_⟩
        simp only [PN.copyInternal] at hc
        obtain ⟨k, k1, k2, k3, k4, k5, k6, k7⟩ := copyLoop_spec _ _ _ _ _ _ _ _ u1 (mapOk_nil src u) hc
        rw [Nat.zero_add] at k2
        subst k2
        have := k6 rfl
        simpa using this

/-- `copy_by_entries` copies everything that is asked for into a node without holes that has room for
it, and for one more prefix. -/
theorem copyByEntries_all {P : Params} (hP : P.Ok) {s src : PN} {start n : Nat} (h : Good P s)
    (hn : src.suf.length - start ≤ n) (hh : s.holes = 0)
    (hf1 : newPre (src.suf.drop start) [] * P.ps + (src.suf.length - start) * P.ss ≤ s.avail P)
    (hf2 : (newPre (src.suf.drop start) [] + 1) * P.ps + P.ss ≤ s.avail P) :
    ∃ sz t, s.copyByEntries P src start n = some (sz, t) ∧ Good P t ∧ t.ents P = s.ents P ++ (src.ents P).drop start := by
  have hfit := h.fits
  simp only [Params.fits, decide_eq_true_eq] at hfit
  have hnocomp : (!s.hasRoom P (n % 65536) && s.hasRoomC P (n % 65536)) = false := by
    have : s.hasRoomC P (n % 65536) = s.hasRoom P (n % 65536) := by
      simp only [PN.hasRoomC, PN.hasRoom, PN.availC, hh, Nat.zero_mul, Nat.add_zero]
    rw [this]
    cases s.hasRoom P (n % 65536) <;> rfl
  by_cases h0 : n = 0
  · refine ⟨0, s, by simp [PN.copyByEntries, h0], h, ?_⟩
    have : (src.ents P).length ≤ start := by rw [ents_length]; omega
    rw [List.drop_eq_nil_of_le this, List.append_nil]
  · have hlen : (src.suf.drop start).length = src.suf.length - start := by simp
    simp only [PN.avail] at hf1 hf2
    obtain ⟨sz, t, ht⟩ := copyLoop_all hP (src := src) (limit := n) (n0 := s.suf.length) (src.suf.drop start) s [] 0 0 h (mapOk_nil _ _)
      (by rw [hlen]; omega) (Nat.le_refl _)
      (by
        simp only [Params.fits, decide_eq_true_eq, hlen, List.map_nil, Nat.add_mul]
        by_cases hz : newPre (src.suf.drop start) [] * P.ps + (src.suf.length - start) * P.ss = 0
        · omega
        · omega)
      (by
        simp only [Params.fits, decide_eq_true_eq, List.map_nil]
        simp only [Nat.add_mul] at hf2 ⊢
        by_cases hz : newPre (src.suf.drop start) [] * P.ps + 1 * P.ps + P.ss = 0
        · omega
        · omega)
    have hr : s.copyByEntries P src start n = some (sz, t) := by
      simp only [PN.copyByEntries, h0, if_false, hnocomp]
      simp only [Bool.false_eq_true, if_false, PN.copyInternal, ht, Option.map_some]
    refine ⟨sz, t, hr, ?_⟩
    obtain ⟨k, k1, k2, k3, k4, _⟩ := copyLoop_spec _ _ _ _ _ _ _ _ h (mapOk_nil src s) ht
    have hk : k = (src.suf.drop start).length := by omega
    refine ⟨k3, ?_⟩
    rw [k4, hk, List.take_length, drop_map]

/-! ## Moves -/

theorem moveLoop_spec {P : Params} {bySize : Bool} {limit : Nat} (src : PN) : ∀ (l : List SE) (s d : PN) (m : List (Nat × Nat))
    (mv : List SE) (size : Nat) (s' d' : PN) (mv' : List SE) (size' : Nat), Inv P s l → Inv P d mv → MapOk src d m →
    (∀ i, (s.pre i).kp = (src.pre i).kp ∧ (s.pre i).vp = (src.pre i).vp) →
    (bySize = false → mv.length ≤ limit) → 
    PN.moveLoop P bySize limit l s d m mv size = some (s', d', mv', size') →
    ∃ k, k ≤ l.length ∧ mv'.length = mv.length + k ∧ Inv P s' (l.drop k) ∧ Inv P d' mv' ∧ s'.tail ≤ s.tail ∧
      (∀ i, (s'.pre i).kp = (src.pre i).kp ∧ (s'.pre i).vp = (src.pre i).vp) ∧
      mv'.map (d'.ent P) = ((l.take k).reverse).map (src.ent P) ++ mv.map (d.ent P) ∧
      (bySize = false → mv'.length ≤ limit ∧ (mv'.length = limit ∨ k = l.length)) ∧
      (bySize = true → size ≤ limit → l ≠ [] → 0 < k)
  | [], s, d, m, mv, size, s', d', mv', size', h, hd, hm, hp, hlim, hr => by
    simp only [PN.moveLoop, Option.some.injEq, Prod.mk.injEq] at hr
    obtain ⟨rfl, rfl, rfl, rfl⟩ := hr
    exact ⟨0, Nat.le_refl _, rfl, h, hd, Nat.le_refl _, hp, by simp, fun hb => ⟨hlim hb, Or.inr rfl⟩, fun _ _ h => absurd rfl h⟩
  | e :: l, s, d, m, mv, size, s', d', mv', size', h, hd, hm, hp, hlim, hr => by
    unfold PN.moveLoop at hr
    by_cases h1 : (bySize = true ∧ limit < size) ∨ (bySize = false ∧ mv.length = limit)
    · rw [if_pos h1] at hr
      simp only [Option.some.injEq, Prod.mk.injEq] at hr
      obtain ⟨rfl, rfl, rfl, rfl⟩ := hr
      refine ⟨0, Nat.zero_le _, rfl, h, hd, Nat.le_refl _, hp, by simp, fun hb => ⟨hlim hb, ?_⟩, fun hb hs _ => ?_⟩
      · rcases h1 with h1 | h1
        · rw [h1.1] at hb; exact absurd hb (by simp)
        · exact Or.inl h1.2
      · rcases h1 with h1 | h1
        · omega
        · rw [h1.1] at hb; exact absurd hb (by simp)
    · rw [if_neg h1] at hr
      obtain ⟨u, u1, u2, u3, u4, u5, _⟩ := deref_spec e h
      have hpu : ∀ i, (u.pre i).kp = (src.pre i).kp ∧ (u.pre i).vp = (src.pre i).vp := by
        intro i
        have := u3 [⟨i, 0, 0⟩] ⟨i, 0, 0⟩ (by simp)
        exact ⟨this.1.trans (hp i).1, this.2.trans (hp i).2⟩
      -- the destination after this entry
      have hdst : ∀ i m' d1 sz, (match lookup m e.slot with
          | none =>
            match d.alloc P with
            | none => none
            | some (i, t) =>
              some (i, (e.slot, i) :: m, { t with pre := setPre t.pre i { s.pre e.slot with ref := 1 } }, size + P.ps)
          | some i => some (i, m, d.ref i, size)) = some (i, m', d1, sz) →
          Inv P d1 ({ e with slot := i } :: mv) ∧ MapOk src d1 m' ∧
            ({ e with slot := i } :: mv).map (d1.ent P) = src.ent P e :: mv.map (d.ent P) := by
        intro i m' d1 sz hx
        cases hl : lookup m e.slot with
        | none =>
          rw [hl] at hx
          simp only at hx
          cases ha : d.alloc P with
          | none => rw [ha] at hx; exact absurd hx (by simp)
          | some r =>
            obtain ⟨j, t⟩ := r
            rw [ha] at hx
            simp only [Option.some.injEq, Prod.mk.injEq] at hx
            obtain ⟨rfl, rfl, rfl, rfl⟩ := hx
            obtain ⟨a1, a2, a3, a4, a5, a6, _, _, _, a10, a11⟩ := alloc_spec hd ha
            have hns := not_slot hd a5
            have hsm := (setPre_inv (P := P) (i := j) { s.pre e.slot with ref := 1 } a1 hns).2
            refine ⟨push_inv _ _ rfl a1 a4 hns (Nat.le_refl _), ?_, ?_⟩
            · intro a i hi
              rw [lookup_cons] at hi
              by_cases hea : e.slot = a
              · rw [if_pos hea] at hi
                simp only [Option.some.injEq] at hi
                subst hi hea
                refine ⟨a4, ?_, ?_⟩ <;> simp [setPre, hp]
              · rw [if_neg hea] at hi
                obtain ⟨m1, m2, m3⟩ := hm a i hi
                have hne : i ≠ j := by
                  intro hc
                  rw [hc, a5] at m1
                  exact absurd m1 (by simp)
                refine ⟨a10 i m1, ?_, ?_⟩ <;> simp [setPre, hne, a2, m2, m3]
            · rw [List.map_cons]
              congr 1
              · simp [PN.ent, PN.key, PN.val, setPre, hp]
              · have h3 : mv.map (t.ent P) = mv.map (d.ent P) := by
                  apply List.map_congr_left
                  intro y hy
                  simp [PN.ent, PN.key, PN.val, a2]
                rw [← h3]
                exact hsm.map_ent (P := P)
        | some j =>
          rw [hl] at hx
          simp only [Option.some.injEq, Prod.mk.injEq] at hx
          obtain ⟨rfl, rfl, rfl, rfl⟩ := hx
          obtain ⟨m1, m2, m3⟩ := hm _ _ hl
          obtain ⟨r1, r2⟩ := ref_inv ({ e with slot := j } : SE) hd m1
          have r2' : ∀ L', Same d (d.ref j) L' := r2
          refine ⟨r1, ?_, ?_⟩
          · intro a i hi
            obtain ⟨n1, n2, n3⟩ := hm a i hi
            have := r2' [⟨i, 0, 0⟩] ⟨i, 0, 0⟩ (by simp)
            exact ⟨n1, this.1.trans n2, this.2.trans n3⟩
          · rw [List.map_cons, (r2' mv).map_ent]
            congr 1
            simp [PN.ent, PN.key, PN.val, PN.ref, setPre, m2, m3]
      split at hr
      · exact absurd hr (by simp)
      · rename_i i m' d1 sz hx
        obtain ⟨q1, q2, q3⟩ := hdst i m' d1 sz hx
        rw [u1] at hr
        simp only at hr
        obtain ⟨k, k1, k2, k3, k4, k5, k6, k7, k8, k9⟩ := moveLoop_spec src l u d1 m' _ _ s' d' mv' size' u2 q1 q2 hpu
          (fun hb => by
            have := hlim hb
            have : mv.length ≠ limit := fun hc => h1 (Or.inr ⟨hb, hc⟩)
            simp only [List.length_cons]
            omega) hr
        refine ⟨k + 1, by simp; omega, by simp only [List.length_cons] at k2; omega, k3, k4, by omega, k6, ?_, ?_, fun _ _ _ => by omega⟩
        · rw [k7, q3]; simp
        · intro hb
          refine ⟨(k8 hb).1, ?_⟩
          rcases (k8 hb).2 with h | h
          · exact Or.inl h
          · right; simp [h]

/-- The number of entries that a move takes is told by the destination. -/
theorem moveOut_spec {P : Params} {s d s' d' : PN} {bySize : Bool} {limit r : Nat} (h : Good P s) (hd : Good P d)
    (hr : s.moveOut P d bySize limit = some (r, s', d')) :
    ∃ k, k ≤ (s.ents P).length ∧ Good P s' ∧ Good P d' ∧ s'.ents P = (s.ents P).take ((s.ents P).length - k) ∧
      d'.ents P = (s.ents P).drop ((s.ents P).length - k) ++ d.ents P ∧ (k = 0 ∨ d.ents P = []) ∧
      (bySize = true → r = k ∧ (d.occupied P ≤ limit → s.ents P ≠ [] → 0 < k)) ∧
      (bySize = false → k = min limit (s.ents P).length) := by
  have hne : s.ents P = [] ↔ s.suf = [] := by simp [PN.ents]
  simp only [PN.moveOut] at hr
  by_cases h0 : s.suf = []
  · rw [if_pos h0] at hr
    simp only [Option.some.injEq, Prod.mk.injEq] at hr
    obtain ⟨rfl, rfl, rfl⟩ := hr
    have he := hne.mpr h0
    refine ⟨0, Nat.zero_le _, h, hd, by simp, by simp, Or.inl rfl, fun hb => ⟨by simp [hb], fun _ hc => absurd he hc⟩, fun _ => ?_⟩
    rw [he]; simp
  · rw [if_neg h0] at hr
    by_cases h1 : d.suf = []
    · rw [if_neg (by simpa using h1)] at hr
      cases hm : PN.moveLoop P bySize limit s.suf.reverse s d [] [] (d.occupied P) with
      | none => rw [hm] at hr; exact absurd hr (by simp)
      | some x =>
        obtain ⟨u, v, mv, size⟩ := x
        rw [hm] at hr
        simp only at hr
        have hdi := hd.inv
        rw [h1] at hdi
        obtain ⟨k, k1, k2, k3, k4, k5, k6, k7, k8, k9⟩ := moveLoop_spec s s.suf.reverse s d [] [] _ u v mv size
          (h.inv.perm (List.reverse_perm _).symm) hdi (mapOk_nil _ _) (fun i => ⟨rfl, rfl⟩) (fun _ => Nat.zero_le _) hm
        simp only [List.length_nil, Nat.zero_add] at k2
        simp only [List.length_reverse] at k1
        by_cases hf : P.fits v.tail mv.length = true
        · rw [if_pos hf] at hr
          -- the source before the compaction
          have hdrop : (s.suf.reverse.drop k).reverse = s.suf.take (s.suf.length - k) := by
            rw [List.drop_reverse, List.reverse_reverse]
          have hgs : Good P ({ u with suf := s.suf.take (s.suf.length - mv.length) } : PN) := by
            refine ⟨?_, ?_⟩
            · show Inv P _ (s.suf.take (s.suf.length - mv.length))
              rw [k2, ← hdrop]
              exact (k3.perm (List.reverse_perm _).symm).suf
            · show P.fits u.tail (s.suf.take (s.suf.length - mv.length)).length = true
              exact fits_mono h.fits k5 (by simp)
          have hes : ({ u with suf := s.suf.take (s.suf.length - mv.length) } : PN).ents P = (s.ents P).take ((s.ents P).length - k) := by
            rw [ents_eq, ents_length]
            show (s.suf.take (s.suf.length - mv.length)).map _ = _
            rw [k2, List.map_take, ents_eq]
            congr 1
            apply List.map_congr_left
            intro y hy
            simp [PN.ent, PN.key, PN.val, k6]
          have hed : (({ v with suf := mv } : PN)).ents P = (s.ents P).drop ((s.ents P).length - k) ++ d.ents P := by
            rw [ents_eq]
            show mv.map (v.ent P) = _
            rw [k7, ents_length, ents_eq, List.take_reverse, List.reverse_reverse, List.map_drop, ents_eq, h1]
          have hgd : Good P ({ v with suf := mv } : PN) := ⟨k4.suf, hf⟩
          have hcomp : ∀ w, (if 10 < ({ u with suf := s.suf.take (s.suf.length - mv.length) } : PN).holes then
              ({ u with suf := s.suf.take (s.suf.length - mv.length) } : PN).compact P
              else some ({ u with suf := s.suf.take (s.suf.length - mv.length) } : PN)) = some w →
              Good P w ∧ w.ents P = (s.ents P).take ((s.ents P).length - k) := by
            intro w hw
            split at hw
            · obtain ⟨z, z1, z2, z3, _⟩ := compact_good hgs
              rw [z1] at hw
              simp only [Option.some.injEq] at hw
              subst hw
              exact ⟨z2, z3.trans hes⟩
            · simp only [Option.some.injEq] at hw
              subst hw
              exact ⟨hgs, hes⟩
          split at hr
          · exact absurd hr (by simp)
          · rename_i w hw
            obtain ⟨w1, w2⟩ := hcomp w hw
            simp only [Option.some.injEq, Prod.mk.injEq] at hr
            obtain ⟨rfl, rfl, rfl⟩ := hr
            refine ⟨k, by rw [ents_length]; exact k1, w1, hgd, w2, hed, Or.inr (by simp [PN.ents, h1]), fun hb => ⟨by simp [hb, k2], fun hl _ => ?_⟩, fun hb => ?_⟩
            · exact k9 hb hl (by simpa using h0)
            · have := k8 hb
              rw [k2] at this
              simp only [List.length_reverse] at this
              rw [ents_length]
              omega
        · rw [if_neg hf] at hr
          exact absurd hr (by simp)
    · rw [if_pos (by simpa using h1)] at hr
      exact absurd hr (by simp)

/-- A move into a node that needs no more prefix slots than the source has. -/
theorem moveLoop_isSome {P : Params} {bySize : Bool} {limit N : Nat} (hN : N ≤ P.bits) : ∀ (l : List SE) (s d : PN) (m : List (Nat × Nat))
    (mv : List SE) (size : Nat) (r : Nat → Bool), Inv P s l → Inv P d mv → (∀ a i, lookup m a = some i → d.bit i = true) →
    (∀ e ∈ l, lookup m e.slot = none → r e.slot = true) → (∀ j, r j = true → j < N) → d.tail + countSet r N ≤ N →
    ∃ s' d' mv' size', PN.moveLoop P bySize limit l s d m mv size = some (s', d', mv', size') ∧ d'.tail ≤ N
  | [], s, d, m, mv, size, r, h, hd, hm, hl, hr, hc => ⟨s, d, mv, size, rfl, by omega⟩
  | e :: l, s, d, m, mv, size, r, h, hd, hm, hl, hr, hc => by
    unfold PN.moveLoop
    by_cases h1 : (bySize = true ∧ limit < size) ∨ (bySize = false ∧ mv.length = limit)
    · rw [if_pos h1]
      exact ⟨s, d, mv, size, rfl, by omega⟩
    · rw [if_neg h1]
      obtain ⟨u, u1, u2, _⟩ := deref_spec e h
      cases hx : lookup m e.slot with
      | none =>
        have hre := hl e List.mem_cons_self hx
        have hlt := hr _ hre
        have hcs := countSet_setFalse N hlt hre
        obtain ⟨j, t, ha⟩ := alloc_isSome hd (Or.inl (by omega))
        obtain ⟨a1, a2, a3, a4, a5, a6, _, _, _, a10, a11⟩ := alloc_spec hd ha
        have hns := not_slot hd a5
        simp only [ha, u1]
        refine moveLoop_isSome hN l u _ _ _ _ (setBit r e.slot false) u2 (push_inv _ _ rfl a1 a4 hns (Nat.le_refl _)) ?_ ?_ ?_ ?_
        · intro a i hi
          rw [lookup_cons] at hi
          split at hi
          · simp only [Option.some.injEq] at hi
            subst hi
            exact a4
          · exact a10 _ (hm a i hi)
        · intro x hxl hn
          rw [lookup_cons] at hn
          split at hn
          · exact absurd hn (by simp)
          · rename_i hne
            have : setBit r e.slot false x.slot = r x.slot := by
              simp only [setBit]
              rw [if_neg (fun hcc => hne hcc.symm)]
            rw [this]
            exact hl x (List.mem_cons_of_mem _ hxl) hn
        · intro j hj
          simp only [setBit] at hj
          split at hj
          · exact absurd hj (by simp)
          · exact hr j hj
        · show t.tail + _ ≤ N
          omega
      | some j =>
        simp only [u1]
        obtain ⟨r1, _⟩ := ref_inv ({ e with slot := j } : SE) hd (hm _ _ hx)
        exact moveLoop_isSome hN l u _ _ _ _ r u2 r1 hm (fun x hxl => hl x (List.mem_cons_of_mem _ hxl)) hr hc

/-- A move into a node without prefixes does not fail. -/
theorem moveOut_isSome {P : Params} {s d : PN} {bySize : Bool} {limit : Nat} (h : Good P s) (hd : Good P d) (h0 : d.suf = []) (ht : d.tail = 0) :
    ∃ x, s.moveOut P d bySize limit = some x := by
  simp only [PN.moveOut]
  by_cases he : s.suf = []
  · rw [if_pos he]; exact ⟨_, rfl⟩
  · rw [if_neg he, if_neg (by simpa using h0)]
    have hdi := hd.inv
    rw [h0] at hdi
    obtain ⟨u, v, mv, size, hm, hv⟩ := moveLoop_isSome (bySize := bySize) (limit := limit) (N := s.tail) h.inv.tailb s.suf.reverse s d [] []
      (d.occupied P) s.bit (h.inv.perm (List.reverse_perm _).symm) hdi (fun a i hi => by simp [lookup] at hi)
      (fun e he _ => h.inv.slots e (by simpa using he)) h.inv.lt (by
        have := countSet_le s.bit s.tail
        omega)
    obtain ⟨k, k1, k2, k3, k4, k5, _⟩ := moveLoop_spec s s.suf.reverse s d [] [] _ u v mv size
      (h.inv.perm (List.reverse_perm _).symm) hdi (mapOk_nil _ _) (fun i => ⟨rfl, rfl⟩) (fun _ => Nat.zero_le _) hm
    simp only [List.length_nil, Nat.zero_add] at k2
    simp only [List.length_reverse] at k1
    rw [hm]
    simp only
    rw [if_pos (fits_mono h.fits hv (by omega))]
    have hgs : Good P ({ u with suf := s.suf.take (s.suf.length - mv.length) } : PN) := by
      have hdrop : (s.suf.reverse.drop k).reverse = s.suf.take (s.suf.length - k) := by
        rw [List.drop_reverse, List.reverse_reverse]
      refine ⟨?_, ?_⟩
      · show Inv P _ (s.suf.take (s.suf.length - mv.length))
        rw [k2, ← hdrop]
        exact (k3.perm (List.reverse_perm _).symm).suf
      · show P.fits u.tail (s.suf.take (s.suf.length - mv.length)).length = true
        exact fits_mono h.fits k5 (by simp)
    split
    · rename_i hcmp
      split at hcmp
      · obtain ⟨z, z1, _⟩ := compact_good hgs
        rw [z1] at hcmp
        exact absurd hcmp (by simp)
      · exact absurd hcmp (by simp)
    · exact ⟨_, rfl⟩

end HS.Prefix
