import Verif.Prefix.Ops

/-! Puts and removes of one key and of a range of keys. -/

namespace HS.Prefix

/-- `VariantNode::put` on a node with room for one entry more. -/
theorem put_spec {P : Params} (hP : P.Ok) (hps : 0 < P.ps) {s : PN} (h : Good P s) (hs : Sorted (s.ents P))
    (hr : s.hasRoom P 1 = true) (k v : Nat) (ty : PutType) (f : Option (Nat → Nat → Nat → Dec)) :
    ∃ t, s.put P k v ty f = some ((putSpec ty f (s.ents P) k v).1, t) ∧ Good P t ∧ t.ents P = (putSpec ty f (s.ents P) k v).2 := by
  obtain ⟨A, B, hc⟩ := find_cut hs k
  by_cases hf : s.foundAt P (s.find P k) k = true
  · obtain ⟨e, B', rfl, hk, hg, hB, he⟩ := hc.found hs hf
    have hl : look (s.ents P) k = some (s.val P e) := by
      rw [he]; exact look_mid hc.low
    have hsl : setL (s.ents P) k v = A.map (s.ent P) ++ (k, v) :: B'.map (s.ent P) := by
      rw [he]; exact setL_over hc.low hB
    simp only [PN.put, hf, if_true, hg, putSpec, hl, hk]
    by_cases hp : passes f k (s.val P e) v = true
    · simp only [hp, if_true, Bool.true_eq_false, if_false]
      by_cases hti : ty = .insert
      · simp only [hti, if_true]
        exact ⟨s, rfl, h, rfl⟩
      · simp only [hti, if_false]
        obtain ⟨t, t1, t2, t3⟩ := update_spec hP hps (k := k) (v := v) h he (Or.inl hr)
        rw [List.length_map, hc.len] at t1
        exact ⟨t, by rw [t1]; rfl, t2, by rw [t3, hsl]⟩
    · have hp' : passes f k (s.val P e) v = false := by simpa using hp
      simp only [hp', if_true, Bool.false_eq_true, if_false]
      exact ⟨s, rfl, h, rfl⟩
  · have hf' : s.foundAt P (s.find P k) k = false := by simpa using hf
    obtain ⟨hB, he, hl⟩ := hc.notFound hs hf'
    simp only [PN.put, hf', putSpec, hl]
    simp only [Bool.false_eq_true, if_false]
    by_cases htu : ty = .update
    · rw [if_pos htu, if_pos htu]
      exact ⟨s, rfl, h, rfl⟩
    · rw [if_neg htu, if_neg htu]
      obtain ⟨t, t1, t2, t3⟩ := insert_spec hP hps h hc.suf hr k v
      rw [hc.len] at t1
      refine ⟨t, by rw [t1], t2, ?_⟩
      rw [t3, he]
      exact (setL_new hc.low hB).symm

/-- Removing one key. -/
theorem del_spec {P : Params} {s : PN} (h : Good P s) (hs : Sorted (s.ents P)) (k : Nat) :
    ∃ t, s.del P k = some ((look (s.ents P) k).isSome, t) ∧ Good P t ∧ t.ents P = delL (s.ents P) k := by
  obtain ⟨A, B, hc⟩ := find_cut hs k
  by_cases hf : s.foundAt P (s.find P k) k = true
  · obtain ⟨e, B', rfl, hk, hg, hB, he⟩ := hc.found hs hf
    have hl : look (s.ents P) k = some (s.val P e) := by
      rw [he]; exact look_mid hc.low
    obtain ⟨t, t1, t2, _, t4, _⟩ := remove_spec h hc.suf
    rw [hc.len] at t1
    refine ⟨t, ?_, t2, ?_⟩
    · simp only [PN.del, hf, if_true, t1, hl]
      rfl
    · rw [t4, he]
      exact (delL_mid hc.low hB).symm
  · have hf' : s.foundAt P (s.find P k) k = false := by simpa using hf
    obtain ⟨hB, he, hl⟩ := hc.notFound hs hf'
    refine ⟨s, ?_, h, ?_⟩
    · simp only [PN.del, hf', hl]
      rfl
    · rw [he, delL, List.filter_eq_self.mpr]
      intro x hx
      rcases List.mem_append.mp hx with hx | hx
      · have := hc.low x hx; simp; omega
      · have := hB x hx; simp; omega

/-! ## The prefix slot of an entry -/

theorem slotFor_spec {P : Params} {s t : PN} {L : List SE} {n k v nv i : Nat} {slot : Option Nat} (h : Inv P s L)
    (hsl : ∀ j, slot = some j → s.bit j = true) (hf : P.fits s.tail n = true)
    (hr : s.slotFor P n slot k v nv = some (i, t)) :
    Inv P t L ∧ Same s t L ∧ t.suf = s.suf ∧ t.bit i = true ∧ (t.pre i).kp = P.kp k ∧ (t.pre i).vp = P.vp nv ∧
      P.fits t.tail n = true ∧ (slot = some i ∨ s.bit i = false) := by
  simp only [PN.slotFor] at hr
  cases slot with
  | some j =>
    simp only at hr
    by_cases hm : (s.pre j).kp = P.kp k ∧ (s.pre j).vp = P.vp nv
    · rw [if_pos hm] at hr
      simp only [Option.some.injEq, Prod.mk.injEq] at hr
      obtain ⟨rfl, rfl⟩ := hr
      exact ⟨h, Same.refl _ _, rfl, hsl _ rfl, hm.1, hm.2, hf, Or.inl rfl⟩
    · rw [if_neg hm] at hr
      obtain ⟨h1, h2, h3, h4, h5, h6, _, h8, _⟩ := addPrefix_spec h hr
      exact ⟨h1, h2, h3, h4, by rw [h6], by rw [h6], h8, Or.inr h5⟩
  | none =>
    simp only at hr
    cases ha : s.addPrefix P n k v with
    | none => rw [ha] at hr; exact absurd hr (by simp)
    | some r =>
      obtain ⟨j, u⟩ := r
      rw [ha] at hr
      simp only at hr
      obtain ⟨h1, h2, h3, h4, h5, h6, _, h8, _, _, hkeep, hnew⟩ := addPrefix_spec h ha
      by_cases hm : (u.pre j).kp = P.kp k ∧ (u.pre j).vp = P.vp nv
      · rw [if_pos hm] at hr
        simp only [Option.some.injEq, Prod.mk.injEq] at hr
        obtain ⟨rfl, rfl⟩ := hr
        exact ⟨h1, h2, h3, h4, hm.1, hm.2, h8, Or.inr h5⟩
      · rw [if_neg hm] at hr
        obtain ⟨g1, g2, g3, g4, g5, g6, _, g8, _⟩ := addPrefix_spec h1 hr
        refine ⟨g1, h2.trans g2, g3.trans h3, g4, by rw [g6], by rw [g6], g8, Or.inr ?_⟩
        cases hb : s.bit i with
        | false => rfl
        | true =>
          have := (hkeep i hb).1
          rw [g5] at this
          exact absurd this (by simp)

theorem slotFor_isSome {P : Params} {s : PN} {L : List SE} {n k v nv : Nat} {slot : Option Nat} (h : Inv P s L)
    (hv : slot = none → P.vp nv = P.vp v) (ht : s.tail < P.bits) (hf : P.fits (s.tail + 1) n = true) :
    ∃ i t, s.slotFor P n slot k v nv = some (i, t) := by
  simp only [PN.slotFor]
  cases slot with
  | some j =>
    simp only
    by_cases hm : (s.pre j).kp = P.kp k ∧ (s.pre j).vp = P.vp nv
    · exact ⟨j, s, by rw [if_pos hm]⟩
    · rw [if_neg hm]
      exact addPrefix_isSome h ht hf
  | none =>
    obtain ⟨i, t, ha⟩ := addPrefix_isSome (k := k) (v := v) h ht hf
    obtain ⟨_, _, _, _, _, h6, _⟩ := addPrefix_spec h ha
    refine ⟨i, t, ?_⟩
    simp only [ha]
    rw [if_pos]
    rw [h6]
    exact ⟨rfl, (hv rfl).symm⟩

/-! ## One round of `multi_put` -/

/-- The slot held is in use, and no entry still to be visited names it. -/
def SlotOk (s : PN) (slot : Option Nat) (B : List SE) : Prop :=
  ∀ i, slot = some i → s.bit i = true ∧ ∀ e ∈ B, e.slot ≠ i

/-- The value a key gets. -/
def nval (P : Params) (a : Put) (k : Nat) : Nat := P.vsh a.v (k - a.first)

theorem round_spec {P : Params} (hP : P.Ok) {a : Put} {s t : PN} {cur idx : Nat} {A B : List SE} {slot slot' : Option Nat} {d : Dec}
    (h : Good P s) (hs : Sorted (s.ents P)) (hroom : s.hasRoom P 1 = true) (hps : 0 < P.ps) (hc : Cut P s idx cur A B)
    (hslot : SlotOk s slot B) (hu : a.type = .update → look (s.ents P) cur ≠ none)
    (hr : s.putRound P a cur idx (s.foundAt P idx cur) slot = some (d, slot', t)) :
    Good P t ∧ t.ents P = putOne a.type a.filter a.v (nval P a cur) (s.ents P) cur ∧
      ∃ A' B', Cut P t (if d = .remove then idx else idx + 1) (cur + 1) A' B' ∧ SlotOk t slot' B' := by
  have hfr := room_fits hroom hps
  by_cases hf : s.foundAt P idx cur = true
  · obtain ⟨e, B', rfl, hk, hg, hB, he⟩ := hc.found hs hf
    have hl : look (s.ents P) cur = some (s.val P e) := by
      rw [he]; exact look_mid hc.low
    have hsl : ∀ w, setL (s.ents P) cur w = A.map (s.ent P) ++ (cur, w) :: B'.map (s.ent P) := by
      intro w; rw [he]; exact setL_over hc.low hB
    have hslot' : SlotOk s slot B' := fun i hi => ⟨(hslot i hi).1, fun x hx => (hslot i hi).2 x (List.mem_cons_of_mem _ hx)⟩
    simp only [PN.putRound, hf, if_true, hg] at hr
    have hput : putOne a.type a.filter a.v (nval P a cur) (s.ents P) cur = 
        match s.decide' P a cur e with
        | .keep => s.ents P
        | .remove => delL (s.ents P) cur
        | .replace => setL (s.ents P) cur (nval P a cur) := by
      simp only [putOne, hl, PN.decide']
      by_cases hti : a.type = .insert
      · simp [hti]
      · simp only [hti, if_false]
        cases a.filter with
        | none => rfl
        | some f => 
          simp only
          cases f cur (s.val P e) a.v <;> rfl
    cases hd : s.decide' P a cur e with
    | keep =>
      rw [hd] at hr hput
      simp only [Option.some.injEq, Prod.mk.injEq] at hr
      obtain ⟨rfl, rfl, rfl⟩ := hr
      refine ⟨h, hput.symm, A ++ [e], B', ⟨?_, ?_, ?_, ?_⟩, hslot'⟩
      · rw [hc.suf]; simp
      · simp [hc.len]
      · intro x hx
        rw [List.map_append] at hx
        rcases List.mem_append.mp hx with hx | hx
        · have := hc.low x hx; omega
        · have : x = s.ent P e := by simpa using hx
          subst this
          show s.key P e < cur + 1
          omega
      · intro x hx
        exact hB x hx
    | remove =>
      rw [hd] at hr hput
      obtain ⟨u, u1, u2, u3, u4, _, u6⟩ := remove_spec h hc.suf
      rw [hc.len] at u1
      rw [u1] at hr
      simp only [Option.map_some, Option.some.injEq, Prod.mk.injEq] at hr
      obtain ⟨rfl, rfl, rfl⟩ := hr
      have hA : A.map (u.ent P) = A.map (s.ent P) ∧ B'.map (u.ent P) = B'.map (s.ent P) := by
        rw [ents_eq, u3, List.map_append] at u4
        exact List.append_inj u4 (by simp)
      refine ⟨u2, ?_, A, B', ⟨u3, ?_, ?_, ?_⟩, ?_⟩
      · rw [hput, u4, he]
        exact (delL_mid hc.low hB).symm
      · simp [hc.len]
      · rw [hA.1]
        intro x hx
        have := hc.low x hx; omega
      · rw [hA.2]; exact hB
      · intro i hi
        have h1 := hslot i hi
        have hne : i ≠ e.slot := fun hcc => h1.2 e List.mem_cons_self hcc.symm
        refine ⟨?_, (hslot' i hi).2⟩
        rw [(u6 i hne).1]; exact h1.1
    | replace =>
      rw [hd] at hr hput
      have hinv := h.inv
      rw [hc.suf] at hinv
      obtain ⟨u, d1, d2, d3, d4, d5, d6, _⟩ := deref_spec e hinv.mid
      rw [d1] at hr
      simp only at hr
      cases hsf : u.slotFor P s.suf.length slot cur a.v (P.vsh a.v (cur - a.first)) with
      | none => rw [hsf] at hr; exact absurd hr (by simp)
      | some r =>
        obtain ⟨i, w⟩ := r
        rw [hsf] at hr
        simp only [Option.some.injEq, Prod.mk.injEq] at hr
        obtain ⟨rfl, rfl, rfl⟩ := hr
        obtain ⟨g1, g2, g3, g4, g5, g6, g7, g8⟩ := slotFor_spec d2
          (by
            intro j hj
            have h1 := hslot j hj
            have hne : j ≠ e.slot := fun hcc => h1.2 e List.mem_cons_self hcc.symm
            rw [(d6 j hne).1]; exact h1.1)
          (fits_mono h.fits d5 (Nat.le_refl _)) hsf
        obtain ⟨w1, w2, w3, w4, w5, w6, _⟩ := writeOver_spec hP (g3.trans (d4.trans hc.suf)) g1 g4 g5 g6
        rw [hc.len] at w1 w2 w3 w4 w5 w6
        have hsame : Same s w (A ++ B') := (d3 _).trans g2
        have hA : A.map (w.ent P) = A.map (s.ent P) := (hsame.sub (L' := A) (fun x hx => by simp [hx])).map_ent
        have hBm : B'.map (w.ent P) = B'.map (s.ent P) := (hsame.sub (L' := B') (fun x hx => by simp [hx])).map_ent
        rw [hA, hBm] at w3
        have hents := w3
        rw [ents_eq, w1] at w3
        rw [show A ++ (⟨i, P.ks cur, P.vs (P.vsh a.v (cur - a.first))⟩ : SE) :: B' = (A ++ [⟨i, P.ks cur, P.vs (P.vsh a.v (cur - a.first))⟩]) ++ B' by simp] at w1 w3
        rw [show A.map (s.ent P) ++ (cur, P.vsh a.v (cur - a.first)) :: B'.map (s.ent P) = (A.map (s.ent P) ++ [(cur, P.vsh a.v (cur - a.first))]) ++ B'.map (s.ent P) by simp, List.map_append] at w3
        have hsplit := List.append_inj w3 (by simp)
        refine ⟨⟨w2, ?_⟩, ?_, _, B', ⟨w1, ?_, ?_, ?_⟩, ?_⟩
        · rw [w4, w1]
          have : ((A ++ [(⟨i, P.ks cur, P.vs (P.vsh a.v (cur - a.first))⟩ : SE)]) ++ B').length = s.suf.length := by
            rw [hc.suf]; simp
          rw [this]; exact g7
        · rw [hents, hput]
          exact (hsl _).symm
        · simp [hc.len]
        · rw [hsplit.1]
          intro x hx
          rcases List.mem_append.mp hx with hx | hx
          · have := hc.low x hx; omega
          · have : x = (cur, P.vsh a.v (cur - a.first)) := by simpa using hx
            subst this
            show cur < cur + 1
            omega
        · rw [hsplit.2]; exact hB
        · intro j hj
          have hji : j = i := by simpa using hj.symm
          subst hji
          refine ⟨by rw [w5]; exact g4, ?_⟩
          rcases g8 with hh | hh
          · exact (hslot' _ hh).2
          · exact fun x hx => not_slot d2 hh x (by simp [hx])
  · have hf' : s.foundAt P idx cur = false := by simpa using hf
    obtain ⟨hB, he, hl⟩ := hc.notFound hs hf'
    have hnu : a.type ≠ .update := fun hcc => hu hcc hl
    simp only [PN.putRound, hf'] at hr
    simp only [Bool.false_eq_true, if_false] at hr
    rw [if_neg hnu, if_neg (by rw [hc.suf, List.length_append, hc.len]; omega)] at hr
    have hput : putOne a.type a.filter a.v (nval P a cur) (s.ents P) cur = setL (s.ents P) cur (nval P a cur) := by
      simp only [putOne, hl, hnu, if_false]
    cases hsf : s.slotFor P (s.suf.length + 1) slot cur a.v (P.vsh a.v (cur - a.first)) with
    | none => rw [hsf] at hr; exact absurd hr (by simp)
    | some r =>
      obtain ⟨i, w⟩ := r
      rw [hsf] at hr
      simp only [Option.some.injEq, Prod.mk.injEq] at hr
      obtain ⟨rfl, rfl, rfl⟩ := hr
      obtain ⟨g1, g2, g3, g4, g5, g6, g7, g8⟩ := slotFor_spec h.inv (fun j hj => (hslot j hj).1)
        (fits_mono hfr (Nat.le_succ _) (Nat.le_refl _)) hsf
      have g1' := g1
      rw [hc.suf] at g1'
      obtain ⟨w1, w2, w3, w4, w5, w6, _⟩ := writeNew_spec hP (g3.trans hc.suf) g1' g4 g5 g6
      rw [hc.len] at w1 w2 w3 w4 w5 w6
      have hA : A.map (w.ent P) = A.map (s.ent P) := (g2.sub (L' := A) (fun x hx => by rw [hc.suf]; simp [hx])).map_ent
      have hBm : B.map (w.ent P) = B.map (s.ent P) := (g2.sub (L' := B) (fun x hx => by rw [hc.suf]; simp [hx])).map_ent
      rw [hA, hBm] at w3
      have hents := w3
      rw [ents_eq, w1] at w3
      rw [show A ++ (⟨i, P.ks cur, P.vs (P.vsh a.v (cur - a.first))⟩ : SE) :: B = (A ++ [⟨i, P.ks cur, P.vs (P.vsh a.v (cur - a.first))⟩]) ++ B by simp] at w1 w3
      rw [show A.map (s.ent P) ++ (cur, P.vsh a.v (cur - a.first)) :: B.map (s.ent P) = (A.map (s.ent P) ++ [(cur, P.vsh a.v (cur - a.first))]) ++ B.map (s.ent P) by simp, List.map_append] at w3
      have hsplit := List.append_inj w3 (by simp)
      refine ⟨⟨w2, ?_⟩, ?_, _, B, ⟨w1, ?_, ?_, ?_⟩, ?_⟩
      · rw [w4, w1]
        have : ((A ++ [(⟨i, P.ks cur, P.vs (P.vsh a.v (cur - a.first))⟩ : SE)]) ++ B).length = s.suf.length + 1 := by
          rw [hc.suf]; simp; omega
        rw [this]; exact g7
      · rw [hents, hput, he]
        exact (setL_new hc.low hB).symm
      · simp [hc.len]
      · rw [hsplit.1]
        intro x hx
        rcases List.mem_append.mp hx with hx | hx
        · have := hc.low x hx; omega
        · have : x = (cur, P.vsh a.v (cur - a.first)) := by simpa using hx
          subst this
          show cur < cur + 1
          omega
      · rw [hsplit.2]; exact hB
      · intro j hj
        have hji : j = i := by simpa using hj.symm
        subst hji
        refine ⟨by rw [w5]; exact g4, ?_⟩
        rcases g8 with hh | hh
        · exact (hslot _ hh).2
        · exact fun x hx => not_slot h.inv hh x (by rw [hc.suf]; simp [hx])

/-- A round cannot fail if the value has the prefix that the value put has. -/
theorem round_isSome {P : Params} (hP : P.Ok) {a : Put} {s : PN} {cur idx : Nat} {A B : List SE} {slot : Option Nat}
    (h : Good P s) (hs : Sorted (s.ents P)) (hroom : s.hasRoom P 1 = true) (hps : 0 < P.ps) (hc : Cut P s idx cur A B)
    (hv : slot = none → P.vp (nval P a cur) = P.vp a.v) :
    ∃ r, s.putRound P a cur idx (s.foundAt P idx cur) slot = some r := by
  have hfr := room_fits hroom hps
  have htl := room_tail hP hroom hps
  by_cases hf : s.foundAt P idx cur = true
  · obtain ⟨e, B', rfl, hk, hg, hB, he⟩ := hc.found hs hf
    simp only [PN.putRound, hf, if_true, hg]
    cases hd : s.decide' P a cur e with
    | keep => exact ⟨_, rfl⟩
    | remove =>
      obtain ⟨u, u1, _⟩ := remove_spec h hc.suf
      rw [hc.len] at u1
      exact ⟨_, by rw [u1]; rfl⟩
    | replace =>
      have hinv := h.inv
      rw [hc.suf] at hinv
      obtain ⟨u, d1, d2, d3, d4, d5, d6, _⟩ := deref_spec e hinv.mid
      obtain ⟨i, w, hsf⟩ := slotFor_isSome (n := s.suf.length) (k := cur) (v := a.v) (nv := P.vsh a.v (cur - a.first)) (slot := slot) d2 hv (by omega)
        (fits_mono hfr (by omega) (Nat.le_succ _))
      simp only [d1, hsf]
      exact ⟨_, rfl⟩
  · have hf' : s.foundAt P idx cur = false := by simpa using hf
    simp only [PN.putRound, hf']
    simp only [Bool.false_eq_true, if_false]
    by_cases htu : a.type = .update
    · rw [if_pos htu]; exact ⟨_, rfl⟩
    · rw [if_neg htu, if_neg (by rw [hc.suf, List.length_append, hc.len]; omega)]
      obtain ⟨i, w, hsf⟩ := slotFor_isSome (n := s.suf.length + 1) (k := cur) (v := a.v) (nv := P.vsh a.v (cur - a.first)) (slot := slot) h.inv hv htl hfr
      simp only [hsf]
      exact ⟨_, rfl⟩

/-! ## `multi_put` -/

/-- The puts of the keys from `cur` on, below `c`. -/
def foldPut (P : Params) (a : Put) (l : KV) (cur c : Nat) : KV :=
  (List.range' cur (c - cur)).foldl (fun l k => putOne a.type a.filter a.v (nval P a k) l k) l

theorem foldPut_self (P : Params) (a : Put) (l : KV) (cur : Nat) : foldPut P a l cur cur = l := by
  simp [foldPut]

theorem foldPut_step (P : Params) (a : Put) (l : KV) {cur c : Nat} (h : cur < c) :
    foldPut P a l cur c = foldPut P a (putOne a.type a.filter a.v (nval P a cur) l cur) (cur + 1) c := by
  simp only [foldPut]
  rw [show c - cur = (c - (cur + 1)) + 1 by omega, List.range'_succ, List.foldl_cons]

theorem look_putOne_ne {l : KV} {ty : PutType} {f : Option (Nat → Nat → Nat → Dec)} {v nv k k' : Nat} (hkk : k' ≠ k) :
    look (putOne ty f v nv l k) k' = look l k' := by
  have hset : look (setL l k nv) k' = look l k' := by
    simp only [look, setL]
    congr 1
    rw [List.find?_append, List.find?_cons]
    rw [show (decide (k = k')) = false by simp; omega]
    simp only
    by_cases hlt : k' < k
    · have h2 : (l.filter (fun e => decide (k < e.1))).find? (fun e => decide (e.1 = k')) = none := by
        rw [List.find?_eq_none]
        intro x hx
        have := (List.mem_filter.mp hx).2
        simp at this ⊢; omega
      rw [h2, Option.or_none, List.find?_filter]
      apply congrArg (fun p => List.find? p l)
      funext e
      by_cases h : e.1 = k' <;> simp [h, hlt]
    · have h2 : (l.filter (fun e => decide (e.1 < k))).find? (fun e => decide (e.1 = k')) = none := by
        rw [List.find?_eq_none]
        intro x hx
        have := (List.mem_filter.mp hx).2
        simp at this ⊢; omega
      rw [h2, Option.none_or, List.find?_filter]
      apply congrArg (fun p => List.find? p l)
      funext e
      have hgt : k < k' := by omega
      by_cases h : e.1 = k' <;> simp [h, hgt]
  have hdel : look (delL l k) k' = look l k' := by
    simp only [look, delL]
    rw [List.find?_filter]
    congr 1
    apply congrArg (fun p => List.find? p l)
    funext e
    by_cases h : e.1 = k' <;> simp [h, hkk]
  simp only [putOne]
  split
  · split
    · rfl
    · exact hset
  · split
    · rfl
    · split
      · exact hset
      · split
        · rfl
        · exact hset
        · exact hdel

theorem putLoop_spec {P : Params} (hP : P.Ok) (hps : 0 < P.ps) {a : Put} : ∀ (fuel : Nat) (s : PN) (cur idx : Nat) (slot : Option Nat)
    (A B : List SE) (b : Bool) (c : Nat) (t : PN), Good P s → Sorted (s.ents P) → s.hasRoom P 1 = true → Cut P s idx cur A B →
    SlotOk s slot B → (a.type = .update → ∀ k, cur ≤ k → past a.hi a.hiIncl k = false → look (s.ents P) k ≠ none) →
    PN.putLoop P a fuel s cur idx (s.foundAt P idx cur) slot = some (b, c, t) →
    Good P t ∧ t.ents P = foldPut P a (s.ents P) cur c ∧ cur ≤ c ∧
      (∀ k, cur ≤ k → k < c → past a.hi a.hiIncl k = false) ∧ (b = true → past a.hi a.hiIncl c = true) ∧
      (b = false → cur < c ∧ t.hasRoom P 1 = false)
  | 0, _, _, _, _, _, _, _, _, _, _, _, _, _, _, _, hr => by simp [PN.putLoop] at hr
  | fuel + 1, s, cur, idx, slot, A, B, b, c, t, h, hs, hroom, hc, hslot, hu, hr => by
    unfold PN.putLoop at hr
    by_cases hp : past a.hi a.hiIncl cur = true
    · rw [if_pos hp] at hr
      simp only [Option.some.injEq, Prod.mk.injEq] at hr
      obtain ⟨rfl, rfl, rfl⟩ := hr
      refine ⟨h, (foldPut_self _ _ _ _).symm, Nat.le_refl _, fun k h1 h2 => by omega, fun _ => hp, fun h => by simp at h⟩
    · rw [if_neg hp] at hr
      have hp' : past a.hi a.hiIncl cur = false := by simpa using hp
      cases hrd : s.putRound P a cur idx (s.foundAt P idx cur) slot with
      | none => rw [hrd] at hr; exact absurd hr (by simp)
      | some r =>
        obtain ⟨d, slot', u⟩ := r
        rw [hrd] at hr
        simp only at hr
        obtain ⟨r1, r2, A', B', r3, r4⟩ := round_spec hP h hs hroom hps hc hslot (fun htu => hu htu cur (Nat.le_refl _) hp') hrd
        by_cases hru : u.hasRoom P 1 = true
        · rw [if_pos hru] at hr
          have hs' : Sorted (u.ents P) := by rw [r2]; exact sorted_putOne hs _ _ _ _ _
          obtain ⟨l1, l2, l3, l5, l6, l7⟩ := putLoop_spec hP hps fuel u (cur + 1) _ slot' A' B' b c t r1 hs' hru r3 r4
            (fun htu k hk hpk => by
              rw [r2, look_putOne_ne (by omega)]
              exact hu htu k (by omega) hpk) hr
          refine ⟨l1, ?_, by omega, ?_, l6, fun hb => ⟨by omega, (l7 hb).2⟩⟩
          · rw [l2, r2, ← foldPut_step P a (s.ents P) (by omega)]
          · intro k h1 h2
            by_cases hkc : k = cur
            · rw [hkc]; exact hp'
            · exact l5 k (by omega) h2
        · rw [if_neg hru] at hr
          simp only [Option.some.injEq, Prod.mk.injEq] at hr
          obtain ⟨rfl, rfl, rfl⟩ := hr
          refine ⟨r1, ?_, by omega, ?_, fun hb => by simp at hb, fun _ => ⟨by omega, by simpa using hru⟩⟩
          · rw [foldPut_step P a (s.ents P) (by omega), foldPut_self, r2]
          · intro k h1 h2
            have : k = cur := by omega
            rw [this]; exact hp'

theorem putLoop_isSome {P : Params} (hP : P.Ok) (hps : 0 < P.ps) {a : Put}
    (hv : ∀ k, startOf a.lo a.loIncl ≤ k → past a.hi a.hiIncl k = false → P.vp (nval P a k) = P.vp a.v) :
    ∀ (fuel : Nat) (s : PN) (cur idx : Nat) (slot : Option Nat)
    (A B : List SE), startOf a.lo a.loIncl ≤ cur → a.hi + 2 ≤ fuel + cur → 0 < fuel → Good P s → Sorted (s.ents P) → s.hasRoom P 1 = true → Cut P s idx cur A B →
    SlotOk s slot B → (a.type = .update → ∀ k, cur ≤ k → past a.hi a.hiIncl k = false → look (s.ents P) k ≠ none) →
    ∃ r, PN.putLoop P a fuel s cur idx (s.foundAt P idx cur) slot = some r
  | 0, _, _, _, _, _, _, _, _, h0, _, _, _, _, _, _ => by omega
  | fuel + 1, s, cur, idx, slot, A, B, hlo, hfu, _, h, hs, hroom, hc, hslot, hu => by
    unfold PN.putLoop
    by_cases hp : past a.hi a.hiIncl cur = true
    · exact ⟨_, by rw [if_pos hp]⟩
    · rw [if_neg hp]
      have hp' : past a.hi a.hiIncl cur = false := by simpa using hp
      obtain ⟨⟨d, slot', u⟩, hrd⟩ := round_isSome (a := a) hP h hs hroom hps hc (slot := slot) (fun _ => hv cur hlo hp')
      rw [hrd]
      simp only
      obtain ⟨r1, r2, A', B', r3, r4⟩ := round_spec hP h hs hroom hps hc hslot (fun htu => hu htu cur (Nat.le_refl _) hp') hrd
      by_cases hru : u.hasRoom P 1 = true
      · rw [if_pos hru]
        have hs' : Sorted (u.ents P) := by rw [r2]; exact sorted_putOne hs _ _ _ _ _
        have hcur : cur ≤ a.hi := by
          simp only [past, Bool.or_eq_false_iff, decide_eq_false_iff_not] at hp'
          omega
        exact putLoop_isSome hP hps hv fuel u (cur + 1) _ slot' A' B' (by omega) (by omega) (by omega) r1 hs' hru r3 r4
          (fun htu k hk hpk => by
            rw [r2, look_putOne_ne (by omega)]
            exact hu htu k (by omega) hpk)
      · exact ⟨_, by rw [if_neg hru]⟩

/-- The key behind the last one that `multi_put` says it has put. -/
def reached (a : Put) : PutRes → Nat
  | .noSpace => startOf a.lo a.loIncl
  | .more c => c
  | .done => max (startOf a.lo a.loIncl) (endOf a.hi a.hiIncl)

theorem past_iff {hi : Nat} {incl : Bool} {k : Nat} : past hi incl k = true ↔ endOf hi incl ≤ k := by
  simp only [past, endOf]
  cases incl <;> simp <;> omega

/-- `multi_put`, if it does not destroy anything. -/
theorem multiPut_spec {P : Params} (hP : P.Ok) (hps : 0 < P.ps) {a : Put} {s t : PN} {r : PutRes} (h : Good P s)
    (hs : Sorted (s.ents P))
    (hu : a.type = .update → ∀ k, startOf a.lo a.loIncl ≤ k → k < endOf a.hi a.hiIncl → look (s.ents P) k ≠ none)
    (hr : s.multiPut P a = some (r, t)) :
    Good P t ∧ t.ents P = putUpto P.vsh a (s.ents P) (reached a r) ∧ (r = .noSpace ↔ s.hasRoom P 1 = false) ∧
      (∀ c, r = .more c → startOf a.lo a.loIncl < c ∧ c ≤ endOf a.hi a.hiIncl ∧ t.hasRoom P 1 = false) := by
  simp only [PN.multiPut] at hr
  by_cases hroom : s.hasRoom P 1 = true
  · rw [if_pos hroom] at hr
    obtain ⟨A, B, hc⟩ := find_cut hs (startOf a.lo a.loIncl)
    cases hl : PN.putLoop P a (a.hi + 2 - startOf a.lo a.loIncl) s (startOf a.lo a.loIncl) (s.find P (startOf a.lo a.loIncl))
      (s.foundAt P (s.find P (startOf a.lo a.loIncl)) (startOf a.lo a.loIncl)) none with
    | none => rw [hl] at hr; exact absurd hr (by simp)
    | some x =>
      obtain ⟨b, c, u⟩ := x
      rw [hl] at hr
      obtain ⟨l1, l2, l3, l5, l6, l7⟩ := putLoop_spec hP hps _ s _ _ none A B b c u h hs hroom hc (fun i hi => by simp at hi)
        (fun htu k hk hpk => hu htu k hk (by
          have : ¬ past a.hi a.hiIncl k = true := by rw [hpk]; simp
          rw [past_iff] at this
          omega)) hl
      cases b with
      | true =>
        simp only [Option.some.injEq, Prod.mk.injEq] at hr
        obtain ⟨rfl, rfl⟩ := hr
        refine ⟨l1, ?_, by simp [hroom], fun c hc => by simp at hc⟩
        rw [l2]
        have hce : c = max (startOf a.lo a.loIncl) (endOf a.hi a.hiIncl) := by
          have h1 := past_iff.mp (l6 rfl)
          by_cases hlt : startOf a.lo a.loIncl < c
          · have h2 := l5 (c - 1) (by omega) (by omega)
            have h3 : ¬ past a.hi a.hiIncl (c - 1) = true := by rw [h2]; simp
            rw [past_iff] at h3
            omega
          · omega
        rw [hce]; rfl
      | false =>
        simp only [Option.some.injEq, Prod.mk.injEq] at hr
        obtain ⟨rfl, rfl⟩ := hr
        refine ⟨l1, l2, by simp [hroom], ?_⟩
        intro c' hc'
        simp only [PutRes.more.injEq] at hc'
        subst hc'
        refine ⟨(l7 rfl).1, ?_, (l7 rfl).2⟩
        have h2 := l5 (c - 1) (by have := (l7 rfl).1; omega) (by have := (l7 rfl).1; omega)
        have h3 : ¬ past a.hi a.hiIncl (c - 1) = true := by rw [h2]; simp
        rw [past_iff] at h3
        have := (l7 rfl).1
        omega
  · rw [if_neg hroom] at hr
    simp only [Option.some.injEq, Prod.mk.injEq] at hr
    obtain ⟨rfl, rfl⟩ := hr
    refine ⟨h, ?_, by simpa using hroom, fun c hc => by simp at hc⟩
    simp [putUpto, reached]

/-- `multi_put` destroys nothing if the values it writes all have the prefix of the value put. -/
theorem multiPut_isSome {P : Params} (hP : P.Ok) (hps : 0 < P.ps) {a : Put} {s : PN} (h : Good P s)
    (hs : Sorted (s.ents P)) (hlh : startOf a.lo a.loIncl ≤ a.hi + 1)
    (hu : a.type = .update → ∀ k, startOf a.lo a.loIncl ≤ k → k < endOf a.hi a.hiIncl → look (s.ents P) k ≠ none)
    (hv : ∀ k, startOf a.lo a.loIncl ≤ k → k < endOf a.hi a.hiIncl → P.vp (P.vsh a.v (k - a.first)) = P.vp a.v) :
    ∃ r t, s.multiPut P a = some (r, t) := by
  have hpe : ∀ k, past a.hi a.hiIncl k = false → k < endOf a.hi a.hiIncl := by
    intro k hk
    have : ¬ past a.hi a.hiIncl k = true := by rw [hk]; simp
    rw [past_iff] at this
    omega
  simp only [PN.multiPut]
  by_cases hroom : s.hasRoom P 1 = true
  · rw [if_pos hroom]
    obtain ⟨A, B, hc⟩ := find_cut hs (startOf a.lo a.loIncl)
    obtain ⟨⟨b, c, u⟩, hl⟩ := putLoop_isSome hP hps (a := a) (fun k h1 h2 => hv k h1 (hpe k h2)) (a.hi + 2 - startOf a.lo a.loIncl) s
      (startOf a.lo a.loIncl) (s.find P (startOf a.lo a.loIncl)) none A B (Nat.le_refl _) (by omega) (by omega) h hs hroom hc
      (fun i hi => by simp at hi) (fun htu k hk hpk => hu htu k hk (hpe k hpk))
    rw [hl]
    cases b
    · exact ⟨_, _, rfl⟩
    · exact ⟨_, _, rfl⟩
  · rw [if_neg hroom]
    exact ⟨_, _, rfl⟩

/-! ## `multi_remove` -/

theorem removeLoop_spec {P : Params} {hi : Nat} {incl : Bool} {f : Nat → Nat → Bool} : ∀ (fuel : Nat) (s : PN) (idx c : Nat)
    (A B : List SE), Good P s → Sorted (s.ents P) → s.suf = A ++ B → A.length = idx → B.length < fuel →
    ∃ t, PN.removeLoop P hi incl f fuel s idx c = some (c + ((B.map (s.ent P)).filter (fun e => decide (e.1 < endOf hi incl) && f e.1 e.2)).length, t) ∧
      Good P t ∧ t.ents P = A.map (s.ent P) ++ (B.map (s.ent P)).filter (fun e => !(decide (e.1 < endOf hi incl) && f e.1 e.2))
  | 0, _, _, _, _, _, _, _, _, _, h => by omega
  | fuel + 1, s, idx, c, A, B, h, hs, hsuf, hlen, hfu => by
    unfold PN.removeLoop
    cases B with
    | nil =>
      have hg : s.suf[idx]? = none := by rw [hsuf, ← hlen, get_end]
      rw [hg]
      refine ⟨s, by simp, h, ?_⟩
      rw [ents_eq, hsuf]; simp
    | cons e B' =>
      have hg : s.suf[idx]? = some e := by rw [hsuf, ← hlen, get_mid]
      rw [hg]
      simp only
      have he : s.ents P = A.map (s.ent P) ++ s.ent P e :: B'.map (s.ent P) := by
        rw [ents_eq, hsuf]; simp
      have hB : ∀ x ∈ B'.map (s.ent P), s.key P e < x.1 := by
        rw [he] at hs
        intro x hx
        exact (List.pairwise_cons.mp hs.right).1 x hx
      by_cases hp : past hi incl (s.key P e) = true
      · rw [if_pos hp]
        rw [past_iff] at hp
        have hall : ∀ x ∈ (e :: B').map (s.ent P), ¬ x.1 < endOf hi incl := by
          intro x hx
          rw [List.map_cons] at hx
          rcases List.mem_cons.mp hx with rfl | hx
          · show ¬ s.key P e < _
            omega
          · have := hB x hx; omega
        have h1 : ((e :: B').map (s.ent P)).filter (fun e => decide (e.1 < endOf hi incl) && f e.1 e.2) = [] := by
          rw [List.filter_eq_nil_iff]
          intro x hx
          have := hall x hx
          simp [this]
        have h2 : ((e :: B').map (s.ent P)).filter (fun e => !(decide (e.1 < endOf hi incl) && f e.1 e.2)) = (e :: B').map (s.ent P) := by
          rw [List.filter_eq_self]
          intro x hx
          have := hall x hx
          simp [this]
        refine ⟨s, by rw [h1]; rfl, h, ?_⟩
        rw [h2, he]; rfl
      · rw [if_neg hp]
        rw [past_iff] at hp
        have hlt : (s.ent P e).1 < endOf hi incl := by show s.key P e < _; omega
        by_cases hff : f (s.key P e) (s.val P e) = true
        · rw [if_pos hff]
          obtain ⟨t, r1, r2, r3, r4, _⟩ := remove_spec h hsuf
          have hd : ∃ u, s.deref e.slot = some u ∧ t = { u with suf := u.suf.eraseIdx idx } := by
            simp only [PN.remove] at r1
            rw [hlen, hg] at r1
            simp only at r1
            cases hdd : s.deref e.slot with
            | none => rw [hdd] at r1; exact absurd r1 (by simp)
            | some u =>
              rw [hdd] at r1
              simp only [Option.some.injEq] at r1
              exact ⟨u, rfl, r1.symm⟩
          obtain ⟨u, hu1, hu2⟩ := hd
          rw [hu1]
          simp only
          rw [← hu2]
          have hm : A.map (t.ent P) = A.map (s.ent P) ∧ B'.map (t.ent P) = B'.map (s.ent P) := by
            rw [ents_eq, r3, List.map_append] at r4
            exact List.append_inj r4 (by simp)
          have hst : Sorted (t.ents P) := by
            rw [r4]
            rw [he] at hs
            exact hs.left.append ((List.pairwise_cons.mp hs.right).2) (fun a ha b hb => hs.cross a ha b (List.mem_cons_of_mem _ hb))
          obtain ⟨v, v1, v2, v3⟩ := removeLoop_spec fuel t idx (c + 1) A B' r2 hst r3 hlen (by simp at hfu; omega)
          have hk1 : (decide ((s.ent P e).1 < endOf hi incl) && f (s.ent P e).1 (s.ent P e).2) = true := by
            rw [Bool.and_eq_true]
            exact ⟨by simpa using hlt, hff⟩
          refine ⟨v, ?_, v2, ?_⟩
          · rw [v1, hm.2, List.map_cons, List.filter_cons]
            simp only [hk1, if_true, List.length_cons]
            congr 2
            omega
          · rw [v3, hm.1, hm.2, List.map_cons, List.filter_cons]
            simp only [hk1, Bool.not_true, Bool.false_eq_true, if_false]
        · rw [if_neg hff]
          obtain ⟨v, v1, v2, v3⟩ := removeLoop_spec fuel s (idx + 1) c (A ++ [e]) B' h hs (by rw [hsuf]; simp) (by simp [hlen]) (by simp at hfu; omega)
          have hff' : f (s.ent P e).1 (s.ent P e).2 = false := by
            have : f (s.key P e) (s.val P e) = false := by simpa using hff
            exact this
          have hk1 : (decide ((s.ent P e).1 < endOf hi incl) && f (s.ent P e).1 (s.ent P e).2) = false := by
            rw [hff', Bool.and_false]
          refine ⟨v, ?_, v2, ?_⟩
          · rw [v1, List.map_cons, List.filter_cons]
            simp only [hk1, Bool.false_eq_true, if_false]
          · rw [v3, List.map_cons, List.filter_cons]
            simp only [hk1, Bool.not_false, if_true]
            simp

/-- `multi_remove` removes the entries of the range that the filter lets go, and counts them. -/
theorem multiRemove_spec {P : Params} {s : PN} (h : Good P s) (hs : Sorted (s.ents P)) (lo : Nat) (li : Bool) (hi : Nat) (hincl : Bool)
    (f : Nat → Nat → Bool) :
    ∃ t, s.multiRemove P lo li hi hincl f = some (((s.ents P).filter (inRange lo li hi hincl f)).length, t) ∧ Good P t ∧
      t.ents P = (s.ents P).filter (fun e => !inRange lo li hi hincl f e) := by
  obtain ⟨A, B, hc⟩ := find_cut hs (startOf lo li)
  obtain ⟨t, t1, t2, t3⟩ := removeLoop_spec (hi := hi) (incl := hincl) (f := f) (s.suf.length + 1) s (s.find P (startOf lo li)) 0 A B h hs hc.suf hc.len
    (by rw [hc.suf, List.length_append]; omega)
  have he : s.ents P = A.map (s.ent P) ++ B.map (s.ent P) := by rw [ents_eq, hc.suf, List.map_append]
  have hA : ∀ x ∈ A.map (s.ent P), inRange lo li hi hincl f x = false := by
    intro x hx
    have := hc.low x hx
    simp only [inRange]
    rw [show decide (startOf lo li ≤ x.1) = false by simp; omega]
    simp
  have hB : ∀ x ∈ B.map (s.ent P), inRange lo li hi hincl f x = (decide (x.1 < endOf hi hincl) && f x.1 x.2) := by
    intro x hx
    have := hc.high x hx
    simp only [inRange]
    rw [show decide (startOf lo li ≤ x.1) = true by simpa using this]
    simp
  refine ⟨t, ?_, t2, ?_⟩
  · have hA0 : (A.map (s.ent P)).filter (inRange lo li hi hincl f) = [] :=
      List.filter_eq_nil_iff.mpr (fun x hx => by rw [hA x hx]; simp)
    rw [PN.multiRemove, t1, he, List.filter_append, hA0, List.filter_congr hB]
    simp
  · rw [t3, he, List.filter_append]
    congr 1
    · exact (List.filter_eq_self.mpr (fun x hx => by rw [hA x hx]; rfl)).symm
    · exact List.filter_congr (fun x hx => by rw [hB x hx])

end HS.Prefix
