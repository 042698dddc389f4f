import Verif.Btree.RangeRemove

/-! # Range update -/

namespace HS.Btree

section
variable {K V A : Type} [LinearOrder K]

/-- What a range update does to an entry of the interval. -/
def updSel (f : Option (K → V → V → Decision)) (v : V) (x : K × V) : Option (K × V) := some (updOne f v x)

omit [LinearOrder K] in
theorem updOne_key (f : Option (K → V → V → Decision)) (v : V) (x : K × V) : (updOne f v x).1 = x.1 := by
  unfold updOne; split <;> rfl

omit [LinearOrder K] in
theorem updSel_key (f : Option (K → V → V → Decision)) (v : V) (x y : K × V) (h : updSel f v x = some y) :
    y.1 = x.1 := by
  unfold updSel at h
  cases h
  exact updOne_key f v x

omit [LinearOrder K] in
theorem eff_map (p : K → Bool) (f : Option (K → V → V → Decision)) (v : V) (l : List (K × V)) :
    eff p (updSel f v) l = l.map (fun x => if p x.1 then updOne f v x else x) := by
  unfold eff updSel
  rw [← List.filterMap_eq_map]
  apply List.filterMap_congr
  intro x _
  simp only [Function.comp]
  split <;> rfl

omit [LinearOrder K] in
theorem eff_all {p : K → Bool} {f : Option (K → V → V → Decision)} {v : V} {l : List (K × V)}
    (h : ∀ x ∈ l, p x.1 = true) : eff p (updSel f v) l = l.map (updOne f v) := by
  rw [eff_map]
  apply List.map_congr_left
  intro x hx
  rw [h x hx]
  simp

theorem eff_asc {p : K → Bool} {f : Option (K → V → V → Decision)} {v : V} {l : List (K × V)} (h : Asc l) :
    Asc (eff p (updSel f v) l) := by
  rw [eff_map]
  unfold Asc at h ⊢
  rw [List.pairwise_map]
  refine h.imp ?_
  intro a b hab
  have e : ∀ x : K × V, (if p x.1 then updOne f v x else x).1 = x.1 := by
    intro x; split
    · exact updOne_key f v x
    · rfl
  rw [e, e]
  exact hab

/-- `leHi` as a test. -/
def leB (k : K) : Option K → Bool
  | none => true
  | some h => decide (k ≤ h)

theorem leB_iff (k : K) (hi : Option K) : leB k hi = true ↔ leHi k hi := by
  cases hi <;> simp [leB]

/-- What a range update must do to a subtree that covers `(lo, hi]`: all of the interval, or the keys before
some key of the interval, at which it goes on, or a part at the interval's beginning. -/
def UpdOk (L : Lvl K V A) (f : Option (K → V → V → Decision)) (v : V) (r : KeyRange K) (lo hi : Option K)
    (t : Node K A) (nid : Nat) (res : Node K A × Nat × WS K × Status) : Prop :=
  L.P res.1 lo hi ∧ Step (L.lv t) (L.lv res.1) nid res.2.1 ∧
    (res.2.2.2 = .success ∧ cont (L.lv res.1) = eff (Spec.inRange r) (updSel f v) (cont (L.lv t)) ∧
        (∀ h, hi = some h → h < r.endKey → res.2.2.1 = { range := after r h }) ∨
      res.2.2.2 = .has_more ∧ (∃ x, Spec.inRange r x = true ∧ leHi x hi ∧
        cont (L.lv res.1) = eff (fun k => Spec.inRange r k && decide (k < x)) (updSel f v) (cont (L.lv t)) ∧
        res.2.2.1 = { range := { r with startKey := x, startIncl := true } }) ∨
      res.2.2.2 = .not_found ∧ ∃ p : K → Bool, (∀ k, p k = true → Spec.inRange r k = true) ∧
        (∀ k k', p k = true → Spec.inRange r k' = true → k' ≤ k → p k' = true) ∧
        cont (L.lv res.1) = eff p (updSel f v) (cont (L.lv t)))

theorem updLeaf_ok {p : NK K V} {rq : UpdReq K V} {r : KeyRange K} {t : Node K V} {lo hi : Option K} {nid : Nat}
    {t' : Node K V} {w' : WS K} {st : Status} (hd : ∀ k o, decision rq.filter k o rq.val ≠ .remove)
    (hP : leafLvl.P t lo hi) (hE : Entry rq.range r hi)
    (h : updLeaf p rq t hi { range := r } = .ok (t', w', st)) :
    UpdOk leafLvl rq.filter rq.val r lo hi t nid (t', nid, w', st) := by
  obtain ⟨q1, q2, q3⟩ : t.edge = none ∧ Asc t.es ∧ ∀ x ∈ t.es, ltLo lo x.1 ∧ leHi x.1 hi := hP
  have hc : ∀ u : Node K V, cont (leafLvl.lv u) = u.es := fun u => by show cont [u] = _; simp
  -- the new leaf
  have fin : ∀ (es : List (K × V)) (P : K → Bool), es = eff P (updSel rq.filter rq.val) t.es →
      leafLvl.P { t with es := es } lo hi ∧ Step (leafLvl.lv t) (leafLvl.lv { t with es := es }) nid nid := by
    rintro es P rfl
    refine ⟨⟨q1, eff_asc q2, fun x hx => ?_⟩, ?_⟩
    · obtain ⟨y, hy, hyx⟩ := eff_key (updSel_key rq.filter rq.val) hx
      rw [← hyx]
      exact q3 y hy
    · show Step [t] [{ t with es := _ }] nid nid
      exact ⟨le_rfl, fun nx => rfl, fun nx h => h, fun i hi => Or.inl hi, fun h _ => h⟩
  have key : ∀ (w1 : WS K), w1.exhausted = false → (∀ x ∈ t.es, Spec.inRange w1.range x.1 = Spec.inRange r x.1) →
      (∀ h, hi = some h → h < r.endKey → w1.shift rq.range = { range := after r h }) →
      (∀ k, w1.shiftTo rq.range k = { range := { r with startKey := k, startIncl := true } }) →
      (do
        let wr ← w1.get
        let (es, st, kf) ← multiPut p t wr rq.val .update rq.filter
        pure ({ t with es := es }, updShift rq.range w1 st kf, st) :
          Except Fault (Node K V × WS K × Status)) = .ok (t', w', st) →
      UpdOk leafLvl rq.filter rq.val r lo hi t nid (t', nid, w', st) := by
    intro w1 hex hin hsh hsh2 h
    unfold WS.get at h
    rw [hex] at h
    simp only [Bool.false_eq_true, if_false] at h
    obtain ⟨r1, h1, h2⟩ := bind_ok h
    cases h1
    rcases multiPut_spec (p := p) q2 w1.range rq.val rq.filter (fun x _ _ => hd x.1 x.2) with
      ⟨g1, g2⟩ | ⟨a, m1, m2, b, g1, g2, g3, g4, g5, g6⟩
    · rw [g2] at h2
      obtain ⟨⟨es, st1, kf⟩, h3, h4⟩ := bind_ok h2
      cases h3
      cases h4
      have he : t.es = eff (fun _ => false) (updSel rq.filter rq.val) t.es := (eff_none (fun _ _ => rfl)).symm
      obtain ⟨f1, f2⟩ := fin _ _ he
      refine ⟨f1, f2, Or.inr (Or.inr ⟨rfl, fun _ => false, by simp, by simp, ?_⟩)⟩
      rw [hc]
      exact he
    · rw [g6] at h2
      obtain ⟨⟨es, st1, kf⟩, h3, h4⟩ := bind_ok h2
      cases h3
      cases h4
      have hm : ∀ x ∈ m1 ++ m2, Spec.inRange r x.1 = true := by
        intro x hx
        have hx' : x ∈ hits w1.range t.es := by rw [g2]; exact hx
        unfold hits at hx'
        obtain ⟨hx1, hx2⟩ := List.mem_filter.mp hx'
        rw [← hin x hx1]
        exact hx2
      have ha : ∀ x ∈ a, Spec.inRange r x.1 = false := by
        intro x hx
        rw [← hin x (by rw [g1]; simp [hx])]
        exact not_inRange_of_below (g4 x hx)
      have hb : ∀ x ∈ b, Spec.inRange r x.1 = false := by
        intro x hx
        rw [← hin x (by rw [g1]; simp [hx])]
        exact not_inRange_of_above (g5 x hx)
      cases m2 with
      | nil =>
        have he : a ++ m1.map (updOne rq.filter rq.val) ++ [] ++ b =
            eff (Spec.inRange r) (updSel rq.filter rq.val) t.es := by
          rw [g1]
          simp only [eff_append, List.append_nil]
          rw [eff_none ha, eff_none hb, eff_all (fun x hx => hm x (by simp [hx]))]
        obtain ⟨f1, f2⟩ := fin _ _ he
        refine ⟨f1, f2, Or.inl ⟨by simp, ?_, ?_⟩⟩
        · rw [hc, hc]; exact he
        · intro h hh hlt
          simp only [if_true]
          exact hsh h hh hlt
      | cons y m3 =>
        have hlt : ∀ x ∈ m1, x.1 < y.1 := by
          intro x hx
          rw [g1] at q2
          have := (Asc_append.mp (Asc_append.mp q2).1).2.1
          exact (Asc_append.mp this).2.2 x hx y (by simp)
        have hge : ∀ x ∈ y :: m3, ¬ x.1 < y.1 := by
          intro x hx
          rw [g1] at q2
          have := (Asc_append.mp (Asc_append.mp (Asc_append.mp q2).1).2.1).2.1
          rcases List.mem_cons.mp hx with rfl | hx
          · exact lt_irrefl _
          · exact not_lt.mpr ((Asc_cons.mp this).1 x hx).le
        have he : a ++ m1.map (updOne rq.filter rq.val) ++ (y :: m3) ++ b =
            eff (fun k => Spec.inRange r k && decide (k < y.1)) (updSel rq.filter rq.val) t.es := by
          rw [g1]
          simp only [eff_append]
          rw [eff_none (l := a) (fun x hx => by simp [ha x hx]), eff_none (l := b) (fun x hx => by simp [hb x hx]),
            eff_all (l := m1) (fun x hx => by simp [hm x (by simp [hx]), hlt x hx]),
            eff_none (l := y :: m3) (fun x hx => by simp only [hge x hx, decide_false, Bool.and_false])]
          simp [List.append_assoc]
        obtain ⟨f1, f2⟩ := fin _ _ he
        refine ⟨f1, f2, Or.inr (Or.inl ⟨by simp, y.1, hm y (by simp), ?_, ?_, ?_⟩)⟩
        · exact (q3 y (by rw [g1]; simp)).2
        · rw [hc, hc]; exact he
        · simp only [reduceCtorEq, if_false, List.head?_cons, Option.map_some]
          exact hsh2 y.1
  unfold updLeaf at h
  cases hi with
  | none =>
    refine key { range := r } rfl (fun _ _ => rfl) (by simp) (fun k => ?_) h
    simp [WS.shiftTo]
  | some k =>
    simp only [WS.trimTo, WS.get, Bool.false_eq_true, if_false] at h
    obtain ⟨w1, h1, h2⟩ := bind_ok h
    obtain ⟨r1, h3, h4⟩ := bind_ok h1
    cases h3
    split at h4
    · rename_i hlt
      cases h4
      refine key _ rfl (fun x hx => inRange_trim hlt (by simpa using (q3 x hx).2)) ?_ (fun k => ?_) h2
      · intro h hh hlt'
        cases hh
        simp only [WS.shift, if_true, after, ← hE.endKey, ← hE.endIncl]
      · simp only [WS.shiftTo, if_true, ← hE.endKey, ← hE.endIncl]
    · rename_i hlt
      cases h4
      refine key _ rfl (fun _ _ => rfl) ?_ (fun k => ?_) h2
      · intro h hh hlt'
        cases hh
        exact absurd hlt' hlt
      · simp [WS.shiftTo]

theorem updLoop_ok {c : Cfg K V} {rq : UpdReq K V} {n : Nat}
    {rec : Tree K V n → Option K → Nat → WS K → Except Fault (Tree K V n × Nat × WS K × Status)}
    (hrec : ∀ {r lo hi t nid res}, (levels K V n).P t lo hi → Entry rq.range r hi →
      rec t hi nid { range := r } = .ok res → UpdOk (levels K V n) rq.filter rq.val r lo hi t nid res) :
    ∀ (f : Nat) {r : KeyRange K} {lo hi : Option K} {t : Tree K V (n + 1)} {nid : Nat}
      {pos : Option (Nat × Nat)} {res},
      (levels K V (n + 1)).P t lo hi → Entry rq.range r hi →
      (∀ cur e, pos = some (cur, e) → Win r (t.kids.map (·.1)) cur e) →
      updLoop c rq n rec f t nid { range := r } pos = .ok res →
      UpdOk (levels K V (n + 1)) rq.filter rq.val r lo hi t nid res := by
  intro f
  induction f with
  | zero => intro r lo hi t nid pos res _ _ _ h; cases pos <;> cases h
  | succ f ih =>
    intro r lo hi t nid pos res hP hE hpos h
    cases pos with
    | none =>
      unfold updLoop at h
      obtain ⟨r', h1, h2⟩ := bind_ok h
      cases h1
      obtain ⟨s, e, h3, h4⟩ := match_win (L := levels K V n) hP hE.proper hE.hi
      replace h3 : matchRange false t r = some (true, s, e) := h3
      simp only [h3] at h2
      exact ih hP hE (by rintro cur e ⟨⟩; exact h4) h2
    | some p =>
      obtain ⟨cur, e⟩ := p
      have hw := hpos cur e rfl
      have hle := hw.le
      unfold updLoop at h
      rw [if_neg (by omega)] at h
      cases hv : t.valAt cur with
      | none => simp only [hv] at h; cases h
      | some ch =>
        simp only [hv] at h
        rcases ite_cases h with ⟨-, h⟩ | ⟨-, h⟩
        · obtain ⟨t', ht', h6⟩ := bind_ok h
          obtain ⟨h7, h8, h9⟩ := splitIn_inv (L := levels K V n) hv ht' hP
          replace h9 : cont ((levels K V (n + 1)).lv t') = cont ((levels K V (n + 1)).lv t) := h9
          obtain ⟨k1, k2, k3⟩ := ih h7 hE (by simp) h6
          refine ⟨k1, h8.trans k2, ?_⟩
          rw [h9] at k3
          exact k3
        · obtain ⟨⟨ch', nid2, w', st⟩, h3, h4⟩ := bind_ok h
          simp only at h4
          obtain ⟨a, q, z, m0, hk, ha, hq, u1, u3, u2⟩ := kid_parts (L := levels K V n) hP hv
          replace hq : t.keyAt cur = q := hq
          rw [hq] at h3
          obtain ⟨w1, w2, w3, w4⟩ := win_parts (L := levels K V n) hk ha u1 u3 u2 hw
          obtain ⟨c1, c2, c3⟩ := hrec u2.head ⟨hE.endKey, hE.endIncl, hE.proper, w2⟩ h3
          have hl : (levels K V (n + 1)).lv t =
              lvs (levels K V n) a ++ ((levels K V n).lv ch ++ lvs (levels K V n) z) := lv_split hk
          obtain ⟨hP', hl'⟩ := set_kid (L := levels K V n) hk ha u1 u3 u2 c1
          replace hl' : (levels K V (n + 1)).lv (t.setVal cur ch') =
              lvs (levels K V n) a ++ ((levels K V n).lv ch' ++ lvs (levels K V n) z) := hl'
          replace hP' : (levels K V (n + 1)).P (t.setVal cur ch') lo hi := hP'
          have hstep : Step ((levels K V (n + 1)).lv t) ((levels K V (n + 1)).lv (t.setVal cur ch')) nid nid2 := by
            rw [hl, hl']
            have := c2.ctx (lvs (levels K V n) a) (lvs (levels K V n) z)
            simpa [List.append_assoc] using this
          have hqhi : ∀ x, leHi x q → leHi x hi := by
            intro x hx
            cases q with
            | none => rw [u2.2.1]; simp
            | some q => exact u2.2.2.le_hi.trans (by simpa using hx)
          simp only at c3
          rcases c3 with ⟨c3, c4, c5⟩ | ⟨c3, x, c4, c5, c6, c7⟩ | ⟨c3, P, c4, c5, c6⟩
          · rw [if_pos c3] at h4
            rcases Nat.lt_or_ge cur e with hlt | hge
            · obtain ⟨k, rfl, hk2, hk3⟩ := w3 hlt
              have hw' := c5 k rfl hk2
              rw [hw'] at h4
              obtain ⟨hwin, hE'⟩ := win_next (L := levels K V n) (ch' := ch') hP hk ha u2 hw hlt hE hk2
              obtain ⟨k1, k2, k3⟩ := ih (pos := some (cur + 1, e)) hP' hE'
                (by
                  rintro cur' e' ⟨⟩
                  exact hwin) h4
              have hch : ∀ x ∈ cont ((levels K V n).lv ch), x.1 ≤ k := fun x hx => by
                simpa using ((levels K V n).cont_bnd (nd := ch) u2.head hx).2
              have hch' : ∀ x ∈ cont ((levels K V n).lv ch'), x.1 ≤ k := fun x hx => by
                simpa using ((levels K V n).cont_bnd (nd := ch') c1 hx).2
              have hz0 : ∀ x ∈ cont (lvs (levels K V n) z), k < x.1 := fun x hx => by
                simpa using (u2.2.2.cont x hx).1
              have hz : ∀ x ∈ cont (lvs (levels K V n) z),
                  Spec.inRange (after r k) x.1 = Spec.inRange r x.1 := fun x hx =>
                inRange_after_gt (w2 k rfl) (hz0 x hx)
              refine ⟨k1, hstep.trans k2, ?_⟩
              -- what is left to do after this child is done by the rest
              have comp : ∀ P2 P3 : K → Bool, (∀ x, x ≤ k → P2 x = false ∧ P3 x = Spec.inRange r x) →
                  (∀ x, k < x → P3 x = P2 x) →
                  eff P2 (updSel rq.filter rq.val) (cont ((levels K V (n + 1)).lv (t.setVal cur ch'))) =
                    eff P3 (updSel rq.filter rq.val) (cont ((levels K V (n + 1)).lv t)) := by
                intro P2 P3 hP2 hP3
                rw [hl, hl']
                simp only [cont_append, eff_append]
                rw [eff_none (p := P2) (l := cont (lvs (levels K V n) a)) (fun x hx => (hP2 _ (hk3 x hx)).1),
                  eff_none (p := P2) (l := cont ((levels K V n).lv ch')) (fun x hx => (hP2 _ (hch' x hx)).1),
                  eff_congr (p := P3) (p' := P2) (l := cont (lvs (levels K V n) z)) (fun x hx => hP3 _ (hz0 x hx)),
                  eff_congr (p := P3) (p' := Spec.inRange r) (l := cont (lvs (levels K V n) a))
                    (fun x hx => (hP2 _ (hk3 x hx)).2), eff_none w1, c4,
                  eff_congr (p := P3) (p' := Spec.inRange r) (l := cont ((levels K V n).lv ch))
                    (fun x hx => (hP2 _ (hch x hx)).2)]
              rcases k3 with ⟨k3, k4, k5⟩ | ⟨k3, x, k4, k5, k6, k7⟩ | ⟨k3, P, k4, k5, k6⟩
              · refine Or.inl ⟨k3, ?_, k5⟩
                rw [k4]
                exact comp _ _ (fun x hx => ⟨inRange_after_le hx, rfl⟩)
                  (fun x hx => (inRange_after_gt (w2 k rfl) hx).symm)
              · have hkx : k < x := by
                  by_contra hc
                  rw [inRange_after_le (not_lt.mp hc)] at k4
                  cases k4
                refine Or.inr (Or.inl ⟨k3, x, ?_, k5, ?_, k7⟩)
                · rw [← inRange_after_gt (w2 k rfl) hkx]; exact k4
                · rw [k6]
                  refine comp _ _ (fun y hy => ⟨by simp [inRange_after_le hy], ?_⟩) (fun y hy => ?_)
                  · simp [lt_of_le_of_lt hy hkx]
                  · rw [inRange_after_gt (w2 k rfl) hy]
              · refine Or.inr (Or.inr ⟨k3, fun y => if y ≤ k then Spec.inRange r y else P y, ?_, ?_, ?_⟩)
                · intro y hy
                  by_cases hyk : y ≤ k
                  · simpa [hyk] using hy
                  · simp only [hyk, if_false] at hy
                    rw [← inRange_after_gt (w2 k rfl) (not_le.mp hyk)]
                    exact k4 y hy
                · intro y y' hy hy' hle'
                  by_cases hyk' : y' ≤ k
                  · simpa [hyk'] using hy'
                  · have hyk : ¬ y ≤ k := fun hc => hyk' (hle'.trans hc)
                    simp only [hyk, if_false] at hy
                    simp only [hyk', if_false]
                    exact k5 y y' hy (by rw [inRange_after_gt (w2 k rfl) (not_le.mp hyk')]; exact hy') hle'
                · rw [k6]
                  refine comp _ _ (fun y hy => ⟨?_, by simp [hy]⟩) (fun y hy => by simp [not_le.mpr hy])
                  rw [Bool.eq_false_iff]
                  intro hc
                  have := k4 y hc
                  rw [inRange_after_le hy] at this
                  cases this
            · obtain rfl : cur = e := by omega
              obtain ⟨w5, w6⟩ := w4 rfl
              cases f with
              | zero => cases h4
              | succ f =>
                unfold updLoop at h4
                rw [if_pos (by omega)] at h4
                cases h4
                refine ⟨hP', hstep, Or.inl ⟨rfl, ?_, ?_⟩⟩
                · simp only
                  rw [hl, hl']
                  simp only [cont_append, eff_append]
                  rw [c4, eff_none w1, eff_none w5]
                · intro h hh hlt
                  exact c5 h (w6 h hh hlt) hlt
          · rw [if_neg (by rw [c3]; simp)] at h4
            cases h4
            refine ⟨hP', hstep, Or.inr (Or.inl ⟨c3, x, c4, hqhi x c5, ?_, c7⟩)⟩
            simp only
            rw [hl, hl']
            simp only [cont_append, eff_append]
            rw [c6, eff_none (l := cont (lvs (levels K V n) a)) (fun y hy => by simp [w1 y hy]),
              eff_none (l := cont (lvs (levels K V n) z))]
            intro y hy
            cases q with
            | none => rw [u2.1] at hy; simp at hy
            | some q =>
              have h5 := (u2.2.2.cont y hy).1
              simp at h5 c5
              have : ¬ y.1 < x := not_lt.mpr (c5.trans h5.le)
              simp [this]
          · rw [if_neg (by rw [c3]; simp)] at h4
            cases h4
            refine ⟨hP', hstep, Or.inr (Or.inr ⟨c3, fun y => P y && leB y q, ?_, ?_, ?_⟩)⟩
            · intro y hy
              simp only [Bool.and_eq_true] at hy
              exact c4 y hy.1
            · intro y y' hy hy' hle'
              simp only [Bool.and_eq_true, leB_iff] at hy ⊢
              exact ⟨c5 y y' hy.1 hy' hle', hy.2.trans hle'⟩
            · simp only
              rw [hl, hl']
              simp only [cont_append, eff_append]
              rw [c6, eff_none (l := cont (lvs (levels K V n) a)), eff_none (l := cont (lvs (levels K V n) z)),
                eff_congr (l := cont ((levels K V n).lv ch)) (p := fun y => P y && leB y q) (p' := P)]
              · intro y hy
                have : leB y.1 q = true := (leB_iff _ _).mpr ((levels K V n).cont_bnd (nd := ch) u2.head hy).2
                simp [this]
              · intro y hy
                cases q with
                | none => rw [u2.1] at hy; simp at hy
                | some q =>
                  have h5 := (u2.2.2.cont y hy).1
                  simp at h5
                  have : leB y.1 (some q) = false := by
                    rw [Bool.eq_false_iff, Ne, leB_iff]
                    simpa using h5
                  simp [this]
              · intro y hy
                have : P y.1 = false := by
                  rw [Bool.eq_false_iff]
                  intro hc
                  have := w1 y hy
                  rw [c4 _ hc] at this
                  cases this
                simp [this]

theorem doRangePut_ok {c : Cfg K V} {rq : UpdReq K V} (hd : ∀ k o, decision rq.filter k o rq.val ≠ .remove)
    {f : Nat} (n : Nat) :
    ∀ {r : KeyRange K} {lo hi : Option K} {t : Tree K V n} {nid : Nat} {res},
      (levels K V n).P t lo hi → Entry rq.range r hi →
      doRangePut c rq f n t hi nid { range := r } = .ok res →
      UpdOk (levels K V n) rq.filter rq.val r lo hi t nid res := by
  induction n with
  | zero =>
    intro r lo hi t nid res hP hE h
    unfold doRangePut at h
    obtain ⟨⟨t', w', st⟩, h1, h2⟩ := bind_ok h
    cases h2
    exact updLeaf_ok (t := t) hd hP hE h1
  | succ n ih =>
    intro r lo hi t nid res hP hE h
    unfold doRangePut at h
    exact updLoop_ok (fun h1 h2 h3 => ih h1 h2 h3) f hP hE (by simp) h

theorem look_upd (p : K → Bool) (f : Option (K → V → V → Decision)) (v : V) (l : List (K × V)) (k : K) :
    look (eff p (updSel f v) l) k =
      (look l k).map (fun w => if p k && decide (decision f k w v = .replace) then v else w) := by
  rw [eff_map]
  induction l with
  | nil => rfl
  | cons x l ih =>
    rw [List.map_cons, look_cons, look_cons, ih]
    have e : (if p x.1 then updOne f v x else x).1 = x.1 := by
      split
      · exact updOne_key f v x
      · rfl
    rw [e]
    by_cases h : x.1 = k
    · subst h
      simp only [if_true, Option.map_some]
      congr 1
      unfold updOne
      cases p x.1 <;> simp
      split <;> rfl
    · simp [h]

/-- A range update: on success all of the interval; in every case a part of it from the beginning, and nothing
else. -/
theorem rangePut_ok {c : Cfg K V} {rq : UpdReq K V} (hd : ∀ k o, decision rq.filter k o rq.val ≠ .remove)
    (f : Nat) :
    ∀ {r : KeyRange K} {b b' : BT K V} {st : Status}, b.Inv → Entry rq.range r none →
      rangePut c rq f b { range := r } = .ok (b', st) →
      b'.Inv ∧ ∃ p : K → Bool, (∀ k, p k = true → Spec.inRange r k = true) ∧
        (∀ k k', p k = true → Spec.inRange r k' = true → k' ≤ k → p k' = true) ∧
        (∀ k, b'.map k =
          (b.map k).map (fun w => if p k && decide (decision rq.filter k w rq.val = .replace) then rq.val else w)) ∧
        (st = .success ∧ (∀ k, p k = Spec.inRange r k) ∨ st = .not_found) := by
  induction f with
  | zero => intro r b b' st _ _ h; cases h
  | succ f ih =>
    intro r b b' st hb hE h
    unfold rangePut at h
    rcases ite_cases h with ⟨-, h⟩ | ⟨-, h⟩
    · obtain ⟨b1, h1, h2⟩ := bind_ok h
      obtain ⟨h3, h4⟩ := splitRoot_ok h1 hb
      rw [← h4]
      exact ih h3 hE h2
    · obtain ⟨⟨t, nid, w', st'⟩, h1, h2⟩ := bind_ok h
      obtain ⟨h3, h4, h5⟩ := doRangePut_ok hd (n := b.lvl) hb.cover hE h1
      simp only at h2 h5
      have hb1 : (⟨b.lvl, t, nid⟩ : BT K V).Inv := hb.step h3 h4
      have hmap : ∀ P, cont ((levels K V b.lvl).lv t) =
          eff P (updSel rq.filter rq.val) (cont ((levels K V b.lvl).lv b.root)) →
          ∀ k, (⟨b.lvl, t, nid⟩ : BT K V).map k = (b.map k).map
            (fun w => if P k && decide (decision rq.filter k w rq.val = .replace) then rq.val else w) := by
        intro P hP k
        show look (cont ((levels K V b.lvl).lv t)) k = _
        rw [hP, look_upd]
        rfl
      rcases h5 with ⟨c3, c4, -⟩ | ⟨c3, x, c4, -, c6, c7⟩ | ⟨c3, P, c4, c5, c6⟩
      · rw [if_neg (by rw [c3]; simp)] at h2
        cases h2
        exact ⟨hb1, Spec.inRange r, fun _ h => h, fun _ _ _ h _ => h, hmap _ c4, Or.inl ⟨c3, fun _ => rfl⟩⟩
      · rw [if_pos c3, c7] at h2
        have hx := (inRange_iff r x).mp c4
        have hE' : Entry rq.range { r with startKey := x, startIncl := true } none := by
          refine ⟨hE.endKey, hE.endIncl, ?_, by simp⟩
          have := hx.2
          unfold Above at this
          split at this
          · rcases lt_or_eq_of_le (not_lt.mp this) with h | h
            · exact Or.inl h
            · exact Or.inr ⟨h, rfl⟩
          · exact Or.inl (not_le.mp this)
        obtain ⟨k1, P, k2, k3, k4, k5⟩ := ih hb1 hE' h2
        have hge : ∀ k, Spec.inRange { r with startKey := x, startIncl := true } k = (Spec.inRange r k && decide (x ≤ k)) := by
          intro k
          rw [Bool.eq_iff_iff, Bool.and_eq_true, inRange_iff, inRange_iff, decide_eq_true_eq]
          have h6 : Above { r with startKey := x, startIncl := true } k ↔ Above r k := Iff.rfl
          have h7 : Below { r with startKey := x, startIncl := true } k ↔ k < x := by simp [Below]
          rw [h6, h7, not_lt]
          constructor
          · rintro ⟨g1, g2⟩
            exact ⟨⟨fun hc => hx.1 (hc.mono g1), g2⟩, g1⟩
          · rintro ⟨⟨-, g2⟩, g1⟩
            exact ⟨g1, g2⟩
        refine ⟨k1, fun k => (Spec.inRange r k && decide (k < x)) || P k, ?_, ?_, ?_, ?_⟩
        · intro k hk
          simp only [Bool.or_eq_true, Bool.and_eq_true] at hk
          rcases hk with hk | hk
          · exact hk.1
          · have := k2 k hk
            rw [hge, Bool.and_eq_true] at this
            exact this.1
        · intro k k' hk hk' hle
          simp only [Bool.or_eq_true, Bool.and_eq_true, decide_eq_true_eq] at hk ⊢
          by_cases hlt : k' < x
          · exact Or.inl ⟨hk', hlt⟩
          · right
            rcases hk with hk | hk
            · exact absurd (lt_of_le_of_lt hle hk.2) hlt
            · exact k3 k k' hk (by rw [hge]; simp [hk', not_lt.mp hlt]) hle
        · intro k
          rw [k4, hmap _ c6]
          cases b.map k with
          | none => rfl
          | some w =>
            simp only [Option.map_some]
            congr 1
            by_cases hlt : k < x
            · have hPk : P k = false := by
                rw [Bool.eq_false_iff]
                intro hc
                have := k2 k hc
                rw [hge, Bool.and_eq_true, decide_eq_true_eq] at this
                exact absurd hlt (not_lt.mpr this.2)
              simp [hPk]
            · simp [hlt]
        · rcases k5 with ⟨k5, k6⟩ | k5
          · refine Or.inl ⟨k5, fun k => ?_⟩
            simp only
            rw [k6, hge]
            by_cases hlt : k < x
            · simp [hlt]
            · simp [hlt, not_lt.mp hlt]
          · exact Or.inr k5
      · rw [if_neg (by rw [c3]; simp)] at h2
        cases h2
        exact ⟨hb1, P, c4, c5, hmap _ c6, Or.inr c3⟩

end
end HS.Btree
