import Verif.Btree.RangeWin

/-! # Range remove removes exactly the selected keys of the interval -/

namespace HS.Btree

section
variable {K V A : Type} [LinearOrder K]

/-- What a range remove does to an entry of the interval. -/
def dropSel (f : Option (K → V → Bool)) (x : K × V) : Option (K × V) := if selects f x.1 x.2 then none else some x

omit [LinearOrder K] in
theorem dropSel_key (f : Option (K → V → Bool)) (x y : K × V) (h : dropSel f x = some y) : y.1 = x.1 := by
  unfold dropSel at h
  split at h
  · cases h
  · cases h; rfl

/-- Some entry of the interval is selected. -/
def anySel (p : K → Bool) (f : Option (K → V → Bool)) (l : List (K × V)) : Bool :=
  l.any (fun x => p x.1 && selects f x.1 x.2)

omit [LinearOrder K] in
@[simp] theorem anySel_append (p : K → Bool) (f : Option (K → V → Bool)) (a b : List (K × V)) :
    anySel p f (a ++ b) = (anySel p f a || anySel p f b) := by simp [anySel]

omit [LinearOrder K] in
theorem anySel_none {p : K → Bool} {f : Option (K → V → Bool)} {l : List (K × V)}
    (h : ∀ x ∈ l, p x.1 = false) : anySel p f l = false := by
  unfold anySel
  rw [List.any_eq_false]
  intro x hx
  rw [h x hx]
  simp

omit [LinearOrder K] in
theorem anySel_congr {p p' : K → Bool} {f : Option (K → V → Bool)} {l : List (K × V)}
    (h : ∀ x ∈ l, p x.1 = p' x.1) : anySel p f l = anySel p' f l := by
  unfold anySel
  rw [Bool.eq_iff_iff, List.any_eq_true, List.any_eq_true]
  constructor <;> rintro ⟨x, hx, h1⟩ <;> refine ⟨x, hx, ?_⟩
  · rw [← h x hx]; exact h1
  · rw [h x hx]; exact h1

theorem filter_eff {f : Option (K → V → Bool)} {p : K → Bool} (l : List (K × V)) :
    l.filter (fun x => !(p x.1 && selects f x.1 x.2)) = eff p (dropSel f) l := by
  unfold eff
  rw [← List.filterMap_eq_filter]
  apply List.filterMap_congr
  intro x _
  unfold dropSel Option.guard
  cases h1 : p x.1 <;> cases h2 : selects f x.1 x.2 <;> simp [h1, h2]

/-- What a range remove must do to a subtree that covers `(lo, hi]`. -/
def RROk (L : Lvl K V A) (f : Option (K → V → Bool)) (r : KeyRange K) (lo hi : Option K) (md : Bool)
    (t : Node K A) (nid : Nat) (res : Node K A × Nat × WS K × Status) : Prop :=
  L.P res.1 lo hi ∧ Step (L.lv t) (L.lv res.1) nid res.2.1 ∧
    cont (L.lv res.1) = eff (Spec.inRange r) (dropSel f) (cont (L.lv t)) ∧
    res.2.2.2 = (if md || anySel (Spec.inRange r) f (cont (L.lv t)) then .success else .not_found) ∧
    ∀ h, hi = some h → h < r.endKey → res.2.2.1 = { range := after r h }

/-- The working range that a subtree may be entered with. -/
structure Entry (I r : KeyRange K) (hi : Option K) : Prop where
  endKey : r.endKey = I.endKey
  endIncl : r.endIncl = I.endIncl
  proper : Proper r
  hi : ∀ x, hi = some x → ¬ Below r x

theorem inRange_trim {r : KeyRange K} {k x : K} (hk : k < r.endKey) (hx : x ≤ k) :
    Spec.inRange { r with endKey := k, endIncl := true } x = Spec.inRange r x := by
  have h1 : x < r.endKey := lt_of_le_of_lt hx hk
  unfold Spec.inRange
  simp [hx, h1, h1.le]

theorem rrLeaf_ok {I r : KeyRange K} {f : Option (K → V → Bool)} {t : Node K V} {lo hi : Option K} {nid : Nat}
    {t' : Node K V} {w' : WS K} {st : Status} (hP : leafLvl.P t lo hi) (hE : Entry I r hi)
    (h : rrLeaf I f t hi { range := r } = .ok (t', w', st)) :
    RROk leafLvl f r lo hi false t nid (t', nid, w', st) := by
  obtain ⟨q1, q2, q3⟩ : t.edge = none ∧ Asc t.es ∧ ∀ x ∈ t.es, ltLo lo x.1 ∧ leHi x.1 hi := hP
  -- the trimmed range selects the same entries
  have key : ∀ (w1 : WS K), w1.exhausted = false → (∀ x ∈ t.es, Spec.inRange w1.range x.1 = Spec.inRange r x.1) →
      (∀ h, hi = some h → h < r.endKey → w1.shift I = { range := after r h }) →
      (do
        let r1 ← w1.get
        let (es, cnt) ← multiRemove t r1 f
        pure ({ t with es := es }, w1.shift I, if cnt ≠ 0 then Status.success else Status.not_found) :
          Except Fault (Node K V × WS K × Status)) = .ok (t', w', st) →
      RROk leafLvl f r lo hi false t nid (t', nid, w', st) := by
    intro w1 hex hin hsh h
    unfold WS.get at h
    rw [hex] at h
    simp only [Bool.false_eq_true, if_false] at h
    obtain ⟨r1, h1, h2⟩ := bind_ok h
    cases h1
    rw [multiRemove_spec q2] at h2
    obtain ⟨⟨es, cnt⟩, h3, h4⟩ := bind_ok h2
    cases h3
    cases h4
    have hes : t.es.filter (fun x => !(Spec.inRange w1.range x.1 && selects f x.1 x.2)) =
        eff (Spec.inRange r) (dropSel f) t.es := by
      rw [filter_eff]; exact eff_congr hin
    refine ⟨⟨q1, List.Pairwise.filter _ q2, fun x hx => q3 x (List.mem_filter.mp hx).1⟩, ?_, ?_, ?_, hsh⟩
    · show Step [t] [{ t with es := _ }] nid nid
      exact ⟨le_rfl, fun nx => rfl, fun nx h => h, fun i hi => Or.inl hi, fun h _ => h⟩
    · show cont [{ t with es := _ }] = eff (Spec.inRange r) (dropSel f) (cont [t])
      simp only [cont_cons, cont_nil, List.append_nil]
      exact hes
    · show (if _ then Status.success else Status.not_found) = _
      have hc : cont (leafLvl.lv t) = t.es := by show cont [t] = _; simp
      rw [hc, Bool.false_or]
      have : ((hits w1.range t.es).filter (fun x => selects f x.1 x.2)).length ≠ 0 ↔
          anySel (Spec.inRange r) f t.es = true := by
        rw [← anySel_congr hin]
        unfold hits anySel
        rw [List.filter_filter, List.any_eq_true, ← Nat.pos_iff_ne_zero, List.length_pos_iff_exists_mem]
        simp only [List.mem_filter]
        constructor <;> rintro ⟨x, hx, h1⟩ <;> exact ⟨x, hx, by rw [Bool.and_comm]; exact h1⟩
      by_cases hc : anySel (Spec.inRange r) f t.es = true
      · rw [if_pos (this.mpr hc), hc]; rfl
      · rw [if_neg (fun h => hc (this.mp h)), if_neg hc]
  unfold rrLeaf at h
  cases hi with
  | none => exact key { range := r } rfl (fun _ _ => rfl) (by simp) h
  | some k =>
    simp only [WS.trimTo, WS.get, Bool.false_eq_true, if_false] at h
    obtain ⟨w1, h1, h2⟩ := bind_ok h
    obtain ⟨r1, h3, h4⟩ := bind_ok h1
    cases h3
    split at h4
    · rename_i hlt
      cases h4
      refine key _ rfl (fun x hx => inRange_trim hlt (by simpa using (q3 x hx).2)) ?_ h2
      intro h hh hlt'
      cases hh
      simp only [WS.shift, if_true, after, ← hE.endKey, ← hE.endIncl]
    · rename_i hlt
      cases h4
      refine key _ rfl (fun _ _ => rfl) ?_ h2
      intro h hh hlt'
      cases hh
      exact absurd hlt' hlt

/-- The parts of an interior node around the child at `cur`, when the interval's window reaches it. -/
theorem win_parts {L : Lvl K V A} {t : Node K (Node K A)} {lo hi m q : Option K} {ch : Node K A}
    {a z : List (Option K × Node K A)} {r : KeyRange K} {cur e : Nat}
    (hk : t.kids = a ++ (q, ch) :: z) (ha : a.length = cur) (h1 : USeg L.P lo a m)
    (h2 : ∀ y ∈ a, y.1 ≠ none) (h3 : USeg L.P m ((q, ch) :: z) hi) (hw : Win r (t.kids.map (·.1)) cur e) :
    (∀ x ∈ cont (lvs L a), Spec.inRange r x.1 = false) ∧ (∀ k, q = some k → ¬ Below r k) ∧
    (cur < e → ∃ k, q = some k ∧ k < r.endKey ∧ (∀ x ∈ cont (lvs L a), x.1 ≤ k)) ∧
    (cur = e → (∀ x ∈ cont (lvs L z), Spec.inRange r x.1 = false) ∧
      ∀ h, hi = some h → h < r.endKey → q = some h) := by
  have hcur : (t.kids.map (·.1))[cur]? = some q := by rw [hk, ← ha]; simp
  have hlen : (t.kids.map (·.1)).length = cur + 1 + z.length := by rw [hk, List.length_map]; simp; omega
  have hlast : ∀ (a' : List (Option K × Node K A)) w, a = a' ++ [w] → ∃ k, w.1 = some k ∧ Below r k ∧ m = some k := by
    rintro a' w rfl
    have hg : (t.kids.map (·.1))[a'.length]? = some w.1 := by rw [hk]; simp
    obtain ⟨k, hk1, hk2⟩ := hw.pre _ _ hg (by rw [← ha]; simp)
    exact ⟨k, hk1, hk2, by rw [h1.last, hk1]⟩
  refine ⟨?_, ?_, ?_, ?_⟩
  · intro x hx
    rcases List.eq_nil_or_concat a with rfl | ⟨a', w, rfl⟩
    · simp at hx
    · obtain ⟨k, hk1, hk2, hk3⟩ := hlast a' w (by simp)
      have := (h1.cont x hx).2
      rw [hk3] at this
      exact not_inRange_of_below (hk2.mono (by simpa using this))
  · intro k hq
    exact hw.post cur k (by rw [hcur, hq]) le_rfl
  · intro hlt
    obtain ⟨k, rfl, hk2⟩ := hw.inner cur q hcur hlt
    refine ⟨k, rfl, hk2, ?_⟩
    intro x hx
    have := (h1.cont x hx).2
    cases m with
    | none =>
      rcases List.eq_nil_or_concat a with rfl | ⟨a', w, rfl⟩
      · simp at hx
      · obtain ⟨k', -, -, hk3⟩ := hlast a' w (by simp)
        cases hk3
    | some m =>
      have h4 := h3.1
      simp at this h4
      exact this.trans h4.le
  · rintro rfl
    constructor
    · intro x hx
      cases z with
      | nil => simp at hx
      | cons y z' =>
        obtain ⟨k, rfl, hk2⟩ := hw.last q hcur (by rw [hlen]; simp)
        have := (h3.2.2.cont x hx).1
        simp at this
        exact not_inRange_of_above (Above_of_lt (lt_of_le_of_lt hk2 this))
    · intro h hh hlt
      cases z with
      | nil =>
        have : hi = q := USeg.last (a := []) (y := (q, ch)) h3
        rw [← this, hh]
      | cons y z' =>
        obtain ⟨k, rfl, hk2⟩ := hw.last q hcur (by rw [hlen]; simp)
        have := h3.2.2.le_hi
        rw [hh] at this
        simp at this
        exact absurd (lt_of_lt_of_le hlt hk2) (not_lt.mpr this)

/-- The child at a position, with the children before and after it. -/
theorem kid_parts {L : Lvl K V A} {t : Node K (Node K A)} {lo hi : Option K} {i : Nat} {ch : Node K A}
    (hP : (intLvl L).P t lo hi) (hv : t.valAt i = some ch) :
    ∃ a q z m, t.kids = a ++ (q, ch) :: z ∧ a.length = i ∧ t.keyAt i = q ∧ USeg L.P lo a m ∧
      (∀ y ∈ a, y.1 ≠ none) ∧ USeg L.P m ((q, ch) :: z) hi := by
  obtain ⟨a, q, z, hk, ha⟩ := valAt_split hv
  obtain ⟨-, hu⟩ := Kids_iff.mp (show Kids L.P lo t.es t.edge hi from hP)
  rw [hk] at hu
  obtain ⟨m, u1, u2, u3⟩ := hu.split (by simp)
  exact ⟨a, q, z, m, hk, ha, keyAt_kids t hk ha, u1, u3, u2⟩

theorem ite_cases {α : Type} {p : Prop} [Decidable p] {x y z : α} (h : (if p then x else y) = z) :
    p ∧ x = z ∨ ¬ p ∧ y = z := by
  by_cases hp : p
  · rw [if_pos hp] at h; exact Or.inl ⟨hp, h⟩
  · rw [if_neg hp] at h; exact Or.inr ⟨hp, h⟩

/-- Going on to the next child of the window. -/
theorem win_next {L : Lvl K V A} {I : KeyRange K} {t : Node K (Node K A)} {lo hi m : Option K} {k : K}
    {ch ch' : Node K A} {a z : List (Option K × Node K A)} {r : KeyRange K} {cur e : Nat}
    (hP : (intLvl L).P t lo hi) (hk : t.kids = a ++ (some k, ch) :: z) (ha : a.length = cur)
    (h3 : USeg L.P m ((some k, ch) :: z) hi) (hw : Win r (t.kids.map (·.1)) cur e) (hlt : cur < e)
    (hE : Entry I r hi) (hke : k < r.endKey) :
    Win (after r k) ((t.setVal cur ch').kids.map (·.1)) (cur + 1) e ∧ Entry I (after r k) hi := by
  have hcur : (t.kids.map (·.1))[cur]? = some (some k) := by rw [hk, ← ha]; simp
  have hasc : Asc t.es := (intLvl L).asc hP
  refine ⟨?_, hE.endKey, hE.endIncl, Proper.after hke, ?_⟩
  · rw [keys_setVal t hk ha]
    exact hw.step hasc hlt hcur
  · intro x hx hb
    rw [below_after] at hb
    have hz : z ≠ [] := by
      rintro rfl
      have := hw.lt
      rw [hk] at this
      simp at this
      omega
    obtain ⟨y, z', rfl⟩ := List.exists_cons_of_ne_nil hz
    have h5 := h3.2.2
    obtain ⟨q', cz⟩ := y
    cases q' with
    | none => rw [h5.2.1] at hx; cases hx
    | some q' =>
      have h6 := h5.2.2.le_hi
      have h7 := h5.1
      rw [hx] at h6
      simp at h6 h7
      exact absurd (lt_of_lt_of_le h7 h6) (not_lt.mpr hb)

theorem tryMerge_ok {c : Cfg K V} (hc : c.Good) {n f : Nat} {t : Tree K V (n + 1)} {cur : Nat} {ch : Tree K V n}
    {nid nid' : Nat} {m : Option (Tree K V (n + 1))} {lo hi : Option K} (hP : (levels K V (n + 1)).P t lo hi)
    (h : tryMerge c n f t cur ch nid = .ok (m, nid')) :
    nid ≤ nid' ∧ ∀ t', m = some t' → (levels K V (n + 1)).P t' lo hi ∧
      Step ((levels K V (n + 1)).lv t) ((levels K V (n + 1)).lv t') nid nid' ∧
      cont ((levels K V (n + 1)).lv t') = cont ((levels K V (n + 1)).lv t) := by
  unfold tryMerge at h
  rcases ite_cases h with ⟨hm, h⟩ | ⟨hm, h⟩
  · simp only [Bool.and_eq_true, decide_eq_true_eq] at hm
    exact mergeNodes_inv (L := levels K V n) (hc.nk n).1 (hc.nk n).2 hc.ideal hm.2 hP h
  · cases h
    exact ⟨le_rfl, by simp⟩

theorem rrLoop_ok {c : Cfg K V} (hc : c.Good) {I : KeyRange K} {fl : Option (K → V → Bool)} {n : Nat}
    {rec : Tree K V n → Option K → Nat → WS K → Except Fault (Tree K V n × Nat × WS K × Status)}
    (hrec : ∀ {r lo hi t nid res}, (levels K V n).P t lo hi → Entry I r hi →
      rec t hi nid { range := r } = .ok res → RROk (levels K V n) fl r lo hi false t nid res) :
    ∀ (f : Nat) {r : KeyRange K} {lo hi : Option K} {t : Tree K V (n + 1)} {nid : Nat}
      {pos : Option (Nat × Nat)} {md : Bool} {last : Status} {res},
      (levels K V (n + 1)).P t lo hi → Entry I r hi →
      (∀ cur e, pos = some (cur, e) → Win r (t.kids.map (·.1)) cur e) →
      rrLoop c n rec f t nid { range := r } pos md last = .ok res →
      RROk (levels K V (n + 1)) fl r lo hi md t nid res := by
  intro f
  induction f with
  | zero => intro r lo hi t nid pos md last res _ _ _ h; cases pos <;> cases h
  | succ f ih =>
    intro r lo hi t nid pos md last res hP hE hpos h
    cases pos with
    | none =>
      unfold rrLoop at h
      obtain ⟨r', h1, h2⟩ := bind_ok h
      cases h1
      obtain ⟨s, e, h3, h4⟩ := match_win (L := levels K V n) hP hE.proper hE.hi
      replace h3 : matchRange false t r = some (true, s, e) := h3
      simp only [h3] at h2
      exact ih hP hE (by rintro cur e ⟨⟩; exact h4) h2
    | some p =>
      obtain ⟨cur, e⟩ := p
      have hw := hpos cur e rfl
      have hle := hw.le
      unfold rrLoop at h
      rw [if_neg (by omega)] at h
      cases hv : t.valAt cur with
      | none => simp only [hv] at h; cases h
      | some ch =>
        simp only [hv] at h
        obtain ⟨⟨m, nid1⟩, h1, h2⟩ := bind_ok h
        obtain ⟨g1, g2⟩ := tryMerge_ok hc hP h1
        cases m with
        | some t' =>
          obtain ⟨g3, g4, g5⟩ := g2 t' rfl
          obtain ⟨k1, k2, k3, k4, k5⟩ := ih g3 hE (by simp) h2
          exact ⟨k1, g4.trans k2, by rw [k3, g5], by rw [k4, g5], k5⟩
        | none =>
          simp only at h2
          obtain ⟨⟨ch', nid2, w', st⟩, h3, h4⟩ := bind_ok h2
          simp only at h4
          obtain ⟨a, q, z, m0, hk, ha, hq, u1, u3, u2⟩ := kid_parts (L := levels K V n) hP hv
          replace hq : t.keyAt cur = q := hq
          rw [hq] at h3
          obtain ⟨w1, w2, w3, w4⟩ := win_parts (L := levels K V n) hk ha u1 u3 u2 hw
          obtain ⟨c1, c2, c3, c4, c5⟩ := hrec u2.head ⟨hE.endKey, hE.endIncl, hE.proper, w2⟩ h3
          have hl : (levels K V (n + 1)).lv t =
              lvs (levels K V n) a ++ ((levels K V n).lv ch ++ lvs (levels K V n) z) := lv_split hk
          obtain ⟨hP', hl'⟩ := set_kid (L := levels K V n) hk ha u1 u3 u2 c1
          replace hl' : (levels K V (n + 1)).lv (t.setVal cur ch') =
              lvs (levels K V n) a ++ ((levels K V n).lv ch' ++ lvs (levels K V n) z) := hl'
          replace hP' : (levels K V (n + 1)).P (t.setVal cur ch') lo hi := hP'
          have hstep : Step ((levels K V (n + 1)).lv t) ((levels K V (n + 1)).lv (t.setVal cur ch')) nid nid2 := by
            rw [hl, hl']
            have := ((Step.refl _ g1).trans c2).ctx (lvs (levels K V n) a) (lvs (levels K V n) z)
            simpa [List.append_assoc] using this
          have hst : (st == Status.success) = anySel (Spec.inRange r) fl (cont ((levels K V n).lv ch)) := by
            simp only [Bool.false_or] at c4
            rw [c4]
            cases anySel (Spec.inRange r) fl (cont ((levels K V n).lv ch)) <;> rfl
          rcases Nat.lt_or_ge cur e with hlt | hge
          · obtain ⟨k, rfl, hk2, hk3⟩ := w3 hlt
            have hw' := c5 k rfl hk2
            simp only at hw'
            rw [hw'] at h4
            obtain ⟨hwin, hE'⟩ := win_next (L := levels K V n) (ch' := ch') hP hk ha u2 hw hlt hE hk2
            obtain ⟨k1, k2, k3, k4, k5⟩ := ih (pos := some (cur + 1, e)) hP' hE'
              (by
                rintro cur' e' ⟨⟩
                exact hwin) h4
            have hch : ∀ x ∈ cont ((levels K V n).lv ch), x.1 ≤ k := fun x hx => by
              simpa using ((levels K V n).cont_bnd (nd := ch) u2.head hx).2
            have hch' : ∀ x ∈ cont ((levels K V n).lv ch'), x.1 ≤ k := fun x hx => by
              simpa using ((levels K V n).cont_bnd (nd := ch') c1 hx).2
            have hz : ∀ x ∈ cont (lvs (levels K V n) z),
                Spec.inRange (after r k) x.1 = Spec.inRange r x.1 := fun x hx =>
              inRange_after_gt (w2 k rfl) (by simpa using (u2.2.2.cont x hx).1)
            refine ⟨k1, hstep.trans k2, ?_, ?_, ?_⟩
            · rw [k3, hl, hl']
              simp only [cont_append, eff_append]
              simp only at c3
              rw [eff_none (p := Spec.inRange (after r k)) (fun x hx => inRange_after_le (hk3 x hx)),
                eff_none (p := Spec.inRange (after r k)) (fun x hx => inRange_after_le (hch' x hx)),
                eff_congr hz, eff_none (p := Spec.inRange r) w1, c3]
            · rw [k4, hst, hl, hl']
              simp only [cont_append, anySel_append]
              rw [anySel_none (p := Spec.inRange (after r k)) (fun x hx => inRange_after_le (hk3 x hx)),
                anySel_none (p := Spec.inRange (after r k)) (fun x hx => inRange_after_le (hch' x hx)),
                anySel_congr hz, anySel_none (p := Spec.inRange r) w1]
              simp only [Bool.false_or, Bool.or_assoc]
            · exact k5
          · obtain rfl : cur = e := by omega
            obtain ⟨w5, w6⟩ := w4 rfl
            cases f with
            | zero => cases h4
            | succ f =>
              unfold rrLoop at h4
              rw [if_pos (by omega)] at h4
              cases h4
              refine ⟨hP', hstep, ?_, ?_, ?_⟩
              · simp only
                rw [hl, hl']
                simp only [cont_append, eff_append]
                simp only at c3
                rw [c3, eff_none w1, eff_none w5]
              · simp only
                rw [hst, hl]
                simp only [cont_append, anySel_append]
                rw [anySel_none w1, anySel_none w5]
                simp only [Bool.false_or, Bool.or_false]
                simp only [Bool.false_or] at c4
                rw [c4]
                cases md <;> cases anySel (Spec.inRange r) fl (cont ((levels K V n).lv ch)) <;> rfl
              · intro h hh hlt
                exact c5 h (w6 h hh hlt) hlt

theorem doRangeRemove_ok {c : Cfg K V} (hc : c.Good) {I : KeyRange K} {fl : Option (K → V → Bool)} {f : Nat} (n : Nat) :
    ∀ {r : KeyRange K} {lo hi : Option K} {t : Tree K V n} {nid : Nat} {res},
      (levels K V n).P t lo hi → Entry I r hi →
      doRangeRemove c I fl f n t hi nid { range := r } = .ok res →
      RROk (levels K V n) fl r lo hi false t nid res := by
  induction n with
  | zero =>
    intro r lo hi t nid res hP hE h
    unfold doRangeRemove at h
    obtain ⟨⟨t', w', st⟩, h1, h2⟩ := bind_ok h
    cases h2
    exact rrLeaf_ok (t := t) hP hE h1
  | succ n ih =>
    intro r lo hi t nid res hP hE h
    unfold doRangeRemove at h
    exact rrLoop_ok hc (fun h1 h2 h3 => ih h1 h2 h3) f hP hE (by simp) h

theorem look_eff {l : List (K × V)} (hs : Asc l) (r : KeyRange K) (fl : Option (K → V → Bool)) :
    look (eff (Spec.inRange r) (dropSel fl) l) = Spec.removeRange (look l) r (selects fl) := by
  rw [← filter_eff]
  exact look_multiRemove hs r fl

/-- A range remove removes the selected keys of the interval and no other; it reports whether there were
any. -/
theorem rangeRemove_ok {c : Cfg K V} (hc : c.Good) {I : KeyRange K} {fl : Option (K → V → Bool)} (hI : Proper I)
    (f : Nat) :
    ∀ {b b' : BT K V} {st : Status}, b.Inv → rangeRemove c I fl f b = .ok (b', st) →
      b'.Inv ∧ b'.map = Spec.removeRange b.map I (selects fl) ∧ (st = .success ∨ st = .not_found) ∧
        (st = .success ↔ ∃ k v, b.map k = some v ∧ Spec.inRange I k = true ∧ selects fl k v = true) := by
  induction f with
  | zero => intro b b' st _ h; cases h
  | succ f ih =>
    intro b b' st hb h
    unfold rangeRemove at h
    obtain ⟨r, h1, h2⟩ := bind_ok h
    obtain ⟨g1, g2⟩ := collapse_ok hb h1
    cases r with
    | none =>
      simp only at h2
      obtain ⟨⟨t, nid, w, st'⟩, h3, h4⟩ := bind_ok h2
      cases h4
      obtain ⟨h5, h6, h7, h8, -⟩ := doRangeRemove_ok hc (n := b.lvl) hb.cover ⟨rfl, rfl, hI, by simp⟩ h3
      have hasc : Asc (cont ((levels K V b.lvl).lv b.root)) := (levels K V b.lvl).cont_asc hb.cover
      refine ⟨hb.step h5 h6, ?_, ?_, ?_⟩
      · show look (cont ((levels K V b.lvl).lv t)) = _
        simp only at h7
        rw [h7]
        exact look_eff hasc I fl
      · simp only at h8
        rw [h8]
        split <;> simp
      · simp only [Bool.false_or] at h8
        rw [h8]
        have : anySel (Spec.inRange I) fl (cont ((levels K V b.lvl).lv b.root)) = true ↔
            ∃ k v, b.map k = some v ∧ Spec.inRange I k = true ∧ selects fl k v = true := by
          unfold anySel
          rw [List.any_eq_true]
          constructor
          · rintro ⟨x, hx, hh⟩
            rw [Bool.and_eq_true] at hh
            exact ⟨x.1, x.2, (look_mem hasc).mpr hx, hh⟩
          · rintro ⟨k, v, hm, hh⟩
            exact ⟨(k, v), (look_mem hasc).mp hm, by rw [Bool.and_eq_true]; exact hh⟩
        rw [← this]
        cases anySel (Spec.inRange I) fl (cont ((levels K V b.lvl).lv b.root)) <;> simp
    | some r =>
      cases r with
      | none =>
        cases h2
        refine ⟨hb, ?_, by simp, ?_⟩
        · rw [g1 rfl]; rfl
        · rw [g1 rfl]; simp
      | some b1 =>
        obtain ⟨g3, g4⟩ := g2 b1 rfl
        rw [← g4]
        exact ih g3 h2

end
end HS.Btree
