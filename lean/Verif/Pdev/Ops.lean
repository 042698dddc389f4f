import Verif.Pdev.Lemmas
/-! Specifications of the multi-chunk operations, for C16/C17. -/
namespace HS.Pdev

theorem fillRun_spec {g : Geo} {vdev size : Nat} (hs : 1 ≤ size) : ∀ {ids : List Nat} {s : Nat} {m : Mem} {out : List (Nat × Info)},
    Core g m → (∀ c ∈ m.chunks, c.1 < s ∨ m.bm[c.1]? = some true) →
    (∀ i, i < ids.length → m.bm[s + i]? = some false) →
    ∃ m1 new e, fillRun g vdev size s ids m out = some (m1, out ++ new, e) ∧ Core g m1 ∧ m1.bm = m.bm ∧
      (∀ c, c ∈ m1.chunks ↔ c ∈ new ∨ c ∈ m.chunks) ∧
      (∀ c ∈ new, s ≤ c.1 ∧ c.1 < s + ids.length ∧ c.2.id ∈ ids ∧ c.2.vdev = vdev ∧ c.2.size = size) ∧
      new.Pairwise (fun x y => x.1 ≠ y.1) ∧
      (e = false → new.length = ids.length ∧ ∀ i, i < ids.length → ∃ c ∈ new, c.1 = s + i) := by
  intro ids
  induction ids with
  | nil =>
    intro s m out hm _ _
    exact ⟨m, [], false, by simp [fillRun], hm, rfl, by simp, by simp, by simp, by simp⟩
  | cons id ids ih =>
    intro s m out hm hb hf
    simp only [fillRun]
    have hfs : m.bm[s]? = some false := by simpa using hf 0 (by simp)
    have fresh : ∀ c ∈ m.chunks, c.1 ≠ s := by
      intro c hc e
      rcases hb c hc with h | h
      · omega
      · rw [e, hfs] at h; simp at h
    rcases populate_spec (vdev := vdev) (id := id) hm hs with ⟨h1, _⟩ | ⟨info, m1, h1, hsz, hid, hvd, _, _, hbm, hch, hcore⟩
    · rw [h1]
      exact ⟨m, [], true, by simp, hm, rfl, by simp, by simp, by simp, by simp⟩
    · rw [h1]
      simp only
      have hc' := hcore s fresh
      obtain ⟨m2, new, e, r1, r2, r3, r4, r5, r6, r7⟩ := ih (s := s + 1) (m := { m1 with chunks := (s, info) :: m1.chunks })
        (out := out ++ [(s, info)]) hc'
        (by
          intro c hc
          simp only at hc ⊢
          rw [hch] at hc
          rcases List.mem_cons.1 hc with e | hc
          · left; rw [e]; simp
          · rcases hb c hc with h | h
            · left; omega
            · right; rw [hbm]; exact h)
        (by
          intro i hi
          simp only [hbm]
          have := hf (i + 1) (by simp; omega)
          rw [← this]; congr 1; omega)
      refine ⟨m2, (s, info) :: new, e, by rw [r1]; simp, r2, by rw [r3]; exact hbm, ?_, ?_, ?_, ?_⟩
      · intro c
        rw [r4]
        simp only [List.mem_cons, hch]
        grind
      · intro c hc
        rcases List.mem_cons.1 hc with e | hc
        · subst e; simp [hsz, hid, hvd]
        · obtain ⟨a, b, c1, c2, c3⟩ := r5 c hc
          exact ⟨by omega, by simp only [List.length_cons]; omega, by simp [c1], c2, c3⟩
      · rw [List.pairwise_cons]
        refine ⟨?_, r6⟩
        intro c hc e
        have := r5 c hc
        simp only at e
        omega
      · intro he
        refine ⟨by simp [(r7 he).1], ?_⟩
        intro i hi
        cases i with
        | zero => exact ⟨(s, info), by simp, by simp⟩
        | succ i =>
          obtain ⟨c, hc, h⟩ := (r7 he).2 i (by simpa using hi)
          exact ⟨c, by simp [hc], by omega⟩

theorem setRun_length (n : Nat) : ∀ (bm : List Bool) (s : Nat), (setRun bm s n).length = bm.length := by
  induction n with
  | zero => intro bm s; rfl
  | succ n ih => intro bm s; simp [setRun, ih]

theorem setRun_get (n : Nat) : ∀ (bm : List Bool) (s i : Nat),
    (setRun bm s n)[i]? = if s ≤ i ∧ i < s + n ∧ i < bm.length then some true else bm[i]? := by
  induction n with
  | zero =>
    intro bm s i
    rw [if_neg (by omega)]; rfl
  | succ n ih =>
    intro bm s i
    simp only [setRun, ih, List.length_set]
    by_cases h : i = s
    · subst h
      by_cases hl : i < bm.length
      · rw [if_neg (by omega), if_pos (by omega)]; simp [hl]
      · rw [if_neg (by omega), if_neg (by omega)]; simp at hl; simp [hl]
    · by_cases hc : s + 1 ≤ i ∧ i < s + 1 + n ∧ i < bm.length
      · rw [if_pos hc, if_pos (by omega)]
      · rw [if_neg hc, if_neg (by omega), List.getElem?_set_ne (by omega)]

/-- What `createLoop` maintains, relative to the state `base` the call started in. -/
structure LoopInv (g : Geo) (base : Mem) (ids : List Nat) (vdev size : Nat) (m : Mem) (out : List (Nat × Info))
    (ws : List Write) : Prop where
  core : Core g m
  mem : ∀ c, c ∈ m.chunks ↔ c ∈ out ∨ c ∈ base.chunks
  new : ∀ c ∈ out, base.bm[c.1]? = some false ∧ c.2.id ∈ ids ∧ c.2.vdev = vdev ∧ c.2.size = size
  nd : out.Pairwise (fun x y => x.1 ≠ y.1)
  bits : ∀ i : Nat, m.bm[i]? = some true → base.bm[i]? = some true ∨ ∃ c ∈ out, c.1 = i ∧ Write.slot c.1 c.2 ∈ ws
  keep : ∀ i : Nat, base.bm[i]? = some true → m.bm[i]? = some true
  len : m.bm.length = base.bm.length
  wr : ∀ w ∈ ws, ∃ c ∈ out, w = .slot c.1 c.2
  emp : out = [] → m.bm = base.bm ∧ ws = []

theorem createLoop_spec {pick : List Bool → Nat → Option (Nat × Nat)} (hp : PickOk pick) {g : Geo} {base : Mem}
    {all : List Nat} {vdev size : Nat} (hs : 1 ≤ size) : ∀ {fuel : Nat} {ids : List Nat} {m : Mem} {out ws},
    LoopInv g base all vdev size m out ws → BitOk m → (∀ x ∈ ids, x ∈ all) → ids.length ≤ fuel →
    ∃ m1 out1 ws1 e, createLoop pick g vdev size fuel ids m out ws = some (m1, out1, ws1, e) ∧
      LoopInv g base all vdev size m1 out1 ws1 ∧ (e = false → BitOk m1 ∧ (∀ c ∈ out1, Write.slot c.1 c.2 ∈ ws1 ∨ c ∈ out) ∧
        out1.length = out.length + ids.length) := by
  intro fuel
  induction fuel with
  | zero =>
    intro ids m out ws inv bo _ hl
    have : ids = [] := List.length_eq_zero_iff.1 (by omega)
    subst this
    exact ⟨m, out, ws, false, rfl, inv, fun _ => ⟨bo, fun c hc => .inr hc, by simp⟩⟩
  | succ fuel ih =>
    intro ids m out ws inv bo hall hl
    simp only [createLoop]
    split
    · rename_i h0
      exact ⟨m, out, ws, false, rfl, inv, fun _ => ⟨bo, fun c hc => .inr hc, by simp [h0]⟩⟩
    · rename_i h0
      have hpk := hp m.bm ids.length (by omega)
      split
      · exact ⟨m, out, ws, true, rfl, inv, by simp⟩
      · rename_i s n hsn
        rw [hsn] at hpk
        obtain ⟨p1, p2, p3⟩ := hpk
        have hlen : (ids.take n).length = n := by simp; omega
        obtain ⟨m1, new, e, r1, r2, r3, r4, r5, r6, r7⟩ := fillRun_spec (g := g) (vdev := vdev) (out := []) hs (ids := ids.take n) (s := s)
          inv.core (fun c hc => .inr (bo c hc)) (fun i hi => p3 i (by omega))
        rw [hlen] at r5 r7
        rw [r1]
        simp only [List.nil_append]
        have hnewf : ∀ c ∈ new, m.bm[c.1]? = some false := by
          intro c hc
          have := r5 c hc
          have h1 := p3 (c.1 - s) (by omega)
          have h2 : s + (c.1 - s) = c.1 := by omega
          rwa [h2] at h1
        have hnewb : ∀ c ∈ new, base.bm[c.1]? = some false := by
          intro c hc
          have h1 := hnewf c hc
          have h2 : c.1 < base.bm.length := by
            rw [← inv.len]
            rcases List.getElem?_eq_some_iff.1 h1 with ⟨h, _⟩; exact h
          cases hb : base.bm[c.1] with
          | false => simp [h2, hb]
          | true =>
            have := inv.keep c.1 (by simp [h2, hb])
            rw [h1] at this; simp at this
        have hids : ∀ c ∈ new, c.2.id ∈ all := fun c hc => hall _ (List.mem_of_mem_take (r5 c hc).2.2.1)
        have hcross : ∀ c ∈ out, ∀ c' ∈ new, c.1 ≠ c'.1 := by
          intro c hc c' hc' he
          have h1 := bo c ((inv.mem c).2 (.inl hc))
          have h2 := hnewf c' hc'
          rw [he, h2] at h1; simp at h1
        have hmem : ∀ c, c ∈ m1.chunks ↔ c ∈ out ++ new ∨ c ∈ base.chunks := by
          intro c
          rw [r4, inv.mem, List.mem_append]; grind
        have hnd : (out ++ new).Pairwise (fun x y => x.1 ≠ y.1) :=
          List.pairwise_append.2 ⟨inv.nd, r6, hcross⟩
        have hnew : ∀ c ∈ out ++ new, base.bm[c.1]? = some false ∧ c.2.id ∈ all ∧ c.2.vdev = vdev ∧ c.2.size = size := by
          intro c hc
          rcases List.mem_append.1 hc with h | h
          · exact inv.new c h
          · exact ⟨hnewb c h, hids c h, (r5 c h).2.2.2⟩
        cases e with
        | true =>
          refine ⟨m1, out ++ new, ws, true, rfl, ?_, by simp⟩
          refine ⟨r2, hmem, hnew, hnd, ?_, ?_, by rw [r3]; exact inv.len, ?_, ?_⟩
          · intro i hi
            rw [r3] at hi
            rcases inv.bits i hi with h | ⟨c, hc, h⟩
            · exact .inl h
            · exact .inr ⟨c, by simp [hc], h⟩
          · intro i hi; rw [r3]; exact inv.keep i hi
          · intro w hw
            obtain ⟨c, hc, h⟩ := inv.wr w hw
            exact ⟨c, by simp [hc], h⟩
          · intro he
            have : out = [] := (List.append_eq_nil_iff.1 he).1
            rw [r3]; exact inv.emp this
        | false =>
          simp only
          have hne : new ≠ [] := by
            intro he
            obtain ⟨c, hc, _⟩ := (r7 rfl).2 0 (by omega)
            rw [he] at hc; simp at hc
          have inv1 : LoopInv g base all vdev size { m1 with bm := setRun m1.bm s n } (out ++ new)
              (ws ++ new.map fun c => .slot c.1 c.2) := by
            refine ⟨⟨r2.as, r2.lok, r2.cov, r2.sts, r2.snd⟩, hmem, hnew, hnd, ?_, ?_, ?_, ?_, ?_⟩
            · intro i hi
              simp only [setRun_get] at hi
              split at hi
              · rename_i hr
                obtain ⟨c, hc, h⟩ := (r7 rfl).2 (i - s) (by omega)
                refine .inr ⟨c, by simp [hc], by omega, ?_⟩
                rw [List.mem_append]; right
                exact List.mem_map.2 ⟨c, hc, rfl⟩
              · rw [r3] at hi
                rcases inv.bits i hi with h | ⟨c, hc, h⟩
                · exact .inl h
                · exact .inr ⟨c, by simp [hc], h.1, by simp [h.2]⟩
            · intro i hi
              simp only [setRun_get]
              split
              · rfl
              · rw [r3]; exact inv.keep i hi
            · simp only [setRun_length]; rw [r3]; exact inv.len
            · intro w hw
              rcases List.mem_append.1 hw with hw | hw
              · obtain ⟨c, hc, h⟩ := inv.wr w hw
                exact ⟨c, by simp [hc], h⟩
              · obtain ⟨c, hc, h⟩ := List.mem_map.1 hw
                exact ⟨c, by simp [hc], h.symm⟩
            · intro he
              exact absurd (List.append_eq_nil_iff.1 he).2 hne
          have bo1 : BitOk { m1 with bm := setRun m1.bm s n } := by
            intro c hc
            simp only [setRun_get] at hc ⊢
            split
            · rfl
            · rename_i hr
              rcases (r4 c).1 hc with h | h
              · exfalso
                have h1 := r5 c h
                have h2 := hnewf c h
                have h3 : c.1 < m.bm.length := by
                  rcases List.getElem?_eq_some_iff.1 h2 with ⟨h, _⟩; exact h
                rw [← r3] at h3
                omega
              · rw [r3]; exact bo c h
          obtain ⟨m2, out2, ws2, e2, q1, q2, q3⟩ := ih (ids := ids.drop n) inv1 bo1
            (fun x hx => hall x (List.mem_of_mem_drop hx)) (by simp; omega)
          refine ⟨m2, out2, ws2, e2, q1, q2, ?_⟩
          intro he
          obtain ⟨t1, t2, t3⟩ := q3 he
          refine ⟨t1, ?_, ?_⟩
          · intro c hc
            rcases t2 c hc with h | h
            · exact .inl h
            · rcases List.mem_append.1 h with h | h
              · exact .inr h
              · left
                -- the record was written in this round, and later rounds only append writes
                have hw : Write.slot c.1 c.2 ∈ ws ++ new.map fun c => Write.slot c.1 c.2 := by
                  rw [List.mem_append]; right; exact List.mem_map.2 ⟨c, h, rfl⟩
                have hb := bo1 c ((hmem c).2 (.inl (by simp [h])))
                rcases q2.bits c.1 (t1 c ((q2.mem c).2 (.inl hc))) with h' | ⟨c', hc', h1, h2⟩
                · have := hnewb c h
                  rw [this] at h'; simp at h'
                · have : c' = c := by
                    have := q2.core.lok.get ((q2.mem c').2 (.inl hc')) ((q2.mem c).2 (.inl hc))
                    rcases this with e | e
                    · exact e
                    · exact absurd h1 e.1
                  rw [this] at h2; exact h2
          · rw [t3]
            have : new.length = n := (r7 rfl).1
            simp; omega

theorem removeAll_spec {g : Geo} : ∀ {cs : List (Nat × Info)} {m : Mem}, Core g m → (∀ c ∈ cs, c ∈ m.chunks) →
    cs.Pairwise (fun x y => x.1 ≠ y.1) →
    Core g (removeAll m cs).1 ∧ (∀ c, c ∈ (removeAll m cs).1.chunks ↔ c ∈ m.chunks ∧ c ∉ cs) ∧
    (∀ i : Nat, (removeAll m cs).1.bm[i]? = if (∃ c ∈ cs, c.1 = i) ∧ i < m.bm.length then some false else m.bm[i]?) ∧
    (removeAll m cs).1.bm.length = m.bm.length ∧
    (∀ w ∈ (removeAll m cs).2, match w with
      | .slot i info => ∃ c ∈ cs, c.1 = i ∧ Same info c.2
      | .bitmap bm => bm.length = m.bm.length ∧ (∀ i : Nat, bm[i]? = some true → m.bm[i]? = some true) ∧
          ∀ i : Nat, (∀ c ∈ cs, c.1 ≠ i) → bm[i]? = m.bm[i]?) ∧
    (∀ d : Disk, d.bm = m.bm ∨ cs ≠ [] → (d.applyAll (removeAll m cs).2).bm = (removeAll m cs).1.bm) := by
  intro cs
  induction cs with
  | nil =>
    intro m hm _ _
    refine ⟨hm, by simp [removeAll], by simp [removeAll], rfl, by simp [removeAll], ?_⟩
    intro d hd
    rcases hd with h | h
    · simp [removeAll, Disk.applyAll, h]
    · exact absurd rfl h
  | cons c cs ih =>
    intro m hm hsub hpw
    rw [List.pairwise_cons] at hpw
    have hc := hsub c (by simp)
    have hm1 := removeChunk_spec hm hc
    have hmem := removeChunk_mem hm hc
    obtain ⟨r1, r2, r3, r4, r5, r6⟩ := ih hm1 (by
      intro x hx
      rw [hmem]
      refine ⟨hsub x (by simp [hx]), ?_⟩
      intro e
      exact hpw.1 x hx (by rw [e])) hpw.2
    have hbm : (removeChunk m c).1.bm = m.bm.set c.1 false := rfl
    have hws : (removeChunk m c).2 = [.slot c.1 { c.2 with allocated := false }, .bitmap (m.bm.set c.1 false)] := rfl
    refine ⟨r1, ?_, ?_, ?_, ?_, ?_⟩
    · intro x
      simp only [removeAll]
      rw [r2, hmem, List.mem_cons]; grind
    · intro i
      simp only [removeAll]
      rw [r3, hbm, List.length_set]
      by_cases h1 : (∃ x ∈ cs, x.1 = i) ∧ i < m.bm.length
      · obtain ⟨⟨x, hx, e⟩, hl⟩ := h1
        rw [if_pos ⟨⟨x, hx, e⟩, hl⟩, if_pos ⟨⟨x, by simp [hx], e⟩, hl⟩]
      · rw [if_neg h1]
        by_cases h2 : c.1 = i
        · subst h2
          by_cases hl : c.1 < m.bm.length
          · rw [if_pos ⟨⟨c, by simp, rfl⟩, hl⟩]; simp [hl]
          · rw [if_neg (fun h => hl h.2)]; simp at hl; simp [hl]
        · rw [List.getElem?_set_ne h2, if_neg]
          rintro ⟨⟨x, hx, e⟩, hl⟩
          rcases List.mem_cons.1 hx with e' | hx
          · subst e'; exact h2 e
          · exact h1 ⟨⟨x, hx, e⟩, hl⟩
    · simp only [removeAll]; rw [r4, hbm]; simp
    · intro w hw
      simp only [removeAll, hws, List.cons_append, List.nil_append, List.mem_cons] at hw
      rcases hw with hw | hw | hw
      · subst hw; exact ⟨c, by simp, rfl, rfl, rfl, rfl, rfl⟩
      · subst hw
        refine ⟨by simp, ?_, ?_⟩
        · intro i hi
          by_cases h2 : c.1 = i
          · subst h2
            rw [List.getElem?_set] at hi
            simp at hi
          · rwa [List.getElem?_set_ne h2] at hi
        · intro i hi
          rw [List.getElem?_set_ne (hi c (by simp))]
      · have := r5 w hw
        cases w with
        | slot i info =>
          obtain ⟨x, hx, h⟩ := this
          exact ⟨x, by simp [hx], h⟩
        | bitmap bm =>
          simp only [hbm, List.length_set] at this
          refine ⟨this.1, ?_, ?_⟩
          · intro i hi
            have hi := this.2.1 i hi
            by_cases h2 : c.1 = i
            · subst h2
              rw [List.getElem?_set] at hi
              simp at hi
            · rwa [List.getElem?_set_ne h2] at hi
          · intro i hi
            rw [this.2.2 i (fun x hx => hi x (by simp [hx])), List.getElem?_set_ne (hi c (by simp))]
    · intro d _
      simp only [removeAll]
      have e : d.applyAll ((removeChunk m c).2 ++ (removeAll (removeChunk m c).1 cs).2) =
          (d.applyAll (removeChunk m c).2).applyAll (removeAll (removeChunk m c).1 cs).2 := by
        simp [Disk.applyAll, List.foldl_append]
      rw [e]
      apply r6
      left; rw [hws]; simp [Disk.applyAll, Disk.apply, hbm]

end HS.Pdev
