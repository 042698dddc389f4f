import Verif.Journal.Seq

/-!
# Journal: properties C31, C32, C33, C50

The worlds quantified over (`Reach`) are those reachable by any history of allowed calls on any number
of streams: chunk creation, space reservation, writing a reservation, truncation at an allowed offset,
removal of a stream, and restart. `ValidTrunc`, `ValidTail`, `Step` in `Spec.lean` say what is allowed.
-/
namespace HS.Journal

/-! ## C31 -/

/-- Every live logical offset of every stream is at one position, inside the bounds of a chunk of the
device, and different offsets (also of different streams) are at different positions. -/
theorem C31_mapping {w : World} (hw : Reach w) :
    (∀ s x, Live w.v s x → ∃ c i o, offsetToChunk w.v.cs (w.v.desc s) x = some (c, i, o) ∧
      o < w.v.cs ∧ c ∈ w.v.all) ∧
    (∀ s x s' x' c o i i', Live w.v s x → Live w.v s' x' →
      offsetToChunk w.v.cs (w.v.desc s) x = some (c, i, o) →
      offsetToChunk w.v.cs (w.v.desc s') x' = some (c, i', o) → s = s' ∧ x = x') := by
  have hi := reach_inv hw
  have hcs := hi.g.cs
  have loc : ∀ s x, Live w.v s x → (w.v.desc s).ds / w.v.cs ≤ x / w.v.cs ∧ x < (w.v.desc s).endOff := by
    intro s x hx
    obtain ⟨T, hT, _⟩ := hi.s s
    have h1 : x < T := by have := hx.2; rw [hT.tail] at this; exact_mod_cast this
    refine ⟨Nat.div_le_div_right hx.1, ?_⟩
    by_cases hne : (w.v.desc s).chunks = []
    · have := hT.nil hne
      have h2 := hT.tail
      simp only [Desc.tail, this.2.1, this.2.2] at h2
      have := hx.1
      omega
    · have h2 := (div_bounds T hcs).2
      rw [hT.last hne] at h2
      rw [hT.endOff]; omega
  constructor
  · intro s x hx
    obtain ⟨h1, h2⟩ := loc s x hx
    obtain ⟨c, hc, ho, _⟩ := at_offset hi h1 h2
    exact ⟨c, _, _, ho, Nat.mod_lt _ hcs, (hi.g.own c).2 (Or.inr ⟨s, mem_of_getElem? hc⟩)⟩
  · intro s x s' x' c o i i' hx hx' h h'
    obtain ⟨h1, h2⟩ := loc s x hx
    obtain ⟨h1', h2'⟩ := loc s' x' hx'
    obtain ⟨c1, hc, ho, _⟩ := at_offset hi h1 h2
    obtain ⟨c2, hc', ho', _⟩ := at_offset hi h1' h2'
    rw [ho] at h; rw [ho'] at h'
    simp only [Option.some.injEq, Prod.mk.injEq] at h h'
    obtain ⟨e1, e2, e3⟩ := h
    obtain ⟨e1', e2', e3'⟩ := h'
    rw [e1] at hc; rw [e1'] at hc'
    have hs := hi.g.strDisj s s' c (mem_of_getElem? hc) (mem_of_getElem? hc')
    subst hs
    refine ⟨rfl, ?_⟩
    have hidx := nodup_idx (hi.g.strND s) hc hc'
    have m1 := mod_eq x w.v.cs
    have m2 := mod_eq x' w.v.cs
    have : x / w.v.cs = x' / w.v.cs := by omega
    rw [m1, m2, this, e3, e3']

/-- A reservation returns space at or above the tail, inside one chunk, and apart from every other
reservation that is not written yet and from every byte known to be stored. -/
theorem C31_reservation {w : World} (hw : Reach w) {s sz : Nat} (hsz : 0 < sz) {v' : Dev} {off : Nat}
    {ws : List W} (h : alloc w.v s sz = .ok (v', off, ws)) :
    (w.v.desc s).tail ≤ off ∧ off % w.v.cs + sz ≤ w.v.cs ∧ (v'.desc s).tail = (off + sz : Nat) ∧
    (∀ r ∈ w.R s, off + sz ≤ r.1 ∨ r.1 + r.2 ≤ off) ∧
    (∀ x b, w.A s x = some b → x < off) := by
  have hi := reach_inv hw
  have hcs := hi.g.cs
  have hlt : sz < w.v.cs := by
    by_contra hge
    unfold alloc at h
    rw [if_pos (by omega)] at h; cases h
  rcases alloc_inv hi (s := s) hsz hlt with ⟨h1, _⟩ | ⟨v1, off1, ws1, h1, h2, h3⟩
  · rw [h1] at h; cases h
  · rw [h1] at h; cases h
    obtain ⟨T, hT, hR, hA⟩ := h2.s s
    simp only [upd_same] at hR hA
    have hcse : v'.cs = w.v.cs := by
      unfold alloc at h1
      simp only at h1
      rw [if_neg (by omega)] at h1
      split at h1
      · cases h1
      · split at h1
        · split at h1
          · cases h1
          · rename_i v2 ws2 ha
            have hc2 : v2.cs = w.v.cs := by
              unfold appendChunk at ha
              split at ha
              · cases ha
              · simp only at ha
                split at ha
                · split at ha
                  · cases ha
                  · cases ha; rfl
                · cases ha; rfl
            split at h1
            · cases h1
            · split at h1
              · cases h1; exact hc2
              · cases h1
        · split at h1
          · cases h1; rfl
          · cases h1
    obtain ⟨_, hb, hc, c, hd, he⟩ := hR.each _ List.mem_cons_self
    simp only at hb hc hd he
    have hle : (v'.priv c).eoc ≤ v'.cs := by
      have hi : off / v'.cs - (v'.desc s).ds / v'.cs < (v'.desc s).chunks.length :=
        (List.getElem?_eq_some_iff.1 hd).1
      by_cases hl : off / v'.cs - (v'.desc s).ds / v'.cs + 1 = (v'.desc s).chunks.length
      · rw [hT.eocL _ c hd hl]
      · exact (hT.eocN _ c hd (by show _ < (v'.desc s).chunks.length; omega)).1
    rw [← hcse]
    refine ⟨h3, by omega, ?_, ?_, ?_⟩
    · -- the tail is right behind the reservation
      unfold alloc at h1
      rw [if_neg (by omega)] at h1
      split at h1
      · cases h1
      · rename_i t ht
        split at h1
        · split at h1
          · cases h1
          · split at h1
            · cases h1
            · rename_i v2 ws2 ha t1 ht1
              split at h1
              · cases h1
                unfold Desc.tailChk at ht1
                split at ht1
                · rename_i hk
                  cases ht1
                  simp only [Dev.setDesc, upd_same, Desc.tail] at hk ⊢
                  push_cast
                  omega
                · cases ht1
              · cases h1
        · split at h1
          · cases h1
            unfold Desc.tailChk at ht
            split at ht
            · rename_i hk
              cases ht
              simp only [Dev.setDesc, upd_same, Desc.tail] at hk ⊢
              push_cast
              omega
            · cases ht
          · cases h1
    · intro r hr
      exact (List.pairwise_cons.1 hR.disj).1 r hr
    · intro x b hx
      obtain ⟨T0, hT0, hR0, hA0⟩ := hi.s s
      have hxT := (hA0 x b hx).2.1
      have := hT0.tail
      rw [this] at h3
      have : T0 ≤ off := by exact_mod_cast h3
      omega

/-- Reading returns, at every offset where the user knows the byte, that byte (`A` is what was last
written and not truncated). A range that does not cross a chunk end is returned completely; the ranges
handed out by `C31_reservation` never cross one. -/
theorem C31_read_back {w : World} (hw : Reach w) {s off n : Nat} :
    (∀ bs, pread w.v s off n = .ok bs → bs.length = min n (w.v.cs - off % w.v.cs) ∧
      ∀ i b, i < bs.length → w.A s (off + i) = some b → bs[i]? = some b) ∧
    (∀ bs : List Nat, 0 < n → bs.length = n → off % w.v.cs + n ≤ w.v.cs →
      (∀ i, i < n → w.A s (off + i) = bs[i]?) → pread w.v s off n = .ok bs) := by
  have hi := reach_inv hw
  have hcs := hi.g.cs
  obtain ⟨T, hT, hR, hA⟩ := hi.s s
  have inside : ∀ i, off % w.v.cs + i < w.v.cs →
      (off + i) / w.v.cs = off / w.v.cs ∧ (off + i) % w.v.cs = off % w.v.cs + i := by
    intro i hlt
    have hme := mod_eq off w.v.cs
    have hd : (off + i) / w.v.cs = off / w.v.cs := by
      apply div_unique
      · omega
      · rw [Nat.add_mul, Nat.one_mul]; omega
    refine ⟨hd, ?_⟩
    have := mod_eq (off + i) w.v.cs
    rw [hd] at this; omega
  have part1 : ∀ bs, pread w.v s off n = .ok bs → bs.length = min n (w.v.cs - off % w.v.cs) ∧
      ∀ i b, i < bs.length → w.A s (off + i) = some b → bs[i]? = some b := by
    intro bs h
    unfold pread at h
    rw [offsetToChunk_eq hcs] at h
    split at h
    · cases h
    · rename_i c i0 o ho
      by_cases hlt : off / w.v.cs < (w.v.desc s).ds / w.v.cs
      · rw [if_pos hlt] at ho; cases ho
      · rw [if_neg hlt] at ho
        cases hch : (w.v.desc s).chunks[off / w.v.cs - (w.v.desc s).ds / w.v.cs]? with
        | none => rw [hch] at ho; cases ho
        | some c' =>
          rw [hch] at ho
          simp only [Option.map_some, Option.some.injEq, Prod.mk.injEq] at ho
          obtain ⟨rfl, rfl, rfl⟩ := ho
          cases h
          refine ⟨by simp, ?_⟩
          intro i b hib hAb
          simp only [List.length_map, List.length_range] at hib
          obtain ⟨h1, h2⟩ := inside i (by have := Nat.mod_lt off hcs; omega)
          obtain ⟨_, _, ⟨c2, hc2, _, hdat⟩, _⟩ := hA (off + i) b hAb
          rw [h1, hch] at hc2
          cases hc2
          rw [h2] at hdat
          rw [List.getElem?_map, List.getElem?_range (by omega)]
          simp [hdat]
  refine ⟨part1, ?_⟩
  intro bs hn hlen hfit hAll
  have hex : ∃ bs', pread w.v s off n = .ok bs' := by
    have h0 := hAll 0 hn
    have : bs[0]? = some bs[0] := List.getElem?_eq_getElem (by omega)
    rw [Nat.add_zero, this] at h0
    obtain ⟨hds, _, ⟨c, hc, _⟩, _⟩ := hA off _ h0
    unfold pread
    rw [offsetToChunk_eq hcs, if_neg (by have := Nat.div_le_div_right (c := w.v.cs) hds; omega), hc]
    exact ⟨_, rfl⟩
  obtain ⟨bs', hbs'⟩ := hex
  obtain ⟨hl, hv⟩ := part1 bs' hbs'
  rw [hbs']
  congr 1
  apply List.ext_getElem?
  intro i
  by_cases hin : i < n
  · have hb : bs[i]? = some bs[i] := List.getElem?_eq_getElem (by omega)
    rw [hb]
    exact hv i _ (by omega) (by rw [hAll i hin, hb])
  · rw [List.getElem?_eq_none (by omega), List.getElem?_eq_none (by omega)]

/-- Allowed calls never abort: a reservation smaller than a chunk can only wait for the pool to be
refilled; writing a reservation, truncating at an allowed offset and restarting succeed. -/
theorem C31_no_abort {w : World} (hw : Reach w) :
    (∀ s sz, 0 < sz → sz < w.v.cs →
      (∃ r, alloc w.v s sz = .ok r) ∨ (alloc w.v s sz = .error .blocked ∧ w.v.pool = [])) ∧
    (∀ s off (bs : List Nat), (off, bs.length) ∈ w.R s → ∃ v', pwrite w.v s off bs = .ok v') ∧
    (∀ s t now, ValidTrunc w s t → (∀ c, 0 < now c) → ∃ r, truncate w.v s t now = .ok r) ∧
    (∀ tail : Nat → Nat, (∀ s, ValidTail w s (tail s)) →
      ∃ F, ∀ f, F ≤ f → RestartOk w.v.pst w.v.cs f (fun s => (w.v.desc s).ds) tail) := by
  have hi := reach_inv hw
  refine ⟨?_, ?_, ?_, ?_⟩
  · intro s sz h1 h2
    rcases alloc_inv hi (s := s) h1 h2 with h | ⟨v1, off1, ws1, h, _⟩
    · exact Or.inr h
    · exact Or.inl ⟨_, h⟩
  · intro s off bs h
    obtain ⟨v', hv', _⟩ := pwrite_inv hi h
    exact ⟨v', hv'⟩
  · intro s t now hv hnow
    obtain ⟨T, hT, _⟩ := hi.s s
    obtain ⟨v1, ws1, nh, j, h1, _⟩ := truncate_inv hi hv hnow hT
    exact ⟨_, h1⟩
  · intro tail hv
    exact ⟨w.v.all.length + 1, fun f hf => restartOk_of hi hv (by omega)⟩

/-! ## C32 -/

theorem releaseAll_priv {now : Nat → Nat} (L : List Nat) (v : Dev) {c : Nat} (h : c ∉ L) :
    (releaseAll now v L).1.priv c = v.priv c := by
  induction L generalizing v with
  | nil => rfl
  | cons x r ih =>
    simp only [List.mem_cons, not_or] at h
    simp only [releaseAll]
    rw [ih _ h.2]
    unfold release1
    simp only
    split <;> simp [Dev.setPriv, upd, h.1]

/-- Truncation at an allowed offset `t`. The new start is `ret ≥ t`, and what lies between is the
unused end of a chunk. Every live offset from `ret` on keeps its chunk and its position, no stored byte
changes, known bytes from `t` on stay known, the tail is kept (when the whole stream is truncated and
its last chunk released, it moves up to the next chunk boundary), the chunks released are the first `j`
of the list and hold no data at or above `t`, and other streams are not touched. -/
theorem C32_truncate_partial {w : World} (hw : Reach w) {s t : Nat} (hv : ValidTrunc w s t) {now : Nat → Nat}
    (hnow : ∀ c, 0 < now c) {v' : Dev} {ret : Nat} {ws : List W}
    (h : truncate w.v s t now = .ok (v', ret, ws)) :
    t ≤ ret ∧ (v'.desc s).ds = ret ∧ v'.data = w.v.data ∧
    (∀ x, t ≤ x → x < ret → Live w.v s x → byteAt w.v s x = none) ∧
    (∀ x, ret ≤ x → Live w.v s x → ∃ c i i' o, offsetToChunk w.v.cs (w.v.desc s) x = some (c, i, o) ∧
      offsetToChunk v'.cs (v'.desc s) x = some (c, i', o)) ∧
    (∀ x b, t ≤ x → w.A s x = some b → ∃ c i o, offsetToChunk v'.cs (v'.desc s) x = some (c, i, o) ∧
      v'.data c o = b) ∧
    ((v'.desc s).tail = (w.v.desc s).tail ∨
      ((t : Int) = (w.v.desc s).tail ∧ (v'.desc s).chunks = [] ∧ (v'.desc s).tail = rup t w.v.cs)) ∧
    (∃ j, (v'.desc s).chunks = (w.v.desc s).chunks.drop j ∧
      ∀ x c i o, Live w.v s x → offsetToChunk w.v.cs (w.v.desc s) x = some (c, i, o) → i < j →
        (byteAt w.v s x).isSome → x < t) ∧
    (∀ s', s' ≠ s → v'.desc s' = w.v.desc s' ∧
      ∀ c ∈ (w.v.desc s').chunks, v'.priv c = w.v.priv c) := by
  have hi := reach_inv hw
  have hcs := hi.g.cs
  obtain ⟨T, hT, hR, hA⟩ := hi.s s
  obtain ⟨v1, ws1, nh, j, h1, hinv, hpt, hch, hdat, hcs', hoth, htl, htl2, _, _, hpst⟩ :=
    truncate_inv hi hv hnow hT
  rw [h1] at h
  cases h
  obtain ⟨hne, hdst, htT, _⟩ := hv
  have htT' : t ≤ T := by rw [hT.tail] at htT; exact_mod_cast htT
  have liveT : ∀ x, Live w.v s x → x < T := by
    intro x hx; have := hx.2; rw [hT.tail] at this; exact_mod_cast this
  have liveE : ∀ x, Live w.v s x → x < (w.v.desc s).endOff := by
    intro x hx
    have h2 := (div_bounds T hcs).2
    rw [hT.last hne] at h2
    have := liveT x hx
    rw [hT.endOff]; omega
  have atx : ∀ x, Live w.v s x → _ := fun x hx =>
    at_offset hi (s := s) (x := x) (Nat.div_le_div_right hx.1) (liveE x hx)
  have byte_lt : ∀ x, t ≤ x → Live w.v s x → (byteAt w.v s x).isSome → (v'.desc s).ds ≤ x := by
    intro x htx hx hb
    obtain ⟨c, hc, _, hbe, _⟩ := atx x hx
    refine hpt.up x htx (liveT x hx) c hc ?_
    rw [hbe] at hb
    by_contra hlt
    rw [if_neg hlt] at hb; cases hb
  have keep : ∀ x, (v'.desc s).ds ≤ x → Live w.v s x →
      ∃ c i i' o, offsetToChunk w.v.cs (w.v.desc s) x = some (c, i, o) ∧
      offsetToChunk v'.cs (v'.desc s) x = some (c, i', o) := by
    intro x hdx hx
    obtain ⟨c, hc, ho, _⟩ := atx x hx
    have hjl : j < (w.v.desc s).chunks.length := by
      have := hpt.jle
      by_contra hge
      obtain ⟨e1, e2, _⟩ := hpt.eq (by omega)
      have := liveT x hx
      have := hpt.le
      omega
    obtain ⟨_, hdiv, _, _⟩ := hpt.lt hjl
    refine ⟨c, _, x / w.v.cs - (v'.desc s).ds / w.v.cs, _, ho, ?_⟩
    rw [hcs', offsetToChunk_eq hcs, if_neg (by have := Nat.div_le_div_right (c := w.v.cs) hdx; omega), hch,
      List.getElem?_drop]
    have hge := Nat.div_le_div_right (c := w.v.cs) hdx
    rw [hdiv] at hge ⊢
    rw [show j + (x / w.v.cs - ((w.v.desc s).ds / w.v.cs + j)) = x / w.v.cs - (w.v.desc s).ds / w.v.cs by
      omega, hc]
    rfl
  refine ⟨hpt.le, rfl, hdat, ?_, keep, ?_, ?_, ⟨j, hch, ?_⟩, ?_⟩
  · intro x htx hlt hx
    by_contra hb
    have := byte_lt x htx hx (Option.isSome_iff_ne_none.2 hb)
    omega
  · intro x b htx hAx
    obtain ⟨a1, a2, ⟨c, a3, a4, a5⟩, _⟩ := hA x b hAx
    have hx : Live w.v s x := ⟨a1, by rw [hT.tail]; exact_mod_cast a2⟩
    obtain ⟨c', i, i', o, k1, k2⟩ := keep x (hpt.up x htx a2 c a3 a4) hx
    refine ⟨c', i', o, k2, ?_⟩
    obtain ⟨c2, b1, b2, _⟩ := atx x hx
    rw [a3] at b1; cases b1
    rw [b2] at k1
    simp only [Option.some.injEq, Prod.mk.injEq] at k1
    obtain ⟨rfl, _, rfl⟩ := k1
    rw [hdat]; exact a5
  · by_cases hjl : j < (w.v.desc s).chunks.length
    · left; rw [htl hjl, hT.tail]
    · right
      have hje : j = (w.v.desc s).chunks.length := by have := hpt.jle; omega
      obtain ⟨e1, e2, _⟩ := hpt.eq hje
      refine ⟨by rw [hT.tail, e1], by rw [hch, hje, List.drop_length], ?_⟩
      rw [htl2 hje, e2]
  · intro x c i o hx ho hij hb
    obtain ⟨c', hc', ho', hbe, _⟩ := atx x hx
    rw [ho'] at ho
    simp only [Option.some.injEq, Prod.mk.injEq] at ho
    obtain ⟨rfl, rfl, rfl⟩ := ho
    have hoe : x % w.v.cs < (w.v.priv c').eoc := by
      rw [hbe] at hb
      by_contra hlt
      rw [if_neg hlt] at hb; cases hb
    obtain ⟨l1, l2⟩ := hpt.low _ c' hc' hij
    have hlen := (List.getElem?_eq_some_iff.1 hc').1
    by_cases hlast : x / w.v.cs - (w.v.desc s).ds / w.v.cs + 1 = (w.v.desc s).chunks.length
    · rw [l2 hlast]; exact liveT x hx
    · have := l1 (by omega)
      have hge := Nat.div_le_div_right (c := w.v.cs) hx.1
      rw [show (w.v.desc s).ds / w.v.cs + (x / w.v.cs - (w.v.desc s).ds / w.v.cs) = x / w.v.cs by omega]
        at this
      have := mod_eq x w.v.cs
      omega
  · intro s' hs'
    refine ⟨hoth s' hs', ?_⟩
    intro c hc
    have hcn : c ∉ (w.v.desc s).chunks := fun hc2 => hs' (hi.g.strDisj s' s c hc hc2)
    have hcnh : c ≠ nh := fun h => hcn (h ▸ hpt.nhmem)
    have e : v'.priv c = (releaseAll now (w.v.setPriv nh { w.v.priv nh with isHead := true, logdev := s })
        ((w.v.desc s).chunks.take j)).1.priv c := congrFun (congrArg Pst.priv hpst) c
    rw [e, releaseAll_priv _ _ (fun h => hcn (List.mem_of_mem_take h))]
    simp [Dev.setPriv, upd, hcnh]

/-! ## C33 -/

/-- Crash in the middle of a truncation, after any history: for every number `k` of metadata writes
done, recovery finds every other stream's chunks unchanged, and for the truncated stream the old list
without its first `i` chunks, none of which holds data at or above the truncation point. -/
theorem C33_crash_truncate_partial {w : World} (hw : Reach w) {s t : Nat} (hv : ValidTrunc w s t)
    {now : Nat → Nat} (hnow : ∀ c, 0 < now c) {v' : Dev} {ret : Nat} {ws : List W}
    (h : truncate w.v s t now = .ok (v', ret, ws)) (k : Nat) :
    ∃ F, ∀ f, F ≤ f →
      (∀ s', s' ≠ s → recoverChunks f (crash w.v.pst ws k) s' = some (w.v.desc s').chunks) ∧
      ∃ i, recoverChunks f (crash w.v.pst ws k) s = some ((w.v.desc s).chunks.drop i) ∧
        ∀ x c m o, Live w.v s x → offsetToChunk w.v.cs (w.v.desc s) x = some (c, m, o) → m < i →
          (byteAt w.v s x).isSome → x < t := by
  have hi := reach_inv hw
  obtain ⟨T, hT, _⟩ := hi.s s
  refine ⟨w.v.all.length + 1, fun f hf => ?_⟩
  obtain ⟨i, nh, j, hpt, hij, h1, h2⟩ := truncate_crash hi hv hnow hT h k (f := f) (by omega)
  refine ⟨h2, i, h1, ?_⟩
  intro x c m o hx ho hmi hb
  have hne := hv.1
  have hcs := hi.g.cs
  have liveT : x < T := by have := hx.2; rw [hT.tail] at this; exact_mod_cast this
  have hE : x < (w.v.desc s).endOff := by
    have h2 := (div_bounds T hcs).2
    rw [hT.last hne] at h2
    rw [hT.endOff]; omega
  obtain ⟨c', hc', ho', hbe, _⟩ := at_offset hi (s := s) (x := x) (Nat.div_le_div_right hx.1) hE
  rw [ho'] at ho
  simp only [Option.some.injEq, Prod.mk.injEq] at ho
  obtain ⟨rfl, rfl, rfl⟩ := ho
  have hoe : x % w.v.cs < (w.v.priv c').eoc := by
    rw [hbe] at hb
    by_contra hlt
    rw [if_neg hlt] at hb; cases hb
  obtain ⟨l1, l2⟩ := hpt.low _ c' hc' (by omega)
  have hlen := (List.getElem?_eq_some_iff.1 hc').1
  by_cases hlast : x / w.v.cs - (w.v.desc s).ds / w.v.cs + 1 = (w.v.desc s).chunks.length
  · rw [l2 hlast]; exact liveT
  · have := l1 (by omega)
    have hge := Nat.div_le_div_right (c := w.v.cs) hx.1
    rw [show (w.v.desc s).ds / w.v.cs + (x / w.v.cs - (w.v.desc s).ds / w.v.cs) = x / w.v.cs by omega]
      at this
    have := mod_eq x w.v.cs
    omega

/-- Crash around a reservation: its metadata change is one write, so a crash leaves the state before
or the state after; in both every stream's chunk list is recovered exactly. -/
theorem C33_crash_append {w : World} (hw : Reach w) {s sz : Nat} (hsz : 0 < sz) {v' : Dev} {off : Nat}
    {ws : List W} (h : alloc w.v s sz = .ok (v', off, ws)) (k : Nat) :
    ∃ F, ∀ f, F ≤ f →
      (∀ s', recoverChunks f (crash w.v.pst ws k) s' = some (w.v.desc s').chunks) ∨
      (∀ s', recoverChunks f (crash w.v.pst ws k) s' = some (v'.desc s').chunks) := by
  have hi := reach_inv hw
  have hi' := reach_inv (Reach.step _ _ hw (Step.alloc w s sz hsz v' off ws h))
  obtain ⟨hl, hp⟩ := alloc_writes h
  refine ⟨w.v.all.length + v'.all.length + 1, fun f hf => ?_⟩
  cases k with
  | zero =>
    left; intro s'
    have := chunks_length_le hi s'
    exact recover_eq hi s' (by omega)
  | succ k =>
    right; intro s'
    have hk : crash w.v.pst ws (k + 1) = v'.pst := by
      rw [hp]; unfold crash; rw [List.take_of_length_le (by omega)]
    rw [hk]
    have := chunks_length_le hi' s'
    exact recover_eq hi' s' (by simp only at this ⊢; omega)

/-- Crash in the middle of removing a stream: other streams are recovered exactly, the removed stream
completely or not at all. -/
theorem C33_crash_destroy {w : World} (hw : Reach w) (s k : Nat) :
    ∃ F, ∀ f, F ≤ f →
      (recoverChunks f (crash w.v.pst (destroy w.v s).2 k) s = some (w.v.desc s).chunks ∨
        recoverChunks f (crash w.v.pst (destroy w.v s).2 k) s = some []) ∧
      ∀ s', s' ≠ s →
        recoverChunks f (crash w.v.pst (destroy w.v s).2 k) s' = some (w.v.desc s').chunks :=
  ⟨w.v.all.length + 1, fun f hf => destroy_crash (reach_inv hw) s k (f := f) (by omega)⟩

/-- Without a crash, a restart rebuilds every stream's chunk list, start and tail, and every byte the
user knew below the tail the scan found is read at the same offset as before. -/
theorem C33_restart {w : World} (hw : Reach w) {tail : Nat → Nat} (hv : ∀ s, ValidTail w s (tail s)) :
    ∃ F, ∀ f, F ≤ f →
      let v' := restartDev w.v.pst w.v.cs w.v.cap w.v.data f (fun s => (w.v.desc s).ds) tail
      ∀ s, (v'.desc s).chunks = (w.v.desc s).chunks ∧ (v'.desc s).ds = (w.v.desc s).ds ∧
        (v'.desc s).tail = tail s ∧
        ∀ x b, x < tail s → w.A s x = some b → byteAt v' s x = some b := by
  have hi := reach_inv hw
  refine ⟨w.v.all.length + 1, fun f hf => ?_⟩
  have hok := restartOk_of hi hv (f := f) (by omega)
  have hd := restart_desc hi hv hok
  have hinv := restart_inv hi hv hok
  intro v' s
  have hds : v'.desc s = restartedDesc w.v.cs (w.v.desc s) (tail s) := (hd s).2
  refine ⟨by rw [hds]; rfl, by rw [hds]; rfl, ?_, ?_⟩
  · rw [hds]; simp only [Desc.tail, restartedDesc]; push_cast; omega
  · intro x b hx hb
    obtain ⟨T', hT', _, hA'⟩ := hinv.s s
    obtain ⟨a1, a2, ⟨c, a3, a4, a5⟩, _⟩ := hA' x b (by simp only [if_pos hx]; exact hb)
    unfold byteAt
    replace a1 : (v'.desc s).ds ≤ x := a1
    replace a3 : (v'.desc s).chunks[x / v'.cs - (v'.desc s).ds / v'.cs]? = some c := a3
    have hcs : 0 < v'.cs := hi.g.cs
    rw [offsetToChunk_eq hcs, if_neg (by have := Nat.div_le_div_right (c := v'.cs) a1; omega), a3]
    simp only [Option.map_some]
    rw [if_pos a4, a5]

/-- All chunks outside the recovered lists are dropped, all others are kept, in any crash state. -/
theorem C33_rest_dropped (p : Pst) (cs cap : Nat) (data : Nat → Nat → Nat) (f : Nat)
    (start tail : Nat → Nat) (c : Nat) (hc : c ∈ p.all) :
    c ∈ (restartDev p cs cap data f start tail).all ↔
      ∃ s l, recoverChunks f p s = some l ∧ c ∈ l := restart_all hc

/-! ## C50 -/

/-- Reading a stream sequentially from its start, `n > 0` bytes at a time, to the end, returns exactly
the bytes at its data offsets in ascending order. Assumed: the start is at a data byte (or at the end
of the chunks). -/
theorem C50_sequential_read_partial {w : World} (hw : Reach w) {s n : Nat} (hn : 0 < n)
    (hstart : (w.v.desc s).ds < (w.v.desc s).endOff → (byteAt w.v s (w.v.desc s).ds).isSome) :
    ∃ F, ∀ f, F ≤ f → readLoop w.v s n f (w.v.desc s).ds =
      some (.ok ((dataOffs w.v s (w.v.desc s).ds).filterMap (byteAt w.v s))) := by
  have hi := reach_inv hw
  obtain ⟨T, hT, _⟩ := hi.s s
  have hle : (w.v.desc s).ds ≤ (w.v.desc s).endOff := by
    rw [hT.endOff]
    by_cases hne : (w.v.desc s).chunks = []
    · have := (hT.nil hne).1
      have := mod_eq (w.v.desc s).ds w.v.cs
      rw [hne]; simp only [List.length_nil, Nat.add_zero]; omega
    · have h1 := (div_bounds (w.v.desc s).ds hi.g.cs).2
      have h2 : 0 < (w.v.desc s).chunks.length := List.length_pos_of_ne_nil hne
      have h3 : ((w.v.desc s).ds / w.v.cs + 1) * w.v.cs ≤
          ((w.v.desc s).ds / w.v.cs + (w.v.desc s).chunks.length) * w.v.cs :=
        Nat.mul_le_mul_right _ (by omega)
      omega
  refine ⟨(w.v.desc s).endOff - (w.v.desc s).ds + 1, fun f hf => ?_⟩
  have hg : GoodCur w.v s (w.v.desc s).ds := by
    by_cases he : (w.v.desc s).ds = (w.v.desc s).endOff
    · exact Or.inl he
    · exact Or.inr ⟨le_refl _, by omega, hstart (by omega)⟩
  rw [readLoop_good hi hn ((w.v.desc s).endOff - (w.v.desc s).ds) _ (le_refl _) hg f (by omega)]
  congr 2
  unfold dataOffs
  rw [List.filterMap_filter]
  congr 1
  funext x
  cases hb : byteAt w.v s x <;> simp

/-- `dev_offset n` is the logical offset of data byte number `n` counted from the start of the stream,
and the end of the chunks if `n` is the number of data bytes. -/
theorem C50_dev_offset {w : World} (hw : Reach w) {s n : Nat}
    (hn : n ≤ (dataOffs w.v s (w.v.desc s).ds).length) :
    (n < (dataOffs w.v s (w.v.desc s).ds).length →
      (w.v.desc s).ds < (w.v.desc s).endOff → (byteAt w.v s (w.v.desc s).ds).isSome →
      (dataOffs w.v s (w.v.desc s).ds)[n]? = some (devOffset w.v s n)) ∧
    (0 < n → n = (dataOffs w.v s (w.v.desc s).ds).length → devOffset w.v s n = (w.v.desc s).endOff) := by
  have hi := reach_inv hw
  have hcs := hi.g.cs
  obtain ⟨T, hT, _⟩ := hi.s s
  have hme := mod_eq (w.v.desc s).ds w.v.cs
  by_cases hne : (w.v.desc s).chunks = []
  · have hE : (w.v.desc s).endOff = (w.v.desc s).ds := by
      rw [hT.endOff, hne]; have := (hT.nil hne).1
      simp only [List.length_nil, Nat.add_zero]; omega
    have h0 : dataOffs w.v s (w.v.desc s).ds = [] := by unfold dataOffs; rw [hE]; simp
    rw [h0] at hn ⊢
    simp only [List.length_nil] at *
    exact ⟨by omega, by omega⟩
  · have hst : ∀ c, (w.v.desc s).chunks[0]? = some c → (w.v.desc s).ds % w.v.cs ≤ (w.v.priv c).eoc := by
      intro c hc
      by_cases hl : 0 + 1 = (w.v.desc s).chunks.length
      · rw [hT.eocL 0 c hc hl]; exact (Nat.mod_lt _ hcs).le
      · have := (List.getElem?_eq_some_iff.1 hc).1
        exact (hT.eocN 0 c hc (by omega)).2.2 rfl
    have key := devOffLoop_spec hi (s := s) (w.v.desc s).chunks.length 0
      ((w.v.desc s).ds % w.v.cs) n (by omega) hst
      (fun h => absurd (List.eq_nil_of_length_eq_zero h) hne)
      (by rw [Nat.add_zero, ← hme]; exact hn)
    rw [Nat.add_zero, ← hme, List.drop_zero] at key
    constructor
    · intro hlt hE hb
      rw [List.getElem?_append_left hlt] at key
      unfold devOffset
      simp only
      by_cases h0 : n = 0
      · rw [if_pos (Or.inl h0)]
        subst h0
        unfold dataOffs
        rw [show (w.v.desc s).endOff - (w.v.desc s).ds = ((w.v.desc s).endOff - (w.v.desc s).ds - 1) + 1
          by omega, List.range'_succ, List.filter_cons_of_pos (p := fun y => (byteAt w.v s y).isSome) hb]
        rfl
      · rw [if_neg (by tauto)]; exact key
    · intro hpos hlen
      rw [List.getElem?_append_right (by omega)] at key
      unfold devOffset
      simp only
      rw [if_neg (by push Not; exact ⟨by omega, hne⟩)]
      rw [hlen, Nat.sub_self] at key
      simp only [List.getElem?_cons_zero, Option.some.injEq] at key
      rw [hlen]; exact key.symm

end HS.Journal
