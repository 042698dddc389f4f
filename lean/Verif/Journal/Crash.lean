import Verif.Journal.Recover

namespace HS.Journal

/-- Persistent state when a crash stops an operation after its first `k` metadata writes. -/
def crash (p : Pst) (ws : List W) (k : Nat) : Pst := (ws.take k).foldl W.apply p

/-- The writes releasing the chunks `L`: each is cleared, then reinitialised or removed. -/
def relWrites (X : Nat → W) : List Nat → List W
  | [] => []
  | c :: r => .set c {} :: X c :: relWrites X r

def RelX (X : Nat → W) : Prop := ∀ c, X c = .remove c ∨ ∃ q : Priv, X c = .set c q ∧ q.isHead = false

theorem releaseAll_writes (now : Nat → Nat) (L : List Nat) (hL : L.Nodup) (v : Dev) :
    ∃ X, RelX X ∧ (releaseAll now v L).2 = relWrites X L := by
  induction L generalizing v with
  | nil => exact ⟨fun c => .remove c, fun c => Or.inl rfl, rfl⟩
  | cons c r ih =>
    obtain ⟨X, hX, hr⟩ := ih (List.nodup_cons.1 hL).2 (release1 now v c).1
    have hcr := (List.nodup_cons.1 hL).1
    have key : ∀ Y : W, (Y = .remove c ∨ ∃ q : Priv, Y = .set c q ∧ q.isHead = false) →
        (release1 now v c).2 = [.set c {}, Y] →
        ∃ X, RelX X ∧ (releaseAll now v (c :: r)).2 = relWrites X (c :: r) := by
      intro Y hY h
      refine ⟨fun x => if x = c then Y else X x, ?_, ?_⟩
      · intro x
        by_cases hx : x = c
        · subst hx; simpa using hY
        · simp only [if_neg hx]; exact hX x
      · simp only [releaseAll, relWrites, h, hr, if_true, List.cons_append, List.nil_append]
        congr 2
        clear hr ih h hL
        induction r with
        | nil => rfl
        | cons y r ih2 =>
          simp only [List.mem_cons, not_or] at hcr
          simp only [relWrites]
          rw [if_neg (Ne.symm hcr.1), ih2 hcr.2]
    unfold release1 at key
    by_cases h : v.pool.length < v.cap
    · exact key _ (Or.inr ⟨initPriv v.cs (now c), rfl, rfl⟩) (by simp [h])
    · exact key _ (Or.inl rfl) (by simp [h])

theorem removeAll_writes (L : List Nat) (v : Dev) :
    (removeAll v L).2 = relWrites (fun c => .remove c) L := by
  induction L generalizing v with
  | nil => rfl
  | cons c r ih => simp only [removeAll, relWrites, ih]

/-- What a crash in the middle of releases can leave behind. -/
theorem relWrites_crash {X : Nat → W} (hX : RelX X) (L : List Nat) (hL : L.Nodup) (p : Pst) (k : Nat) :
    (∀ c, c ∉ L → (crash p (relWrites X L) k).priv c = p.priv c ∧
      (c ∈ (crash p (relWrites X L) k).all ↔ c ∈ p.all)) ∧
    (∀ c ∈ L, ((crash p (relWrites X L) k).priv c = p.priv c ∧
      (c ∈ (crash p (relWrites X L) k).all ↔ c ∈ p.all)) ∨
      ((crash p (relWrites X L) k).priv c).isHead = false) ∧
    (0 < k → ∀ c, L[0]? = some c → ((crash p (relWrites X L) k).priv c).isHead = false) ∧
    (∀ c, c ∈ (crash p (relWrites X L) k).all → c ∈ p.all) := by
  induction L generalizing p k with
  | nil => simp [crash, relWrites]
  | cons x r ih =>
    have hxr := (List.nodup_cons.1 hL).1
    match k with
    | 0 => simp [crash]
    | 1 =>
      simp only [relWrites, crash, List.take, List.foldl_cons, List.foldl_nil, W.apply]
      refine ⟨?_, ?_, ?_, fun c h => h⟩
      · intro c hc
        simp only [List.mem_cons, not_or] at hc
        simp [upd, hc.1]
      · intro c hc
        by_cases hcx : c = x
        · subst hcx; right; simp [upd]
        · left; simp [upd, hcx]
      · intro _ c hc
        simp only [List.getElem?_cons_zero, Option.some.injEq] at hc
        subst hc; simp [upd]
    | k + 2 =>
      have e : crash p (relWrites X (x :: r)) (k + 2) =
          crash (W.apply (W.apply p (.set x {})) (X x)) (relWrites X r) k := by
        simp [crash, relWrites]
      rw [e]
      generalize hq : W.apply (W.apply p (.set x {})) (X x) = q
      have hq1 : (∀ c, c ≠ x → q.priv c = p.priv c ∧ (c ∈ q.all ↔ c ∈ p.all)) ∧
          (q.priv x).isHead = false ∧ (∀ c, c ∈ q.all → c ∈ p.all) := by
        rw [← hq]
        rcases hX x with h | ⟨y, h, hy⟩
        · rw [h]; simp only [W.apply]
          refine ⟨fun c hc => ⟨by simp [upd, hc], by simp [hc]⟩, by simp [upd], ?_⟩
          intro c hc; exact (List.mem_filter.1 hc).1
        · rw [h]; simp only [W.apply]
          exact ⟨fun c hc => ⟨by simp [upd, hc], by simp⟩, by simp [upd, hy], fun c hc => hc⟩
      obtain ⟨h1, h2, h3, h4⟩ := ih (List.nodup_cons.1 hL).2 q k
      refine ⟨?_, ?_, ?_, fun c hc => hq1.2.2 c (h4 c hc)⟩
      · intro c hc
        simp only [List.mem_cons, not_or] at hc
        obtain ⟨a, b⟩ := h1 c hc.2
        obtain ⟨a', b'⟩ := hq1.1 c hc.1
        exact ⟨a.trans a', b.trans b'⟩
      · intro c hc
        by_cases hcx : c = x
        · subst hcx; right; rw [(h1 c hxr).1]; exact hq1.2.1
        · rcases h2 c ((List.mem_cons.1 hc).resolve_left hcx) with ⟨a, b⟩ | h
          · obtain ⟨a', b'⟩ := hq1.1 c hcx
            exact Or.inl ⟨a.trans a', b.trans b'⟩
          · exact Or.inr h
      · intro _ c hc
        simp only [List.getElem?_cons_zero, Option.some.injEq] at hc
        subst hc
        rw [(h1 x hxr).1]; exact hq1.2.1

/-- Recovery from metadata where the chunks of a list are linked and its first chunk is the only
head chunk of the stream. -/
theorem recover_of {p : Pst} {s : Nat} {L : List Nat}
    (hlink : ∀ (i c : Nat), L[i]? = some c → c ≠ 0 ∧ c ∈ p.all ∧ (p.priv c).next = (L[i + 1]?).getD 0)
    (hhead : (headOf p s).1 = L[0]?.getD 0) {f : Nat} (hf : L.length < f) :
    recoverChunks f p s = some L := by
  unfold recoverChunks; rw [hhead]; exact chain_list L hlink f hf

/-- A stream none of whose chunks is touched is recovered unchanged. -/
theorem recover_other {w : World} (hw : WInv w) {s s' : Nat} (hs : s' ≠ s) {p : Pst} {M : List Nat}
    (hM : ∀ c ∈ M, c ∈ (w.v.desc s).chunks ∨ c ∈ w.v.pool)
    (h1 : ∀ c, c ∉ M → p.priv c = w.v.priv c ∧ (c ∈ p.all ↔ c ∈ w.v.all))
    (h2 : ∀ c ∈ M, (p.priv c).isHead = true → (p.priv c).logdev ≠ s')
    (h3 : ∀ c, c ∈ p.all → c ∈ w.v.all) {f : Nat} (hf : w.v.all.length < f) :
    recoverChunks f p s' = some (w.v.desc s').chunks := by
  have hnot : ∀ c, c ∈ (w.v.desc s').chunks → c ∉ M := by
    intro c hc hm
    rcases hM c hm with h | h
    · exact hs (hw.g.strDisj s' s c hc h)
    · exact hw.g.poolDisj s' c h hc
  refine recover_of ?_ ?_ (by have := chunks_length_le hw s'; omega)
  · intro i c hi
    obtain ⟨a, b, e⟩ := str_chain hw s' i c hi
    have := h1 c (hnot c (mem_of_getElem? hi))
    exact ⟨a, this.2.2 b, by rw [this.1]; exact e⟩
  · have hc : ∀ c ∈ p.all, Cand p s' c → (w.v.desc s').chunks[0]? = some c := by
      intro c hc hcc
      by_cases hm : c ∈ M
      · exact absurd hcc.2 (h2 c hm hcc.1)
      · have hp := (h1 c hm).1
        apply (cand_iff hw (h3 c hc)).1
        simp only [Cand, hp] at hcc
        exact hcc
    rcases headOf_spec p s' with ⟨h, h'⟩ | ⟨h, h', _⟩
    · rw [h]
      cases hx : (w.v.desc s').chunks[0]? with
      | none => rfl
      | some c =>
        have hm := hnot c (mem_of_getElem? hx)
        have hca : c ∈ w.v.all := (hw.g.own c).2 (Or.inr ⟨s', mem_of_getElem? hx⟩)
        have hcand := (cand_iff hw hca).2 hx
        have := h' c ((h1 c hm).2.2 hca) (by simp only [Cand, (h1 c hm).1]; exact hcand)
        rw [(h1 c hm).1] at this
        have := hw.g.created c hca
        omega
    · rw [hc _ h h']; rfl

/-- Chunks kept by a restart are exactly those of the recovered lists. -/
theorem restart_all {p : Pst} {cs cap : Nat} {data : Nat → Nat → Nat} {f : Nat} {start tail : Nat → Nat}
    {c : Nat} (hc : c ∈ p.all) :
    c ∈ (restartDev p cs cap data f start tail).all ↔
      ∃ s l, recoverChunks f p s = some l ∧ c ∈ l := by
  simp only [restartDev, List.mem_filter, List.any_eq_true, List.contains_iff_mem]
  constructor
  · rintro ⟨_, s, _, h⟩
    cases hl : recoverChunks f p s with
    | none => rw [hl] at h; simp at h
    | some l => rw [hl] at h; exact ⟨s, l, hl, h⟩
  · rintro ⟨s, l, hl, hcl⟩
    refine ⟨hc, s, ?_, by rw [hl]; exact hcl⟩
    rcases headOf_spec p s with ⟨h, _⟩ | ⟨h, h', _⟩
    · unfold recoverChunks at hl
      rw [h] at hl
      cases f with
      | zero => simp [chain] at hl
      | succ f => simp [chain] at hl; subst hl; simp at hcl
    · unfold streams
      rw [List.mem_map]
      exact ⟨_, List.mem_filter.2 ⟨h, by simpa using h'.1⟩, h'.2⟩

/-- A crash during a truncation. -/
theorem truncate_crash {w : World} (hw : WInv w) {s t : Nat} (hv : ValidTrunc w s t) {now : Nat → Nat}
    (hnow : ∀ c, 0 < now c) {T : Nat} (hT : SInv w.v.cs w.v.priv s (w.v.desc s) T)
    {v' : Dev} {ret : Nat} {ws : List W} (h : truncate w.v s t now = .ok (v', ret, ws)) (k : Nat)
    {f : Nat} (hf : w.v.all.length < f) :
    ∃ i nh j, TruncPt w.v.cs w.v.priv (w.v.desc s) T t nh j ret ∧ i ≤ j ∧
      recoverChunks f (crash w.v.pst ws k) s = some ((w.v.desc s).chunks.drop i) ∧
      ∀ s', s' ≠ s → recoverChunks f (crash w.v.pst ws k) s' = some (w.v.desc s').chunks := by
  obtain ⟨v1, ws1, nh, j, h1, _, hpt, _, _, _, _, _, _, _, hws, _⟩ := truncate_inv hw hv hnow hT
  rw [h1] at h
  cases h
  cases k with
  | zero =>
    refine ⟨0, nh, j, hpt, by omega, ?_, ?_⟩
    · simp only [crash, List.take_zero, List.foldl_nil, List.drop_zero]
      exact recover_eq hw s (by have := chunks_length_le hw s; omega)
    · intro s' _
      simp only [crash, List.take_zero, List.foldl_nil]
      exact recover_eq hw s' (by have := chunks_length_le hw s'; omega)
  | succ k =>
    set L := (w.v.desc s).chunks with hLdef
    have hLnd : L.Nodup := hw.g.strND s
    have hTnd : (L.take j).Nodup := hLnd.sublist (List.take_sublist _ _)
    obtain ⟨X, hX, hrel⟩ := releaseAll_writes now (L.take j) hTnd
      (w.v.setPriv nh { w.v.priv nh with isHead := true, logdev := s })
    rw [hws, hrel]
    have e : ∀ (a : W) (l : List W), crash w.v.pst (a :: l) (k + 1) = crash (W.apply w.v.pst a) l k := by
      intro a l; simp [crash]
    rw [e]
    generalize hp0 : W.apply w.v.pst (.set nh { w.v.priv nh with isHead := true, logdev := s }) = p0
    have hp0all : p0.all = w.v.all := by rw [← hp0]; rfl
    have hp0ne : ∀ c, c ≠ nh → p0.priv c = w.v.priv c := by
      intro c hc; rw [← hp0]; simp [W.apply, upd, hc, Dev.pst]
    have hp0nh : p0.priv nh = { w.v.priv nh with isHead := true, logdev := s } := by
      rw [← hp0]; simp [W.apply, upd]
    have hp0next : ∀ c, (p0.priv c).next = (w.v.priv c).next := by
      intro c
      by_cases hc : c = nh
      · subst hc; rw [hp0nh]
      · rw [hp0ne c hc]
    have hp0cr : ∀ c, (p0.priv c).created = (w.v.priv c).created := by
      intro c
      by_cases hc : c = nh
      · subst hc; rw [hp0nh]
      · rw [hp0ne c hc]
    obtain ⟨r1, r2, r3, r4⟩ := relWrites_crash hX (L.take j) hTnd p0 k
    generalize hp : crash p0 (relWrites X (L.take j)) k = p at r1 r2 r3 r4 ⊢
    have hk0 : k = 0 → p = p0 := by intro hk; rw [← hp, hk]; rfl
    have hall : ∀ c, c ∈ p.all → c ∈ w.v.all := fun c hc => by rw [← hp0all]; exact r4 c hc
    have hnhL : nh ∈ L := hpt.nhmem
    -- heads of `s` in the crashed state
    have hcand : ∀ c, c ∈ p.all → Cand p s c → (L[0]? = some c ∨ c = nh) ∧ p.priv c = p0.priv c := by
      intro c hc hcc
      have hsame : p.priv c = p0.priv c := by
        by_cases hm : c ∈ L.take j
        · rcases r2 c hm with ⟨a, _⟩ | h
          · exact a
          · rw [hcc.1] at h; cases h
        · exact (r1 c hm).1
      refine ⟨?_, hsame⟩
      by_cases hcn : c = nh
      · exact Or.inr hcn
      · left
        apply (cand_iff hw (hall c hc)).1
        simp only [Cand, hsame, hp0ne c hcn] at hcc
        exact hcc
    have other : ∀ s', s' ≠ s → recoverChunks f p s' = some (w.v.desc s').chunks := by
      intro s' hs'
      refine recover_other hw (s := s) hs' (M := L) (fun c hc => Or.inl hc) ?_ ?_ hall hf
      · intro c hc
        have hm : c ∉ L.take j := fun hm => hc (List.mem_of_mem_take hm)
        have hcn : c ≠ nh := fun h => hc (h ▸ hnhL)
        have := r1 c hm
        rw [hp0ne c hcn, hp0all] at this
        exact this
      · intro c hcL hh
        have hsame : p.priv c = p0.priv c := by
          by_cases hm : c ∈ L.take j
          · rcases r2 c hm with ⟨a, _⟩ | h
            · exact a
            · rw [hh] at h; cases h
          · exact (r1 c hm).1
        by_cases hcn : c = nh
        · rw [hsame, hcn, hp0nh]; exact Ne.symm hs'
        · rw [hsame, hp0ne c hcn]
          rw [hsame, hp0ne c hcn] at hh
          obtain ⟨i, hi⟩ := List.mem_iff_getElem?.1 hcL
          by_cases h0 : i = 0
          · subst h0; rw [(hT.head c hi).2]; exact Ne.symm hs'
          · rw [hT.nonhead i c hi (by omega)] at hh; cases hh
    -- chains that avoid the touched chunks
    have link : ∀ i, (∀ c, c ∈ L.drop i → p.priv c = p0.priv c ∧ (c ∈ p.all ↔ c ∈ p0.all)) →
        ∀ (m c : Nat), (L.drop i)[m]? = some c →
          c ≠ 0 ∧ c ∈ p.all ∧ (p.priv c).next = ((L.drop i)[m + 1]?).getD 0 := by
      intro i hi m c hm
      have hm' := hi c (mem_of_getElem? hm)
      rw [List.getElem?_drop] at hm
      obtain ⟨a, b, e⟩ := str_chain hw s (i + m) c hm
      refine ⟨a, hm'.2.2 (by rw [hp0all]; exact b), ?_⟩
      rw [hm'.1, hp0next]
      rw [List.getElem?_drop]
      exact e
    have hlen : L.length < f := by
      have := chunks_length_le hw s; simp only [← hLdef] at this; omega
    have lenD : ∀ i, (L.drop i).length < f := fun i => by rw [List.length_drop]; omega
    have nomem : ∀ c, c ∈ L.drop j → p.priv c = p0.priv c ∧ (c ∈ p.all ↔ c ∈ p0.all) := by
      intro c hc
      obtain ⟨i, hi⟩ := List.mem_iff_getElem?.1 hc
      exact r1 c (not_mem_take hLnd hi)
    rcases headOf_spec p s with ⟨hz, hzc⟩ | ⟨hx, hxc, _⟩
    · -- no head: everything was released
      have hj : j = L.length := by
        by_contra hne
        have hjl : j < L.length := by have : j ≤ L.length := hpt.jle; omega
        obtain ⟨hnj, _⟩ := hpt.lt hjl
        have hmem : nh ∈ L.drop j := List.mem_of_getElem? (i := 0) (by rw [List.getElem?_drop]; exact hnj)
        obtain ⟨a, b⟩ := nomem nh hmem
        have hca : nh ∈ w.v.all := (hw.g.own nh).2 (Or.inr ⟨s, hnhL⟩)
        have := hzc nh (b.2 (by rw [hp0all]; exact hca)) (by simp [Cand, a, hp0nh])
        rw [a, hp0cr] at this
        have := hw.g.created nh hca
        omega
      refine ⟨j, nh, j, hpt, le_refl _, recover_of ?_ ?_ (lenD j), other⟩
      · intro m c hm; rw [hj, List.drop_length] at hm; simp at hm
      · rw [hz, hj, List.drop_length]; rfl
    · obtain ⟨hor, hsame⟩ := hcand _ hx hxc
      by_cases hjn : j = L.length ∧ (headOf p s).1 = nh
      · -- the last chunk is still the head
        obtain ⟨hjl, hxn⟩ := hjn
        obtain ⟨_, _, hlast⟩ := hpt.eq hjl
        have hLne : 0 < L.length := List.length_pos_of_mem hnhL
        have hdrop : L.drop (j - 1) = [nh] := by
          have hlt : j - 1 < L.length := by omega
          have e1 : (L.drop (j - 1)).length = 1 := by rw [List.length_drop]; omega
          have e2 : (L.drop (j - 1))[0]? = some nh := by
            rw [List.getElem?_drop]; simpa using hlast
          generalize L.drop (j - 1) = M at e1 e2
          match M with
          | [a] => simp at e2; rw [e2]
        refine ⟨j - 1, nh, j, hpt, by omega, recover_of ?_ ?_ (lenD _), other⟩
        · apply link
          intro c hc
          rw [hdrop, List.mem_singleton] at hc
          subst hc
          rw [hxn] at hx hsame
          refine ⟨hsame, fun h => r4 _ h, fun _ => hx⟩
        · rw [hdrop, hxn]; rfl
      · by_cases hxn : (headOf p s).1 = nh
        · -- the new head
          have hjl : j < L.length := by
            have : j ≤ L.length := hpt.jle
            by_contra hge
            exact hjn ⟨by omega, hxn⟩
          obtain ⟨hnj, _⟩ := hpt.lt hjl
          refine ⟨j, nh, j, hpt, le_refl _, recover_of (link j nomem) ?_ (lenD j), other⟩
          rw [hxn, List.getElem?_drop, Nat.add_zero, show L[j]? = some nh from hnj]; rfl
        · -- the old head: nothing was released yet
          have hx0 := hor.resolve_right hxn
          have hnot : j = 0 ∨ k = 0 := by
            by_contra hc
            have hj0 : 0 < j := by omega
            have := r3 (by omega) _ (by rw [List.getElem?_take_of_lt hj0]; exact hx0)
            rw [hxc.1] at this; cases this
          have hall' : ∀ c, c ∈ L.drop 0 → p.priv c = p0.priv c ∧ (c ∈ p.all ↔ c ∈ p0.all) := by
            intro c hc
            rcases hnot with h0 | h0
            · exact r1 c (by rw [h0]; simp)
            · rw [hk0 h0]; exact ⟨rfl, Iff.rfl⟩
          refine ⟨0, nh, j, hpt, by omega, recover_of (link 0 hall') ?_ (lenD 0), other⟩
          rw [List.drop_zero, hx0]; rfl

/-- A crash during the removal of a whole stream. -/
theorem destroy_crash {w : World} (hw : WInv w) (s k : Nat) {f : Nat} (hf : w.v.all.length < f) :
    (recoverChunks f (crash w.v.pst (destroy w.v s).2 k) s = some (w.v.desc s).chunks ∨
      recoverChunks f (crash w.v.pst (destroy w.v s).2 k) s = some []) ∧
    ∀ s', s' ≠ s → recoverChunks f (crash w.v.pst (destroy w.v s).2 k) s' = some (w.v.desc s').chunks := by
  have hws : (destroy w.v s).2 = relWrites (fun c => .remove c) (w.v.desc s).chunks :=
    removeAll_writes _ _
  rw [hws]
  have hX : RelX (fun c => .remove c) := fun c => Or.inl rfl
  obtain ⟨r1, r2, r3, r4⟩ := relWrites_crash hX (w.v.desc s).chunks (hw.g.strND s) w.v.pst k
  have hk0 : k = 0 → crash w.v.pst (relWrites (fun c => .remove c) (w.v.desc s).chunks) k = w.v.pst := by
    intro h; subst h; rfl
  generalize crash w.v.pst (relWrites (fun c => .remove c) (w.v.desc s).chunks) k = p at *
  have hLs := chunks_length_le hw s
  obtain ⟨T, hT, _⟩ := hw.s s
  constructor
  · by_cases hk : k = 0
    · left; rw [hk0 hk]; exact recover_eq hw s (by omega)
    · right
      refine recover_of (by simp) ?_ (by simp; omega)
      rcases headOf_spec p s with ⟨h, _⟩ | ⟨h, h', _⟩
      · rw [h]; rfl
      · exfalso
        have hsame : p.priv (headOf p s).1 = w.v.priv (headOf p s).1 := by
          by_cases hm : (headOf p s).1 ∈ (w.v.desc s).chunks
          · rcases r2 _ hm with ⟨a, _⟩ | hf
            · exact a
            · rw [h'.1] at hf; cases hf
          · exact (r1 _ hm).1
        have hc0 := (cand_iff hw (s := s) (r4 _ h)).1 (by
          unfold Cand at h' ⊢; rw [hsame] at h'; exact h')
        have := r3 (by omega) _ hc0
        rw [h'.1] at this; cases this
  · intro s' hs'
    refine recover_other hw (s := s) hs' (M := (w.v.desc s).chunks) (fun c hc => Or.inl hc) r1 ?_ r4 hf
    intro c hc hh
    rcases r2 c hc with ⟨a, _⟩ | hf
    · rw [a] at hh ⊢
      obtain ⟨i, hi⟩ := List.mem_iff_getElem?.1 hc
      by_cases h0 : i = 0
      · subst h0
        have := (hT.head c hi).2
        show (w.v.priv c).logdev ≠ s'
        rw [this]; exact Ne.symm hs'
      · have := hT.nonhead i c hi (by omega)
        replace hh : (w.v.priv c).isHead = true := hh
        rw [this] at hh; cases hh
    · rw [hh] at hf; cases hf

/-- The writes of an allocation are those that lead to its final metadata, and there is at most one. -/
theorem alloc_writes {v v' : Dev} {s sz off : Nat} {ws : List W} (h : alloc v s sz = .ok (v', off, ws)) :
    ws.length ≤ 1 ∧ v'.pst = ws.foldl W.apply v.pst := by
  unfold alloc at h
  by_cases h1 : v.cs ≤ sz
  · rw [if_pos h1] at h; cases h
  rw [if_neg h1] at h
  cases ht : (v.desc s).tailChk with
  | error e => rw [ht] at h; cases h
  | ok t =>
    rw [ht] at h; simp only at h
    by_cases h2 : t + sz ≥ (v.desc s).endOff
    · rw [if_pos h2] at h
      cases ha : appendChunk v s with
      | error e => rw [ha] at h; cases h
      | ok q =>
        obtain ⟨v1, ws1⟩ := q
        rw [ha] at h; simp only at h
        have hq : ws1.length ≤ 1 ∧ v1.pst = ws1.foldl W.apply v.pst := by
          unfold appendChunk at ha
          split at ha
          · cases ha
          · simp only at ha
            split at ha
            · split at ha
              · cases ha
              · cases ha; exact ⟨by simp, rfl⟩
            · cases ha; exact ⟨by simp, rfl⟩
        split at h
        · cases h
        · split at h
          · cases h; exact hq
          · cases h
    · rw [if_neg h2] at h
      split at h
      · cases h; exact ⟨by simp, rfl⟩
      · cases h

end HS.Journal
