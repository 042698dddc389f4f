import Verif.Journal.Write

namespace HS.Journal

theorem relLoop_split {cs t tail n : Nat} {priv : Nat → Priv} (L : List Nat) (i cov j : Nat)
    (h : ∀ k c, L[k]? = some c → relCond cs t tail n priv (i + k) (cov + k * cs) c = decide (k < j)) :
    relLoop cs t tail n priv i cov L = (L.drop j, L.take j) := by
  induction L generalizing i cov j with
  | nil => simp [relLoop]
  | cons c r ih =>
    have h0 := h 0 c (by simp)
    simp only [Nat.add_zero, Nat.zero_mul] at h0
    unfold relLoop
    simp only
    have hih : relLoop cs t tail n priv (i + 1) (cov + cs) r = (r.drop (j - 1), r.take (j - 1)) := by
      apply ih
      intro k x hx
      have := h (k + 1) x (by simpa using hx)
      have e1 : i + 1 + k = i + (k + 1) := by omega
      have e2 : cov + cs + k * cs = cov + (k + 1) * cs := by ring
      rw [e1, e2, this]
      congr 1
      simp only [eq_iff_iff]; omega
    rw [hih, h0]
    cases j with
    | zero => simp
    | succ j => simp

/-- What the releases of one truncation do. -/
theorem releaseAll_spec {now : Nat → Nat} (rel : List Nat) (v : Dev) (hnd : rel.Nodup)
    (hp : ∀ c ∈ rel, c ∉ v.pool) (ha : ∀ c ∈ rel, c ∈ v.all) (hpnd : v.pool.Nodup)
    (hpa : ∀ c ∈ v.pool, c ∈ v.all) (hand : v.all.Nodup) :
    let q := (releaseAll now v rel).1
    q.cs = v.cs ∧ q.cap = v.cap ∧ q.desc = v.desc ∧ q.data = v.data ∧
    (∀ c, c ∈ q.pool ↔ c ∈ v.pool ∨ (c ∈ rel ∧ c ∈ q.all)) ∧
    (∀ c, c ∉ rel → (c ∈ q.all ↔ c ∈ v.all)) ∧
    (∀ c ∈ rel, c ∈ q.all → c ∈ v.all) ∧
    (∀ c, c ∉ rel → q.priv c = v.priv c) ∧
    (∀ c ∈ rel, c ∈ q.all → q.priv c = initPriv v.cs (now c)) ∧
    q.pool.Nodup ∧ q.all.Nodup := by
  induction rel generalizing v with
  | nil =>
    exact ⟨rfl, rfl, rfl, rfl, by simp [releaseAll], by simp [releaseAll], by simp, by simp [releaseAll],
      by simp, hpnd, hand⟩
  | cons c r ih =>
    obtain ⟨hcr, hrnd⟩ := List.nodup_cons.1 hnd
    have hcp := hp c List.mem_cons_self
    have hca := ha c List.mem_cons_self
    simp only [releaseAll]
    by_cases hcap : v.pool.length < v.cap
    · have hr1 : (release1 now v c).1 =
          { (v.setPriv c {}).setPriv c (initPriv v.cs (now c)) with pool := c :: v.pool } := by
        simp [release1, hcap]
      have := ih (release1 now v c).1 hrnd
        (by
          intro x hx; rw [hr1]
          simp only [List.mem_cons, not_or]
          exact ⟨fun h => hcr (h ▸ hx), hp x (List.mem_cons_of_mem _ hx)⟩)
        (by intro x hx; rw [hr1]; exact ha x (List.mem_cons_of_mem _ hx))
        (by rw [hr1]; exact List.nodup_cons.2 ⟨hcp, hpnd⟩)
        (by
          intro x hx; rw [hr1] at hx ⊢
          rcases List.mem_cons.1 hx with h | h
          · exact h ▸ hca
          · exact hpa x h)
        (by rw [hr1]; exact hand)
      simp only at this
      obtain ⟨q1, q2, q3, q4, q5, q6, q7, q8, q9, q10, q11⟩ := this
      have e1 : (release1 now v c).1.cs = v.cs := by rw [hr1]; rfl
      have e2 : (release1 now v c).1.all = v.all := by rw [hr1]; rfl
      have e3 : (release1 now v c).1.pool = c :: v.pool := by rw [hr1]
      have e4 : ∀ x, x ≠ c → (release1 now v c).1.priv x = v.priv x := by
        intro x hx; rw [hr1]; simp [Dev.setPriv, upd, hx]
      have e5 : (release1 now v c).1.priv c = initPriv v.cs (now c) := by
        rw [hr1]; simp [Dev.setPriv, upd]
      rw [e2] at q6 q7
      refine ⟨by rw [q1, e1], by rw [q2, hr1]; rfl, by rw [q3, hr1]; rfl, by rw [q4, hr1]; rfl,
        ?_, ?_, ?_, ?_, ?_, q10, q11⟩
      · intro x
        rw [q5 x, e3]
        have hcq : c ∈ (releaseAll now (release1 now v c).1 r).1.all := (q6 c hcr).2 hca
        constructor
        · rintro (h | ⟨h, h'⟩)
          · rcases List.mem_cons.1 h with h | h
            · subst h; exact Or.inr ⟨List.mem_cons_self, hcq⟩
            · exact Or.inl h
          · exact Or.inr ⟨List.mem_cons_of_mem _ h, h'⟩
        · rintro (h | ⟨h, h'⟩)
          · exact Or.inl (List.mem_cons_of_mem _ h)
          · rcases List.mem_cons.1 h with h | h
            · subst h; exact Or.inl List.mem_cons_self
            · exact Or.inr ⟨h, h'⟩
      · intro x hx
        exact q6 x (fun h => hx (List.mem_cons_of_mem _ h))
      · intro x hx hxa
        exact ha x hx
      · intro x hx
        rw [q8 x (fun h => hx (List.mem_cons_of_mem _ h)), e4 x (fun h => hx (h ▸ List.mem_cons_self))]
      · intro x hx hxa
        by_cases hxr : x ∈ r
        · rw [q9 x hxr hxa, e1]
        · have : x = c := (List.mem_cons.1 hx).resolve_right hxr
          subst this
          rw [q8 x hxr, e5]
    · have hr1 : (release1 now v c).1 = { v.setPriv c {} with all := v.all.filter (· ≠ c) } := by
        simp [release1, hcap]
      have hmem : ∀ x, x ∈ v.all.filter (· ≠ c) ↔ x ∈ v.all ∧ x ≠ c := by
        intro x; simp
      have e1 : (release1 now v c).1.cs = v.cs := by rw [hr1]; rfl
      have e2 : (release1 now v c).1.all = v.all.filter (· ≠ c) := by rw [hr1]
      have e3 : (release1 now v c).1.pool = v.pool := by rw [hr1]; rfl
      have e4 : ∀ x, x ≠ c → (release1 now v c).1.priv x = v.priv x := by
        intro x hx; rw [hr1]; simp [Dev.setPriv, upd, hx]
      have := ih (release1 now v c).1 hrnd
        (by intro x hx; rw [e3]; exact hp x (List.mem_cons_of_mem _ hx))
        (by
          intro x hx; rw [e2, hmem]
          exact ⟨ha x (List.mem_cons_of_mem _ hx), fun h => hcr (h ▸ hx)⟩)
        (by rw [e3]; exact hpnd)
        (by
          intro x hx; rw [e3] at hx; rw [e2, hmem]
          exact ⟨hpa x hx, fun h => hcp (h ▸ hx)⟩)
        (by rw [e2]; exact hand.filter _)
      simp only at this
      obtain ⟨q1, q2, q3, q4, q5, q6, q7, q8, q9, q10, q11⟩ := this
      have hcq : c ∉ (releaseAll now (release1 now v c).1 r).1.all := by
        rw [q6 c hcr, e2, hmem]; simp
      refine ⟨by rw [q1, e1], by rw [q2, hr1]; rfl, by rw [q3, hr1]; rfl, by rw [q4, hr1]; rfl,
        ?_, ?_, ?_, ?_, ?_, q10, q11⟩
      · intro x
        rw [q5 x, e3]
        constructor
        · rintro (h | ⟨h, h'⟩)
          · exact Or.inl h
          · exact Or.inr ⟨List.mem_cons_of_mem _ h, h'⟩
        · rintro (h | ⟨h, h'⟩)
          · exact Or.inl h
          · rcases List.mem_cons.1 h with h | h
            · subst h; exact absurd h' hcq
            · exact Or.inr ⟨h, h'⟩
      · intro x hx
        rw [q6 x (fun h => hx (List.mem_cons_of_mem _ h)), e2, hmem]
        constructor
        · exact fun h => h.1
        · exact fun h => ⟨h, fun h' => hx (h' ▸ List.mem_cons_self)⟩
      · intro x hx hxa; exact ha x hx
      · intro x hx
        rw [q8 x (fun h => hx (List.mem_cons_of_mem _ h)), e4 x (fun h => hx (h ▸ List.mem_cons_self))]
      · intro x hx hxa
        by_cases hxr : x ∈ r
        · rw [q9 x hxr hxa, e1]
        · have : x = c := (List.mem_cons.1 hx).resolve_right hxr
          subst this; exact absurd hxa hcq

/-- Facts about a truncation point `t`: `j` chunks are released and `nh` becomes (or is) the head. -/
structure TruncPt (cs : Nat) (priv : Nat → Priv) (d : Desc) (T t : Nat) (nh j ds' : Nat) : Prop where
  jle : j ≤ d.chunks.length
  low : ∀ (i c : Nat), d.chunks[i]? = some c → i < j →
    (i + 1 < d.chunks.length → (d.ds / cs + i) * cs + (priv c).eoc ≤ t) ∧
    (i + 1 = d.chunks.length → t = T)
  le : t ≤ ds'
  up : ∀ x, t ≤ x → x < T → ∀ c, d.chunks[x / cs - d.ds / cs]? = some c → x % cs < (priv c).eoc → ds' ≤ x
  lt : j < d.chunks.length → d.chunks[j]? = some nh ∧ ds' / cs = d.ds / cs + j ∧ ds' ≤ T ∧
    (j + 1 < d.chunks.length → ds' % cs ≤ (priv nh).eoc)
  eq : j = d.chunks.length → t = T ∧ ds' = rup t cs ∧ d.chunks[j - 1]? = some nh
  nhmem : nh ∈ d.chunks

theorem rup_eq {t cs : Nat} (hcs : 0 < cs) (h : t % cs ≠ 0) : rup t cs = (t / cs + 1) * cs := by
  unfold rup
  congr 1
  apply div_unique
  · have := mod_eq t cs; rw [Nat.add_mul]; omega
  · have := mod_eq t cs
    have := Nat.mod_lt t hcs
    rw [Nat.add_mul, Nat.add_mul]; omega

theorem rup_zero {t cs : Nat} (hcs : 0 < cs) (h : t % cs = 0) : rup t cs = t := by
  unfold rup
  have h1 := mod_eq t cs
  have : (t + cs - 1) / cs = t / cs := by
    apply div_unique
    · omega
    · rw [Nat.add_mul]; omega
  rw [this]; omega

theorem rup_mod {t cs : Nat} (hcs : 0 < cs) : rup t cs % cs = 0 ∧ t ≤ rup t cs ∧ rup t cs < t + cs := by
  by_cases h : t % cs = 0
  · rw [rup_zero hcs h]; omega
  · rw [rup_eq hcs h]
    have := mod_eq t cs
    have := Nat.mod_lt t hcs
    refine ⟨Nat.mul_mod_left _ _, ?_, ?_⟩ <;> rw [Nat.add_mul] <;> omega

/-- `truncate` at an allowed offset, spelled out. -/
theorem truncate_eq {w : World} (hw : WInv w) {s t : Nat} (hv : ValidTrunc w s t)
    {T : Nat} (hT : SInv w.v.cs w.v.priv s (w.v.desc s) T) (now : Nat → Nat) :
    ∃ nh j ds' wsz', TruncPt w.v.cs w.v.priv (w.v.desc s) T t nh j ds' ∧
      (j < (w.v.desc s).chunks.length → (ds' : Int) + wsz' + (w.v.desc s).rsv = T) ∧
      (j = (w.v.desc s).chunks.length → wsz' + (w.v.desc s).rsv = 0) ∧
      let p := { w.v.priv nh with isHead := true, logdev := s }
      let r := releaseAll now (w.v.setPriv nh p) ((w.v.desc s).chunks.take j)
      let d' : Desc := {
        ds := ds', wsz := wsz', rsv := (w.v.desc s).rsv, chunks := (w.v.desc s).chunks.drop j
        total := ((w.v.desc s).chunks.length - j) * w.v.cs
        endOff := (ds' / w.v.cs + ((w.v.desc s).chunks.length - j)) * w.v.cs }
      truncate w.v s t now = .ok (r.1.setDesc s d', ds', .set nh p :: r.2) := by
  have hcs := hw.g.cs
  obtain ⟨hne, hds, htT, hres, hhole⟩ := hv
  rw [hT.tail] at htT
  have htT' : t ≤ T := by exact_mod_cast htT
  generalize hd : w.v.desc s = d at *
  generalize hn : d.chunks.length = n at *
  have hn0 : 0 < n := by rw [← hn]; exact List.length_pos_iff.2 hne
  have hlast := hT.last hne
  rw [hn] at hlast
  have hq1 : d.ds / w.v.cs ≤ t / w.v.cs := Nat.div_le_div_right hds
  have hq2 : t / w.v.cs ≤ T / w.v.cs := Nat.div_le_div_right htT'
  obtain ⟨k0, hk0⟩ : ∃ k0, t / w.v.cs = d.ds / w.v.cs + k0 := ⟨t / w.v.cs - d.ds / w.v.cs, by omega⟩
  have hk0n : k0 < n := by omega
  obtain ⟨c0, hc0⟩ : ∃ c0, d.chunks[k0]? = some c0 := ⟨_, List.getElem?_eq_getElem (by omega)⟩
  have hloc : offsetToChunk w.v.cs d t = some (c0, k0, t % w.v.cs) := by
    rw [offsetToChunk_eq hcs, if_neg (by omega)]
    have : t / w.v.cs - d.ds / w.v.cs = k0 := by omega
    rw [this, hc0]; rfl
  have ho0 := Nat.mod_lt t hcs
  have htm := mod_eq t w.v.cs
  have hTm := mod_eq T w.v.cs
  have hsTail := hT.tail
  simp only [Desc.tail] at hsTail
  have hND : d.chunks.Nodup := hd ▸ hw.g.strND s
  have hbase : ∀ i, rdown d.ds w.v.cs + i * w.v.cs = (d.ds / w.v.cs + i) * w.v.cs := by
    intro i; unfold rdown; ring
  have heocle : ∀ (i c : Nat), d.chunks[i]? = some c → (w.v.priv c).eoc ≤ w.v.cs := by
    intro i c hi
    have hlt := (List.getElem?_eq_some_iff.1 hi).1
    by_cases h : i + 1 = n
    · rw [hT.eocL i c hi (by omega)]
    · exact (hT.eocN i c hi (by omega)).1
  -- the value of the release condition
  have hcond : ∀ (priv1 : Nat → Priv), (∀ c, (priv1 c).eoc = (w.v.priv c).eoc) → ∀ j,
      (∀ (i c : Nat), d.chunks[i]? = some c → i + 1 < n → (((d.ds / w.v.cs + i) * w.v.cs + (w.v.priv c).eoc ≤ t) ↔ i < j)) →
      ((T ≤ t) ↔ n - 1 < j) →
      relLoop w.v.cs t T n priv1 0 (rdown d.ds w.v.cs) d.chunks = (d.chunks.drop j, d.chunks.take j) := by
    intro priv1 hp1 j h1 h2
    apply relLoop_split
    intro k c hk
    have hkn := (List.getElem?_eq_some_iff.1 hk).1
    have he := heocle k c hk
    rw [hbase k]
    unfold relCond
    simp only [Nat.zero_add]
    rw [decide_eq_decide, hp1]
    by_cases hl : k + 1 = n
    · rw [if_pos hl, if_pos hl]
      have : (d.ds / w.v.cs + k) * w.v.cs + T % w.v.cs = T := by
        have : d.ds / w.v.cs + k = T / w.v.cs := by omega
        rw [this]; omega
      rw [this]
      have : k = n - 1 := by omega
      rw [this, ← h2]
      push_cast
      simp
    · rw [if_neg hl, if_neg hl, ← h1 k c hk (by omega)]
      generalize (d.ds / w.v.cs + k) * w.v.cs = B
      push_cast
      constructor
      · rintro (h | h) <;> omega
      · intro h; right; omega
  by_cases hl : k0 + 1 = n
  · -- t in the last chunk
    have he0 := hT.eocL k0 c0 hc0 (by omega)
    have hskip : ¬ (t % w.v.cs ≥ (w.v.priv c0).eoc ∧ k0 + 1 ≤ n - 1) := by omega
    have hcondNL : ∀ (i c : Nat), d.chunks[i]? = some c → i + 1 < n →
        (d.ds / w.v.cs + i) * w.v.cs + (w.v.priv c).eoc ≤ t := by
      intro i c hi hin
      have he := heocle i c hi
      have h1 : (d.ds / w.v.cs + i + 1) * w.v.cs ≤ t / w.v.cs * w.v.cs :=
        Nat.mul_le_mul_right _ (by omega)
      rw [Nat.add_mul (d.ds / w.v.cs + i)] at h1
      omega
    by_cases htT2 : t = T
    · -- everything is released
      refine ⟨c0, n, rup t w.v.cs, d.wsz - (t - d.ds), ?_, ?_, ?_, ?_⟩
      · refine ⟨by omega, ?_, ?_, ?_, by omega, ?_, mem_of_getElem? hc0⟩
        · intro i c hi hij
          exact ⟨fun h => hcondNL i c hi (by omega), fun _ => htT2⟩
        · exact (rup_mod hcs).2.1
        · intro x h1 h2; omega
        · intro _
          refine ⟨htT2, rfl, ?_⟩
          have : n - 1 = k0 := by omega
          rw [this]; exact hc0
      · intro h; omega
      · intro _; omega
      · unfold truncate
        simp only [hd]
        rw [if_neg (by omega), hloc]
        simp only [hn]
        rw [show decide (t % w.v.cs ≥ (w.v.priv c0).eoc ∧ k0 + 1 ≤ n - 1) = false from decide_eq_false hskip]
        simp only [Bool.false_eq_true, if_false]
        have htl : d.tail.toNat = T := by rw [Desc.tail, hsTail]; simp
        rw [htl]
        have hrl := hcond (w.v.setPriv c0 { w.v.priv c0 with isHead := true, logdev := s }).priv
          (by
            intro c; simp only [Dev.setPriv, upd]
            by_cases h : c = c0
            · subst h; simp
            · simp [h]) n
          (fun i c hi hin => ⟨fun _ => by omega, fun _ => hcondNL i c hi hin⟩)
          ⟨fun _ => by omega, fun _ => by omega⟩
        rw [hrl]
        have hendle : ¬ d.endOff < t := by
          have := hT.endOff
          have h3 := (div_bounds T hcs).2
          rw [hn] at this; rw [hlast, ← this] at h3; omega
        rw [if_neg hendle]
        have hdrop : d.chunks.drop n = [] := by rw [List.drop_eq_nil_iff]; omega
        have hlen : (d.chunks.take n).length = n := by rw [List.length_take]; omega
        simp only [updateStart, hdrop, ne_eq, not_true_eq_false, if_false]
        simp only [hlen]
        have hrup := (rup_mod (t := t) hcs).1
        have hr2 := mod_eq (rup t w.v.cs) w.v.cs
        simp only [hT.total, hn, Nat.sub_self, Nat.zero_mul, Nat.add_zero]
        congr 4
        congr 1
        · omega
        · omega
    · -- nothing more than the chunks before
      refine ⟨c0, k0, t, d.wsz - (t - d.ds), ?_, ?_, ?_, ?_⟩
      · refine ⟨by omega, ?_, Nat.le_refl _, fun x h1 _ _ _ _ => h1, ?_, by omega, mem_of_getElem? hc0⟩
        · intro i c hi hij
          exact ⟨fun h => hcondNL i c hi (by omega), fun h => by omega⟩
        · intro _
          exact ⟨hc0, hk0, htT', fun h => by omega⟩
      · intro _; omega
      · intro h; omega
      · unfold truncate
        simp only [hd]
        rw [if_neg (by omega), hloc]
        simp only [hn]
        rw [show decide (t % w.v.cs ≥ (w.v.priv c0).eoc ∧ k0 + 1 ≤ n - 1) = false from decide_eq_false hskip]
        simp only [Bool.false_eq_true, if_false]
        have htl : d.tail.toNat = T := by rw [Desc.tail, hsTail]; simp
        rw [htl]
        have hrl := hcond (w.v.setPriv c0 { w.v.priv c0 with isHead := true, logdev := s }).priv
          (by
            intro c; simp only [Dev.setPriv, upd]
            by_cases h : c = c0
            · subst h; simp
            · simp [h]) k0
          (fun i c hi hin => ⟨fun _ => by omega, fun _ => hcondNL i c hi hin⟩)
          ⟨fun _ => by omega, fun _ => by omega⟩
        rw [hrl]
        have hendle : ¬ d.endOff < t := by
          have := hT.endOff
          have h3 := (div_bounds T hcs).2
          rw [hn] at this; rw [hlast, ← this] at h3; omega
        rw [if_neg hendle]
        have hdrop : d.chunks.drop k0 ≠ [] := by
          rw [ne_eq, List.drop_eq_nil_iff]; omega
        have hlen : (d.chunks.take k0).length = k0 := by rw [List.length_take]; omega
        have hlen2 : (d.chunks.drop k0).length = n - k0 := by rw [List.length_drop]; omega
        have htot : d.total - k0 * w.v.cs = (n - k0) * w.v.cs := by
          rw [hT.total, hn, Nat.sub_mul]
        have hendE : rdown t w.v.cs + (n - k0) * w.v.cs = (t / w.v.cs + (n - k0)) * w.v.cs := by
          unfold rdown; ring
        simp only [updateStart, ne_eq, hdrop, not_false_eq_true, if_true, hlen, hlen2, htot]
        rw [if_pos (by omega)]
        simp only [hendE]
        congr 4
        congr 1
        omega
  · -- t in an earlier chunk
    have hk1 : k0 + 1 < n := by omega
    have heN := hT.eocN k0 c0 hc0 (by omega)
    have hle := hhole c0 k0 (t % w.v.cs) hloc (by omega)
    have htltT : t < T := by
      have h1 := div_bounds t hcs
      have h2 := (div_bounds T hcs).1
      have h3 : (t / w.v.cs + 1) * w.v.cs ≤ T / w.v.cs * w.v.cs := Nat.mul_le_mul_right _ (by omega)
      omega
    have hcondI : ∀ (i c : Nat), d.chunks[i]? = some c → i + 1 < n → i < k0 →
        (d.ds / w.v.cs + i) * w.v.cs + (w.v.priv c).eoc ≤ t := by
      intro i c hi hin hik
      have he := heocle i c hi
      have h1 : (d.ds / w.v.cs + i + 1) * w.v.cs ≤ t / w.v.cs * w.v.cs :=
        Nat.mul_le_mul_right _ (by omega)
      rw [Nat.add_mul (d.ds / w.v.cs + i)] at h1
      omega
    have hcondG : ∀ (i c : Nat), d.chunks[i]? = some c → k0 < i →
        ¬ (d.ds / w.v.cs + i) * w.v.cs + (w.v.priv c).eoc ≤ t := by
      intro i c hi hik
      have h1 : (t / w.v.cs + 1) * w.v.cs ≤ (d.ds / w.v.cs + i) * w.v.cs :=
        Nat.mul_le_mul_right _ (by omega)
      have := (div_bounds t hcs).2
      omega
    have hcond0 : (d.ds / w.v.cs + k0) * w.v.cs + (w.v.priv c0).eoc ≤ t ↔ (w.v.priv c0).eoc ≤ t % w.v.cs := by
      rw [← hk0]; omega
    have htl : d.tail.toNat = T := by rw [Desc.tail, hsTail]; simp
    have hendE0 := hT.endOff
    rw [hn] at hendE0
    by_cases hsk : (w.v.priv c0).eoc ≤ t % w.v.cs
    · have heq : (w.v.priv c0).eoc = t % w.v.cs := by omega
      obtain ⟨c1, hc1⟩ : ∃ c1, d.chunks[k0 + 1]? = some c1 := ⟨_, List.getElem?_eq_getElem (by omega)⟩
      have hrup : rup t w.v.cs = (t / w.v.cs + 1) * w.v.cs := rup_eq hcs (by omega)
      have hrd : rup t w.v.cs / w.v.cs = t / w.v.cs + 1 := by
        rw [hrup]; exact Nat.mul_div_cancel _ hcs
      have hrupT : rup t w.v.cs ≤ T := by
        rw [hrup]
        have h2 := (div_bounds T hcs).1
        have h3 : (t / w.v.cs + 1) * w.v.cs ≤ T / w.v.cs * w.v.cs := Nat.mul_le_mul_right _ (by omega)
        omega
      refine ⟨c1, k0 + 1, rup t w.v.cs, d.wsz - (t - d.ds + (w.v.cs - (w.v.priv c0).eoc)), ?_, ?_, ?_, ?_⟩
      · refine ⟨by omega, ?_, (rup_mod hcs).2.1, ?_, ?_, by omega, mem_of_getElem? hc1⟩
        · intro i c hi hij
          refine ⟨fun h => ?_, fun h => by omega⟩
          by_cases hik : i = k0
          · subst hik; rw [hc0] at hi; cases hi; exact hcond0.2 hsk
          · exact hcondI i c hi (by omega) (by omega)
        · intro x h1 h2 c hc hx
          have hxq : t / w.v.cs ≤ x / w.v.cs := Nat.div_le_div_right h1
          by_cases hxe : x / w.v.cs = t / w.v.cs
          · have : x / w.v.cs - d.ds / w.v.cs = k0 := by omega
            rw [this, hc0] at hc; cases hc
            have := mod_eq x w.v.cs
            rw [hxe] at this
            omega
          · have h3 : (t / w.v.cs + 1) * w.v.cs ≤ x / w.v.cs * w.v.cs := Nat.mul_le_mul_right _ (by omega)
            have := (div_bounds x hcs).1
            omega
        · intro _
          refine ⟨hc1, by omega, hrupT, fun _ => ?_⟩
          rw [(rup_mod hcs).1]; omega
      · intro _
        have : rup t w.v.cs + (w.v.priv c0).eoc = t + w.v.cs := by
          rw [hrup, Nat.add_mul]; omega
        omega
      · intro h; omega
      · unfold truncate
        simp only [hd]
        rw [if_neg (by omega), hloc]
        simp only [hn]
        rw [show decide (t % w.v.cs ≥ (w.v.priv c0).eoc ∧ k0 + 1 ≤ n - 1) = true from
          decide_eq_true ⟨hsk, by omega⟩]
        simp only [if_true]
        have hget : d.chunks.getD (k0 + 1) 0 = c1 := by
          rw [List.getD_eq_getElem?_getD, hc1]; rfl
        rw [htl, hget]
        have hrl := hcond (w.v.setPriv c1 { w.v.priv c1 with isHead := true, logdev := s }).priv
          (by
            intro c; simp only [Dev.setPriv, upd]
            by_cases h : c = c1
            · subst h; simp
            · simp [h]) (k0 + 1)
          (fun i c hi hin => by
            rcases Nat.lt_trichotomy i k0 with h | h | h
            · exact ⟨fun _ => by omega, fun _ => hcondI i c hi hin h⟩
            · subst h; rw [hc0] at hi; cases hi
              exact ⟨fun _ => by omega, fun _ => hcond0.2 hsk⟩
            · exact ⟨fun h' => absurd h' (hcondG i c hi h), fun _ => by omega⟩)
          ⟨fun _ => by omega, fun _ => by omega⟩
        rw [hrl]
        have hendle : ¬ d.endOff < rup t w.v.cs := by
          have h3 := (div_bounds T hcs).2
          rw [hlast, ← hendE0] at h3; omega
        rw [if_neg hendle]
        have hdrop : d.chunks.drop (k0 + 1) ≠ [] := by
          rw [ne_eq, List.drop_eq_nil_iff]; omega
        have hlen : (d.chunks.take (k0 + 1)).length = k0 + 1 := by rw [List.length_take]; omega
        have hlen2 : (d.chunks.drop (k0 + 1)).length = n - (k0 + 1) := by rw [List.length_drop]; omega
        have htot : d.total - (k0 + 1) * w.v.cs = (n - (k0 + 1)) * w.v.cs := by
          rw [hT.total, hn, Nat.sub_mul]
        have hendE : rdown (rup t w.v.cs) w.v.cs + (n - (k0 + 1)) * w.v.cs =
            (rup t w.v.cs / w.v.cs + (n - (k0 + 1))) * w.v.cs := by
          unfold rdown; ring
        simp only [updateStart, ne_eq, hdrop, not_false_eq_true, if_true, hlen, hlen2, htot]
        rw [if_pos (by omega)]
        simp only [hendE]
    · refine ⟨c0, k0, t, d.wsz - (t - d.ds), ?_, ?_, ?_, ?_⟩
      · refine ⟨by omega, ?_, Nat.le_refl _, fun x h1 _ _ _ _ => h1, ?_, by omega, mem_of_getElem? hc0⟩
        · intro i c hi hij
          exact ⟨fun h => hcondI i c hi (by omega) hij, fun h => by omega⟩
        · intro _
          exact ⟨hc0, hk0, htT', fun h => hle⟩
      · intro _; omega
      · intro h; omega
      · unfold truncate
        simp only [hd]
        rw [if_neg (by omega), hloc]
        simp only [hn]
        rw [show decide (t % w.v.cs ≥ (w.v.priv c0).eoc ∧ k0 + 1 ≤ n - 1) = false from
          decide_eq_false (by omega)]
        simp only [Bool.false_eq_true, if_false]
        rw [htl]
        have hrl := hcond (w.v.setPriv c0 { w.v.priv c0 with isHead := true, logdev := s }).priv
          (by
            intro c; simp only [Dev.setPriv, upd]
            by_cases h : c = c0
            · subst h; simp
            · simp [h]) k0
          (fun i c hi hin => by
            rcases Nat.lt_trichotomy i k0 with h | h | h
            · exact ⟨fun _ => by omega, fun _ => hcondI i c hi hin h⟩
            · subst h; rw [hc0] at hi; cases hi
              exact ⟨fun h' => absurd (hcond0.1 h') hsk, fun _ => by omega⟩
            · exact ⟨fun h' => absurd h' (hcondG i c hi h), fun _ => by omega⟩)
          ⟨fun _ => by omega, fun _ => by omega⟩
        rw [hrl]
        have hendle : ¬ d.endOff < t := by
          have h3 := (div_bounds T hcs).2
          rw [hlast, ← hendE0] at h3; omega
        rw [if_neg hendle]
        have hdrop : d.chunks.drop k0 ≠ [] := by
          rw [ne_eq, List.drop_eq_nil_iff]; omega
        have hlen : (d.chunks.take k0).length = k0 := by rw [List.length_take]; omega
        have hlen2 : (d.chunks.drop k0).length = n - k0 := by rw [List.length_drop]; omega
        have htot : d.total - k0 * w.v.cs = (n - k0) * w.v.cs := by
          rw [hT.total, hn, Nat.sub_mul]
        have hendE : rdown t w.v.cs + (n - k0) * w.v.cs = (t / w.v.cs + (n - k0)) * w.v.cs := by
          unfold rdown; ring
        simp only [updateStart, ne_eq, hdrop, not_false_eq_true, if_true, hlen, hlen2, htot]
        rw [if_pos (by omega)]
        simp only [hendE]
        congr 4
        congr 1
        omega

end HS.Journal
