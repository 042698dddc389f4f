import Verif.DevMgr.Size

/-!
# Sizing of a virtual device: theorems (C19)
-/

namespace HS.DevMgr

/-- The numbers fit their types. -/
def VParam.Fits (p : VParam) : Prop :=
  p.size < 18446744073709551616 ∧ p.num < 4294967296 ∧ p.blk < 4294967296 ∧ p.chunk < 4294967296

/-- A consistent size for a device for which `asked` bytes were asked: it is made of `num` chunks, the chunks are made
of blocks, are not too small, and there are neither none nor too many of them. -/
def Consistent (fast : Bool) (asked : Nat) (q : VParam) : Prop :=
  q.size = q.num * q.chunk ∧ q.blk ∣ q.chunk ∧ minChunk fast ≤ q.chunk ∧ q.chunk < 4294967296 ∧
    q.num ≤ maxChunks ∧ q.size ≤ asked ∧ q.num ≠ 0

theorem minChunk_cases (fast : Bool) : minChunk fast = 33554432 ∨ minChunk fast = 16777216 := by
  cases fast
  · exact Or.inr rfl
  · exact Or.inl rfl

theorem compose_ok {fast : Bool} {opt : Multi} {p q : VParam} (h : compose fast opt p = .ok q) :
    ∃ num, adjustNum opt p.num = .ok num ∧
      ((p.static = true ∧ p.size ≠ 0 ∧
          ((num ≠ 0 ∧ byNum fast { p with num := num } = .ok q) ∨
            (num = 0 ∧ p.chunk ≠ 0 ∧ byChunk fast { p with num := num } = .ok q))) ∨
        (p.static = false ∧ dynamic fast { p with num := num } = .ok q)) ∧
      sanity fast (maxNum fast p.size) q = .ok q := by
  have hsan : ∀ r : VParam, sanity fast (maxNum fast p.size) r = .ok q → r = q := by
    intro r hr
    unfold sanity at hr
    split at hr
    · cases hr
    · split at hr
      · cases hr
      · split at hr
        · cases hr
        · split at hr
          · cases hr
          · split at hr
            · cases hr
            · cases hr; rfl
  unfold compose at h
  cases ha : adjustNum opt p.num with
  | error x => rw [ha] at h; cases h
  | ok num =>
    rw [ha] at h
    simp only [bind, Except.bind] at h
    refine ⟨num, rfl, ?_⟩
    by_cases hs : p.static = true
    · rw [if_pos hs] at h
      by_cases hz : p.size = 0
      · rw [if_pos hz] at h; cases h
      · rw [if_neg hz] at h
        by_cases hn : num ≠ 0
        · rw [if_pos hn] at h
          cases hb : byNum fast { p with num := num } with
          | error x => rw [hb] at h; cases h
          | ok r =>
            rw [hb] at h
            have := hsan r h
            subst this
            exact ⟨Or.inl ⟨hs, hz, Or.inl ⟨hn, rfl⟩⟩, h⟩
        · rw [if_neg hn] at h
          have hn0 : num = 0 := by omega
          by_cases hc : p.chunk ≠ 0
          · rw [if_pos hc] at h
            cases hb : byChunk fast { p with num := num } with
            | error x => rw [hb] at h; cases h
            | ok r =>
              rw [hb] at h
              have := hsan r h
              subst this
              exact ⟨Or.inl ⟨hs, hz, Or.inr ⟨hn0, hc, rfl⟩⟩, h⟩
          · rw [if_neg hc] at h; cases h
    · have hs' : p.static = false := by simpa using hs
      rw [if_neg hs] at h
      cases hb : dynamic fast { p with num := num } with
      | error x => rw [hb] at h; cases h
      | ok r =>
        rw [hb] at h
        have := hsan r h
        subst this
        exact ⟨Or.inr ⟨hs', rfl⟩, h⟩

theorem sanity_ok {fast : Bool} {m : Nat} {q : VParam} (h : sanity fast m q = .ok q) :
    q.chunk ≠ 0 ∧ q.blk ≠ 0 ∧ q.size % q.chunk = 0 ∧ q.chunk % q.blk = 0 ∧ minChunk fast ≤ q.chunk ∧ q.num ≤ m := by
  unfold sanity at h
  split at h
  · cases h
  · rename_i h1
    split at h
    · cases h
    · rename_i h2
      split at h
      · cases h
      · rename_i h3
        split at h
        · cases h
        · rename_i h4
          split at h
          · cases h
          · rename_i h5
            simp only [not_or] at h1
            exact ⟨h1.1, h1.2, by omega, by omega, by omega, by omega⟩

theorem maxNum_le (fast : Bool) (size : Nat) : maxNum fast size ≤ maxChunks := Nat.min_le_right _ _

/-- What `byNum` computes when neither product nor quotient overflows. -/
theorem byNum_ok {fast : Bool} {p q : VParam} (h : byNum fast p = .ok q) (hsz : p.size < 281474976710656)
    (h0 : p.size ≠ 0) (hb : p.blk < 65536) :
    q.size = q.num * q.chunk ∧ q.size ≤ p.size ∧ q.num ≠ 0 ∧ q.blk = p.blk ∧ q.chunk < 4294967296 ∧
      p.size < q.size + q.num * q.blk := by
  unfold byNum at h
  simp only at h
  generalize hN : min (max p.num (u32 ((p.size - 1) / 4294967295 + 1))) (maxNum fast p.size) = N at h
  have hNle : N ≤ 65536 := by
    rw [← hN]; exact Nat.le_trans (Nat.min_le_right _ _) (maxNum_le fast _)
  have hprod : u32 (N * p.blk) = N * p.blk := by
    unfold u32
    apply Nat.mod_eq_of_lt
    calc N * p.blk ≤ 65536 * p.blk := Nat.mul_le_mul_right _ hNle
      _ < 4294967296 := by omega
  rw [hprod] at h
  by_cases hm : N * p.blk = 0
  · rw [if_pos hm] at h; cases h
  · rw [if_neg hm] at h
    have hN0 : N ≠ 0 := by intro e; rw [e] at hm; simp at hm
    have hdvd : roundDown p.size (N * p.blk) = N * (p.size / (N * p.blk) * p.blk) := by
      unfold roundDown
      rw [Nat.mul_left_comm, Nat.mul_comm N p.blk, Nat.mul_left_comm]
    have hquot : roundDown p.size (N * p.blk) / N = p.size / (N * p.blk) * p.blk := by
      rw [hdvd, Nat.mul_div_cancel_left _ (Nat.pos_of_ne_zero hN0)]
    have hle : roundDown p.size (N * p.blk) ≤ p.size := Nat.div_mul_le_self _ _
    have hlt : roundDown p.size (N * p.blk) / N < 4294967296 := by
      refine Nat.lt_of_le_of_lt (Nat.div_le_div_right hle) ?_
      rw [Nat.div_lt_iff_lt_mul (Nat.pos_of_ne_zero hN0)]
      -- either enough chunks, or as many as the system has
      have hmin : u32 ((p.size - 1) / 4294967295 + 1) = (p.size - 1) / 4294967295 + 1 := by
        unfold u32; apply Nat.mod_eq_of_lt; omega
      by_cases hcap : N = 65536
      · rw [hcap]; omega
      · have hge : (p.size - 1) / 4294967295 + 1 ≤ N := by
          rw [hmin] at hN
          have hq : u32 (p.size / minChunk fast) = p.size / minChunk fast := by
            unfold u32; apply Nat.mod_eq_of_lt
            rcases minChunk_cases fast with e | e <;> rw [e] <;> omega
          unfold maxNum maxChunks at hN
          rw [hq] at hN
          rcases minChunk_cases fast with e | e <;> rw [e] at hN <;> omega
        have : 4294967295 * N ≥ p.size := by omega
        omega
    have hu : u32 (roundDown p.size (N * p.blk) / N) = roundDown p.size (N * p.blk) / N := Nat.mod_eq_of_lt hlt
    cases h
    simp only [hu]
    refine ⟨?_, hle, hN0, trivial, hlt, ?_⟩
    · rw [hquot, hdvd]
    · unfold roundDown
      have := Nat.lt_div_mul_add (a := p.size) (Nat.pos_of_ne_zero hm)
      omega

theorem roundUp_spec {n m : Nat} (hn : n < 4294967296) (hm : m < 4294967296) (h0 : m ≠ 0) :
    n ≤ roundUp n m ∧ roundUp n m < n + m ∧ m ∣ roundUp n m := by
  unfold roundUp u64
  rw [Nat.mod_eq_of_lt (by omega)]
  have h1 := Nat.lt_div_mul_add (a := n + m - 1) (Nat.pos_of_ne_zero h0)
  have h2 := Nat.div_mul_le_self (n + m - 1) m
  exact ⟨by omega, by omega, Nat.dvd_mul_left _ _⟩

/-- **C19.** For every virtual device of fixed size below 2^48 bytes with blocks of less than 2^16 bytes that is
accepted, and that gets a chunk at all, the size is consistent, and less than one row of blocks (number of chunks
given) or one chunk (chunk size given) is left unused. -/
theorem C19_static_partial {fast : Bool} {opt : Multi} {p q : VParam} (hf : p.Fits) (hs : p.static = true)
    (h : compose fast opt p = .ok q) (hsz : p.size < 281474976710656) (hb : p.blk < 65536) (hn : q.num ≠ 0) :
    Consistent fast p.size q ∧ p.size < q.size + max (q.num * q.blk) q.chunk := by
  obtain ⟨num, _, hcase, hsan⟩ := compose_ok h
  obtain ⟨s1, s2, s3, s4, s5, s6⟩ := sanity_ok hsan
  have hmax := maxNum_le fast p.size
  rcases hcase with ⟨_, hz, hcase⟩ | ⟨hd, _⟩
  · rcases hcase with ⟨_, hby⟩ | ⟨hn0, hc0, hby⟩
    · obtain ⟨b1, b2, b3, b4, b5, b6⟩ := byNum_ok hby hsz hz hb
      refine ⟨⟨b1, Nat.dvd_of_mod_eq_zero s4, s5, b5, by omega, b2, hn⟩, ?_⟩
      have : p.size < q.size + q.num * q.blk := b6
      have := Nat.le_max_left (q.num * q.blk) q.chunk
      omega
    · unfold byChunk at hby
      cases hc : adjustChunk fast { p with num := num } with
      | error x => rw [hc] at hby; cases hby
      | ok c =>
        rw [hc] at hby
        simp only at hby
        by_cases hcz : c = 0
        · rw [if_pos hcz] at hby; cases hby
        · rw [if_neg hcz] at hby
          have hcl : c < 4294967296 := by
            unfold adjustChunk at hc
            split at hc
            · cases hc
            · cases hc; exact Nat.mod_lt _ (by decide)
          cases hby
          simp only at *
          have hdiv : roundDown p.size c / c = p.size / c := by
            unfold roundDown; rw [Nat.mul_div_cancel _ (Nat.pos_of_ne_zero hcz)]
          have hsmall : p.size / c < 4294967296 := by
            have hcm : minChunk fast ≤ c := s5
            have : p.size / c ≤ p.size / minChunk fast :=
              Nat.div_le_div_left hcm (by rcases minChunk_cases fast with e | e <;> omega)
            rcases minChunk_cases fast with e | e <;> rw [e] at this <;> omega
          have hu : u32 (roundDown p.size c / c) = p.size / c := by
            rw [hdiv]; exact Nat.mod_eq_of_lt hsmall
          refine ⟨⟨?_, Nat.dvd_of_mod_eq_zero s4, s5, hcl, ?_, Nat.div_mul_le_self _ _, hn⟩, ?_⟩
          · show roundDown p.size c = u32 (roundDown p.size c / c) * c
            rw [hu]; rfl
          · exact Nat.le_trans s6 hmax
          · show p.size < roundDown p.size c + max _ c
            have := Nat.lt_div_mul_add (a := p.size) (Nat.pos_of_ne_zero hcz)
            unfold roundDown
            have := Nat.le_max_right (u32 (p.size / c * c / c) * p.blk) c
            omega
  · rw [hs] at hd; cases hd

example : (VParam.mk true 10737418240 5 4096 0).Fits ∧
    compose false (.striped 2) ⟨true, 10737418240, 5, 4096, 0⟩ = .ok ⟨true, 10737401856, 6, 4096, 1789566976⟩ :=
  ⟨by unfold VParam.Fits; decide, by rfl⟩

example : compose false .single ⟨true, 10737418240, 0, 4096, 100000001⟩ = .ok ⟨true, 10700410880, 107, 4096, 100003840⟩ := by
  rfl

/-- **C19.** A device that grows gets a chunk size that is a multiple of the block size and not too small. -/
theorem C19_dynamic {fast : Bool} {opt : Multi} {p q : VParam} (hd : p.static = false) (h : compose fast opt p = .ok q) :
    q.size = 0 ∧ q.blk ∣ q.chunk ∧ minChunk fast ≤ q.chunk ∧ q.num ≤ maxChunks := by
  obtain ⟨num, _, hcase, hsan⟩ := compose_ok h
  obtain ⟨s1, s2, s3, s4, s5, s6⟩ := sanity_ok hsan
  refine ⟨?_, Nat.dvd_of_mod_eq_zero s4, s5, Nat.le_trans s6 (maxNum_le fast p.size)⟩
  rcases hcase with ⟨hs, _⟩ | ⟨_, hdy⟩
  · rw [hd] at hs; cases hs
  · unfold dynamic at hdy
    split at hdy
    · cases hdy
    · split at hdy
      · cases hdy
      · cases hdy; rfl

example : compose true .single ⟨false, 0, 0, 4096, 40000000⟩ = .ok ⟨false, 0, 0, 4096, 40001536⟩ := by rfl

/-- **C19.** A device of a fixed size below 2^48 bytes, at least as large as the smallest chunk, whose number of chunks
is given, is accepted if the smallest chunk is a multiple of the block size. -/
theorem C19_accepts {fast : Bool} {opt : Multi} {p : VParam} {num : Nat} (hs : p.static = true)
    (ha : adjustNum opt p.num = .ok num) (hn : num ≠ 0) (h1 : minChunk fast ≤ p.size) (h2 : p.size < 281474976710656)
    (hb0 : p.blk ≠ 0) (hb : p.blk < 65536) (hd : p.blk ∣ minChunk fast) : ∃ q, compose fast opt p = .ok q := by
  have hsz : p.size ≠ 0 := by rcases minChunk_cases fast with e | e <;> omega
  have hmx : maxNum fast p.size ≠ 0 ∧ maxNum fast p.size * minChunk fast ≤ p.size := by
    have hq : u32 (p.size / minChunk fast) = p.size / minChunk fast := by
      unfold u32; apply Nat.mod_eq_of_lt
      rcases minChunk_cases fast with e | e <;> rw [e] <;> omega
    unfold maxNum maxChunks
    rw [hq]
    rcases minChunk_cases fast with e | e <;> rw [e] at h1 ⊢ <;> omega
  have hby : ∃ q, byNum fast { p with num := num } = .ok q := by
    unfold byNum
    simp only
    generalize hN : min (max num (u32 ((p.size - 1) / 4294967295 + 1))) (maxNum fast p.size) = N
    have hN0 : N ≠ 0 := by omega
    have hNle : N ≤ 65536 := by have := maxNum_le fast p.size; unfold maxChunks at this; omega
    have hprod : u32 (N * p.blk) = N * p.blk := by
      unfold u32
      apply Nat.mod_eq_of_lt
      calc N * p.blk ≤ 65536 * p.blk := Nat.mul_le_mul_right _ hNle
        _ < 4294967296 := by omega
    rw [hprod, if_neg (by rw [Nat.mul_eq_zero]; omega)]
    exact ⟨_, rfl⟩
  obtain ⟨q, hq⟩ := hby
  obtain ⟨b1, b2, b3, b4, b5, b6⟩ := byNum_ok hq h2 hsz hb
  have hqn : q.num ≤ maxNum fast p.size := by
    unfold byNum at hq
    simp only at hq
    split at hq
    · cases hq
    · cases hq; exact Nat.min_le_right _ _
  have hblk : q.blk = p.blk := b4
  have hchunk : p.blk ∣ q.chunk := by
    unfold byNum at hq
    simp only at hq
    generalize hN : min (max num (u32 ((p.size - 1) / 4294967295 + 1))) (maxNum fast p.size) = N at hq
    have hNle : N ≤ 65536 := by have := maxNum_le fast p.size; unfold maxChunks at this; omega
    have hprod : u32 (N * p.blk) = N * p.blk := by
      unfold u32
      apply Nat.mod_eq_of_lt
      calc N * p.blk ≤ 65536 * p.blk := Nat.mul_le_mul_right _ hNle
        _ < 4294967296 := by omega
    rw [hprod] at hq
    split at hq
    · cases hq
    · rename_i hm
      have hN0 : N ≠ 0 := by intro e; rw [e] at hm; simp at hm
      cases hq
      simp only at b1 b3 ⊢
      have e : roundDown p.size (N * p.blk) = N * (p.size / (N * p.blk) * p.blk) := by
        unfold roundDown
        rw [Nat.mul_left_comm, Nat.mul_comm N p.blk, Nat.mul_left_comm]
      have hc := Nat.eq_of_mul_eq_mul_left (Nat.pos_of_ne_zero hN0) (e.symm.trans b1)
      rw [← hc]
      exact Nat.dvd_mul_left _ _
  have hmin : minChunk fast ≤ q.chunk := by
    -- the size rounded down to rows of blocks still has room for that many smallest chunks
    obtain ⟨r, hr⟩ := hd
    obtain ⟨t, ht⟩ := hchunk
    by_cases hlt : q.chunk < minChunk fast
    · exfalso
      have htr : t < r := by
        rw [ht, hr] at hlt
        exact Nat.lt_of_mul_lt_mul_left hlt
      have h3 : q.num * q.chunk + q.num * q.blk ≤ q.num * minChunk fast := by
        rw [ht, hr, hblk, ← Nat.mul_add]
        apply Nat.mul_le_mul_left
        have : p.blk * t + p.blk = p.blk * (t + 1) := by rw [Nat.mul_add, Nat.mul_one]
        rw [this]
        exact Nat.mul_le_mul_left _ htr
      have h4 : q.num * minChunk fast ≤ p.size := Nat.le_trans (Nat.mul_le_mul_right _ hqn) hmx.2
      have h5 : p.size < q.size + q.num * q.blk := b6
      omega
    · omega
  refine ⟨q, ?_⟩
  unfold compose
  rw [ha]
  simp only [bind, Except.bind, hs, if_true, if_neg hsz, if_pos hn]
  have he : ({ static := true, size := p.size, num := num, blk := p.blk, chunk := p.chunk } : VParam) =
      { p with num := num } := by rw [← hs]
  rw [he, hq]
  simp only
  unfold sanity
  have hc0 : q.chunk ≠ 0 := by rcases minChunk_cases fast with e | e <;> omega
  rw [if_neg (by rw [hblk]; simp [hc0, hb0]), if_neg, if_neg, if_neg (by omega), if_neg (by omega)]
  · rw [hblk]; simpa using Nat.mod_eq_zero_of_dvd hchunk
  · rw [b1]; simp

example : ∃ num, adjustNum (.striped 3) 7 = .ok num ∧ num ≠ 0 ∧ minChunk true ≤ 40000000 ∧ (4096 : Nat) ∣ minChunk true :=
  ⟨9, by rfl, by decide, by decide, by decide⟩

/-- **C19.** Sizing a consistent device again from its own size and chunk size, as is done at every start with a new
physical device (`device_manager.cpp` 242-276), changes nothing. -/
theorem C19_again {fast : Bool} {opt : Multi} {q : VParam} {asked : Nat} (hq : Consistent fast asked q)
    (hs : q.static = true) (hb : q.blk ≠ 0) (hbl : q.blk < 4294967296) (hsz : q.size < 18446744073709551616)
    (hopt : adjustNum opt 0 = .ok 0) (hmax : q.num ≤ maxNum fast q.size) :
    compose fast opt { q with num := 0 } = .ok q := by
  obtain ⟨c1, c2, c3, c4, c5, c6, c7⟩ := hq
  have hc0 : q.chunk ≠ 0 := by rcases minChunk_cases fast with e | e <;> omega
  have hsz0 : q.size ≠ 0 := by rw [c1]; exact Nat.mul_ne_zero c7 hc0
  have hadj : adjustChunk fast { q with num := 0 } = .ok q.chunk := by
    unfold adjustChunk
    simp only
    rw [if_neg hb, Nat.max_eq_left c3]
    obtain ⟨r1, r2, r3⟩ := roundUp_spec c4 hbl hb
    have : roundUp q.chunk q.blk = q.chunk := by
      obtain ⟨a, ha⟩ := r3
      obtain ⟨b, hb'⟩ := c2
      rw [ha] at r1 r2 ⊢
      have h1 : b ≤ a := by
        rw [hb'] at r1
        exact Nat.le_of_mul_le_mul_left r1 (Nat.pos_of_ne_zero hb)
      have h2 : a < b + 1 := by
        have : q.blk * a < q.blk * (b + 1) := by rw [Nat.mul_add, Nat.mul_one, ← hb']; exact r2
        exact Nat.lt_of_mul_lt_mul_left this
      have : a = b := by omega
      rw [this, ← hb']
    rw [this]
    unfold u32
    rw [Nat.mod_eq_of_lt c4]
  have hby : byChunk fast { q with num := 0 } = .ok q := by
    unfold byChunk
    rw [hadj]
    simp only
    rw [if_neg hc0]
    have hrd : roundDown q.size q.chunk = q.size := by
      unfold roundDown
      rw [c1, Nat.mul_div_cancel _ (Nat.pos_of_ne_zero hc0)]
    have hnum : u32 (q.size / q.chunk) = q.num := by
      rw [c1, Nat.mul_div_cancel _ (Nat.pos_of_ne_zero hc0)]
      unfold maxChunks at c5
      exact Nat.mod_eq_of_lt (by omega)
    rw [hrd, hnum]
  unfold compose
  simp only [hopt, bind, Except.bind, hs, if_true, if_neg hsz0]
  simp only [ne_eq, not_true_eq_false, if_false, hc0, not_false_eq_true, if_true]
  have : ({ static := true, size := q.size, num := 0, blk := q.blk, chunk := q.chunk } : VParam) = { q with num := 0 } := by
    rw [← hs]
  rw [this, hby]
  simp only
  unfold sanity
  rw [if_neg (by simp [hc0, hb]), if_neg, if_neg, if_neg (by omega), if_neg (by omega)]
  · simpa using Nat.mod_eq_zero_of_dvd c2
  · rw [c1]; simp

example : compose false (.striped 2) ⟨true, 10737401856, 0, 4096, 1789566976⟩ = .ok ⟨true, 10737401856, 6, 4096, 1789566976⟩ := by
  rfl

/-- **C19 fails** above 2^48 bytes: the number of chunks is capped at 65536 and the chunk size is then cut to 32 bits
(`device_manager.cpp` 451).  A device of 65536 · (2^32 + 2^24) bytes is accepted with 65536 chunks of 2^24 bytes, which
are together 257 times smaller than its size. -/
theorem C19_large_violated : ∃ p q, p.Fits ∧ p.static = true ∧ compose false .single p = .ok q ∧
    q.size ≠ q.num * q.chunk ∧ q.num * q.chunk * 257 = q.size :=
  ⟨⟨true, 65536 * (4294967296 + 16777216), 1, 4096, 0⟩, ⟨true, 65536 * (4294967296 + 16777216), 65536, 4096, 16777216⟩,
    by unfold VParam.Fits; decide, rfl, by rfl, by decide, by decide⟩

/-- **C19 fails** for a device smaller than one chunk when the chunk size is given: it is accepted with no chunk and size
0, whatever was asked for. -/
theorem C19_empty_violated {fast : Bool} {p : VParam} (hs : p.static = true) (h0 : p.num = 0) (hz : p.size ≠ 0)
    (hlt : p.size < p.chunk) (hc : minChunk fast ≤ p.chunk) (hc2 : p.chunk < 4294967296) (hb : p.blk ≠ 0)
    (hd : p.blk ∣ p.chunk) :
    ∃ q, compose fast .single p = .ok q ∧ q.size = 0 ∧ q.num = 0 := by
  have hc0 : p.chunk ≠ 0 := by omega
  have hble : p.blk ≤ p.chunk := Nat.le_of_dvd (by omega) hd
  refine ⟨{ p with size := 0, num := 0 }, ?_, rfl, rfl⟩
  have hadj : adjustChunk fast { p with num := 0 } = .ok p.chunk := by
    unfold adjustChunk
    simp only
    rw [if_neg hb, Nat.max_eq_left hc]
    obtain ⟨r1, r2, r3⟩ := roundUp_spec hc2 (Nat.lt_of_le_of_lt hble hc2) hb
    have : roundUp p.chunk p.blk = p.chunk := by
      obtain ⟨a, ha⟩ := r3
      obtain ⟨b, hb'⟩ := hd
      rw [ha] at r1 r2 ⊢
      have h1 : b ≤ a := by
        rw [hb'] at r1
        exact Nat.le_of_mul_le_mul_left r1 (Nat.pos_of_ne_zero hb)
      have h2 : a < b + 1 := by
        have : p.blk * a < p.blk * (b + 1) := by rw [Nat.mul_add, Nat.mul_one, ← hb']; exact r2
        exact Nat.lt_of_mul_lt_mul_left this
      have : a = b := by omega
      rw [this, ← hb']
    rw [this]
    unfold u32
    rw [Nat.mod_eq_of_lt hc2]
  have hby : byChunk fast { p with num := 0 } = .ok { p with size := 0, num := 0 } := by
    unfold byChunk
    rw [hadj]
    simp only
    rw [if_neg hc0]
    have : roundDown p.size p.chunk = 0 := by unfold roundDown; rw [Nat.div_eq_of_lt hlt, Nat.zero_mul]
    rw [this, Nat.zero_div]
    rfl
  unfold compose
  simp only [adjustNum, bind, Except.bind, hs, if_true, if_neg hz, h0]
  simp only [ne_eq, not_true_eq_false, if_false, hc0, not_false_eq_true, if_true]
  have : ({ static := true, size := p.size, num := 0, blk := p.blk, chunk := p.chunk } : VParam) = { p with num := 0 } := by
    rw [← hs]
  rw [this, hby]
  simp only
  unfold sanity
  rw [if_neg (by simp [hc0, hb]), if_neg (by simp), if_neg, if_neg (by simp; omega), if_neg (by simp)]
  · simp [hs]
  · simpa using Nat.mod_eq_zero_of_dvd hd

example : compose false .single ⟨true, 16777216, 0, 4096, 33554432⟩ = .ok ⟨true, 0, 0, 4096, 33554432⟩ := by rfl

end HS.DevMgr
