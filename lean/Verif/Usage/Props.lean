import Verif.Usage.Model
/-!
# C116: the reported use of space is the space that is used

The counter of an allocator is never below the number of blocks in use, and equal to it if recovery commits no block twice; the witnesses show the numbers that are wrong.
-/
namespace HS.Usage

theorem blks_nodup (b : Bid) : b.blks.Nodup := List.nodup_range' ..
theorem blks_len (b : Bid) : b.blks.length = b.cnt := by simp [Bid.blks]
theorem blks_mem (b : Bid) (x : Nat) : x ∈ b.blks ↔ b.blk ≤ x ∧ x < b.blk + b.cnt := by simp [Bid.blks, List.mem_range'_1]

theorem setBits_mem : ∀ (bs l : List Nat) (x : Nat), x ∈ setBits l bs ↔ x ∈ l ∨ x ∈ bs
  | [], l, x => by simp [setBits]
  | b :: bs, l, x => by
    have := setBits_mem bs (if b ∈ l then l else b :: l) x
    simp only [setBits, List.foldl_cons] at this ⊢
    rw [this]
    split <;> simp only [List.mem_cons] <;> grind

theorem setBits_nodup : ∀ (bs l : List Nat), l.Nodup → (setBits l bs).Nodup
  | [], l, h => h
  | b :: bs, l, h => by
    simp only [setBits, List.foldl_cons]
    apply setBits_nodup bs
    split
    · exact h
    · rename_i q; exact List.nodup_cons.2 ⟨q, h⟩

theorem setBits_len_le : ∀ (bs l : List Nat), (setBits l bs).length ≤ l.length + bs.length
  | [], l => by simp [setBits]
  | b :: bs, l => by
    have := setBits_len_le bs (if b ∈ l then l else b :: l)
    simp only [setBits, List.foldl_cons] at this ⊢
    refine Nat.le_trans this ?_
    split <;> simp only [List.length_cons] <;> omega

theorem setBits_len_new : ∀ (bs l : List Nat), bs.Nodup → (∀ x ∈ bs, x ∉ l) → (setBits l bs).length = l.length + bs.length
  | [], l, _, _ => by simp [setBits]
  | b :: bs, l, hn, h => by
    have hb : b ∉ l := h b (by simp)
    obtain ⟨h1, h2⟩ := List.nodup_cons.1 hn
    have := setBits_len_new bs (b :: l) h2 (fun x hx => by
      simp only [List.mem_cons, not_or]
      exact ⟨fun e => h1 (e ▸ hx), h x (by simp [hx])⟩)
    simp only [setBits, List.foldl_cons, if_neg hb] at this ⊢
    rw [this]; simp only [List.length_cons]; omega

theorem resetBits_spec : ∀ (bs l : List Nat), l.Nodup → bs.Nodup → (∀ x ∈ bs, x ∈ l) →
    (resetBits l bs).Nodup ∧ (resetBits l bs).length + bs.length = l.length ∧ ∀ x, x ∈ resetBits l bs ↔ x ∈ l ∧ x ∉ bs
  | [], l, hl, _, _ => by simp [resetBits, hl]
  | b :: bs, l, hl, hn, h => by
    obtain ⟨h1, h2⟩ := List.nodup_cons.1 hn
    have hb : b ∈ l := h b (by simp)
    obtain ⟨r1, r2, r3⟩ := resetBits_spec bs (l.erase b) (hl.erase b) h2 (fun x hx => (List.Nodup.mem_erase_iff hl).2 ⟨fun e => h1 (e ▸ hx), h x (by simp [hx])⟩)
    have hlen := List.length_erase_of_mem hb
    have hpos : 0 < l.length := List.length_pos_of_mem hb
    simp only [resetBits, List.foldl_cons] at r1 r2 r3 ⊢
    refine ⟨r1, by simp only [List.length_cons]; omega, fun x => ?_⟩
    rw [r3, List.Nodup.mem_erase_iff hl, List.mem_cons]
    grind

theorem resetBits_nodup (bs l : List Nat) (h : l.Nodup) : (resetBits l bs).Nodup ∧ ∀ x ∈ resetBits l bs, x ∈ l := by
  induction bs generalizing l with
  | nil => exact ⟨h, fun x hx => hx⟩
  | cons b bs ih =>
    simp only [resetBits, List.foldl_cons] at ih ⊢
    obtain ⟨i1, i2⟩ := ih (l.erase b) (h.erase b)
    exact ⟨i1, fun x hx => List.mem_of_mem_erase (i2 x hx)⟩

structure Inv (total : Nat) (a : Al) : Prop where
  tot : a.total = total
  nd : a.used.Nodup ∧ a.disk.Nodup ∧ a.pers.Nodup
  lt : (∀ x ∈ a.used, x < total) ∧ (∀ x ∈ a.disk, x < total) ∧ (∀ x ∈ a.pers, x < total)
  ge : (a.used.length : Int) ≤ a.cnt

theorem inv_step {total a o a'} (h : Inv total a) (hs : step a o = some a') : Inv total a' := by
  obtain ⟨ht, ⟨n1, n2, n3⟩, ⟨l1, l2, l3⟩, hc⟩ := h
  cases o with
  | alloc b =>
    simp only [step] at hs
    split at hs
    · rename_i q
      simp only [Option.some.injEq] at hs; subst hs
      refine ⟨ht, ⟨setBits_nodup _ _ n1, n2, n3⟩, ⟨?_, l2, l3⟩, ?_⟩
      · intro x hx
        rcases (setBits_mem _ _ _).1 hx with e | e
        · exact l1 x e
        · have := (blks_mem _ _).1 e; omega
      · have := setBits_len_le b.blks a.used
        rw [blks_len] at this
        simp only; omega
    · simp at hs
  | free b =>
    simp only [step] at hs
    split at hs
    · rename_i q
      simp only [Option.some.injEq] at hs; subst hs
      obtain ⟨r1, r2, r3⟩ := resetBits_spec b.blks a.used n1 (blks_nodup b) q
      obtain ⟨d1, d2⟩ := resetBits_nodup b.blks a.disk n2
      refine ⟨ht, ⟨r1, d1, n3⟩, ⟨fun x hx => l1 x ((r3 x).1 hx).1, fun x hx => l2 x (d2 x hx), l3⟩, ?_⟩
      rw [blks_len] at r2
      simp only; omega
    · simp at hs
  | commit b =>
    simp only [step] at hs
    split at hs
    · split at hs
      · rename_i q
        simp only [Option.some.injEq] at hs; subst hs
        refine ⟨ht, ⟨setBits_nodup _ _ n1, setBits_nodup _ _ n2, n3⟩, ⟨?_, ?_, l3⟩, ?_⟩
        · intro x hx
          rcases (setBits_mem _ _ _).1 hx with e | e
          · exact l1 x e
          · have := (blks_mem _ _).1 e; omega
        · intro x hx
          rcases (setBits_mem _ _ _).1 hx with e | e
          · exact l2 x e
          · have := (blks_mem _ _).1 e; omega
        · have := setBits_len_le b.blks a.used
          rw [blks_len] at this
          simp only; omega
      · simp at hs
    · split at hs
      · rename_i q
        simp only [Option.some.injEq] at hs; subst hs
        refine ⟨ht, ⟨n1, setBits_nodup _ _ n2, n3⟩, ⟨l1, ?_, l3⟩, hc⟩
        intro x hx
        rcases (setBits_mem _ _ _).1 hx with e | e
        · exact l2 x e
        · exact l1 x (q x e)
      · simp at hs
  | cp => simp only [step, Option.some.injEq] at hs; subst hs; exact ⟨ht, ⟨n1, n2, n2⟩, ⟨l1, l2, l2⟩, hc⟩
  | crash => simp only [step, Option.some.injEq] at hs; subst hs; exact ⟨ht, ⟨n3, n3, n3⟩, ⟨l3, l3, l3⟩, by simp⟩
  | ready => simp only [step, Option.some.injEq] at hs; subst hs; exact ⟨ht, ⟨n1, n2, n3⟩, ⟨l1, l2, l3⟩, hc⟩

theorem inv_reach {total ok a} (h : Reach total ok a) : Inv total a := by
  induction h with
  | init => refine ⟨rfl, ?_, ?_, ?_⟩ <;> simp [Al.init]
  | step _ _ hs ih => exact inv_step ih hs

theorem exact_step {total a o a'} (h : Inv total a) (he : a.cnt = a.used.length) (hf : Fresh a o) (hs : step a o = some a') : a'.cnt = a'.used.length := by
  cases o with
  | alloc b =>
    simp only [step] at hs
    split at hs
    · rename_i q
      simp only [Option.some.injEq] at hs; subst hs
      have := setBits_len_new b.blks a.used (blks_nodup b) q.2
      rw [blks_len] at this
      simp only; omega
    · simp at hs
  | free b =>
    simp only [step] at hs
    split at hs
    · rename_i q
      simp only [Option.some.injEq] at hs; subst hs
      obtain ⟨_, r2, _⟩ := resetBits_spec b.blks a.used h.nd.1 (blks_nodup b) q
      rw [blks_len] at r2
      simp only; omega
    · simp at hs
  | commit b =>
    simp only [step] at hs
    split at hs
    · rename_i hr
      split at hs
      · simp only [Option.some.injEq] at hs; subst hs
        have := setBits_len_new b.blks a.used (blks_nodup b) (hf hr)
        rw [blks_len] at this
        simp only; omega
      · simp at hs
    · split at hs
      · simp only [Option.some.injEq] at hs; subst hs; exact he
      · simp at hs
  | cp => simp only [step, Option.some.injEq] at hs; subst hs; exact he
  | crash => simp only [step, Option.some.injEq] at hs; subst hs; rfl
  | ready => simp only [step, Option.some.injEq] at hs; subst hs; exact he

theorem len_le {total : Nat} {l : List Nat} (hn : l.Nodup) (hl : ∀ x ∈ l, x < total) : l.length ≤ total := by
  induction total generalizing l with
  | zero =>
    cases l with
    | nil => simp
    | cons a l => exact absurd (hl a (by simp)) (Nat.not_lt_zero _)
  | succ n ih =>
    have h1 := ih (hn.erase n) (fun x hx => by
      obtain ⟨ne, hm⟩ := (List.Nodup.mem_erase_iff hn).1 hx
      have := hl x hm; omega)
    have := List.length_erase (a := n) (l := l)
    split at this <;> omega

/-- **C116**, never less (all histories): at least as many blocks are reported as are in use. -/
theorem C116_never_less {total a} (h : Reach total (fun _ _ => True) a) : (a.used.length : Int) ≤ a.cnt := (inv_reach h).ge

/-- **C116**, the data service (partial: recovery commits only blocks that are not in use already, see `C116_replay_violated`; chunks of less than 2^32 blocks and a device below 2^64 bytes): the counter
is the number of blocks in use, what is reported as used and as available adds up to the chunk, and the capacity reported is the blocks in use of all chunks times their size. -/
theorem C116_exact_partial {blkSize : Nat} {cs : List (Nat × Al)} (h : ∀ p ∈ cs, Reach p.1 Fresh p.2) (ht : ∀ p ∈ cs, p.1 < 2 ^ 32)
    (hs : (cs.map (·.1)).sum * blkSize < 2 ^ 64) :
    (∀ p ∈ cs, p.2.used.Nodup ∧ usedBlks p.2 = p.2.used.length ∧ usedBlks p.2 + availBlks p.2 = p.1) ∧
    usedSize blkSize (cs.map (·.2)) = (cs.map fun p => p.2.used.length).sum * blkSize := by
  have one : ∀ p ∈ cs, p.2.used.Nodup ∧ usedBlks p.2 = p.2.used.length ∧ usedBlks p.2 + availBlks p.2 = p.1 ∧ p.2.used.length ≤ p.1 := by
    intro p hp
    have hi := inv_reach (h p hp)
    have he : p.2.cnt = p.2.used.length := by
      have hr := h p hp
      generalize p.1 = t at hr
      clear hi
      generalize p.2 = a at hr
      induction hr with
      | init => rfl
      | step h0 hf hs ih => exact exact_step (inv_reach h0) ih hf hs
    have hle := len_le hi.nd.1 hi.lt.1
    have h32 := ht p hp
    have e1 : usedBlks p.2 = p.2.used.length := by
      unfold usedBlks
      rw [he, Int.emod_eq_of_lt (by omega) (by omega)]
      simp
    have e2 : availBlks p.2 = p.1 - p.2.used.length := by
      unfold availBlks
      rw [e1, hi.tot, Int.emod_eq_of_lt (by omega) (by omega)]
      omega
    exact ⟨hi.nd.1, e1, by rw [e1, e2]; omega, hle⟩
  refine ⟨fun p hp => ⟨(one p hp).1, (one p hp).2.1, (one p hp).2.2.1⟩, ?_⟩
  have hsum : ((cs.map (·.2)).map usedBlks).sum = (cs.map fun p => p.2.used.length).sum := by
    rw [List.map_map]
    congr 1
    apply List.map_congr_left
    intro p hp
    exact (one p hp).2.1
  have hle : ∀ l : List (Nat × Al), (∀ p ∈ l, p ∈ cs) → (l.map fun p => p.2.used.length).sum ≤ (l.map (·.1)).sum := by
    intro l
    induction l with
    | nil => intro _; simp
    | cons p l ih =>
      intro hl
      have h1 := (one p (hl p (by simp))).2.2.2
      have h2 := ih (fun q hq => hl q (by simp [hq]))
      simp only [List.map_cons, List.sum_cons]
      omega
  unfold usedSize
  rw [hsum, Nat.mod_eq_of_lt]
  exact Nat.lt_of_le_of_lt (Nat.mul_le_mul_right _ (hle cs (fun _ q => q))) hs

/-- **C116**, the log service (partial: below 4 GiB). -/
theorem C116_log_partial {x : Nat} (h : x < 2 ^ 32) : logSize x = x := Nat.mod_eq_of_lt h

/-! ## Witnesses -/

/-- An execution, with a test of each step. -/
def runB (okb : Al → Op → Bool) (a : Al) (ops : List Op) : Option Al :=
  match ops with
  | [] => some a
  | o :: os => if okb a o then match step a o with | some a' => runB okb a' os | none => none else none

theorem runB_reach {total} {ok : Al → Op → Prop} {okb : Al → Op → Bool} (h : ∀ a o, okb a o = true → ok a o) (ops : List Op) :
    ∀ {a a'}, Reach total ok a → runB okb a ops = some a' → Reach total ok a' := by
  induction ops with
  | nil => intro a a' hr e; simp [runB] at e; subst e; exact hr
  | cons o os ih =>
    intro a a' hr e
    simp only [runB] at e
    split at e
    · rename_i hk
      split at e
      · rename_i a1 hs; exact ih (hr.step (h _ _ hk) hs) e
      · simp at e
    · simp at e

def freshB (a : Al) : Op → Bool
  | .commit b => !a.recovering || b.blks.all fun x => !a.used.contains x
  | _ => true

theorem freshB_fresh (a : Al) (o : Op) (h : freshB a o = true) : Fresh a o := by
  cases o <;> simp_all [freshB, Fresh]
  intro hr
  rcases h with h | h
  · rw [hr] at h; simp at h
  · exact h

/-- Blocks are allocated and committed; after a crash those that the last checkpoint has not are committed again. -/
def freshOps : List Op := [.alloc ⟨0, 4⟩, .commit ⟨0, 4⟩, .cp, .alloc ⟨4, 2⟩, .commit ⟨4, 2⟩, .crash, .commit ⟨4, 2⟩, .ready, .alloc ⟨8, 3⟩, .free ⟨0, 4⟩]

example : ∃ a, Reach 16 Fresh a ∧ a.cnt = 5 ∧ a.used.length = 5 := by
  have e : (runB freshB (Al.init 16) freshOps).map (fun a => decide (a.cnt = 5 ∧ a.used.length = 5)) = some true := by decide +kernel
  obtain ⟨a, e1, e2⟩ := Option.map_eq_some_iff.1 e
  exact ⟨a, runB_reach freshB_fresh _ .init e1, of_decide_eq_true e2⟩

/-- **C116**, violated: a committed block that the bitmap of the last checkpoint has is committed again by the replay of a log, and counted twice: 4 of 6 blocks are in use, 8 are reported, and
2^32 - 2 as available. -/
theorem C116_replay_violated : ∃ a, Reach 6 (fun _ _ => True) a ∧ a.used.length = 4 ∧ usedBlks a = 8 ∧ availBlks a = 2 ^ 32 - 2 := by
  have e : (runB (fun _ _ => true) (Al.init 6) [.alloc ⟨0, 4⟩, .commit ⟨0, 4⟩, .cp, .crash, .commit ⟨0, 4⟩, .ready]).map
      (fun a => decide (a.used.length = 4 ∧ usedBlks a = 8 ∧ availBlks a = 2 ^ 32 - 2)) = some true := by decide +kernel
  obtain ⟨a, e1, e2⟩ := Option.map_eq_some_iff.1 e
  exact ⟨a, runB_reach (fun _ _ _ => trivial) _ .init e1, of_decide_eq_true e2⟩

/-- **C116**, violated: a log device of 4 GiB and 512 bytes has a reported size of 512 bytes. -/
theorem C116_log_violated : logSize (4 * 2 ^ 30 + 512) = 512 := by decide

/-- **C116**, violated: whatever the number of their nodes, indexes are reported to use nothing. -/
theorem C116_index_violated (ns : List Nat) : indexUsed (ns.map fun n => Nat.rec Idx.new (fun _ i => i.grow) n) = 0 := by
  have one : ∀ n : Nat, (Nat.rec Idx.new (fun _ i => i.grow) n : Idx).indexSize = 0 := by
    intro n; induction n with
    | zero => rfl
    | succ n ih => exact ih
  have : ∀ (l : List Idx), (∀ i ∈ l, i.indexSize = 0) → l.foldl (fun acc i => toInt32 (acc + i.indexSize)) 0 = 0 := by
    intro l
    induction l with
    | nil => intro _; rfl
    | cons i l ih =>
      intro h
      rw [List.foldl_cons, h i (by simp)]
      exact ih (fun j hj => h j (by simp [hj]))
  unfold indexUsed
  rw [this _ (by intro i hi; obtain ⟨n, _, e⟩ := List.mem_map.1 hi; rw [← e]; exact one n)]
  rfl

/-- **C116**, violated: if it were kept, the sum of 2 GiB and more would be reported as nearly 2^64. -/
theorem C116_index_sum_violated : indexUsed [⟨1, 2 ^ 30⟩, ⟨1, 2 ^ 30⟩] = 2 ^ 64 - 2 ^ 31 := by decide

end HS.Usage
