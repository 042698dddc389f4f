import Verif.Member.Lemmas

/-! # Membership: the recorded task -/

namespace HS.Member

/-! ## Applying entries again -/

/-- The task recorded after a log. -/
def recorded (l : List Entry) : TaskSb := l.foldl commitSb .empty

def Entry.isStart : Entry → Bool
  | .start _ _ _ => true
  | _ => false

theorem empty_id : TaskSb.empty.id = [] := by decide

theorem commit_empty {e : Entry} (h : e.isStart = false) : commitSb .empty e = .empty := by
  cases e <;> simp_all [commitSb, Entry.isStart, empty_id]

/-- An entry that is not a start leaves the task alone, or clears it. -/
theorem commit_cases {e : Entry} (h : e.isStart = false) (x : TaskSb) : commitSb x e = x ∨ commitSb x e = .empty := by
  cases e
  case start => simp [Entry.isStart] at h
  case complete => simp only [commitSb]; split <;> simp
  case clean => simp only [commitSb]; split <;> (try split) <;> simp
  all_goals exact Or.inl rfl

theorem commit_start {e : Entry} (h : e.isStart = true) (x y : TaskSb) : commitSb x e = commitSb y e := by
  cases e <;> simp_all [commitSb, Entry.isStart]

theorem fold_empty : ∀ {l : List Entry}, (∀ e ∈ l, e.isStart = false) → l.foldl commitSb .empty = .empty
  | [], _ => rfl
  | e :: l, h => by
    rw [List.foldl_cons, commit_empty (h e (List.mem_cons_self ..))]
    exact fold_empty fun e he => h e (List.mem_cons_of_mem _ he)

/-- After a start it does not matter what was recorded before. -/
theorem fold_start {l : List Entry} (h : ∃ e ∈ l, e.isStart = true) (x y : TaskSb) : l.foldl commitSb x = l.foldl commitSb y := by
  induction l generalizing x y with
  | nil => obtain ⟨e, he, _⟩ := h; cases he
  | cons d l ih =>
    simp only [List.foldl_cons]
    cases hd : d.isStart with
    | true => rw [commit_start hd x y]
    | false =>
      refine ih ?_ _ _
      obtain ⟨e, he, h⟩ := h
      rcases List.mem_cons.1 he with rfl | he
      · rw [hd] at h; cases h
      · exact ⟨e, he, h⟩

theorem fold_cleared {l : List Entry} (h : ∀ e ∈ l, e.isStart = false) {e : Entry} (he : e ∈ l) {x : TaskSb} (hx : commitSb x e = .empty) :
    l.foldl commitSb x = .empty := by
  induction l generalizing x with
  | nil => cases he
  | cons d l ih =>
    have hl : ∀ e ∈ l, e.isStart = false := fun e he => h e (List.mem_cons_of_mem _ he)
    simp only [List.foldl_cons]
    rcases List.mem_cons.1 he with rfl | he
    · rw [hx]; exact fold_empty hl
    · rcases commit_cases (h d (List.mem_cons_self ..)) x with hd | hd <;> rw [hd]
      · exact ih hl he hx
      · exact fold_empty hl

/-- Applying an entry before entries among which it is changes nothing in the end. -/
theorem fold_again {l : List Entry} {e : Entry} (he : e ∈ l) (x : TaskSb) : l.foldl commitSb (commitSb x e) = l.foldl commitSb x := by
  by_cases h : ∃ e ∈ l, e.isStart = true
  · exact fold_start h _ _
  · have h : ∀ e ∈ l, e.isStart = false := fun d hd => by
      cases hs : d.isStart with
      | false => rfl
      | true => exact absurd ⟨d, hd, hs⟩ h
    rcases commit_cases (h e he) x with hd | hd
    · rw [hd]
    · rw [hd, fold_empty h, fold_cleared h he hd]

/-- Node `n`, which never got a snapshot: from wherever it applies the log again, it will have recorded the same. -/
def TInv (n : RId) (s : St) : Prop :=
  Idx s ∧ (s.nodes n).snap = 0 ∧ ∀ k ≤ (s.nodes n).applied,
    ((s.log.take (s.nodes n).high).drop k).foldl commitSb (s.nodes n).sb = recorded (s.log.take (s.nodes n).high)

theorem tinv_of {n : RId} {s s' : St} (h : TInv n s) (hi : Idx s') (ha : (s'.nodes n).applied = (s.nodes n).applied)
    (hh : (s'.nodes n).high = (s.nodes n).high) (hb : (s'.nodes n).sb = (s.nodes n).sb) (hp : (s'.nodes n).snap = (s.nodes n).snap)
    (hl : s'.log.take (s.nodes n).high = s.log.take (s.nodes n).high) : TInv n s' := by
  refine ⟨hi, by rw [hp]; exact h.2.1, fun k hk => ?_⟩
  rw [hh, hb, hl]
  exact h.2.2 k (ha ▸ hk)

theorem take_append_of_le {l x : List Entry} {k : Nat} (h : k ≤ l.length) : (l ++ x).take k = l.take k := by
  rw [List.take_append_of_le_length h]

theorem tinv_step {n : RId} {s s' : St} {a : Act} (hq : ∀ k, a ≠ .snapshot n k) (h : TInv n s) (hs : step s a = some s') : TInv n s' := by
  have hi := idx_step h.1 hs
  have hle : (s.nodes n).high ≤ s.log.length := Nat.le_trans (h.1.high n) h.1.comm
  cases a with
  | call c m k =>
    simp only [step] at hs
    split at hs
    · cases hs; exact tinv_of h hi rfl rfl rfl rfl rfl
    · cases hs
  | reap c m b f g =>
    simp only [step] at hs
    split at hs
    · cases hs; exact tinv_of h hi rfl rfl rfl rfl rfl
    · cases hs
  | step c a =>
    obtain ⟨r, pc, e, s1, _, _, he, rfl⟩ := step_call hs
    obtain ⟨h1, h2, h5, h6, h3, _, x, h4⟩ := effect_idx he
    exact tinv_of h hi (h1 n) (h2 n) (h5 n) (h6 n) (by simp only [h4]; exact take_append_of_le hle)
  | append i =>
    simp only [step] at hs
    split at hs
    · cases hs
    · split at hs
      · cases hs; exact tinv_of h hi rfl rfl rfl rfl (take_append_of_le hle)
      · cases hs
  | commit =>
    simp only [step] at hs
    split at hs
    · cases hs; exact tinv_of h hi rfl rfl rfl rfl rfl
    · cases hs
  | apply m =>
    simp only [step] at hs
    split at hs
    · next hc =>
      split at hs
      · cases hs
      · next e he =>
        by_cases hmn : n = m
        · subst hmn
          cases hs
          refine ⟨hi, ?_, ?_⟩
          · simp only [upd_same]; exact h.2.1
          · simp only [upd_same, h.2.1, Nat.not_lt_zero, if_false]
            intro k hk
            obtain ⟨hlt, heq⟩ := List.getElem?_eq_some_iff.1 he
            have happ := h.1.app n
            by_cases hah : (s.nodes n).applied < (s.nodes n).high
            · rw [Nat.max_eq_left (by omega)]
              by_cases hk' : k = (s.nodes n).applied + 1
              · have h0 := h.2.2 (s.nodes n).applied (Nat.le_refl _)
                rw [List.drop_eq_getElem_cons (by simp only [List.length_take]; omega)] at h0
                simp only [List.getElem_take, List.foldl_cons, heq] at h0
                rw [hk']; exact h0
              · rw [fold_again]
                · exact h.2.2 k (by omega)
                · rw [List.mem_iff_getElem]
                  refine ⟨(s.nodes n).applied - k, by simp only [List.length_drop, List.length_take]; omega, ?_⟩
                  simp only [List.getElem_drop, List.getElem_take, ← heq]
                  congr 1; omega
            · have hah : (s.nodes n).high = (s.nodes n).applied := by omega
              rw [hah, Nat.max_eq_right (by omega)]
              have hx : (s.nodes n).sb = recorded (s.log.take (s.nodes n).applied) := by
                have h0 := h.2.2 (s.nodes n).applied (Nat.le_refl _)
                rw [hah, List.drop_eq_nil_of_le (by simp only [List.length_take]; omega)] at h0
                exact h0
              have ht : s.log.take ((s.nodes n).applied + 1) = s.log.take (s.nodes n).applied ++ [e] := by
                rw [List.take_succ, he]; rfl
              rw [ht]
              by_cases hk' : k = (s.nodes n).applied + 1
              · rw [List.drop_eq_nil_of_le (by simp only [List.length_append, List.length_take, List.length_cons, List.length_nil]; omega)]
                simp only [List.foldl_nil, recorded, List.foldl_append, List.foldl_cons]
                rw [hx]; rfl
              · rw [List.drop_append_of_le_length (by simp only [List.length_take]; omega)]
                rw [fold_again (by simp)]
                simp only [List.foldl_append, List.foldl_cons, List.foldl_nil, recorded]
                have h0 := h.2.2 k (by omega)
                rw [hah] at h0
                rw [h0]; rfl
        · cases hs
          exact tinv_of h hi (by simp [upd, hmn]) (by simp [upd, hmn]) (by simp [upd, hmn]) (by simp [upd, hmn]) rfl
    · cases hs
  | elect l k =>
    simp only [step] at hs
    split at hs
    · next hc =>
      cases hs
      refine tinv_of h hi rfl rfl rfl rfl ?_
      rw [List.take_take, Nat.min_eq_left (Nat.le_trans (h.1.high n) hc.1)]
    · cases hs
  | resign =>
    simp only [step] at hs
    cases hs; exact tinv_of h hi rfl rfl rfl rfl rfl
  | restart m k =>
    simp only [step] at hs
    split at hs
    · next hc =>
      cases hs
      by_cases hmn : n = m
      · subst hmn
        refine ⟨hi, ?_, ?_⟩
        · simp only [upd_same]; exact h.2.1
        · simp only [upd_same]
          intro j hj
          exact h.2.2 j (by omega)
      · exact tinv_of h hi (by simp [upd, hmn]) (by simp [upd, hmn]) (by simp [upd, hmn]) (by simp [upd, hmn]) rfl
    · cases hs
  | snapshot m k =>
    by_cases hmn : n = m
    · subst hmn; exact absurd rfl (hq k)
    · simp only [step] at hs
      split at hs
      · cases hs
        exact tinv_of h hi (by simp [upd, hmn]) (by simp [upd, hmn]) (by simp [upd, hmn]) (by simp [upd, hmn]) rfl
      · cases hs

theorem tinv_run {ms : List Srv} {l : List Act} {s : St} {n : RId} (hq : ∀ a ∈ l, ∀ k, a ≠ .snapshot n k)
    (hr : run (St.start ms) l = some s) : TInv n s := by
  refine inv_run' (Q := fun a => ∀ k, a ≠ .snapshot n k) (fun _ _ _ hq h hs => tinv_step hq h hs) l _ _ hq ?_ hr
  refine ⟨idx_start ms, rfl, fun k _ => ?_⟩
  simp [St.start, recorded]

/-- A node that has applied again all it had applied, has recorded what the log says. -/
theorem TInv.recorded {n : RId} {s : St} (h : TInv n s) (hc : (s.nodes n).applied = (s.nodes n).high) :
    (s.nodes n).sb = recorded (s.log.take (s.nodes n).applied) := by
  have h0 := h.2.2 _ (Nat.le_refl _)
  rw [← hc, List.drop_eq_nil_of_le (by simp only [List.length_take]; omega)] at h0
  exact h0

/-! ## Ids of tasks -/

theorem takeWhile_idem {p : UInt8 → Bool} : ∀ l : Bytes, (l.takeWhile p).takeWhile p = l.takeWhile p
  | [] => rfl
  | a :: l => by
    simp only [List.takeWhile_cons]
    split
    · next h => simp only [List.takeWhile_cons, h, if_true, takeWhile_idem l]
    · rfl

theorem cstr_append_zero {s t : Bytes} (h : (0 : UInt8) ∉ s) : cstr (s ++ 0 :: t) = s := by
  induction s with
  | nil => simp [cstr]
  | cons a s ih =>
    simp only [List.mem_cons, not_or] at h
    have ha : (a != 0) = true := by simp only [bne_iff_ne, ne_eq]; exact fun hc => h.1 hc.symm
    simp only [cstr, List.cons_append, List.takeWhile_cons, ha, if_true]
    exact congrArg _ (ih h.2)

theorem cstr_self {s : Bytes} (h : (0 : UInt8) ∉ s) : cstr s = s := by
  induction s with
  | nil => rfl
  | cons a s ih =>
    simp only [List.mem_cons, not_or] at h
    have ha : (a != 0) = true := by simp only [bne_iff_ne, ne_eq]; exact fun hc => h.1 hc.symm
    simp only [cstr, List.takeWhile_cons, ha, if_true]
    exact congrArg _ (ih h.2)

theorem zero_cstr (f : Bytes) : (0 : UInt8) ∉ cstr f := by
  induction f with
  | nil => simp [cstr]
  | cons a f ih =>
    simp only [cstr, List.takeWhile_cons]
    split
    · next h =>
      simp only [List.mem_cons, not_or]
      exact ⟨fun hc => by simp [← hc] at h, ih⟩
    · simp

theorem zero_take {s : Bytes} (h : (0 : UInt8) ∉ s) (n : Nat) : (0 : UInt8) ∉ s.take n := fun hc => h (List.mem_of_mem_take hc)

theorem cstr_strncpy (h : Bytes) (n : Nat) : cstr (strncpy h n) = (cstr h).take n := by
  simp only [strncpy]
  have hz := zero_take (zero_cstr h) n
  cases hr : n - ((cstr h).take n).length with
  | zero => simp only [List.replicate_zero, List.append_nil]; exact cstr_self hz
  | succ k => rw [List.replicate_succ]; exact cstr_append_zero hz

theorem length_cstr_le (f : Bytes) : (cstr f).length ≤ f.length := by
  induction f with
  | nil => simp [cstr]
  | cons a f ih =>
    simp only [cstr, List.takeWhile_cons]
    split
    · simp only [List.length_cons]; exact Nat.succ_le_succ ih
    · simp

/-- The task id that gets into the log: the first 63 characters. -/
theorem cstr_ctxTid (id pad : Bytes) : cstr (ctxTid id pad) = (cstr id).take 63 := by
  have hlen : ((cstr id).take (min id.length 63)) = (cstr id).take 63 := by
    have := length_cstr_le id
    by_cases h : id.length ≤ 63
    · rw [Nat.min_eq_left h, List.take_of_length_le this, List.take_of_length_le (by omega)]
    · rw [Nat.min_eq_right (by omega)]
  have hz : (0 : UInt8) ∉ (cstr id).take 63 := zero_take (zero_cstr id) _
  simp only [ctxTid, strncpy, maxTid]
  rw [show (64 - 1 : Nat) = 63 from rfl, hlen]
  generalize hs : (cstr id).take 63 = s at hz
  have hsl : s.length ≤ 63 := by rw [← hs]; simp only [List.length_take]; omega
  have key : ∀ k (t : Bytes), cstr ((s ++ List.replicate k 0 ++ [0] ++ t).take 64) = s := by
    intro k t
    have : ∃ u, s ++ List.replicate k 0 ++ [0] ++ t = s ++ 0 :: u := by
      cases k with
      | zero => exact ⟨t, by simp⟩
      | succ k => exact ⟨List.replicate k 0 ++ [0] ++ t, by simp [List.replicate_succ]⟩
    obtain ⟨u, hu⟩ := this
    rw [hu, List.take_append, List.take_of_length_le (by omega)]
    cases hx : 64 - s.length with
    | zero => omega
    | succ m => rw [List.take_succ_cons]; exact cstr_append_zero hz
  exact key _ _

theorem cstr_ctxTid_fits {id pad : Bytes} (h : Fits id) : cstr (ctxTid id pad) = id := by
  rw [cstr_ctxTid, cstr_self h.2.2, List.take_of_length_le h.2.1]

/-! ## The recorded task and the log -/

/-- Entries of replacements with ids that fit. -/
def Entry.Fits : Entry → Prop
  | .start h o i => HS.Member.Fits (cstr h) ∧ o ≠ 0 ∧ i ≠ 0
  | _ => True

/-- What is recorded for a task. -/
def Stands (sb : TaskSb) (t : Option Task) : Prop :=
  (t = none ∧ sb = .empty) ∨ ∃ k, t = some k ∧ sb.id = k.tid ∧ sb.rout = k.out ∧ sb.rin = k.inn ∧ Fits k.tid ∧ k.out ≠ 0 ∧ k.inn ≠ 0

theorem Stands.ongoing {sb : TaskSb} {t : Option Task} (h : Stands sb t) : ongoing sb = t := by
  rcases h with ⟨rfl, rfl⟩ | ⟨k, rfl, h1, h2, h3, h4, h5, h6⟩
  · decide
  · simp only [HS.Member.ongoing, h1, h2, h3, h5, h6, or_self, if_false]

theorem Stands.id {sb : TaskSb} {t : Option Task} (h : Stands sb t) : sb.id = (t.map (·.tid)).getD [] := by
  rcases h with ⟨rfl, rfl⟩ | ⟨k, rfl, h1, _⟩
  · decide
  · exact h1

theorem stands_step {sb : TaskSb} {t : Option Task} {e : Entry} (h : Stands sb t) (he : e.Fits) : Stands (commitSb sb e) (taskStep t e) := by
  cases e with
  | start hd o i =>
    refine Or.inr ⟨⟨cstr hd, o, i⟩, rfl, ?_, rfl, rfl, he.1, he.2.1, he.2.2⟩
    simp only [commitSb, TaskSb.id, cstr_strncpy]
    exact List.take_of_length_le (Nat.le_trans he.1.2.1 (by decide))
  | complete hd o i =>
    rcases h with ⟨rfl, rfl⟩ | ⟨k, rfl, h1, h2, h3, h4, h5, h6⟩
    · exact Or.inl ⟨rfl, by simp [commitSb, empty_id]⟩
    · refine Or.inl ⟨rfl, ?_⟩
      simp only [commitSb, h1, h4.1, if_false]
  | clean hd =>
    rcases h with ⟨rfl, rfl⟩ | ⟨k, rfl, h1, h2, h3, h4, h5, h6⟩
    · exact Or.inl ⟨by simp [taskStep], by simp [commitSb, empty_id]⟩
    · simp only [commitSb, taskStep, h1, h4.1, if_false, Option.map_some, Option.some.injEq]
      by_cases hk : k.tid = cstr hd
      · simp only [hk, ne_eq, not_true, if_false, if_true]; exact Or.inl ⟨rfl, rfl⟩
      · simp only [hk, ne_eq, not_false_eq_true, if_true, if_false]
        exact Or.inr ⟨k, rfl, h1, h2, h3, h4, h5, h6⟩
  | _ => exact h

theorem stands_fold : ∀ (l : List Entry) (sb : TaskSb) (t : Option Task), Stands sb t → (∀ e ∈ l, e.Fits) →
    Stands (l.foldl commitSb sb) (l.foldl taskStep t)
  | [], _, _, h, _ => h
  | e :: l, sb, t, h, hl =>
    stands_fold l _ _ (stands_step h (hl e (List.mem_cons_self ..))) fun d hd => hl d (List.mem_cons_of_mem _ hd)

theorem stands_recorded {l : List Entry} (hl : ∀ e ∈ l, e.Fits) : Stands (recorded l) (openTask l) :=
  stands_fold l _ _ (Or.inl ⟨rfl, rfl⟩) hl

/-! ## What the calls put into the log -/

/-- What a call may propose. -/
theorem advance_append {me : RId} {ms : List Srv} {sb : TaskSb} {r : Run} {a : Ans} {pc : Pc} {e : Entry}
    (h : advance me ms sb r a = some (pc, .append e)) :
    (∃ m f, flipArgs r.call = some (m, f) ∧ e = .learn m f) ∨ proposal sb a.pad r.call = some e := by
  obtain ⟨n, c, p, pr, si⟩ := r
  cases p
  all_goals
    rcases c with ⟨t, o, i, q⟩ | ⟨t, o, i, q⟩ | ⟨m, q, _ | _⟩ | ⟨m, f, q, _ | _⟩ | ⟨t, q⟩ <;>
      simp only [advance, flipArgs, remArg, proposal, afterFlip, afterRem, afterPropose, flipChecks, remChecks, reduceCtorEq, if_true, if_false,
        Bool.false_eq_true] at h <;>
      repeat' split at h
  all_goals first
    | (cases h; done)
    | (simp only [Option.some.injEq, Prod.mk.injEq, reduceCtorEq, and_false] at h; done)
    | (simp only [ifEff, Option.some.injEq, Prod.mk.injEq] at h
       have h := h.2
       split at h <;> cases h <;> first
         | exact Or.inr rfl
         | exact Or.inl ⟨_, _, rfl, rfl⟩)

/-- What a call may submit. -/
theorem advance_submit {me : RId} {ms : List Srv} {sb : TaskSb} {r : Run} {a : Ans} {pc : Pc} {e : Entry}
    (h : advance me ms sb r a = some (pc, .submit e)) :
    (∃ t o i q, r.call = .replace t o i q ∧ r.pc = .addCmd ∧ e = .add ⟨i, false, r.prio⟩) ∨
    (∃ m, remArg r.call = some m ∧ r.pc = .remCmd ∧ e = .rem m) := by
  obtain ⟨n, c, p, pr, si⟩ := r
  cases p
  all_goals
    rcases c with ⟨t, o, i, q⟩ | ⟨t, o, i, q⟩ | ⟨m, q, _ | _⟩ | ⟨m, f, q, _ | _⟩ | ⟨t, q⟩ <;>
      simp only [advance, flipArgs, remArg, proposal, afterFlip, afterRem, afterPropose, flipChecks, remChecks, reduceCtorEq, if_true, if_false,
        Bool.false_eq_true] at h <;>
      repeat' split at h
  all_goals first
    | (cases h; done)
    | (simp only [Option.some.injEq, Prod.mk.injEq, reduceCtorEq, and_false] at h; done)
    | (simp only [ifEff, Option.some.injEq, Prod.mk.injEq] at h
       have h := h.2
       split at h <;> cases h <;> first
         | exact Or.inl ⟨_, _, _, _, rfl, rfl, rfl⟩
         | exact Or.inr ⟨_, rfl, rfl, rfl⟩)

/-- A property of all the calls, all the entries in the log, and all the pending ones. -/
structure CallsInv (C : Call → Prop) (E : Entry → Prop) (s : St) : Prop where
  runs : ∀ c r, s.runs c = some r → C r.call
  log : ∀ e ∈ s.log, E e
  pend : ∀ e ∈ s.pend, E e

/-- The entries that come from a call. -/
structure Yields (C : Call → Prop) (E : Entry → Prop) : Prop where
  learn : ∀ c m f, C c → flipArgs c = some (m, f) → E (.learn m f)
  prop : ∀ c sb pad e, C c → proposal sb pad c = some e → E e
  add : ∀ t o i q p, C (.replace t o i q) → E (.add ⟨i, false, p⟩)
  rem : ∀ c m, C c → remArg c = some m → E (.rem m)

theorem calls_step {C : Call → Prop} {E : Entry → Prop} (hy : Yields C E) {s s' : St} {a : Act}
    (hc : ∀ c n k, a = .call c n k → C k)
    (hp : ∀ c n b f g, a = .reap c n b f g → C (.complete (s.nodes n).sb.id (s.nodes n).sb.rout (s.nodes n).sb.rin 0))
    (h : CallsInv C E s) (hs : step s a = some s') : CallsInv C E s' := by
  cases a with
  | call c n k =>
    simp only [step] at hs
    split at hs
    · cases hs
      refine ⟨fun d r hd => ?_, h.log, h.pend⟩
      simp only [upd] at hd
      split at hd
      · cases hd; exact hc c n k rfl
      · exact h.runs d r hd
    · cases hs
  | reap c n b f g =>
    simp only [step] at hs
    split at hs
    · cases hs
      refine ⟨fun d r hd => ?_, h.log, h.pend⟩
      simp only [upd] at hd
      split at hd
      · cases hd; exact hp c n b f g rfl
      · exact h.runs d r hd
    · cases hs
  | step c a =>
    obtain ⟨r, pc, e, s1, hr, ha, he, rfl⟩ := step_call hs
    have hC := h.runs c r hr
    refine ⟨fun d r' hd => ?_, ?_, ?_⟩
    · simp only [upd, effect_runs he] at hd
      split at hd
      · cases hd; rw [after_call]; exact hC
      · exact h.runs d r' hd
    · rcases effect_cases he with ⟨rfl, _⟩ | ⟨_, _, rfl⟩ | ⟨x, rfl, _, _, rfl⟩ | ⟨_, _, _, rfl⟩
      · exact h.log
      · exact h.log
      · intro y hy'
        simp only [List.mem_append, List.mem_singleton] at hy'
        rcases hy' with hy' | rfl
        · exact h.log y hy'
        · rcases advance_append ha with ⟨m, f, h1, rfl⟩ | h1
          · exact hy.learn _ m f hC h1
          · exact hy.prop _ _ _ _ hC h1
      · exact h.log
    · rcases effect_cases he with ⟨rfl, _⟩ | ⟨_, _, rfl⟩ | ⟨_, _, _, _, rfl⟩ | ⟨x, rfl, _, rfl⟩
      · exact h.pend
      · exact h.pend
      · exact h.pend
      · intro y hy'
        simp only [List.mem_append, List.mem_singleton] at hy'
        rcases hy' with hy' | rfl
        · exact h.pend y hy'
        · rcases advance_submit ha with ⟨t, o, i, q, h1, _, rfl⟩ | ⟨m, h1, _, rfl⟩
          · exact hy.add t o i q _ (h1 ▸ hC)
          · exact hy.rem _ m hC h1
  | append i =>
    simp only [step] at hs
    split at hs
    · cases hs
    · next e he =>
      split at hs
      · cases hs
        refine ⟨h.runs, fun y hy' => ?_, fun y hy' => h.pend y (List.mem_of_mem_eraseIdx hy')⟩
        simp only [List.mem_append, List.mem_singleton] at hy'
        rcases hy' with hy' | rfl
        · exact h.log y hy'
        · exact h.pend y (List.mem_of_getElem? he)
      · cases hs
  | commit =>
    simp only [step] at hs
    split at hs
    · cases hs; exact ⟨h.runs, h.log, h.pend⟩
    · cases hs
  | apply n =>
    simp only [step] at hs
    split at hs
    · split at hs
      · cases hs
      · cases hs; exact ⟨h.runs, h.log, h.pend⟩
    · cases hs
  | elect l k =>
    simp only [step] at hs
    split at hs
    · cases hs
      exact ⟨h.runs, fun e he => h.log e (List.mem_of_mem_take he), fun e he => by cases he⟩
    · cases hs
  | resign =>
    simp only [step] at hs
    cases hs; exact ⟨h.runs, h.log, fun e he => by cases he⟩
  | restart n k =>
    simp only [step] at hs
    split at hs
    · cases hs
      refine ⟨fun d r hd => ?_, h.log, h.pend⟩
      simp only [Option.map_eq_some_iff] at hd
      obtain ⟨r', h1, h2⟩ := hd
      have : r.call = r'.call := by
        rw [← h2]; split
        · split <;> rfl
        · rfl
      rw [this]; exact h.runs d r' h1
    · cases hs
  | snapshot n k =>
    simp only [step] at hs
    split at hs
    · cases hs; exact ⟨h.runs, h.log, h.pend⟩
    · cases hs

theorem calls_start (C : Call → Prop) (E : Entry → Prop) (ms : List Srv) : CallsInv C E (St.start ms) :=
  ⟨fun _ _ h => (by cases h), fun _ h => (by cases h), fun _ h => (by cases h)⟩

/-- Replacements with ids that fit, of members that exist. -/
def Call.Fits : Call → Prop
  | .replace t o i _ => HS.Member.Fits t ∧ o ≠ 0 ∧ i ≠ 0
  | _ => True

theorem yields_fits : Yields Call.Fits Entry.Fits := by
  refine ⟨fun _ _ _ _ _ => trivial, fun c sb pad e hc he => ?_, fun _ _ _ _ _ _ => trivial, fun _ _ _ _ => trivial⟩
  cases c <;> simp only [proposal, Option.some.injEq, reduceCtorEq] at he <;> subst he
  · obtain ⟨h1, h2, h3⟩ := hc
    exact ⟨by rw [cstr_ctxTid_fits h1]; exact h1, h2, h3⟩
  all_goals trivial

/-- All the calls made are replacements that fit, or others. -/
def Act.Fits : Act → Prop
  | .call _ _ k => k.Fits
  | _ => True

theorem fits_run {ms : List Srv} {l : List Act} {s : St} (hq : ∀ a ∈ l, a.Fits) (hr : run (St.start ms) l = some s) :
    CallsInv Call.Fits Entry.Fits s := by
  refine inv_run' (Q := Act.Fits) (fun s a s' hq h hs => ?_) l _ _ hq (calls_start _ _ ms) hr
  refine calls_step yields_fits (fun c n k h => ?_) (fun _ _ _ _ _ _ => trivial) h hs
  subst h; exact hq

end HS.Member
