import Verif.Pool.Spec
/-! # Lemmas: where every chunk is; who may wait for whom -/
namespace HS.Pool

/-- The chunks that calls or their callers have. -/
def St.held (s : St) : List Nat := s.calls.filterMap Call.chunk

/-- 1 if the call has chunk `c`. -/
def has1 (x : Call) (c : Nat) : Nat := if x.chunk = some c then 1 else 0

theorem count_set (l : List Call) : ∀ (i : Nat) (a b : Call) (c : Nat), l[i]? = some a →
    ((l.set i b).filterMap Call.chunk).count c + has1 a c = (l.filterMap Call.chunk).count c + has1 b c := by
  induction l with
  | nil => intro i a b c h; simp at h
  | cons x l ih =>
    intro i a b c h
    have cc : ∀ (y : Call) (m : List Call), ((y :: m).filterMap Call.chunk).count c =
        (m.filterMap Call.chunk).count c + has1 y c := by
      intro y m
      unfold has1
      cases hy : y.chunk with
      | none => simp [List.filterMap_cons, hy]
      | some z =>
        simp only [List.filterMap_cons, hy, List.count_cons, Option.some.injEq, beq_iff_eq]
    cases i with
    | zero =>
      simp only [List.getElem?_cons_zero, Option.some.injEq] at h
      subst h
      rw [List.set_cons_zero, cc, cc]
      omega
    | succ i =>
      rw [List.set_cons_succ, cc, cc]
      have := ih i a b c (by simpa using h)
      omega

theorem countP_set (p : Call → Bool) (l : List Call) : ∀ (i : Nat) (a b : Call), l[i]? = some a →
    (l.set i b).countP p + (if p a then 1 else 0) = l.countP p + (if p b then 1 else 0) := by
  induction l with
  | nil => intro i a b h; simp at h
  | cons x l ih =>
    intro i a b h
    cases i with
    | zero =>
      simp only [List.getElem?_cons_zero, Option.some.injEq] at h
      subst h
      rw [List.set_cons_zero, List.countP_cons, List.countP_cons]
      omega
    | succ i =>
      rw [List.set_cons_succ, List.countP_cons, List.countP_cons]
      have := ih i a b (by simpa using h)
      omega

/-- `notify_one` touches no chunk. -/
theorem wake_frame {s s' : St} {w : Option Who} (h : s.wake w = some s') :
    s'.pool = s.pool ∧ s'.next = s.next ∧ s'.removed = s.removed ∧ s'.cap = s.cap ∧
    (∀ c, (s'.calls.filterMap Call.chunk).count c = (s.calls.filterMap Call.chunk).count c) := by
  cases w with
  | none =>
    simp only [St.wake] at h
    split at h
    · cases h
    · cases h; exact ⟨rfl, rfl, rfl, rfl, fun _ => rfl⟩
  | some w =>
    cases w with
    | prod =>
      simp only [St.wake] at h
      split at h
      · cases h; exact ⟨rfl, rfl, rfl, rfl, fun _ => rfl⟩
      · cases h
    | call i =>
      simp only [St.wake] at h
      split at h
      · rename_i hi
        cases h
        refine ⟨rfl, rfl, rfl, rfl, fun c => ?_⟩
        have := count_set s.calls i .waiting .woken c hi
        simpa [has1, Call.chunk] using this
      · cases h

/-- Every chunk created is in exactly one place, and the pool is not overfull. -/
structure Acc (s : St) : Prop where
  one : ∀ c, s.pool.count c + s.held.count c + s.removed.count c = if c < s.next then 1 else 0
  cap : s.pool.length ≤ s.cap

theorem count_range (n c : Nat) : (List.range n).count c = if c < n then 1 else 0 := by
  induction n with
  | zero => simp
  | succ n ih =>
    rw [List.range_succ, List.count_append, ih]
    simp only [List.count_cons, List.count_nil, beq_iff_eq]
    by_cases h1 : c < n
    · rw [if_pos h1, if_neg (by omega), if_pos (by omega)]
    · rw [if_neg h1]
      by_cases h2 : n = c
      · rw [if_pos h2, if_pos (by omega)]
      · rw [if_neg h2, if_neg (by omega)]

theorem acc_init (cap n : Nat) : Acc (St.init cap n) := by
  refine ⟨fun c => ?_, Nat.zero_le _⟩
  have : (St.init cap n).held = List.range n := by
    simp [St.held, St.init, List.filterMap_map, Function.comp_def, Call.chunk]
  rw [this, count_range]
  show 0 + _ + 0 = if c < n then 1 else 0
  rw [Nat.zero_add, Nat.add_zero]

theorem acc_wake {s s' : St} {w : Option Who} (h : s.wake w = some s') (ha : Acc s) : Acc s' := by
  obtain ⟨e1, e2, e3, e4, e5⟩ := wake_frame h
  refine ⟨fun c => ?_, by rw [e1, e4]; exact ha.cap⟩
  have := ha.one c
  simp only [St.held] at this ⊢
  rw [e1, e2, e3, e5]
  exact this

/-- Replacing a call by one that has the same chunk. -/
theorem acc_set {s : St} {i : Nat} {a b : Call} (h : s.calls[i]? = some a) (hc : a.chunk = b.chunk) (ha : Acc s) :
    Acc { s with calls := s.calls.set i b } := by
  refine ⟨fun c => ?_, ha.cap⟩
  have := ha.one c
  have h2 := count_set s.calls i a b c h
  have : has1 a c = has1 b c := by simp [has1, hc]
  simp only [St.held] at *
  omega

theorem acc_step (s s' : St) (op : Op) (ha : Acc s) (hs : s.step op = some s') : Acc s' := by
  cases op with
  | call =>
    cases hs
    refine ⟨fun c => ?_, ha.cap⟩
    have := ha.one c
    show s.pool.count c + ((s.calls ++ [Call.start]).filterMap Call.chunk).count c + s.removed.count c = _
    rw [List.filterMap_append, show [Call.start].filterMap Call.chunk = [] from rfl, List.append_nil]
    exact this
  | deq i =>
    simp only [St.step] at hs
    have key : ∀ a : Call, a.chunk = none → s.calls[i]? = some a →
        (match s.pool.getLast? with
        | none => some { s with calls := s.calls.set i .waiting }
        | some c => some { s with calls := s.calls.set i (.got c), pool := s.pool.dropLast }) = some s' → Acc s' := by
      intro a hn hi hs
      cases hl : s.pool.getLast? with
      | none =>
        rw [hl] at hs; cases hs
        exact acc_set hi hn ha
      | some c =>
        rw [hl] at hs
        simp only [Option.some.injEq] at hs; subst hs
        have hp : s.pool = s.pool.dropLast ++ [c] := by
          obtain ⟨ys, hy⟩ := List.getLast?_eq_some_iff.1 hl
          rw [hy, List.dropLast_concat]
        refine ⟨fun x => ?_, ?_⟩
        · have h1 := ha.one x
          have h2 := count_set s.calls i a (.got c) x hi
          rw [hp, List.count_append, List.count_singleton] at h1
          rw [show has1 a x = 0 by simp [has1, hn]] at h2
          simp only [has1, Call.chunk, Option.some.injEq] at h2
          simp only [St.held, beq_iff_eq] at h1 ⊢
          omega
        · have := ha.cap; simp only [List.length_dropLast]; omega
    cases hi : s.calls[i]? with
    | none => rw [hi] at hs; cases hs
    | some a =>
      rw [hi] at hs
      cases a with
      | start => exact key .start rfl hi hs
      | woken => exact key .woken rfl hi hs
      | _ => cases hs
  | deqNotify i w =>
    simp only [St.step] at hs
    cases hi : s.calls[i]? with
    | none => rw [hi] at hs; cases hs
    | some a =>
      rw [hi] at hs
      cases a with
      | got c => exact acc_wake hs (acc_set hi rfl ha)
      | _ => cases hs
  | give i =>
    simp only [St.step] at hs
    cases hi : s.calls[i]? with
    | none => rw [hi] at hs; cases hs
    | some a =>
      rw [hi] at hs
      cases a with
      | has c => cases hs; exact acc_set hi rfl ha
      | _ => cases hs
  | enq i =>
    simp only [St.step] at hs
    cases hi : s.calls[i]? with
    | none => rw [hi] at hs; cases hs
    | some a =>
      rw [hi] at hs
      cases a with
      | give c =>
        simp only at hs
        by_cases hc : s.pool.length < s.cap
        · rw [if_pos hc] at hs; cases hs
          refine ⟨fun x => ?_, by simp; omega⟩
          have h1 := ha.one x
          have h2 := count_set s.calls i (.give c) .gave x hi
          simp only [has1, Call.chunk, Option.some.injEq, reduceCtorEq, if_false] at h2
          simp only [St.held, List.count_append, List.count_singleton, beq_iff_eq] at *
          omega
        · rw [if_neg hc] at hs; cases hs
          exact acc_set hi rfl ha
      | _ => cases hs
  | enqNotify i w =>
    simp only [St.step] at hs
    cases hi : s.calls[i]? with
    | none => rw [hi] at hs; cases hs
    | some a =>
      rw [hi] at hs
      cases a with
      | gave => exact acc_wake hs (acc_set hi rfl ha)
      | _ => cases hs
  | enqRemove i =>
    simp only [St.step] at hs
    cases hi : s.calls[i]? with
    | none => rw [hi] at hs; cases hs
    | some a =>
      rw [hi] at hs
      cases a with
      | full c =>
        cases hs
        refine ⟨fun x => ?_, ha.cap⟩
        have h1 := ha.one x
        have h2 := count_set s.calls i (.full c) .gone x hi
        simp only [has1, Call.chunk, Option.some.injEq, reduceCtorEq, if_false] at h2
        simp only [St.held, List.count_append, List.count_singleton, beq_iff_eq] at *
        omega
      | _ => cases hs
  | prod w =>
    simp only [St.step] at hs
    by_cases h1 : s.prod = .waiting
    · rw [if_pos h1] at hs; cases hs
    · rw [if_neg h1] at hs
      by_cases h2 : s.pool.length < s.cap / 2
      · rw [if_pos h2] at hs
        refine acc_wake hs ⟨fun x => ?_, by simp; omega⟩
        have h3 := ha.one x
        simp only [St.held, List.count_append, List.count_singleton, beq_iff_eq] at *
        by_cases hx : s.next = x
        · rw [if_pos hx, if_pos (by omega)]; rw [if_neg (by omega)] at h3; omega
        · rw [if_neg hx]
          by_cases hy : x < s.next
          · rw [if_pos hy] at h3; rw [if_pos (by omega)]; omega
          · rw [if_neg hy] at h3; rw [if_neg (by omega)]; omega
      · rw [if_neg h2] at hs
        split at hs
        · cases hs; exact ⟨ha.one, ha.cap⟩
        · cases hs
  | spurious w =>
    cases w with
    | prod =>
      simp only [St.step] at hs
      split at hs
      · cases hs; exact ⟨ha.one, ha.cap⟩
      · cases hs
    | call i =>
      simp only [St.step] at hs
      split at hs
      · rename_i hi; cases hs; exact acc_set hi rfl ha
      · cases hs

theorem acc_run (ops : List Op) : ∀ (s s' : St), Acc s → s.run ops = some s' → Acc s' := by
  induction ops with
  | nil => intro s s' ha h; cases h; exact ha
  | cons op ops ih =>
    intro s s' ha h
    simp only [St.run] at h
    obtain ⟨s1, h1, h2⟩ := Option.bind_eq_some_iff.1 h
    exact ih s1 s' (acc_step s s1 op ha h1) h2

/-! ## Who waits for whom -/

def isWaiting (c : Call) : Bool := decide (c = .waiting)
def isWoken (c : Call) : Bool := decide (c = .woken)
def isGot : Call → Bool
  | .got _ => true
  | _ => false
def isGave (c : Call) : Bool := decide (c = .gave)

/-- Dequeues that wait, that have been notified, that have yet to notify; enqueues that have yet to. -/
def St.nw (s : St) : Nat := s.calls.countP isWaiting
def St.nn (s : St) : Nat := s.calls.countP isWoken
def St.ng (s : St) : Nat := s.calls.countP isGot
def St.ne (s : St) : Nat := s.calls.countP isGave

theorem parts_le (l : List Call) :
    l.countP isWaiting + l.countP isWoken + l.countP isGot + l.countP isGave ≤ l.countP Call.active := by
  induction l with
  | nil => simp
  | cons x l ih =>
    simp only [List.countP_cons]
    cases x <;> simp [isWaiting, isWoken, isGot, isGave, Call.active] <;> omega

theorem nw_pos {s : St} : .waiting ∈ s.calls ↔ 0 < s.nw := by
  unfold St.nw
  rw [List.countP_pos_iff]
  constructor
  · intro h; exact ⟨_, h, by simp [isWaiting]⟩
  · rintro ⟨x, h1, h2⟩; simp [isWaiting] at h2; rwa [h2] at h1

/-- While somebody waits, each chunk in the pool is matched by a notification under way; while the
producer waits, no dequeue does, and there are chunks enough, in the pool or just taken. -/
structure Go (s : St) : Prop where
  i1 : 0 < s.nw → s.pool.length ≤ s.nn + s.ne
  i2 : s.prod = .waiting → s.nw = 0 ∧ s.cap / 2 ≤ s.pool.length + s.ng

/-- What `notify_one` does to the numbers. -/
theorem wake_cases {s s' : St} {w : Option Who} (h : s.wake w = some s') :
    s'.pool = s.pool ∧ s'.cap = s.cap ∧ s'.ng = s.ng ∧ s'.ne = s.ne ∧ s'.next = s.next ∧
    ((s'.nw = s.nw ∧ s'.nn = s.nn ∧ s'.prod = s.prod ∧ s.prod ≠ .waiting ∧ s.nw = 0) ∨
     (s'.nw = s.nw ∧ s'.nn = s.nn ∧ s'.prod = .woken ∧ s.prod = .waiting) ∨
     (s'.nw + 1 = s.nw ∧ s'.nn = s.nn + 1 ∧ s'.prod = s.prod)) := by
  cases w with
  | none =>
    simp only [St.wake] at h
    split at h
    · cases h
    · rename_i hx
      cases h
      refine ⟨rfl, rfl, rfl, rfl, rfl, .inl ⟨rfl, rfl, rfl, fun e => hx (.inl e), ?_⟩⟩
      have : ¬ 0 < s.nw := fun e => hx (.inr (nw_pos.2 e))
      omega
  | some w =>
    cases w with
    | prod =>
      simp only [St.wake] at h
      split at h
      · rename_i hx
        cases h; exact ⟨rfl, rfl, rfl, rfl, rfl, .inr (.inl ⟨rfl, rfl, rfl, hx⟩)⟩
      · cases h
    | call i =>
      simp only [St.wake] at h
      split at h
      · rename_i hi
        cases h
        have h1 := countP_set isWaiting s.calls i .waiting .woken hi
        have h2 := countP_set isWoken s.calls i .waiting .woken hi
        have h3 := countP_set isGot s.calls i .waiting .woken hi
        have h4 := countP_set isGave s.calls i .waiting .woken hi
        simp [isWaiting, isWoken, isGot, isGave] at h1 h2 h3 h4
        exact ⟨rfl, rfl, h3, h4, rfl, .inr (.inr ⟨h1, h2, rfl⟩)⟩
      · cases h

theorem go_init (cap n : Nat) : Go (St.init cap n) := by
  have h : ∀ l : List Nat, (l.map Call.has).countP isWaiting = 0 := by
    intro l; induction l with
    | nil => rfl
    | cons a l ih => rw [List.map_cons, List.countP_cons, ih]; rfl
  refine ⟨fun hp => ?_, (nofun)⟩
  simp [St.nw, St.init, h] at hp

/-- Numbers after a call changes its state. -/
theorem set_nums {s : St} {i : Nat} {a : Call} (b : Call) (h : s.calls[i]? = some a) (p : List Nat) (r : List Nat) :
    let s' : St := { s with calls := s.calls.set i b, pool := p, removed := r }
    s'.nw + (if isWaiting a then 1 else 0) = s.nw + (if isWaiting b then 1 else 0) ∧
    s'.nn + (if isWoken a then 1 else 0) = s.nn + (if isWoken b then 1 else 0) ∧
    s'.ng + (if isGot a then 1 else 0) = s.ng + (if isGot b then 1 else 0) ∧
    s'.ne + (if isGave a then 1 else 0) = s.ne + (if isGave b then 1 else 0) :=
  ⟨countP_set _ _ _ _ _ h, countP_set _ _ _ _ _ h, countP_set _ _ _ _ _ h, countP_set _ _ _ _ _ h⟩

theorem go_step (s s' : St) (op : Op) (hg : Go s) (hb : s'.active ≤ s.cap / 2) (hb0 : s.active ≤ s.cap / 2)
    (hs : s.step op = some s') : Go s' := by
  have hparts := parts_le s.calls
  have hparts' := parts_le s'.calls
  have hu : s.nw + s.nn + s.ng + s.ne ≤ s.active := hparts
  have hu' : s'.nw + s'.nn + s'.ng + s'.ne ≤ s'.active := hparts'
  obtain ⟨i1, i2⟩ := hg
  cases op with
  | call =>
    cases hs
    have e : ∀ p : Call → Bool, p .start = false → (s.calls ++ [Call.start]).countP p = s.calls.countP p := by
      intro p hp; simp [List.countP_append, hp]
    refine ⟨?_, ?_⟩
    · show 0 < (s.calls ++ [Call.start]).countP isWaiting → s.pool.length ≤
        (s.calls ++ [Call.start]).countP isWoken + (s.calls ++ [Call.start]).countP isGave
      rw [e _ (by decide), e _ (by decide), e _ (by decide)]; exact i1
    · show s.prod = .waiting → (s.calls ++ [Call.start]).countP isWaiting = 0 ∧ _ ≤ s.pool.length +
        (s.calls ++ [Call.start]).countP isGot
      rw [e _ (by decide), e _ (by decide)]; exact i2
  | deq i =>
    simp only [St.step] at hs
    have key : ∀ a : Call, a = .start ∨ a = .woken → s.calls[i]? = some a →
        (match s.pool.getLast? with
        | none => some { s with calls := s.calls.set i .waiting }
        | some c => some { s with calls := s.calls.set i (.got c), pool := s.pool.dropLast }) = some s' → Go s' := by
      intro a ha hi hs
      cases hl : s.pool.getLast? with
      | none =>
        rw [hl] at hs
        simp only [Option.some.injEq] at hs
        obtain ⟨n1, n2, n3, n4⟩ := set_nums .waiting hi s.pool s.removed
        rw [show ({ s with calls := s.calls.set i .waiting, pool := s.pool, removed := s.removed } : St) = s' from hs]
          at n1 n2 n3 n4
        have hp : s.pool = [] := List.getLast?_eq_none_iff.1 hl
        have ep : s'.pool = [] := by rw [← hs]; exact hp
        have er : s'.prod = s.prod := by rw [← hs]
        have ec : s'.cap = s.cap := by rw [← hs]
        refine ⟨fun _ => by rw [ep]; simp, fun hw => ?_⟩
        rw [er] at hw
        have := (i2 hw).2
        rw [hp] at this
        simp only [List.length_nil] at this
        rcases ha with rfl | rfl <;> simp [isWaiting, isWoken, isGot, isGave] at n1 n2 n3 n4 <;> omega
      | some c =>
        rw [hl] at hs
        simp only [Option.some.injEq] at hs
        obtain ⟨n1, n2, n3, n4⟩ := set_nums (.got c) hi s.pool.dropLast s.removed
        rw [show ({ s with calls := s.calls.set i (.got c), pool := s.pool.dropLast, removed := s.removed } : St) = s'
          from hs] at n1 n2 n3 n4
        have hne : 0 < s.pool.length := by
          cases hpl : s.pool with
          | nil => rw [hpl] at hl; simp at hl
          | cons x l => simp
        have ep : s'.pool.length = s.pool.length - 1 := by rw [← hs]; simp
        have er : s'.prod = s.prod := by rw [← hs]
        have ec : s'.cap = s.cap := by rw [← hs]
        refine ⟨fun h => ?_, fun hw => ?_⟩
        · rcases ha with rfl | rfl <;> simp [isWaiting, isWoken, isGot, isGave] at n1 n2 n3 n4 <;> omega
        · rw [er] at hw
          have := i2 hw
          rw [ec]
          rcases ha with rfl | rfl <;> simp [isWaiting, isWoken, isGot, isGave] at n1 n2 n3 n4 <;> omega
    cases hi : s.calls[i]? with
    | none => rw [hi] at hs; cases hs
    | some a =>
      rw [hi] at hs
      cases a with
      | start => exact key .start (.inl rfl) hi hs
      | woken => exact key .woken (.inr rfl) hi hs
      | _ => cases hs
  | deqNotify i w =>
    simp only [St.step] at hs
    cases hi : s.calls[i]? with
    | none => rw [hi] at hs; cases hs
    | some a =>
      rw [hi] at hs
      cases a with
      | got c =>
        obtain ⟨n1, n2, n3, n4⟩ := set_nums (.has c) hi s.pool s.removed
        obtain ⟨w1, w2, w3, w4, _, w5⟩ := wake_cases hs
        simp [isWaiting, isWoken, isGot, isGave] at n1 n2 n3 n4
        simp only at w1 w2 w3 w4 w5
        rcases w5 with ⟨a1, a2, a3, a4, a5⟩ | ⟨a1, a2, a3, a4⟩ | ⟨a1, a2, a3⟩
        · exact ⟨fun h => by omega, fun h => absurd (a3 ▸ h) a4⟩
        · have := i2 a4
          exact ⟨fun h => by omega, fun h => by rw [a3] at h; cases h⟩
        · refine ⟨fun h => ?_, fun h => ?_⟩
          · rw [w1]; have := i1 (by omega); omega
          · have := i2 (a3 ▸ h); omega
      | _ => cases hs
  | give i =>
    simp only [St.step] at hs
    cases hi : s.calls[i]? with
    | none => rw [hi] at hs; cases hs
    | some a =>
      rw [hi] at hs
      cases a with
      | has c =>
        simp only [Option.some.injEq] at hs
        obtain ⟨n1, n2, n3, n4⟩ := set_nums (.give c) hi s.pool s.removed
        rw [show ({ s with calls := s.calls.set i (.give c), pool := s.pool, removed := s.removed } : St) = s' from hs]
          at n1 n2 n3 n4
        simp [isWaiting, isWoken, isGot, isGave] at n1 n2 n3 n4
        have ep : s'.pool = s.pool := by rw [← hs]
        have er : s'.prod = s.prod := by rw [← hs]
        have ec : s'.cap = s.cap := by rw [← hs]
        exact ⟨fun h => by rw [ep]; have := i1 (by omega); omega, fun h => by rw [ep, ec]; have := i2 (er ▸ h); omega⟩
      | _ => cases hs
  | enq i =>
    simp only [St.step] at hs
    cases hi : s.calls[i]? with
    | none => rw [hi] at hs; cases hs
    | some a =>
      rw [hi] at hs
      cases a with
      | give c =>
        simp only at hs
        by_cases hc : s.pool.length < s.cap
        · rw [if_pos hc] at hs
          simp only [Option.some.injEq] at hs
          obtain ⟨n1, n2, n3, n4⟩ := set_nums .gave hi (s.pool ++ [c]) s.removed
          rw [show ({ s with calls := s.calls.set i .gave, pool := s.pool ++ [c], removed := s.removed } : St) = s'
            from hs] at n1 n2 n3 n4
          simp [isWaiting, isWoken, isGot, isGave] at n1 n2 n3 n4
          have ep : s'.pool.length = s.pool.length + 1 := by rw [← hs]; simp
          have er : s'.prod = s.prod := by rw [← hs]
          have ec : s'.cap = s.cap := by rw [← hs]
          exact ⟨fun h => by rw [ep]; have := i1 (by omega); omega, fun h => by rw [ep, ec]; have := i2 (er ▸ h); omega⟩
        · rw [if_neg hc] at hs
          simp only [Option.some.injEq] at hs
          obtain ⟨n1, n2, n3, n4⟩ := set_nums (.full c) hi s.pool s.removed
          rw [show ({ s with calls := s.calls.set i (.full c), pool := s.pool, removed := s.removed } : St) = s'
            from hs] at n1 n2 n3 n4
          simp [isWaiting, isWoken, isGot, isGave] at n1 n2 n3 n4
          have ep : s'.pool = s.pool := by rw [← hs]
          have er : s'.prod = s.prod := by rw [← hs]
          have ec : s'.cap = s.cap := by rw [← hs]
          exact ⟨fun h => by rw [ep]; have := i1 (by omega); omega, fun h => by rw [ep, ec]; have := i2 (er ▸ h); omega⟩
      | _ => cases hs
  | enqNotify i w =>
    simp only [St.step] at hs
    cases hi : s.calls[i]? with
    | none => rw [hi] at hs; cases hs
    | some a =>
      rw [hi] at hs
      cases a with
      | gave =>
        obtain ⟨n1, n2, n3, n4⟩ := set_nums .back hi s.pool s.removed
        obtain ⟨w1, w2, w3, w4, _, w5⟩ := wake_cases hs
        simp [isWaiting, isWoken, isGot, isGave] at n1 n2 n3 n4
        simp only at w1 w2 w3 w4 w5
        rcases w5 with ⟨a1, a2, a3, a4, a5⟩ | ⟨a1, a2, a3, a4⟩ | ⟨a1, a2, a3⟩
        · exact ⟨fun h => by omega, fun h => absurd (a3 ▸ h) a4⟩
        · have := i2 a4
          exact ⟨fun h => by omega, fun h => by rw [a3] at h; cases h⟩
        · refine ⟨fun h => ?_, fun h => ?_⟩
          · rw [w1]; have := i1 (by omega); omega
          · have := i2 (a3 ▸ h); omega
      | _ => cases hs
  | enqRemove i =>
    simp only [St.step] at hs
    cases hi : s.calls[i]? with
    | none => rw [hi] at hs; cases hs
    | some a =>
      rw [hi] at hs
      cases a with
      | full c =>
        simp only [Option.some.injEq] at hs
        obtain ⟨n1, n2, n3, n4⟩ := set_nums .gone hi s.pool (s.removed ++ [c])
        rw [show ({ s with calls := s.calls.set i .gone, pool := s.pool, removed := s.removed ++ [c] } : St) = s'
          from hs] at n1 n2 n3 n4
        simp [isWaiting, isWoken, isGot, isGave] at n1 n2 n3 n4
        have ep : s'.pool = s.pool := by rw [← hs]
        have er : s'.prod = s.prod := by rw [← hs]
        have ec : s'.cap = s.cap := by rw [← hs]
        exact ⟨fun h => by rw [ep]; have := i1 (by omega); omega, fun h => by rw [ep, ec]; have := i2 (er ▸ h); omega⟩
      | _ => cases hs
  | prod w =>
    simp only [St.step] at hs
    by_cases h1 : s.prod = .waiting
    · rw [if_pos h1] at hs; cases hs
    · rw [if_neg h1] at hs
      by_cases h2 : s.pool.length < s.cap / 2
      · rw [if_pos h2] at hs
        obtain ⟨w1, w2, w3, w4, _, w5⟩ := wake_cases hs
        have v1 : s'.pool.length = s.pool.length + 1 := by rw [w1]; simp
        rcases w5 with ⟨a1, a2, a3, a4, a5⟩ | ⟨a1, a2, a3, a4⟩ | ⟨a1, a2, a3⟩
        · exact ⟨fun h => by omega, fun h => absurd (a3 ▸ h) a4⟩
        · cases a4
        · have b1 : s'.nw + 1 = s.nw := a1
          have b2 : s'.nn = s.nn + 1 := a2
          have b4 : s'.ne = s.ne := w4
          exact ⟨fun h => by have := i1 (by omega); omega, fun h => by rw [a3] at h; cases h⟩
      · rw [if_neg h2] at hs
        split at hs
        · cases hs
          refine ⟨i1, fun _ => ⟨?_, by simp only; omega⟩⟩
          show s.nw = 0
          by_cases hz : 0 < s.nw
          · have := i1 hz; omega
          · omega
        · cases hs
  | spurious w =>
    cases w with
    | prod =>
      simp only [St.step] at hs
      split at hs
      · cases hs; exact ⟨i1, (nofun)⟩
      · cases hs
    | call i =>
      simp only [St.step] at hs
      split at hs
      · rename_i hi
        cases hs
        have hx : St.wake s (some (.call i)) = some { s with calls := s.calls.set i .woken } := by
          simp only [St.wake]; rw [if_pos hi]
        obtain ⟨w1, w2, w3, w4, _, w5⟩ := wake_cases hx
        rcases w5 with ⟨a1, a2, a3, a4, a5⟩ | ⟨a1, a2, a3, a4⟩ | ⟨a1, a2, a3⟩
        · exact ⟨fun h => by omega, fun h => absurd (a3 ▸ h) a4⟩
        · have := i2 a4
          exact ⟨fun h => by omega, fun h => by rw [a3] at h; cases h⟩
        · refine ⟨fun h => ?_, fun h => ?_⟩
          · rw [w1]; have := i1 (by omega); omega
          · have := i2 (a3 ▸ h); omega
      · cases hs

end HS.Pool
