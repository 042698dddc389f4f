import Verif.Pool.Witness
/-!
# C89, C90: the pool of journal chunks

C89: every chunk is in exactly one place — in the pool, with one caller, or removed.
C90: a call that waits for a chunk does not wait for ever.
-/
namespace HS.Pool

/-- **C89** (every pool, every number of threads, every schedule): the chunks in the pool, those that
calls or their callers have, and those removed are, together, the chunks created, each once.  The pool
never has more than its capacity. -/
theorem C89_each_chunk_in_one_place (cap n : Nat) (ops : List Op) (s : St) (h : (St.init cap n).run ops = some s) :
    (s.pool ++ s.calls.filterMap Call.chunk ++ s.removed).Perm (List.range s.next) ∧ s.pool.length ≤ cap := by
  have ha := acc_run ops _ _ (acc_init cap n) h
  refine ⟨List.perm_iff_count.2 fun c => ?_, ?_⟩
  · have := ha.one c
    rw [List.count_append, List.count_append, count_range]
    exact this
  · have hc : ∀ (ops : List Op) (s s' : St), s.run ops = some s' → s'.cap = s.cap := by
      intro ops
      induction ops with
      | nil => intro s s' h; cases h; rfl
      | cons op ops ih =>
        intro s s' h
        simp only [St.run] at h
        obtain ⟨s1, h1, h2⟩ := Option.bind_eq_some_iff.1 h
        rw [ih s1 s' h2, step_cap s s1 op h1]
    have := ha.cap
    rwa [hc ops _ _ h] at this

/-- **C89**: no two calls, and no two journals, have the same chunk; and none has one that is in the
pool or removed. -/
theorem C89_no_chunk_twice (cap n : Nat) (ops : List Op) (s : St) (h : (St.init cap n).run ops = some s)
    (i j : Nat) (a b : Call) (c : Nat) (hi : s.calls[i]? = some a) (hj : s.calls[j]? = some b)
    (ha : a.chunk = some c) (hb : b.chunk = some c) : i = j ∧ c ∉ s.pool ∧ c ∉ s.removed := by
  have hacc := (acc_run ops _ _ (acc_init cap n) h).one c
  have hle : s.pool.count c + s.held.count c + s.removed.count c ≤ 1 := by
    rw [hacc]; split <;> omega
  have hheld : 0 < s.held.count c :=
    List.count_pos_iff.2 (List.mem_filterMap.2 ⟨a, List.mem_of_getElem? hi, ha⟩)
  refine ⟨?_, ?_, ?_⟩
  · apply Classical.byContradiction
    intro hne
    -- without the call at `i`, the one at `j` still has it
    have h1 := count_set s.calls i a .gone c hi
    have hj' : (s.calls.set i .gone)[j]? = some b := by rw [List.getElem?_set_ne hne]; exact hj
    have h2 : 0 < ((s.calls.set i .gone).filterMap Call.chunk).count c :=
      List.count_pos_iff.2 (List.mem_filterMap.2 ⟨b, List.mem_of_getElem? hj', hb⟩)
    have h3 : has1 a c = 1 := by simp [has1, ha]
    have h4 : has1 .gone c = 0 := rfl
    simp only [St.held] at *
    omega
  · intro hm
    have := List.count_pos_iff.2 hm
    omega
  · intro hm
    have := List.count_pos_iff.2 hm
    omega

/-- A history that uses everything: a pool of capacity 2 with a chunk in use; two dequeues, one of
which waits; a chunk given back, one more found too many and removed. -/
def sample : List Op :=
  [.call, .deq 1, .call, .prod (some (.call 1)), .deq 1, .deqNotify 1 none, .prod none, .deq 2, .deqNotify 2 none,
   .prod none, .give 0, .enq 0, .enqNotify 0 none, .give 1, .enq 1, .enqRemove 1]

example : (St.init 2 1).run sample =
    some ⟨2, [3, 0], 4, .run, [.back, .gone, .has 2], [1]⟩ := by decide +kernel

/-- **C90** (every pool, every number of threads, every schedule; in which never more than half the
capacity of calls are in progress at the same time): there is no state in which somebody waits for a
chunk, and nobody is left to notify them. -/
theorem C90_never_stuck_partial (cap n : Nat) (ops : List Op) (s : St)
    (hb : AtMost (cap / 2) (St.init cap n) ops) (h : (St.init cap n).run ops = some s) : ¬ Stuck s :=
  go_not_stuck (go_run ops _ _ (go_init cap n) hb h).1

/-- **C90**: from any state that such a history reaches, the calls already made and the producer can
take only a bounded number of further steps, in whatever order; and when none of them can take another,
every call has returned. -/
theorem C90_every_call_returns_partial (cap n : Nat) (ops : List Op) (s : St)
    (hb : AtMost (cap / 2) (St.init cap n) ops) (h : (St.init cap n).run ops = some s) :
    ∃ bound, ∀ (ops' : List Op) (s' : St), (∀ op ∈ ops', op.quiet = true) → s.run ops' = some s' →
      ops'.length ≤ bound ∧
      ((∀ op, op.quiet = true → s'.step op = none) → ∀ c ∈ s'.calls, c.active = false) := by
  obtain ⟨hg, ha, _⟩ := go_run ops _ _ (go_init cap n) hb h
  refine ⟨s.measure, fun ops' s' hq hr => ?_⟩
  obtain ⟨r1, r2, _⟩ := quiet_run ops' s s' hq hg ha hr
  refine ⟨by omega, fun hend c hc => ?_⟩
  cases hact : c.active with
  | false => rfl
  | true =>
    obtain ⟨op, s2, h1, h2⟩ := quiet_enabled s' (go_not_stuck r2) ⟨c, hc, hact⟩
    rw [hend op h1] at h2
    cases h2

/-- The history `sample` (capacity 4) stays within the bound of two calls, and two dequeues wait in it. -/
example : AtMost (4 / 2) (St.init 4 0) [.call, .call, .deq 0, .deq 1, .prod (some (.call 0))] ∧
    (St.init 4 0).run [.call, .call, .deq 0, .deq 1, .prod (some (.call 0))] =
      some ⟨4, [0], 1, .run, [.woken, .waiting], []⟩ :=
  ⟨atMost_of_len _ _ _ (by decide), by decide +kernel⟩

/-- **C90 is false** with one call more, whatever the capacity: in a pool of any capacity, half of it
and one calls of `dequeue`, made at the same time, can leave one of them waiting with the producer, who
also waits, when all others have returned.  (The notifications meant for the producer went to the one
that waited, who found the pool empty and waited again.) -/
theorem C90_one_call_more_violated (cap : Nat) :
    ∃ ops s, (St.init cap 0).run ops = some s ∧ AtMost (cap / 2 + 1) (St.init cap 0) ops ∧ Stuck s ∧ s.pool = [] := by
  obtain ⟨o1, s1, r1, p1, c1, l1, k1, n1⟩ := produce (cap / 2) (St.init cap 0) rfl rfl (by simp [St.init])
  have k1 : s1.cap = cap := k1
  have r2 := callAll (s1.cap / 2 + 1) s1
  let s2 : St := { s1 with calls := s1.calls ++ List.replicate (s1.cap / 2 + 1) .start }
  have c2 : s2.calls = ([] : List Nat).map Call.got ++ List.replicate (s1.cap / 2) .start ++ [.start] := by
    simp only [s2, c1, List.map_nil, List.nil_append]
    rw [List.replicate_succ']
  obtain ⟨o3, s3, gs, r3, p3, l3, c3, _, n3⟩ := takeAll (s1.cap / 2) s2 [] p1 c2 l1
  obtain ⟨o4, s4, hs, r4, p4, l4, c4, _, n4⟩ := notifyAll gs s3 [] p3 l3 (by simpa using c3)
  refine ⟨o1 ++ (List.replicate (s1.cap / 2 + 1) .call ++ (o3 ++ o4)), s4, ?_, ?_, ⟨?_, p4, ?_⟩, l4⟩
  · rw [run_append, r1]
    simp only [Option.bind_some]
    rw [run_append, r2]
    simp only [Option.bind_some]
    rw [run_append]
    show (s2.run o3).bind _ = _
    rw [r3]
    exact r4
  · apply atMost_of_len
    rw [ncalls_append, ncalls_append, ncalls_append, n1, n3, n4, ncalls_replicate, k1]
    simp [St.init]
  · rw [c4]; simp
  · intro c hc
    rw [c4] at hc
    rcases List.mem_append.1 hc with h | h
    · obtain ⟨x, _, rfl⟩ := List.mem_map.1 h; exact .inr rfl
    · exact .inl (by simpa using h)

/-- **C90 is false**: with the default capacity (5), three journals that need a chunk at the same time
are enough. -/
theorem C90_default_capacity_violated :
    ∃ s, (St.init 5 0).run
      [.prod none, .prod none, .prod none, .call, .call, .call, .deq 0, .deq 1, .deq 2,
       .deqNotify 0 (some (.call 2)), .deq 2, .deqNotify 1 (some (.call 2)), .deq 2] = some s ∧
      s.calls = [.has 1, .has 0, .waiting] ∧ Stuck s :=
  ⟨⟨5, [], 2, .waiting, [.has 1, .has 0, .waiting], []⟩, by decide +kernel, rfl, by decide, rfl, by decide⟩

/-- **C90**: what being stuck, with an empty pool, means: as long as nobody gives a chunk back (and no
wait ends by itself), nobody gets one, whatever the calls of `dequeue` that follow, and however many. -/
theorem C90_stuck_for_good_violated (s : St) (hs : Stuck s) (hp : s.pool = []) (ops : List Op) (s' : St)
    (hq : ∀ op ∈ ops, op = .call ∨ op.quiet = true) (h : s.run ops = some s') :
    s'.calls.filterMap Call.chunk = s.calls.filterMap Call.chunk ∧ s'.prod = .waiting ∧
      ∀ (i c : Nat), s'.calls[i]? = some (Call.has c) → c ∈ s.calls.filterMap Call.chunk := by
  have hd : Dry s := ⟨hs.2.1, hp, fun c hc => .inr (hs.2.2 c hc)⟩
  obtain ⟨d, e⟩ := dry_run ops s s' hd hq h
  refine ⟨e, d.prod, fun i c hi => ?_⟩
  rw [← e]
  exact List.mem_filterMap.2 ⟨.has c, List.mem_of_getElem? hi, rfl⟩

example : ∃ s s', Stuck s ∧ s.pool = [] ∧ s.run [.call, .deq 3] = some s' ∧ s'.calls = [.has 1, .has 0, .waiting, .waiting] :=
  ⟨⟨5, [], 2, .waiting, [.has 1, .has 0, .waiting], []⟩, ⟨5, [], 2, .waiting, [.has 1, .has 0, .waiting, .waiting], []⟩,
    ⟨by decide, rfl, by decide⟩, rfl, by decide +kernel, rfl⟩

end HS.Pool
