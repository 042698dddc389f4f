import Verif.Prefix.Put
import Verif.Prefix.Copy
/-!
# C77: leaf nodes that share prefixes hold what was put into them
-/
namespace HS.Prefix

/-- Operations on the leaf nodes of a tree.  `x` and `y` are nodes; entries are moved from `x` to `y`
and copied from `y` to `x`. -/
inductive Op where
  | alloc (x : Nat) (pre : Nat → PE)
  | get (x k : Nat)
  | put (x k v : Nat) (type : PutType) (filter : Option (Nat → Nat → Nat → Dec))
  | del (x k : Nat)
  | multiPut (x : Nat) (a : Put)
  | multiRemove (x lo : Nat) (loIncl : Bool) (hi : Nat) (hiIncl : Bool) (f : Nat → Nat → Bool)
  | removeAll (x : Nat)
  | moveSize (x y size : Nat)
  | moveEntries (x y n : Nat)
  | copySize (x y start size : Nat)
  | copyEntries (x y start n : Nat)

/-- What an operation reports. -/
inductive Out where
  | unit
  | val (v : Option Nat)
  | one (r : OneRes)
  | was (b : Bool)
  | put (r : PutRes)
  | num (n : Nat)
  deriving DecidableEq

def upd {α : Type} (f : Nat → α) (x : Nat) (a : α) : Nat → α := fun y => if y = x then a else f y

/-- The nodes of the program. -/
def step (P : Params) (S : Nat → PN) : Op → Option (Out × (Nat → PN))
  | .alloc x pre => some (.unit, upd S x (PN.fresh pre))
  | .get x k => some (.val ((S x).get P k), S)
  | .put x k v ty f => ((S x).put P k v ty f).map (fun r => (.one r.1, upd S x r.2))
  | .del x k => ((S x).del P k).map (fun r => (.was r.1, upd S x r.2))
  | .multiPut x a => ((S x).multiPut P a).map (fun r => (.put r.1, upd S x r.2))
  | .multiRemove x lo li hi hin f => ((S x).multiRemove P lo li hi hin f).map (fun r => (.num r.1, upd S x r.2))
  | .removeAll x => some (.unit, upd S x (S x).removeAll)
  | .moveSize x y size => ((S x).moveOut P (S y) true size).map (fun r => (.num r.1, upd (upd S x r.2.1) y r.2.2))
  | .moveEntries x y n => ((S x).moveOut P (S y) false n).map (fun r => (.num r.1, upd (upd S x r.2.1) y r.2.2))
  | .copySize x y start size => ((S x).copyBySize P (S y) start size).map (fun r => (.num r.1, upd S x r.2))
  | .copyEntries x y start n => ((S x).copyByEntries P (S y) start n).map (fun r => (.num r.1, upd S x r.2))

def run (P : Params) : (Nat → PN) → List Op → Option (List Out × (Nat → PN))
  | S, [] => some ([], S)
  | S, op :: ops => match step P S op with
    | none => none
    | some (o, S) => match run P S ops with
      | none => none
      | some (os, S) => some (o :: os, S)

/-- Specification: what an operation may report and do, where nodes are lists of keys and values. -/
def SpecStep (vsh : Nat → Nat → Nat) (A : Nat → KV) : Op → Out → (Nat → KV) → Prop
  | .alloc x _, o, A' => o = .unit ∧ A' = upd A x []
  | .get x k, o, A' => o = .val (look (A x) k) ∧ A' = A
  | .put x k v ty f, o, A' => o = .one (putSpec ty f (A x) k v).1 ∧ A' = upd A x (putSpec ty f (A x) k v).2
  | .del x k, o, A' => o = .was (look (A x) k).isSome ∧ A' = upd A x (delL (A x) k)
  | .multiPut x a, o, A' => ∃ r, o = .put r ∧ A' = upd A x (putUpto vsh a (A x) (reached a r)) ∧
      ∀ c, r = .more c → startOf a.lo a.loIncl < c ∧ c ≤ endOf a.hi a.hiIncl
  | .multiRemove x lo li hi hin f, o, A' => o = .num ((A x).filter (inRange lo li hi hin f)).length ∧
      A' = upd A x ((A x).filter (fun e => !inRange lo li hi hin f e))
  | .removeAll x, o, A' => o = .unit ∧ A' = upd A x []
  | .moveSize x y _, o, A' => ∃ k, k ≤ (A x).length ∧ o = .num k ∧ (k = 0 ∨ A y = []) ∧
      A' = upd (upd A x ((A x).take ((A x).length - k))) y ((A x).drop ((A x).length - k) ++ A y)
  | .moveEntries x y n, _, A' => ∃ k, k = min n (A x).length ∧ (k = 0 ∨ A y = []) ∧
      A' = upd (upd A x ((A x).take ((A x).length - k))) y ((A x).drop ((A x).length - k) ++ A y)
  | .copySize x y start _, o, A' => ∃ k, k ≤ (A y).length - start ∧ o = .num k ∧
      A' = upd A x (A x ++ ((A y).drop start).take k)
  | .copyEntries x y start n, _, A' => ∃ k, k ≤ (A y).length - start ∧ k ≤ n ∧
      A' = upd A x (A x ++ ((A y).drop start).take k)

/-- A history of the specification. -/
def SpecRun (vsh : Nat → Nat → Nat) : (Nat → KV) → List Op → List Out → (Nat → KV) → Prop
  | A, [], os, A' => os = [] ∧ A' = A
  | A, op :: ops, os, A' => ∃ o os' B, os = o :: os' ∧ SpecStep vsh A op o B ∧ SpecRun vsh B ops os' A'

/-- How the tree uses its nodes: a put is made when `has_room_for_put` says so, a range update names
keys that are there, ranges are not upside down, and entries are moved and copied between different
nodes, copied ones behind smaller ones. -/
def Used (P : Params) (S : Nat → PN) : Op → Prop
  | .put x _ _ _ _ => (S x).hasRoom P 1 = true
  | .multiPut x a => startOf a.lo a.loIncl ≤ a.hi + 1 ∧
      (a.type = .update → ∀ k, startOf a.lo a.loIncl ≤ k → k < endOf a.hi a.hiIncl → look ((S x).ents P) k ≠ none)
  | .moveSize x y _ => x ≠ y
  | .moveEntries x y _ => x ≠ y
  | .copySize x y start _ => ∀ a ∈ (S x).ents P, ∀ b ∈ ((S y).ents P).drop start, a.1 < b.1
  | .copyEntries x y start _ => ∀ a ∈ (S x).ents P, ∀ b ∈ ((S y).ents P).drop start, a.1 < b.1
  | _ => True

/-- A condition on all states of a run. -/
def Along (C : (Nat → PN) → Op → Prop) (P : Params) : (Nat → PN) → List Op → Prop
  | _, [] => True
  | S, op :: ops => C S op ∧ ∀ o S', step P S op = some (o, S') → Along C P S' ops

theorem upd_same {α : Type} {f : Nat → α} {x : Nat} {a : α} : upd f x a x = a := by simp [upd]
theorem upd_other {α : Type} {f : Nat → α} {x y : Nat} {a : α} (h : y ≠ x) : upd f x a y = f y := by simp [upd, h]

/-- What holds of the nodes of the program and of the lists. -/
structure Sim (P : Params) (S : Nat → PN) (A : Nat → KV) : Prop where
  good : ∀ x, Good P (S x)
  ents : ∀ x, (S x).ents P = A x
  sorted : ∀ x, Sorted (A x)

theorem Sim.upd1 {P : Params} {S : Nat → PN} {A : Nat → KV} {x : Nat} {t : PN} {l : KV} (h : Sim P S A) (hg : Good P t)
    (he : t.ents P = l) (hs : Sorted l) : Sim P (upd S x t) (upd A x l) := by
  refine ⟨fun y => ?_, fun y => ?_, fun y => ?_⟩ <;> by_cases hy : y = x
  · subst hy; rw [upd_same]; exact hg
  · rw [upd_other hy]; exact h.good y
  · subst hy; rw [upd_same, upd_same]; exact he
  · rw [upd_other hy, upd_other hy]; exact h.ents y
  · subst hy; rw [upd_same]; exact hs
  · rw [upd_other hy]; exact h.sorted y

theorem sorted_putSpec {l : KV} (h : Sorted l) (ty : PutType) (f : Option (Nat → Nat → Nat → Dec)) (k v : Nat) :
    Sorted (putSpec ty f l k v).2 := by
  simp only [putSpec]
  split
  · split
    · exact h
    · exact sorted_setL h k v
  · split
    · exact h
    · split
      · exact h
      · exact sorted_setL h k v

theorem sorted_putUpto {vsh : Nat → Nat → Nat} {a : Put} {c : Nat} : ∀ {l : KV}, Sorted l → Sorted (putUpto vsh a l c) := by
  intro l h
  simp only [putUpto]
  generalize List.range' _ _ = ks
  induction ks generalizing l with
  | nil => exact h
  | cons k ks ih => exact ih (sorted_putOne h a.type a.filter a.v _ k)

theorem get_spec {P : Params} {s : PN} (hs : Sorted (s.ents P)) (k : Nat) : s.get P k = look (s.ents P) k := by
  obtain ⟨A, B, hc⟩ := find_cut hs k
  by_cases hf : s.foundAt P (s.find P k) k = true
  · obtain ⟨e, B', rfl, hk, hg, hB, he⟩ := hc.found hs hf
    rw [he, look_mid hc.low]
    simp only [PN.get, hf, if_true, hg]
    rfl
  · have hf' : s.foundAt P (s.find P k) k = false := by simpa using hf
    obtain ⟨hB, he, hl⟩ := hc.notFound hs hf'
    simp [PN.get, hf', hl]

theorem take_sorted {l : KV} (h : Sorted l) (n : Nat) : Sorted (l.take n) := List.Pairwise.sublist (List.take_sublist n l) h
theorem drop_sorted {l : KV} (h : Sorted l) (n : Nat) : Sorted (l.drop n) := List.Pairwise.sublist (List.drop_sublist n l) h

theorem copy_sorted {l m : KV} (h : Sorted l) (hm : Sorted m) {start n : Nat} (hx : ∀ a ∈ l, ∀ b ∈ m.drop start, a.1 < b.1) :
    Sorted (l ++ (m.drop start).take n) :=
  h.append (take_sorted (drop_sorted hm start) n) (fun a ha b hb => hx a ha b (List.mem_of_mem_take hb))

theorem move_sim {P : Params} {S : Nat → PN} {A : Nat → KV} {x y k : Nat} {s' d' : PN} (h : Sim P S A) (hxy : x ≠ y)
    (g1 : Good P s') (g2 : Good P d') (e1 : s'.ents P = (A x).take ((A x).length - k))
    (e2 : d'.ents P = (A x).drop ((A x).length - k) ++ A y) (hk : k = 0 ∨ A y = []) :
    Sim P (upd (upd S x s') y d') (upd (upd A x ((A x).take ((A x).length - k))) y ((A x).drop ((A x).length - k) ++ A y)) := by
  refine (h.upd1 g1 e1 (take_sorted (h.sorted x) _)).upd1 g2 e2 ?_
  rcases hk with rfl | hk
  · simpa using h.sorted y
  · rw [hk, List.append_nil]
    exact drop_sorted (h.sorted x) _

theorem step_sim {P : Params} (hP : P.Ok) (hps : 0 < P.ps) (hb : P.base ≤ P.data) {S S' : Nat → PN} {A : Nat → KV} {op : Op} {o : Out}
    (h : Sim P S A) (hu : Used P S op) (hr : step P S op = some (o, S')) : ∃ A', SpecStep P.vsh A op o A' ∧ Sim P S' A' := by
  cases op with
  | alloc x pre =>
    simp only [step, Option.some.injEq, Prod.mk.injEq] at hr
    obtain ⟨rfl, rfl⟩ := hr
    refine ⟨_, ⟨rfl, rfl⟩, h.upd1 ⟨⟨?_, Nat.zero_le _, rfl, ?_, ?_⟩, ?_⟩ rfl List.Pairwise.nil⟩
    · intro i hi; exact absurd hi (by simp [PN.fresh])
    · intro e he; exact absurd he (by simp [PN.fresh])
    · intro i; simp [PN.fresh, cnt]
    · simp [PN.fresh, Params.fits]; omega
  | get x k =>
    simp only [step, Option.some.injEq, Prod.mk.injEq] at hr
    obtain ⟨rfl, rfl⟩ := hr
    have hs : Sorted ((S x).ents P) := by rw [h.ents]; exact h.sorted x
    exact ⟨A, ⟨by rw [get_spec hs, h.ents], rfl⟩, h⟩
  | put x k v ty f =>
    have hs : Sorted ((S x).ents P) := by rw [h.ents]; exact h.sorted x
    obtain ⟨t, t1, t2, t3⟩ := put_spec hP hps (h.good x) hs hu k v ty f
    simp only [step, t1, Option.map_some, Option.some.injEq, Prod.mk.injEq] at hr
    obtain ⟨rfl, rfl⟩ := hr
    rw [h.ents] at t3
    exact ⟨_, ⟨by rw [h.ents], rfl⟩, h.upd1 t2 t3 (sorted_putSpec (h.sorted x) ty f k v)⟩
  | del x k =>
    have hs : Sorted ((S x).ents P) := by rw [h.ents]; exact h.sorted x
    obtain ⟨t, t1, t2, t3⟩ := del_spec (h.good x) hs k
    simp only [step, t1, Option.map_some, Option.some.injEq, Prod.mk.injEq] at hr
    obtain ⟨rfl, rfl⟩ := hr
    rw [h.ents] at t3
    exact ⟨_, ⟨by rw [h.ents], rfl⟩, h.upd1 t2 t3 (sorted_delL (h.sorted x) k)⟩
  | multiPut x a =>
    have hs : Sorted ((S x).ents P) := by rw [h.ents]; exact h.sorted x
    simp only [step] at hr
    cases hm : (S x).multiPut P a with
    | none => rw [hm] at hr; exact absurd hr (by simp)
    | some q =>
      obtain ⟨r, t⟩ := q
      rw [hm] at hr
      simp only [Option.map_some, Option.some.injEq, Prod.mk.injEq] at hr
      obtain ⟨rfl, rfl⟩ := hr
      obtain ⟨t1, t2, t3, t4⟩ := multiPut_spec hP hps (h.good x) hs hu.2 hm
      rw [h.ents] at t2
      exact ⟨_, ⟨r, rfl, rfl, fun c hc => ⟨(t4 c hc).1, (t4 c hc).2.1⟩⟩, h.upd1 t1 t2 (sorted_putUpto (h.sorted x))⟩
  | multiRemove x lo li hi hin f =>
    have hs : Sorted ((S x).ents P) := by rw [h.ents]; exact h.sorted x
    obtain ⟨t, t1, t2, t3⟩ := multiRemove_spec (h.good x) hs lo li hi hin f
    simp only [step, t1, Option.map_some, Option.some.injEq, Prod.mk.injEq] at hr
    obtain ⟨rfl, rfl⟩ := hr
    rw [h.ents] at t3
    exact ⟨_, ⟨by rw [h.ents], rfl⟩, h.upd1 t2 t3 (List.Pairwise.filter _ (h.sorted x))⟩
  | removeAll x =>
    simp only [step, Option.some.injEq, Prod.mk.injEq] at hr
    obtain ⟨rfl, rfl⟩ := hr
    obtain ⟨t1, t2⟩ := removeAll_spec (h.good x)
    exact ⟨_, ⟨rfl, rfl⟩, h.upd1 t1 t2 List.Pairwise.nil⟩
  | moveSize x y size =>
    simp only [step] at hr
    cases hm : (S x).moveOut P (S y) true size with
    | none => rw [hm] at hr; exact absurd hr (by simp)
    | some q =>
      obtain ⟨r, s', d'⟩ := q
      rw [hm] at hr
      simp only [Option.map_some, Option.some.injEq, Prod.mk.injEq] at hr
      obtain ⟨rfl, rfl⟩ := hr
      obtain ⟨k, k1, k2, k3, k4, k5, k6, k7, _⟩ := moveOut_spec (h.good x) (h.good y) hm
      rw [h.ents] at k1 k4 k5
      rw [h.ents] at k5 k6
      exact ⟨_, ⟨k, k1, by rw [(k7 rfl).1], k6, rfl⟩, move_sim h hu k2 k3 k4 k5 k6⟩
  | moveEntries x y n =>
    simp only [step] at hr
    cases hm : (S x).moveOut P (S y) false n with
    | none => rw [hm] at hr; exact absurd hr (by simp)
    | some q =>
      obtain ⟨r, s', d'⟩ := q
      rw [hm] at hr
      simp only [Option.map_some, Option.some.injEq, Prod.mk.injEq] at hr
      obtain ⟨rfl, rfl⟩ := hr
      obtain ⟨k, k1, k2, k3, k4, k5, k6, _, k8⟩ := moveOut_spec (h.good x) (h.good y) hm
      have k8 := k8 rfl
      rw [h.ents] at k1 k4 k5 k8
      rw [h.ents] at k5 k6
      exact ⟨_, ⟨k, k8, k6, rfl⟩, move_sim h hu k2 k3 k4 k5 k6⟩
  | copySize x y start size =>
    simp only [step] at hr
    cases hm : (S x).copyBySize P (S y) start size with
    | none => rw [hm] at hr; exact absurd hr (by simp)
    | some q =>
      obtain ⟨r, t⟩ := q
      rw [hm] at hr
      simp only [Option.map_some, Option.some.injEq, Prod.mk.injEq] at hr
      obtain ⟨rfl, rfl⟩ := hr
      obtain ⟨k1, k2, k3, _⟩ := copyBySize_spec (h.good x) hm
      simp only [Used] at hu
      rw [h.ents, h.ents] at hu
      rw [h.ents] at k1 k3
      rw [h.ents] at k3
      exact ⟨_, ⟨r, k1, rfl, rfl⟩, h.upd1 k2 k3 (copy_sorted (h.sorted x) (h.sorted y) hu)⟩
  | copyEntries x y start n =>
    simp only [step] at hr
    cases hm : (S x).copyByEntries P (S y) start n with
    | none => rw [hm] at hr; exact absurd hr (by simp)
    | some q =>
      obtain ⟨r, t⟩ := q
      rw [hm] at hr
      simp only [Option.map_some, Option.some.injEq, Prod.mk.injEq] at hr
      obtain ⟨rfl, rfl⟩ := hr
      obtain ⟨k, k0, k1, k2, k3, _⟩ := copyByEntries_spec (h.good x) hm
      simp only [Used] at hu
      rw [h.ents, h.ents] at hu
      rw [h.ents] at k1 k3
      rw [h.ents] at k3
      exact ⟨_, ⟨k, k1, k0, rfl⟩, h.upd1 k2 k3 (copy_sorted (h.sorted x) (h.sorted y) hu)⟩

theorem run_sim {P : Params} (hP : P.Ok) (hps : 0 < P.ps) (hb : P.base ≤ P.data) : ∀ (ops : List Op) {S S' : Nat → PN} {A : Nat → KV}
    {os : List Out}, Sim P S A → Along (Used P) P S ops → run P S ops = some (os, S') →
    ∃ A', SpecRun P.vsh A ops os A' ∧ Sim P S' A'
  | [], S, S', A, os, h, _, hr => by
    simp only [run, Option.some.injEq, Prod.mk.injEq] at hr
    obtain ⟨rfl, rfl⟩ := hr
    exact ⟨A, ⟨rfl, rfl⟩, h⟩
  | op :: ops, S, S', A, os, h, hu, hr => by
    simp only [run] at hr
    cases hs : step P S op with
    | none => rw [hs] at hr; exact absurd hr (by simp)
    | some q =>
      obtain ⟨o, S1⟩ := q
      rw [hs] at hr
      simp only at hr
      cases ht : run P S1 ops with
      | none => rw [ht] at hr; exact absurd hr (by simp)
      | some q =>
        obtain ⟨os1, S2⟩ := q
        rw [ht] at hr
        simp only [Option.some.injEq, Prod.mk.injEq] at hr
        obtain ⟨rfl, rfl⟩ := hr
        obtain ⟨B, b1, b2⟩ := step_sim hP hps hb h hu.1 hs
        obtain ⟨A', a1, a2⟩ := run_sim hP hps hb ops b2 (hu.2 o S1 hs) ht
        exact ⟨A', ⟨o, os1, B, rfl, b1, a1⟩, a2⟩

theorem sim_fresh {P : Params} (hb : P.base ≤ P.data) (pre : Nat → Nat → PE) : Sim P (fun x => PN.fresh (pre x)) (fun _ => []) := by
  refine ⟨fun x => ⟨⟨?_, Nat.zero_le _, rfl, ?_, ?_⟩, ?_⟩, fun _ => rfl, fun _ => List.Pairwise.nil⟩
  · intro i hi; exact absurd hi (by simp [PN.fresh])
  · intro e he; exact absurd he (by simp [PN.fresh])
  · intro i; simp [PN.fresh, cnt]
  · simp [PN.fresh, Params.fits]; omega

/-- Every history of operations on leaf nodes: as long as none of them destroys the node, what they
report and what every node reads, key by key and value by value, is what a sorted list would give.

Missing for the whole property: that no operation destroys the node (`C77_no_corruption_partial` has
conditions that the tree does not ensure, see `C77_…_violated`), and range updates of keys that are
not there. -/
theorem C77_history_partial {P : Params} (hP : P.Ok) (hps : 0 < P.ps) (hb : P.base ≤ P.data) {pre : Nat → Nat → PE} {ops : List Op}
    {os : List Out} {S : Nat → PN} (hu : Along (Used P) P (fun x => PN.fresh (pre x)) ops)
    (hr : run P (fun x => PN.fresh (pre x)) ops = some (os, S)) :
    ∃ A, SpecRun P.vsh (fun _ => []) ops os A ∧ ∀ x, (S x).ents P = A x ∧ Sorted (A x) := by
  obtain ⟨A, a1, a2⟩ := run_sim hP hps hb ops (sim_fresh hb pre) hu hr
  exact ⟨A, a1, fun x => ⟨a2.ents x, a2.sorted x⟩⟩

/-- Conditions under which no operation destroys a node: the values of a range put share one prefix,
entries are moved into a node without prefixes, copied by a size that is not more than what is free
without compaction, and copied by number into a node without holes that has room for them and for one
more prefix. -/
def Safe (P : Params) (S : Nat → PN) : Op → Prop
  | .multiPut _ a => ∀ k, startOf a.lo a.loIncl ≤ k → k < endOf a.hi a.hiIncl → P.vp (P.vsh a.v (k - a.first)) = P.vp a.v
  | .moveSize _ y _ => (S y).suf = [] ∧ (S y).tail = 0
  | .moveEntries _ y _ => (S y).suf = [] ∧ (S y).tail = 0
  | .copySize x _ _ size => size ≤ (S x).avail P
  | .copyEntries x y start n => (S y).suf.length - start ≤ n ∧ (S x).holes = 0 ∧
      newPre ((S y).suf.drop start) [] * P.ps + ((S y).suf.length - start) * P.ss ≤ (S x).avail P ∧
      (newPre ((S y).suf.drop start) [] + 1) * P.ps + P.ss ≤ (S x).avail P
  | _ => True

theorem step_isSome {P : Params} (hP : P.Ok) (hps : 0 < P.ps) {S : Nat → PN} {A : Nat → KV} {op : Op}
    (h : Sim P S A) (hu : Used P S op) (hsafe : Safe P S op) : ∃ r, step P S op = some r := by
  have hs : ∀ x, Sorted ((S x).ents P) := fun x => by rw [h.ents]; exact h.sorted x
  cases op with
  | alloc x pre => exact ⟨_, rfl⟩
  | get x k => exact ⟨_, rfl⟩
  | put x k v ty f =>
    obtain ⟨t, t1, _⟩ := put_spec hP hps (h.good x) (hs x) hu k v ty f
    exact ⟨_, by rw [step, t1]; rfl⟩
  | del x k =>
    obtain ⟨t, t1, _⟩ := del_spec (h.good x) (hs x) k
    exact ⟨_, by rw [step, t1]; rfl⟩
  | multiPut x a =>
    obtain ⟨r, t, t1⟩ := multiPut_isSome hP hps (h.good x) (hs x) hu.1 hu.2 hsafe
    exact ⟨_, by rw [step, t1]; rfl⟩
  | multiRemove x lo li hi hin f =>
    obtain ⟨t, t1, _⟩ := multiRemove_spec (h.good x) (hs x) lo li hi hin f
    exact ⟨_, by rw [step, t1]; rfl⟩
  | removeAll x => exact ⟨_, rfl⟩
  | moveSize x y size =>
    obtain ⟨r, t1⟩ := moveOut_isSome (bySize := true) (limit := size) (h.good x) (h.good y) hsafe.1 hsafe.2
    exact ⟨_, by rw [step, t1]; rfl⟩
  | moveEntries x y n =>
    obtain ⟨r, t1⟩ := moveOut_isSome (bySize := false) (limit := n) (h.good x) (h.good y) hsafe.1 hsafe.2
    exact ⟨_, by rw [step, t1]; rfl⟩
  | copySize x y start size =>
    obtain ⟨r, t1⟩ := copyBySize_isSome (src := S y) (start := start) hP (h.good x) hsafe
    exact ⟨_, by rw [step, t1]; rfl⟩
  | copyEntries x y start n =>
    obtain ⟨sz, t, t1, _⟩ := copyByEntries_all hP (h.good x) hsafe.1 hsafe.2.1 hsafe.2.2.1 hsafe.2.2.2
    exact ⟨_, by rw [step, t1]; rfl⟩

theorem run_isSome {P : Params} (hP : P.Ok) (hps : 0 < P.ps) (hb : P.base ≤ P.data) : ∀ (ops : List Op) {S : Nat → PN} {A : Nat → KV},
    Sim P S A → Along (Used P) P S ops → Along (Safe P) P S ops → ∃ r, run P S ops = some r
  | [], _, _, _, _, _ => ⟨_, rfl⟩
  | op :: ops, S, A, h, hu, hsf => by
    obtain ⟨⟨o, S1⟩, hs⟩ := step_isSome hP hps h hu.1 hsf.1
    obtain ⟨B, _, b2⟩ := step_sim hP hps hb h hu.1 hs
    obtain ⟨⟨os, S2⟩, hr⟩ := run_isSome hP hps hb ops b2 (hu.2 o S1 hs) (hsf.2 o S1 hs)
    exact ⟨(o :: os, S2), by simp only [run, hs, hr]⟩

/-- A history that keeps to `Safe` never destroys a node: no slot is taken that is not there, the two
areas never overlap and no count of a prefix goes below zero.  And a copy of a whole node that keeps
to `Safe` copies everything.

Missing: copies and range puts outside `Safe`, which do destroy nodes (`C77_merge_destroys_violated`,
`C77_shifted_put_violated`). -/
theorem C77_no_corruption_partial {P : Params} (hP : P.Ok) (hps : 0 < P.ps) (hb : P.base ≤ P.data) {pre : Nat → Nat → PE}
    {ops : List Op} (hu : Along (Used P) P (fun x => PN.fresh (pre x)) ops)
    (hs : Along (Safe P) P (fun x => PN.fresh (pre x)) ops) :
    ∃ os S, run P (fun x => PN.fresh (pre x)) ops = some (os, S) ∧
      (∀ x, (S x).tail * P.ps + (P.base + ((S x).ents P).length * P.ss) ≤ P.data) ∧
      (∀ x y start n, Safe P S (.copyEntries x y start n) →
        ∃ sz t, (S x).copyByEntries P (S y) start n = some (sz, t) ∧ t.ents P = (S x).ents P ++ ((S y).ents P).drop start) := by
  obtain ⟨⟨os, S⟩, hr⟩ := run_isSome hP hps hb ops (sim_fresh hb pre) hu hs
  obtain ⟨A, _, hsim⟩ := run_sim hP hps hb ops (sim_fresh hb pre) hu hr
  refine ⟨os, S, hr, fun x => ?_, fun x y start n h => ?_⟩
  · have := (hsim.good x).fits
    simp only [Params.fits, decide_eq_true_eq] at this
    rw [ents_length]
    exact this
  · obtain ⟨sz, t, t1, _, t3⟩ := copyByEntries_all hP (hsim.good x) h.1 h.2.1 h.2.2.1 h.2.2.2
    exact ⟨sz, t, t1, t3⟩

/-- After any history of used operations: a split by size takes at least one entry out of a node that
has some into a node that has none. -/
theorem C77_split_moves_partial {P : Params} (hP : P.Ok) (hps : 0 < P.ps) (hb : P.base ≤ P.data) {pre : Nat → Nat → PE} {ops : List Op}
    {os : List Out} {S : Nat → PN} (hu : Along (Used P) P (fun x => PN.fresh (pre x)) ops)
    (hr : run P (fun x => PN.fresh (pre x)) ops = some (os, S)) {x size : Nat} {p : Nat → PE} (hne : (S x).ents P ≠ []) :
    ∃ k s d, (S x).moveOut P (PN.fresh p) true size = some (k, s, d) ∧ 0 < k ∧ s.ents P ++ d.ents P = (S x).ents P ∧ (d.ents P).length = k := by
  obtain ⟨A, _, hsim⟩ := run_sim hP hps hb ops (sim_fresh hb pre) hu hr
  have hg : Good P (PN.fresh p) := (sim_fresh hb (fun _ => p)).good 0
  obtain ⟨⟨r, s, d⟩, hm⟩ := moveOut_isSome (bySize := true) (limit := size) (hsim.good x) hg rfl rfl
  obtain ⟨k, k1, k2, k3, k4, k5, k6, k7, _⟩ := moveOut_spec (hsim.good x) hg hm
  have hocc : (PN.fresh p).occupied P ≤ size := by
    simp only [PN.occupied, PN.availSize, PN.holes, PN.avail, PN.fresh, Params.base, List.length_nil]
    simp only [Nat.sub_self, Nat.not_lt_zero, if_false]
    omega
  have he : (PN.fresh p).ents P = [] := rfl
  rw [he, List.append_nil] at k5
  refine ⟨r, s, d, hm, ?_, ?_, ?_⟩
  · rw [(k7 rfl).1]; exact (k7 rfl).2 hocc hne
  · rw [k4, k5, List.take_append_drop]
  · rw [k5, (k7 rfl).1, List.length_drop]; omega

/-! ## Non-vacuity -/

/-- Nodes of 300 bytes; the last four bits of keys and values are their suffixes. -/
def exP : Params :=
  { data := 300, ps := 10, ss := 6, bits := reqdBits 300 10 6, kp := (· / 16), ks := (· % 16), kmk := fun a b => a * 16 + b,
    vp := (· / 16), vs := (· % 16), vmk := fun a b => a * 16 + b, vsh := fun v d => v + d }

theorem exP_ok : exP.Ok :=
  ⟨fun k => by simp only [exP]; omega, fun v => by simp only [exP]; omega, by decide⟩

/-- Puts, a range put, a range remove, a split and a merge. -/
def exOps : List Op :=
  [.put 0 3 100 .insert none, .multiPut 0 ⟨32, true, 40, false, 32, 200, .upsert, none⟩, .get 0 35, .del 0 36,
   .put 0 3 101 .upsert none, .multiRemove 0 33 true 34 true (fun _ _ => true), .moveSize 0 1 20, .get 1 39, .removeAll 2,
   .copySize 2 0 0 100, .copyEntries 2 1 0 100]

/-- A check of `Used`. -/
def usedB (P : Params) (S : Nat → PN) : Op → Bool
  | .put x _ _ _ _ => (S x).hasRoom P 1
  | .multiPut _ a => decide (startOf a.lo a.loIncl ≤ a.hi + 1) && decide (a.type ≠ .update)
  | .moveSize x y _ => decide (x ≠ y)
  | .moveEntries x y _ => decide (x ≠ y)
  | .copySize x y start _ => ((S x).ents P).all (fun a => (((S y).ents P).drop start).all (fun b => decide (a.1 < b.1)))
  | .copyEntries x y start _ => ((S x).ents P).all (fun a => (((S y).ents P).drop start).all (fun b => decide (a.1 < b.1)))
  | _ => true

theorem usedB_sound (P : Params) (S : Nat → PN) (op : Op) (h : usedB P S op = true) : Used P S op := by
  cases op <;> simp only [usedB, Bool.and_eq_true, decide_eq_true_eq, List.all_eq_true] at h <;> simp only [Used]
  · exact h
  · exact ⟨h.1, fun hc => absurd hc h.2⟩
  · exact h
  · exact h
  · exact h
  · exact h

/-- A check of `Safe`. -/
def safeB (P : Params) (S : Nat → PN) : Op → Bool
  | .multiPut _ a => (List.range (endOf a.hi a.hiIncl)).all (fun k => decide (P.vp (P.vsh a.v (k - a.first)) = P.vp a.v))
  | .moveSize _ y _ => decide ((S y).suf = []) && decide ((S y).tail = 0)
  | .moveEntries _ y _ => decide ((S y).suf = []) && decide ((S y).tail = 0)
  | .copySize x _ _ size => decide (size ≤ (S x).avail P)
  | .copyEntries x y start n => decide ((S y).suf.length - start ≤ n ∧ (S x).holes = 0 ∧
      newPre ((S y).suf.drop start) [] * P.ps + ((S y).suf.length - start) * P.ss ≤ (S x).avail P ∧
      (newPre ((S y).suf.drop start) [] + 1) * P.ps + P.ss ≤ (S x).avail P)
  | _ => true

theorem safeB_sound (P : Params) (S : Nat → PN) (op : Op) (h : safeB P S op = true) : Safe P S op := by
  cases op <;> simp only [safeB, Bool.and_eq_true, decide_eq_true_eq, List.all_eq_true, List.mem_range] at h <;> simp only [Safe]
  · exact fun k _ hk => h k hk
  · exact h
  · exact h
  · exact h
  · exact h

def alongB (c : (Nat → PN) → Op → Bool) (P : Params) : (Nat → PN) → List Op → Bool
  | _, [] => true
  | S, op :: ops => c S op && match step P S op with
    | none => true
    | some (_, S) => alongB c P S ops

theorem alongB_sound {c : (Nat → PN) → Op → Bool} {C : (Nat → PN) → Op → Prop} {P : Params} (hc : ∀ S op, c S op = true → C S op) :
    ∀ (ops : List Op) (S : Nat → PN), alongB c P S ops = true → Along C P S ops
  | [], _, _ => trivial
  | op :: ops, S, h => by
    simp only [alongB, Bool.and_eq_true] at h
    refine ⟨hc S op h.1, fun o S' hs => ?_⟩
    have := h.2
    rw [hs] at this
    exact alongB_sound hc ops S' this

example : Along (Used exP) exP (fun _ => PN.fresh (fun _ => ⟨7, 7, 7⟩)) exOps ∧
    Along (Safe exP) exP (fun _ => PN.fresh (fun _ => ⟨7, 7, 7⟩)) exOps :=
  ⟨alongB_sound (usedB_sound exP) _ _ (by decide +kernel), alongB_sound (safeB_sound exP) _ _ (by decide +kernel)⟩

example : exP.Ok ∧ 0 < exP.ps ∧ exP.base ≤ exP.data ∧
    (run exP (fun _ => PN.fresh (fun _ => ⟨7, 7, 7⟩)) exOps).map (fun r => (r.1, [0, 1, 2].map (fun x => (r.2 x).ents exP))) =
      some ([.one .ok, .put .done, .val (some 203), .was true, .one .ok, .num 2, .num 2, .val (some 207), .unit, .num 4, .num 22],
        [[(3, 101), (32, 200), (35, 203), (37, 205)], [(38, 206), (39, 207)],
         [(3, 101), (32, 200), (35, 203), (37, 205), (38, 206), (39, 207)]]) := by
  exact ⟨exP_ok, by decide, by decide, by decide +kernel⟩

end HS.Prefix
