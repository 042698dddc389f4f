import Verif.Snap.Spec
/-! # Lemmas: states, replay, and the invariant of a member -/
namespace HS.Snap

theorem mem_appsFrom (es : List Ent) : ∀ (i n v : Nat),
    (n, v) ∈ appsFrom i es ↔ ∃ j, es[j]? = some (.app v) ∧ n = i + j + 1 := by
  induction es with
  | nil => intro i n v; simp [appsFrom]
  | cons e es ih =>
    intro i n v
    cases e with
    | conf =>
      simp only [appsFrom]
      rw [ih]
      constructor
      · rintro ⟨j, h, rfl⟩; exact ⟨j + 1, by simpa using h, by omega⟩
      · rintro ⟨j, h, rfl⟩
        cases j with
        | zero => simp at h
        | succ j => exact ⟨j, by simpa using h, by omega⟩
    | app w =>
      simp only [appsFrom, List.mem_cons, Prod.mk.injEq]
      rw [ih]
      constructor
      · rintro (⟨rfl, rfl⟩ | ⟨j, h, rfl⟩)
        · exact ⟨0, by simp, by omega⟩
        · exact ⟨j + 1, by simpa using h, by omega⟩
      · rintro ⟨j, h, rfl⟩
        cases j with
        | zero => left; simp at h; exact ⟨by omega, h.symm⟩
        | succ j => right; exact ⟨j, by simpa using h, by omega⟩

theorem holds_apps (g : List Ent) (l : Nat) : Holds g l (appsFrom 0 (g.take l)) := by
  constructor
  · intro n v hn hc
    rw [mem_appsFrom]
    refine ⟨n - 1, ?_, by have := hc.1; omega⟩
    rw [List.getElem?_take_of_lt (by have := hc.1; omega)]
    exact hc.2
  · rintro ⟨n, v⟩ hp
    rw [mem_appsFrom] at hp
    obtain ⟨j, h, rfl⟩ := hp
    refine ⟨by simp, ?_⟩
    have : 0 + j + 1 - 1 = j := by omega
    simp only [this]
    rw [List.getElem?_take] at h
    split at h
    · exact h
    · cases h

theorem Holds.mono {g : List Ent} {k k' : Nat} {l} (h : Holds g k l) (hk : k' ≤ k) : Holds g k' l :=
  ⟨fun n v hn hc => h.1 n v (Nat.le_trans hn hk) hc, h.2⟩

theorem com_lt {g : List Ent} {n v : Nat} (h : Com g n v) : n ≤ g.length := by
  have := (List.getElem?_eq_some_iff.1 h.2).1
  have := h.1
  omega

theorem com_snoc {g : List Ent} {n v : Nat} (e : Ent) (h : Com g n v) : Com (g ++ [e]) n v := by
  refine ⟨h.1, ?_⟩
  rw [List.getElem?_append_left ((List.getElem?_eq_some_iff.1 h.2).1)]
  exact h.2

theorem com_of_snoc {g : List Ent} {n v : Nat} (e : Ent) (hn : n ≤ g.length) (h : Com (g ++ [e]) n v) :
    Com g n v := by
  refine ⟨h.1, ?_⟩
  have h2 := h.2
  rw [List.getElem?_append_left (by have := h.1; omega)] at h2
  exact h2

theorem Holds.snoc {g : List Ent} {k : Nat} {l} (e : Ent) (h : Holds g k l) (hk : k ≤ g.length) :
    Holds (g ++ [e]) k l :=
  ⟨fun n v hn hc => h.1 n v hn (com_of_snoc e (Nat.le_trans hn hk) hc), fun p hp => com_snoc e (h.2 p hp)⟩

theorem Holds.add {g : List Ent} {k : Nat} {l} {p : Nat × Nat} (h : Holds g k l) (hp : Com g p.1 p.2) :
    Holds g k (l ++ [p]) := by
  refine ⟨fun n v hn hc => List.mem_append_left _ (h.1 n v hn hc), fun q hq => ?_⟩
  rcases List.mem_append.1 hq with hq | hq
  · exact h.2 q hq
  · rw [List.mem_singleton.1 hq]; exact hp

/-! ## Replay -/

theorem logFound_frame (d : Dev) (n : Nat) :
    ∃ m a, d.logFound n = { d with map := m, app := a } := by
  unfold Dev.logFound
  split
  · exact ⟨_, _, rfl⟩
  · split
    · exact ⟨_, _, rfl⟩
    · split
      · split <;> exact ⟨_, _, rfl⟩
      · exact ⟨_, _, rfl⟩

theorem logFound_app (d : Dev) (n : Nat) (p : Nat × Nat) : p ∈ (d.logFound n).app ↔
    p ∈ d.app ∨ (p.1 = n ∧ d.snp < n ∧ d.cp < n ∧ n ≤ d.dc ∧ d.entry? n = some (.app p.2)) := by
  unfold Dev.logFound Dev.skips
  by_cases h1 : n ≤ d.snp
  · simp only [h1, decide_true, if_true]
    constructor
    · exact Or.inl
    · rintro (h | h)
      · exact h
      · omega
  · simp only [h1, decide_false]
    by_cases h2 : n ≤ d.cp
    · rw [if_neg (by simp), if_pos h2]
      constructor
      · exact Or.inl
      · rintro (h | h)
        · exact h
        · omega
    · rw [if_neg (by simp), if_neg h2]
      cases he : d.entry? n with
      | none => simp
      | some e =>
        cases e with
        | conf => simp
        | app v =>
          simp only []
          by_cases h3 : n > d.dc
          · rw [if_pos h3]
            constructor
            · exact Or.inl
            · rintro (h | h)
              · exact h
              · omega
          · rw [if_neg h3]
            simp only [List.mem_append, List.mem_singleton, Option.some.injEq, Ent.app.injEq]
            constructor
            · rintro (h | h)
              · exact .inl h
              · subst h; exact .inr ⟨rfl, by omega, by omega, by omega, rfl⟩
            · rintro (h | ⟨h, _, _, _, h'⟩)
              · exact .inl h
              · right; cases p; simp_all

theorem logFound_map (d : Dev) (n m : Nat) : m ∈ (d.logFound n).map ↔
    m ∈ d.map ∨ (m = n ∧ d.snp < n ∧ d.cp < n ∧ d.dc < n ∧ ∃ v, d.entry? n = some (.app v)) := by
  unfold Dev.logFound Dev.skips
  by_cases h1 : n ≤ d.snp
  · simp only [h1, decide_true, if_true]
    constructor
    · exact Or.inl
    · rintro (h | h)
      · exact h
      · omega
  · simp only [h1, decide_false]
    by_cases h2 : n ≤ d.cp
    · rw [if_neg (by simp), if_pos h2]
      constructor
      · exact Or.inl
      · rintro (h | h)
        · exact h
        · omega
    · rw [if_neg (by simp), if_neg h2]
      cases he : d.entry? n with
      | none => simp
      | some e =>
        cases e with
        | conf => simp
        | app v =>
          simp only []
          by_cases h3 : n > d.dc
          · rw [if_pos h3]
            simp only [List.mem_cons, Option.some.injEq, Ent.app.injEq, exists_eq', and_true]
            constructor
            · rintro (h | h)
              · exact .inr ⟨h, by omega, by omega, by omega⟩
              · exact .inl h
            · rintro (h | h)
              · exact .inr h
              · exact .inl h.1
          · rw [if_neg h3]
            constructor
            · exact Or.inl
            · rintro (h | h)
              · exact h
              · omega

theorem replay_frame (k : Nat) : ∀ (d : Dev) (n : Nat), ∃ m a, d.replay n k = { d with map := m, app := a } := by
  induction k with
  | zero => intro d n; exact ⟨_, _, rfl⟩
  | succ k ih =>
    intro d n
    obtain ⟨m, a, h⟩ := logFound_frame d n
    obtain ⟨m', a', h'⟩ := ih (d.logFound n) (n + 1)
    refine ⟨m', a', ?_⟩
    simp only [Dev.replay]
    rw [h', h]

theorem replay_app (k : Nat) : ∀ (d : Dev) (n : Nat) (p : Nat × Nat), p ∈ (d.replay n k).app ↔
    p ∈ d.app ∨ (n ≤ p.1 ∧ p.1 < n + k ∧ d.snp < p.1 ∧ d.cp < p.1 ∧ p.1 ≤ d.dc ∧
      d.entry? p.1 = some (.app p.2)) := by
  induction k with
  | zero => intro d n p; simp only [Dev.replay]; constructor
            · exact Or.inl
            · rintro (h | h)
              · exact h
              · omega
  | succ k ih =>
    intro d n p
    simp only [Dev.replay]
    rw [ih, logFound_app]
    obtain ⟨m, a, h⟩ := logFound_frame d n
    have e1 : (d.logFound n).snp = d.snp := by rw [h]
    have e2 : (d.logFound n).cp = d.cp := by rw [h]
    have e3 : (d.logFound n).dc = d.dc := by rw [h]
    have e4 : ∀ x, (d.logFound n).entry? x = d.entry? x := by intro x; rw [h]; rfl
    rw [e1, e2, e3, e4]
    constructor
    · rintro ((h | ⟨h1, h2, h3, h4, h5⟩) | ⟨h1, h2, h3, h4, h5, h6⟩)
      · exact .inl h
      · subst h1; exact .inr ⟨by omega, by omega, h2, h3, h4, h5⟩
      · exact .inr ⟨by omega, by omega, h3, h4, h5, h6⟩
    · rintro (h | ⟨h1, h2, h3, h4, h5, h6⟩)
      · exact .inl (.inl h)
      · by_cases hx : p.1 = n
        · refine .inl (.inr ⟨hx, ?_⟩); rw [← hx]; exact ⟨h3, h4, h5, h6⟩
        · exact .inr ⟨by omega, by omega, h3, h4, h5, h6⟩

theorem replay_map (k : Nat) : ∀ (d : Dev) (n m : Nat), m ∈ (d.replay n k).map ↔
    m ∈ d.map ∨ (n ≤ m ∧ m < n + k ∧ d.snp < m ∧ d.cp < m ∧ d.dc < m ∧
      ∃ v, d.entry? m = some (.app v)) := by
  induction k with
  | zero => intro d n p; simp only [Dev.replay]; constructor
            · exact Or.inl
            · rintro (h | h)
              · exact h
              · omega
  | succ k ih =>
    intro d n p
    simp only [Dev.replay]
    rw [ih, logFound_map]
    obtain ⟨m, a, h⟩ := logFound_frame d n
    have e1 : (d.logFound n).snp = d.snp := by rw [h]
    have e2 : (d.logFound n).cp = d.cp := by rw [h]
    have e3 : (d.logFound n).dc = d.dc := by rw [h]
    have e4 : ∀ x, (d.logFound n).entry? x = d.entry? x := by intro x; rw [h]; rfl
    rw [e1, e2, e3, e4]
    constructor
    · rintro ((h | ⟨h1, h2, h3, h4, h5⟩) | ⟨h1, h2, h3, h4, h5, h6⟩)
      · exact .inl h
      · subst h1; exact .inr ⟨by omega, by omega, h2, h3, h4, h5⟩
      · exact .inr ⟨by omega, by omega, h3, h4, h5, h6⟩
    · rintro (h | ⟨h1, h2, h3, h4, h5, h6⟩)
      · exact .inl (.inl h)
      · by_cases hx : p = n
        · refine .inl (.inr ⟨hx, ?_⟩); rw [← hx]; exact ⟨h3, h4, h5, h6⟩
        · exact .inr ⟨by omega, by omega, h3, h4, h5, h6⟩

/-! ## The invariant -/

/-- The number captured by the running checkpoint, if any. -/
def Phase.lsn? : Phase → Option Nat
  | .captured l | .swapped l _ | .dataDone l => some l
  | _ => none

/-- What holds of the structure: numbers, logs, requests. -/
structure Num (d : Dev) : Prop where
  fl1 : d.first ≤ d.flushed
  fl2 : d.flushed ≤ d.first + d.log.length
  ci : d.cidx ≤ d.flushed
  fc : d.first ≤ d.cidx
  cg : d.cidx ≤ d.glog.length
  ag : ∀ n, d.first < n → n ≤ d.cidx → d.entry? n = d.glog[n - 1]?
  sc : d.sm ≤ d.cidx
  us : d.upto ≤ d.sm
  du : d.dc ≤ d.upto
  cd : d.cp ≤ d.dc
  fs : d.first ≤ d.sm ∨ d.res.between = true
  ld : ∀ l, d.load = some l → l ≤ d.upto ∧ d.cp ≤ l
  ph : ∀ l, d.phase.lsn? = some l → l ≤ d.upto ∧ d.cp ≤ l
  wk : d.work ≠ none → d.sm + 1 ≤ d.cidx ∧ d.res.between = false
  mp : ∀ n v, d.sm < n → d.first < n → d.snp < n → d.entry? n = some (.app v) → n ∈ d.map

/-- What holds while a resync is pending. -/
structure Pend (d : Dev) : Prop where
  ss : d.sm ≤ d.snp
  sg : d.snp ≤ d.glog.length
  wk : d.work ≠ none → d.sm + 1 ≤ d.snp
  nb : d.res.between = false

/-- What a transfer has reached. -/
def Reached (d : Dev) : Prop :=
  match d.res with
  | .none => True
  | .recv l => d.pend = true ∧ d.snp = l
  | .saved l => d.pend = true ∧ d.snp = l ∧ d.limit = l ∧ Holds d.glog l d.app
  | .ckpt l => d.pend = true ∧ d.snp = l ∧ d.limit = l ∧ Holds d.glog l d.app ∧
      match d.phase with
      | .swapped _ snap => Holds d.glog l snap
      | .dataDone _ | .replDone => Holds d.glog l d.appDisk
      | _ => False
  | .flushed l => d.pend = true ∧ d.snp = l ∧ d.limit = l ∧ Holds d.glog l d.app ∧
      Holds d.glog l d.appDisk ∧ ∀ k snap, d.phase = .swapped k snap → Holds d.glog l snap
  | .compacted l => d.pend = false ∧ d.snp = l ∧ d.first = l ∧ d.work = none ∧ d.sm ≤ l

/-- What holds when no resync is pending. -/
structure Whole (d : Dev) : Prop where
  li : d.limit ≤ max d.cp d.first
  sf : d.snp ≤ d.first
  ap : Holds d.glog (max d.sm d.first) d.app
  wk : d.work = some true → Holds d.glog (d.sm + 1) d.app
  dk : Holds d.glog (max d.cp d.first) d.appDisk
  sw : ∀ k snap, d.phase = .swapped k snap → Holds d.glog (max k (max d.cp d.first)) snap
  dd : ∀ k, d.phase = .dataDone k → Holds d.glog (max k (max d.cp d.first)) d.appDisk

structure Inv (d : Dev) : Prop where
  num : Num d
  rea : Reached d
  pen : d.pend = true → Pend d
  who : d.pend = false → Whole d

theorem inv_create : Inv Dev.create := by
  have hh : ∀ k, Holds [] k [] := fun k => ⟨fun n v _ hc => by simp [Com] at hc, by simp⟩
  refine ⟨?_, trivial, by simp [Dev.create], fun _ => ?_⟩
  · constructor <;> simp [Dev.create, Dev.entry?, Phase.lsn?]
  · constructor <;> simp [Dev.create, hh]

end HS.Snap
