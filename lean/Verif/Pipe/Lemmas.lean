import Verif.Pipe.Spec
/-! # Invariant of all histories -/
namespace HS.Pipe
variable {D : Type}

/-! ## Reading the disk -/

/-- Every place is accepted. -/
def Whole (d : List (Option (Grp D))) : Prop := (accepted 0 d).length = d.length

theorem accepted_len (d : List (Option (Grp D))) (p : Nat) : (accepted p d).length ≤ d.length := by
  induction d generalizing p with
  | nil => simp [accepted]
  | cons a t ih =>
    cases a with
    | none => simp [accepted]
    | some g =>
      simp only [accepted]
      split
      · simp only [List.length_cons]; have := ih (p + 1); omega
      · simp

theorem accepted_append (d : List (Option (Grp D))) (x : Option (Grp D)) (p : Nat) :
    accepted p (d ++ [x]) = accepted p d ∨
    (∃ g, x = some g ∧ g.prev = p + d.length ∧ (accepted p d).length = d.length ∧
      accepted p (d ++ [x]) = accepted p d ++ [g]) := by
  induction d generalizing p with
  | nil =>
    cases x with
    | none => left; rfl
    | some g =>
      by_cases h : g.prev = p
      · right; exact ⟨g, rfl, by simpa using h, rfl, by simp [accepted, h]⟩
      · left; simp [accepted, h]
  | cons a t ih =>
    cases a with
    | none => left; rfl
    | some a =>
      by_cases h : a.prev = p
      · rcases ih (p + 1) with h1 | ⟨g, h1, h2, h3, h4⟩
        · left; simp [accepted, h, h1]
        · right; refine ⟨g, h1, by simp only [List.length_cons]; omega, by simp [accepted, h, h3], ?_⟩
          simp [accepted, h, h4]
      · left; simp [accepted, h]

theorem accepted_ok (d : List (Option (Grp D))) (p : Nat) (g : Grp D) (hw : (accepted p d).length = d.length)
    (hg : g.prev = p + d.length) : accepted p (d ++ [some g]) = accepted p d ++ [g] := by
  induction d generalizing p with
  | nil => simp at hg; simp [accepted, hg]
  | cons a t ih =>
    cases a with
    | none => simp [accepted] at hw
    | some a =>
      by_cases h : a.prev = p
      · simp [accepted, h] at hw ⊢
        exact ih (p + 1) hw (by simp only [List.length_cons] at hg; omega)
      · simp [accepted, h] at hw

theorem accepted_map (d : List (Option (Grp D))) (p : Nat) :
    accepted p ((accepted p d).map some) = accepted p d := by
  induction d generalizing p with
  | nil => rfl
  | cons a t ih =>
    cases a with
    | none => rfl
    | some a =>
      by_cases h : a.prev = p
      · simp [accepted, h, ih]
      · simp [accepted, h]

theorem allRecs_append (a b : List (Grp D)) : allRecs (a ++ b) = allRecs a ++ allRecs b := by
  simp [allRecs]

theorem startsOk_append (l : List (Grp D)) (g : Grp D) (i : Nat) (h : startsOk i l = true)
    (hg : g.start = i + (allRecs l).length) : startsOk i (l ++ [g]) = true := by
  induction l generalizing i with
  | nil => simp [allRecs] at hg; simp [startsOk, hg]
  | cons a t ih =>
    simp [startsOk] at h ⊢
    refine ⟨h.1, ih _ h.2 ?_⟩
    simp [allRecs] at hg ⊢; omega

theorem recover_append (d : List (Option (Grp D))) (x : Option (Grp D)) :
    recover d <+: recover (d ++ [x]) := by
  rcases accepted_append d x 0 with h | ⟨g, -, -, -, h⟩
  · simp [recover, h]
  · simp only [recover, h, allRecs_append]; exact List.prefix_append ..

theorem contiguous_get (t : Nat → Option (Rec D)) (i k j : Nat) (r : Rec D)
    (h : (contiguous t i k)[j]? = some r) : t (i + j) = some r := by
  induction k generalizing i j with
  | zero => simp [contiguous] at h
  | succ k ih =>
    simp only [contiguous] at h
    split at h
    · simp at h
    · rename_i a ha
      cases j with
      | zero => simp at h; simp [ha, h]
      | succ j => simp at h; have := ih (i + 1) j h; rw [← this]; congr 1; omega

/-! ## The invariant -/

/-- The record is created, or was. -/
def Ph.past : Ph D → Bool
  | .called | .reserved | .counted => false
  | _ => true

/-- The call is going on. -/
def Ph.live : Ph D → Bool
  | .ret _ | .lost => false
  | _ => true

/-- The call flushes. -/
def Ph.flushing : Ph D → Bool
  | .locked | .bound _ | .got .. | .paid .. | .wrote .. => true
  | _ => false

/-- The group the call has collected. -/
def Ph.grp : Ph D → Option (List (Rec D))
  | .got _ g | .paid _ g | .wrote _ g => some g
  | _ => none

/-- The bound the call has read. -/
def Ph.bd : Ph D → Option Nat
  | .bound n | .got n _ | .paid n _ | .wrote n _ => some n
  | _ => none

/-- The group the call has written and not completed. -/
def Ph.wr : Ph D → Option (List (Rec D))
  | .wrote _ g => some g
  | _ => none

/-- The record with index `i`. -/
def St.view (s : St D) (i : Nat) : Option (Rec D) := if i < s.last then s.flushed[i]? else s.tracker i

/-- What the disk holds, apart from a group written and not completed. -/
structure DiskOk (s : St D) (d : List (Option (Grp D))) : Prop where
  chain : s.chain ≤ d.length
  whole : Whole d → s.chain = d.length → recover d = s.flushed
  starts : startsOk 0 (accepted 0 d) = true
  view : ∀ i r, (recover d)[i]? = some r → s.view i = some r

/-- What holds in every state. -/
structure Inv (s : St D) : Prop where
  len : s.flushed.length = s.last
  le : s.last ≤ s.next
  trk : ∀ i r, s.tracker i = some r → s.last ≤ i ∧ i < s.next ∧ ∃ x, s.calls r.call = some x ∧
    x.idx = some i ∧ x.sz = r.sz ∧ x.data = r.data ∧ x.ph.past = true
  fl : ∀ i r, s.flushed[i]? = some r → ∃ x, s.calls r.call = some x ∧
    x.idx = some i ∧ x.sz = r.sz ∧ x.data = r.data ∧ x.ph.past = true
  half : ∀ c x, s.calls c = some x → x.ph.half = true → ∃ i, x.idx = some i ∧ s.last ≤ i ∧ i < s.next ∧
    s.tracker i = none
  fresh : ∀ c x, s.calls c = some x → x.ph = .called → x.idx = none
  own : ∀ c x i, s.calls c = some x → x.ph.live = true → x.ph.past = true → x.idx = some i →
    i < s.next ∧ s.view i = some ⟨c, x.sz, x.data⟩
  uniq : ∀ c c' x x', s.calls c = some x → s.calls c' = some x' → x.ph.half = true → x'.ph.half = true →
    x.idx = x'.idx → c = c'
  cover : ∀ i, s.last ≤ i → i < s.next → s.tracker i = none →
    ∃ c x, s.calls c = some x ∧ x.ph.half = true ∧ x.idx = some i
  lock : ∀ c x, s.calls c = some x → x.ph.flushing = true → s.lock = some c
  held : ∀ c, s.lock = some c → ∃ x, s.calls c = some x ∧ x.ph.flushing = true
  bd : ∀ c x n, s.calls c = some x → x.ph.bd = some n → n ≤ s.next
  grp : ∀ c x g, s.calls c = some x → x.ph.grp = some g →
    g ≠ [] ∧ ∀ k r, g[k]? = some r → s.tracker (s.last + k) = some r
  disk : ∃ d, DiskOk s d ∧
    ((∃ c x g, s.calls c = some x ∧ x.ph.wr = some g ∧ s.disk = d ++ [some ⟨s.chain, s.last, g⟩]) ∨
     ((∀ c x, s.calls c = some x → x.ph.wr = none) ∧ s.disk = d))
  nodup : (s.acked ++ s.queue).Nodup
  cbCall : ∀ c, c ∈ s.acked ++ s.queue → ∃ x, s.calls c = some x ∧ x.ph.past = true
  cbTrk : ∀ i r, s.tracker i = some r → r.call ∉ s.acked ++ s.queue

theorem inv_init (lim : Nat) (fc : Bool) : Inv (St.init lim fc : St D) := by
  constructor <;> try (simp [St.init]; done)
  · exact ⟨[], ⟨by simp [St.init], by simp [recover, accepted, allRecs, St.init], rfl, by simp [recover, accepted, allRecs]⟩,
      .inr ⟨by simp [St.init], rfl⟩⟩

/-- What one call has to do with the rest. -/
theorem upd_some {α : Type} {f : Nat → Option α} {c c' : Nat} {v x : α} (h : upd f c (some v) c' = some x) :
    (c' = c ∧ x = v) ∨ (c' ≠ c ∧ f c' = some x) := by
  simp only [upd] at h
  split at h
  · left; rename_i hc; cases h; exact ⟨hc, rfl⟩
  · right; rename_i hc; exact ⟨hc, h⟩

theorem upd_same {α : Type} (f : Nat → α) (c : Nat) (v : α) : upd f c v c = v := by simp [upd]

theorem upd_other {α : Type} (f : Nat → α) {c c' : Nat} (v : α) (h : c' ≠ c) : upd f c v c' = f c' := by
  simp [upd, h]

theorem inv_call {s : St D} (h : Inv s) (c : Nat) (k : Kind) (sz : Nat) (d : D) (hc : s.calls c = none) :
    Inv { s with calls := upd s.calls c (some ⟨k, sz, d, none, .called⟩) } := by
  have hne : ∀ c' x, s.calls c' = some x → c' ≠ c := by
    intro c' x h1 h2; rw [h2, hc] at h1; cases h1
  have hk : ∀ c' x, s.calls c' = some x → upd s.calls c (some ⟨k, sz, d, none, .called⟩) c' = some x := by
    intro c' x h1; rw [upd_other _ _ (hne _ _ h1)]; exact h1
  constructor
  case len => exact h.len
  case le => exact h.le
  case trk =>
    intro i r h1
    obtain ⟨h2, h3, x, h4, h5⟩ := h.trk i r h1
    exact ⟨h2, h3, x, hk _ _ h4, h5⟩
  case fl =>
    intro i r h1
    obtain ⟨x, h4, h5⟩ := h.fl i r h1
    exact ⟨x, hk _ _ h4, h5⟩
  case half =>
    intro c' x h1 h2
    rcases upd_some h1 with ⟨-, rfl⟩ | ⟨-, h1⟩
    · cases h2
    · exact h.half c' x h1 h2
  case fresh =>
    intro c' x h1 h2
    rcases upd_some h1 with ⟨-, rfl⟩ | ⟨-, h1⟩
    · rfl
    · exact h.fresh c' x h1 h2
  case own =>
    intro c' x i h1 h2 h3 h4
    rcases upd_some h1 with ⟨-, rfl⟩ | ⟨-, h1⟩
    · cases h3
    · exact h.own c' x i h1 h2 h3 h4
  case uniq =>
    intro c' c'' x x' h1 h2 h3 h4 h5
    rcases upd_some h1 with ⟨-, rfl⟩ | ⟨-, h1⟩
    · cases h3
    · rcases upd_some h2 with ⟨-, rfl⟩ | ⟨-, h2⟩
      · cases h4
      · exact h.uniq _ _ _ _ h1 h2 h3 h4 h5
  case cover =>
    intro i h1 h2 h3
    obtain ⟨c', x, h4, h5⟩ := h.cover i h1 h2 h3
    exact ⟨c', x, hk _ _ h4, h5⟩
  case lock =>
    intro c' x h1 h2
    rcases upd_some h1 with ⟨-, rfl⟩ | ⟨-, h1⟩
    · cases h2
    · exact h.lock c' x h1 h2
  case held =>
    intro c' h1
    obtain ⟨x, h4, h5⟩ := h.held c' h1
    exact ⟨x, hk _ _ h4, h5⟩
  case bd =>
    intro c' x n h1 h2
    rcases upd_some h1 with ⟨-, rfl⟩ | ⟨-, h1⟩
    · cases h2
    · exact h.bd c' x n h1 h2
  case grp =>
    intro c' x g h1 h2
    rcases upd_some h1 with ⟨-, rfl⟩ | ⟨-, h1⟩
    · cases h2
    · exact h.grp c' x g h1 h2
  case disk =>
    obtain ⟨d, h5, h6⟩ := h.disk
    refine ⟨d, ⟨h5.chain, h5.whole, h5.starts, h5.view⟩, ?_⟩
    rcases h6 with ⟨c', x, g, h7, h8, h9⟩ | ⟨h7, h8⟩
    · left; exact ⟨c', x, g, hk _ _ h7, h8, h9⟩
    · right; refine ⟨?_, h8⟩
      intro c' x h1
      rcases upd_some h1 with ⟨-, rfl⟩ | ⟨-, h1⟩
      · rfl
      · exact h7 c' x h1
  case nodup => exact h.nodup
  case cbCall =>
    intro c' h1
    obtain ⟨x, h4, h5⟩ := h.cbCall c' h1
    exact ⟨x, hk _ _ h4, h5⟩
  case cbTrk => exact h.cbTrk

/-- A call comes further, without a change of what is to be flushed. -/
theorem inv_move {s : St D} (h : Inv s) {c : Nat} {x : Call D} (hc : s.calls c = some x) (p : Ph D)
    (l : Option Nat) (q : Int) (d : List (Option (Grp D))) (b : Bool)
    (hpast : x.ph.past = true → p.past = true) (hhalf : p.half = x.ph.half)
    (hcalled : p ≠ .called) (hin : p.past = true → x.ph.past = true ∨ x.ph = .called)
    (hlive : p.live = true → x.ph.live = true)
    (hl1 : p.flushing = true → l = some c ∧ (x.ph.flushing = true ∨ s.lock = none))
    (hl2 : p.flushing = false → l = if x.ph.flushing then none else s.lock)
    (hbd : ∀ n, p.bd = some n → n ≤ s.next)
    (hg : ∀ g, p.grp = some g → g ≠ [] ∧ ∀ k r, g[k]? = some r → s.tracker (s.last + k) = some r)
    (hd : ∃ d0, DiskOk s d0 ∧ ((∃ g, p.wr = some g ∧ d = d0 ++ [some ⟨s.chain, s.last, g⟩]) ∨
      (p.wr = none ∧ ((x.ph.flushing = true ∧ d = d0) ∨ x.ph.flushing = false ∧ d = s.disk)))) :
    Inv { s with calls := upd s.calls c (some { x with ph := p }), lock := l, pend := q, disk := d, dead := b } := by
  have hk : ∀ c' y, s.calls c' = some y → ∃ y', upd s.calls c (some { x with ph := p }) c' = some y' ∧
      y'.idx = y.idx ∧ y'.sz = y.sz ∧ y'.data = y.data ∧ (y.ph.past = true → y'.ph.past = true) ∧
      y'.ph.half = y.ph.half := by
    intro c' y h1
    by_cases hcc : c' = c
    · rw [hcc, hc] at h1; cases h1
      exact ⟨{ x with ph := p }, by rw [hcc, upd_same], rfl, rfl, rfl, hpast, hhalf⟩
    · exact ⟨y, by rw [upd_other _ _ hcc]; exact h1, rfl, rfl, rfl, id, rfl⟩
  have hnone : ∀ c', x.ph.flushing = false → p.flushing = true → ∀ y, s.calls c' = some y → y.ph.flushing = false := by
    intro c' h1 h2 y hy
    cases hf : y.ph.flushing with
    | false => rfl
    | true =>
      have := h.lock c' y hy hf
      rcases (hl1 h2).2 with h3 | h3
      · rw [h1] at h3; cases h3
      · rw [h3] at this; cases this
  have hother : ∀ c' y, c' ≠ c → s.calls c' = some y → x.ph.flushing = true → y.ph.flushing = false := by
    intro c' y hne hy h1
    cases hf : y.ph.flushing with
    | false => rfl
    | true =>
      have h2 := h.lock c' y hy hf
      have h3 := h.lock c x hc h1
      rw [h2] at h3; cases h3; exact absurd rfl hne
  have hwrf : ∀ (y : Ph D) g, y.wr = some g → y.flushing = true := by
    intro y g; cases y <;> simp [Ph.wr, Ph.flushing]
  constructor
  case len => exact h.len
  case le => exact h.le
  case trk =>
    intro i r h1
    obtain ⟨h2, h3, y, h4, h5, h6, h7, h8⟩ := h.trk i r h1
    obtain ⟨y', e1, e2, e3, e4, e5, -⟩ := hk _ _ h4
    exact ⟨h2, h3, y', e1, by rw [e2, h5], by rw [e3, h6], by rw [e4, h7], e5 h8⟩
  case fl =>
    intro i r h1
    obtain ⟨y, h4, h5, h6, h7, h8⟩ := h.fl i r h1
    obtain ⟨y', e1, e2, e3, e4, e5, -⟩ := hk _ _ h4
    exact ⟨y', e1, by rw [e2, h5], by rw [e3, h6], by rw [e4, h7], e5 h8⟩
  case half =>
    intro c' y h1 h2
    rcases upd_some h1 with ⟨-, rfl⟩ | ⟨-, h1⟩
    · exact h.half c x hc (by rw [← hhalf]; exact h2)
    · exact h.half c' y h1 h2
  case fresh =>
    intro c' y h1 h2
    rcases upd_some h1 with ⟨-, rfl⟩ | ⟨-, h1⟩
    · exact absurd h2 hcalled
    · exact h.fresh c' y h1 h2
  case own =>
    intro c' y i h1 h2 h3 h4
    rcases upd_some h1 with ⟨rfl, rfl⟩ | ⟨-, h1⟩
    · rcases hin h3 with h5 | h5
      · exact h.own c' x i hc (hlive h2) h5 h4
      · have := h.fresh c' x hc h5; simp only [] at h4; rw [this] at h4; cases h4
    · exact h.own c' y i h1 h2 h3 h4
  case uniq =>
    intro c' c'' y y' h1 h2 h3 h4 h5
    rcases upd_some h1 with ⟨e1, rfl⟩ | ⟨-, k1⟩
    · rcases upd_some h2 with ⟨e2, rfl⟩ | ⟨-, k2⟩
      · rw [e1, e2]
      · rw [e1]; exact h.uniq _ _ _ _ hc k2 (by rw [← hhalf]; exact h3) h4 h5
    · rcases upd_some h2 with ⟨e2, rfl⟩ | ⟨-, k2⟩
      · rw [e2]; exact h.uniq _ _ _ _ k1 hc h3 (by rw [← hhalf]; exact h4) h5
      · exact h.uniq _ _ _ _ k1 k2 h3 h4 h5
  case cover =>
    intro i h1 h2 h3
    obtain ⟨c', y, h4, h5, h6⟩ := h.cover i h1 h2 h3
    obtain ⟨y', e1, e2, -, -, -, e6⟩ := hk _ _ h4
    exact ⟨c', y', e1, by rw [e6, h5], by rw [e2, h6]⟩
  case lock =>
    intro c' y h1 h2
    rcases upd_some h1 with ⟨rfl, rfl⟩ | ⟨hne, h1⟩
    · exact (hl1 h2).1
    · simp only []
      cases hp : p.flushing with
      | true =>
        cases hx : x.ph.flushing with
        | true => rw [hother c' y hne h1 hx] at h2; cases h2
        | false => rw [hnone c' hx hp y h1] at h2; cases h2
      | false =>
        rw [hl2 hp]
        cases hx : x.ph.flushing with
        | true => rw [hother c' y hne h1 hx] at h2; cases h2
        | false => simpa using h.lock c' y h1 h2
  case held =>
    intro c' h1
    simp only [] at h1
    cases hp : p.flushing with
    | true =>
      rw [(hl1 hp).1] at h1; cases h1
      exact ⟨_, upd_same _ _ _, hp⟩
    | false =>
      rw [hl2 hp] at h1
      cases hx : x.ph.flushing with
      | true => rw [hx] at h1; cases h1
      | false =>
        rw [hx] at h1
        obtain ⟨y, h4, h5⟩ := h.held c' (by simpa using h1)
        refine ⟨y, ?_, h5⟩
        simp only []
        rw [upd_other _ _ ?_]
        · exact h4
        · rintro rfl; rw [hc] at h4; cases h4; rw [hx] at h5; cases h5
  case bd =>
    intro c' y n h1 h2
    rcases upd_some h1 with ⟨-, rfl⟩ | ⟨-, h1⟩
    · exact hbd n h2
    · exact h.bd c' y n h1 h2
  case grp =>
    intro c' y g h1 h2
    rcases upd_some h1 with ⟨-, rfl⟩ | ⟨-, h1⟩
    · exact hg g h2
    · exact h.grp c' y g h1 h2
  case disk =>
    obtain ⟨d0, h1, h2⟩ := hd
    rcases h2 with ⟨g, h2, h3⟩ | ⟨h2, ⟨h3, h4⟩ | ⟨h3, h4⟩⟩
    · exact ⟨d0, ⟨h1.chain, h1.whole, h1.starts, h1.view⟩, .inl ⟨c, _, g, upd_same _ _ _, h2, h3⟩⟩
    · refine ⟨d0, ⟨h1.chain, h1.whole, h1.starts, h1.view⟩, .inr ⟨?_, h4⟩⟩
      intro c' y h5
      rcases upd_some h5 with ⟨-, rfl⟩ | ⟨hne, h5⟩
      · exact h2
      · cases hw : y.ph.wr with
        | none => rfl
        | some g => have := hother c' y hne h5 h3; rw [hwrf _ _ hw] at this; cases this
    · obtain ⟨d1, h5, h6⟩ := h.disk
      refine ⟨d1, ⟨h5.chain, h5.whole, h5.starts, h5.view⟩, ?_⟩
      rcases h6 with ⟨c', y, g, h7, h8, h9⟩ | ⟨h7, h8⟩
      · left; refine ⟨c', y, g, ?_, h8, by rw [← h9]; exact h4⟩
        simp only []
        rw [upd_other _ _ ?_]
        · exact h7
        · rintro rfl; rw [hc] at h7; cases h7; rw [hwrf _ _ h8] at h3; cases h3
      · right; refine ⟨?_, by rw [← h8]; exact h4⟩
        intro c' y h9
        rcases upd_some h9 with ⟨-, rfl⟩ | ⟨hne, h9⟩
        · exact h2
        · exact h7 c' y h9
  case nodup => exact h.nodup
  case cbCall =>
    intro c' h1
    obtain ⟨y, h4, h5⟩ := h.cbCall c' h1
    obtain ⟨y', e1, -, -, -, e5, -⟩ := hk _ _ h4
    exact ⟨y', e1, e5 h5⟩
  case cbTrk => exact h.cbTrk

/-! ## The steps that only move a call -/

theorem inv_count {s s' : St D} (h : Inv s) {c : Nat} {x : Call D} (hc : s.calls c = some x)
    (hs : s.count c x = some s') : Inv s' := by
  simp only [St.count] at hs
  split at hs
  · rename_i hp
    cases hs
    obtain ⟨d, h1, -⟩ := h.disk
    exact inv_move h hc .counted s.lock _ s.disk s.dead (by simp [hp, Ph.past]) (by simp [hp, Ph.half]) (by simp)
      (by simp [Ph.past]) (by simp [hp, Ph.live]) (by simp [Ph.flushing]) (by simp [hp, Ph.flushing])
      (by simp [Ph.bd]) (by simp [Ph.grp]) ⟨d, h1, .inr ⟨rfl, .inr ⟨by rw [hp]; rfl, rfl⟩⟩⟩
  · cases hs

theorem inv_fin {s s' : St D} (h : Inv s) {c : Nat} {x : Call D} (hc : s.calls c = some x)
    (hs : s.fin c x = some s') : Inv s' := by
  simp only [St.fin] at hs
  split at hs
  · rename_i hp
    cases hs
    obtain ⟨d, h1, -⟩ := h.disk
    exact inv_move h hc (.ret false) s.lock s.pend s.disk s.dead (by simp [hp, Ph.past]) (by simp [hp, Ph.half]) (by simp)
      (by simp [hp, Ph.past]) (by simp [Ph.live]) (by simp [Ph.flushing]) (by simp [hp, Ph.flushing])
      (by simp [Ph.bd]) (by simp [Ph.grp]) ⟨d, h1, .inr ⟨rfl, .inr ⟨by rw [hp]; rfl, rfl⟩⟩⟩
  · cases hs

theorem inv_getLock {s s' : St D} (h : Inv s) {c : Nat} {x : Call D} (hc : s.calls c = some x)
    (hs : s.getLock c x = some s') : Inv s' := by
  obtain ⟨d, h1, -⟩ := h.disk
  simp only [St.getLock] at hs
  split at hs
  case h_4 => cases hs
  all_goals
    rename_i hl hk hp
    cases hs
    exact inv_move h hc .locked (some c) s.pend s.disk s.dead (by simp [Ph.past]) (by simp [hp, Ph.half]) (by simp)
      (by simp [hp, Ph.past]) (by simp [hp, Ph.live]) (by simp [hl]) (by simp [Ph.flushing])
      (by simp [Ph.bd]) (by simp [Ph.grp]) ⟨d, h1, .inr ⟨rfl, .inr ⟨by rw [hp]; rfl, rfl⟩⟩⟩

theorem inv_finish {s : St D} (h : Inv s) {c : Nat} {x : Call D} (hc : s.calls c = some x) (b : Bool) (q : Int)
    (d : List (Option (Grp D))) (hf : x.ph.flushing = true) (hd : DiskOk s d) :
    Inv { s with calls := upd s.calls c (some { x with ph := .ret b }), lock := none, pend := q, disk := d } := by
  exact inv_move h hc (.ret b) none q d s.dead (by simp [Ph.past])
    (by revert hf; cases x.ph <;> simp [Ph.half, Ph.flushing]) (by simp)
    (by revert hf; cases x.ph <;> simp [Ph.past, Ph.flushing]) (by simp [Ph.live]) (by simp [Ph.flushing]) (by simp [hf])
    (by simp [Ph.bd]) (by simp [Ph.grp]) ⟨d, hd, .inr ⟨rfl, .inl ⟨hf, rfl⟩⟩⟩

/-- While a call flushes and has nothing written, nobody has. -/
theorem disk_of_flushing {s : St D} (h : Inv s) {c : Nat} {x : Call D} (hc : s.calls c = some x)
    (hf : x.ph.flushing = true) (hw : x.ph.wr = none) : DiskOk s s.disk := by
  obtain ⟨d, h1, ⟨c', y, g, h2, h3, h4⟩ | ⟨h2, h3⟩⟩ := h.disk
  · have e1 := h.lock c x hc hf
    have e2 := h.lock c' y h2 (by revert h3; cases y.ph <;> simp [Ph.wr, Ph.flushing])
    rw [e1] at e2; cases e2
    rw [hc] at h2; cases h2
    rw [hw] at h3; cases h3
  · rw [h3]; exact h1

theorem inv_readBound {s s' : St D} (h : Inv s) {c : Nat} {x : Call D} (hc : s.calls c = some x)
    (hs : s.readBound c x = some s') : Inv s' := by
  simp only [St.readBound] at hs
  split at hs
  · rename_i hp
    have hd := disk_of_flushing h hc (by rw [hp]; rfl) (by rw [hp]; rfl)
    split at hs
    · cases hs
      exact inv_finish h hc false s.pend s.disk (by rw [hp]; rfl) hd
    · cases hs
      exact inv_move h hc (.bound s.next) s.lock s.pend s.disk s.dead (by simp [Ph.past]) (by simp [hp, Ph.half]) (by simp)
        (by simp [hp, Ph.past]) (by simp [hp, Ph.live])
        (by intro _; exact ⟨h.lock c x hc (by rw [hp]; rfl), .inl (by rw [hp]; rfl)⟩) (by simp [Ph.flushing])
        (by simp [Ph.bd]) (by simp [Ph.grp]) ⟨s.disk, hd, .inr ⟨rfl, .inl ⟨by rw [hp]; rfl, rfl⟩⟩⟩
  · cases hs

theorem inv_prep {s s' : St D} (h : Inv s) {c : Nat} {x : Call D} (hc : s.calls c = some x)
    (hs : s.prep c x = some s') : Inv s' := by
  simp only [St.prep] at hs
  split at hs
  · rename_i n hp
    have hd := disk_of_flushing h hc (by rw [hp]; rfl) (by rw [hp]; rfl)
    split at hs
    · cases hs
      exact inv_finish h hc true s.pend s.disk (by rw [hp]; rfl) hd
    · split at hs
      · cases hs
        exact inv_finish h hc false s.pend s.disk (by rw [hp]; rfl) hd
      · rename_i r g hcon
        cases hs
        refine inv_move h hc (.got n (r :: g)) s.lock s.pend s.disk s.dead (by simp [Ph.past]) (by simp [hp, Ph.half]) (by simp)
          (by simp [hp, Ph.past]) (by simp [hp, Ph.live])
          (by intro _; exact ⟨h.lock c x hc (by rw [hp]; rfl), .inl (by rw [hp]; rfl)⟩) (by simp [Ph.flushing])
          ?_ ?_ ⟨s.disk, hd, .inr ⟨rfl, .inl ⟨by rw [hp]; rfl, rfl⟩⟩⟩
        · intro n' h1; cases h1; exact h.bd c x n hc (by rw [hp]; rfl)
        · intro g' h1; cases h1
          refine ⟨by simp, ?_⟩
          intro k r' h2
          rw [← hcon] at h2
          exact contiguous_get _ _ _ _ _ h2
  · cases hs

theorem inv_pay {s s' : St D} (h : Inv s) {c : Nat} {x : Call D} (hc : s.calls c = some x)
    (hs : s.pay c x = some s') : Inv s' := by
  simp only [St.pay] at hs
  split at hs
  · rename_i n g hp
    have hd := disk_of_flushing h hc (by rw [hp]; rfl) (by rw [hp]; rfl)
    split at hs
    · split at hs
      · cases hs
        exact inv_finish h hc false _ s.disk (by rw [hp]; rfl) hd
      · cases hs
        have hx : s.calls = upd s.calls c (some { x with ph := x.ph }) := by
          funext c'; by_cases e : c' = c
          · rw [e, upd_same]; exact hc
          · rw [upd_other _ _ e]
        have := inv_move h hc x.ph s.lock (s.pend - bytes g) s.disk true id rfl (by simp [hp])
          (by simp [hp, Ph.past]) id (fun _ => ⟨h.lock c x hc (by rw [hp]; rfl), .inl (by rw [hp]; rfl)⟩)
          (by simp [hp, Ph.flushing]) (h.bd c x · hc) (h.grp c x · hc)
          ⟨s.disk, hd, .inr ⟨by rw [hp]; rfl, .inl ⟨by rw [hp]; rfl, rfl⟩⟩⟩
        rw [← hx] at this
        exact this
    · cases hs
      exact inv_move h hc (.paid n g) s.lock _ s.disk s.dead (by simp [Ph.past]) (by simp [hp, Ph.half]) (by simp)
        (by simp [hp, Ph.past]) (by simp [hp, Ph.live])
        (by intro _; exact ⟨h.lock c x hc (by rw [hp]; rfl), .inl (by rw [hp]; rfl)⟩) (by simp [Ph.flushing])
        (by intro n' h1; cases h1; exact h.bd c x n hc (by rw [hp]; rfl))
        (by intro g' h1; cases h1; exact h.grp c x g hc (by rw [hp]; rfl))
        ⟨s.disk, hd, .inr ⟨rfl, .inl ⟨by rw [hp]; rfl, rfl⟩⟩⟩
  · cases hs

theorem view_of_tracker {s : St D} (h : Inv s) {i : Nat} {r : Rec D} (ht : s.tracker i = some r) :
    s.view i = some r := by
  have := (h.trk i r ht).1
  simp only [St.view]; rw [if_neg (by omega)]; exact ht

/-- One more place, with nothing in it. -/
theorem DiskOk.fail {s : St D} {d : List (Option (Grp D))} (h : DiskOk s d) : DiskOk s (d ++ [none]) := by
  rcases accepted_append d none 0 with h1 | ⟨g, h1, -⟩
  · refine ⟨by have := h.chain; simp; omega, ?_, by rw [h1]; exact h.starts, ?_⟩
    · intro h2; simp only [Whole, h1] at h2
      have := accepted_len d 0
      simp at h2; omega
    · intro i r; simp only [recover, h1]; exact h.view i r
  · cases h1

/-- One more place with the next group in it: what a start would find. -/
theorem DiskOk.more {s : St D} (hi : Inv s) {d : List (Option (Grp D))} (h : DiskOk s d) {g : List (Rec D)}
    (hg : ∀ k r, g[k]? = some r → s.tracker (s.last + k) = some r) :
    startsOk 0 (accepted 0 (d ++ [some ⟨s.chain, s.last, g⟩])) = true ∧
    ∀ i r, (recover (d ++ [some ⟨s.chain, s.last, g⟩]))[i]? = some r → s.view i = some r := by
  rcases accepted_append d (some ⟨s.chain, s.last, g⟩) 0 with h1 | ⟨g', h1, h2, h3, h4⟩
  · exact ⟨by rw [h1]; exact h.starts, by intro i r; simp only [recover, h1]; exact h.view i r⟩
  · cases h1
    have h5 := h.whole h3 (by simpa using h2)
    have h6 : (allRecs (accepted 0 d)).length = s.last := by rw [← hi.len, ← h5]; rfl
    refine ⟨by rw [h4]; exact startsOk_append _ _ _ h.starts (by simp [h6]), ?_⟩
    intro i r
    simp only [recover, h4, allRecs_append]
    intro h7
    rw [List.getElem?_append] at h7
    split at h7
    · exact h.view i r h7
    · rename_i h8
      rw [h6] at h7 h8
      simp [allRecs] at h7
      have := hg _ _ h7
      rw [show s.last + (i - s.last) = i by omega] at this
      exact view_of_tracker hi this

theorem DiskOk.orphan {s : St D} (hi : Inv s) {d : List (Option (Grp D))} (h : DiskOk s d) {g : List (Rec D)}
    (hg : ∀ k r, g[k]? = some r → s.tracker (s.last + k) = some r) :
    DiskOk s (d ++ [some ⟨s.chain, s.last, g⟩]) := by
  have h1 := h.more hi hg
  have h2 := h.chain
  refine ⟨by simp; omega, ?_, h1.1, h1.2⟩
  intro _ h3; simp at h3; omega

theorem inv_write {s s' : St D} (h : Inv s) {c : Nat} {x : Call D} (hc : s.calls c = some x) {w : Wr}
    (hs : s.write c x w = some s') : Inv s' := by
  simp only [St.write] at hs
  split at hs
  · rename_i n g hp
    have hd := disk_of_flushing h hc (by rw [hp]; rfl) (by rw [hp]; rfl)
    have hg := h.grp c x g hc (by rw [hp]; rfl)
    split at hs
    · cases hs
      exact inv_move h hc (.wrote n g) s.lock s.pend _ s.dead (by simp [Ph.past]) (by simp [hp, Ph.half]) (by simp)
        (by simp [hp, Ph.past]) (by simp [hp, Ph.live])
        (by intro _; exact ⟨h.lock c x hc (by rw [hp]; rfl), .inl (by rw [hp]; rfl)⟩) (by simp [Ph.flushing])
        (by intro n' h1; cases h1; exact h.bd c x n hc (by rw [hp]; rfl))
        (by intro g' h1; cases h1; exact hg)
        ⟨s.disk, hd, .inl ⟨g, rfl, rfl⟩⟩
    · cases hs
      exact inv_finish h hc false s.pend _ (by rw [hp]; rfl) hd.fail
    · cases hs
      exact inv_finish h hc false s.pend _ (by rw [hp]; rfl) (hd.orphan h hg.2)
  · cases hs

end HS.Pipe
