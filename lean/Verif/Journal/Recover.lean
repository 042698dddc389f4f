import Verif.Journal.Ops
import Mathlib.Data.List.Perm.Subperm

namespace HS.Journal

theorem chain_mono {p : Pst} {f : Nat} {c : Nat} {l : List Nat} (h : chain p f c = some l) :
    ∀ g, f ≤ g → chain p g c = some l := by
  induction f generalizing c l with
  | zero => simp [chain] at h
  | succ f ih =>
    intro g hg
    obtain ⟨g, rfl⟩ : ∃ k, g = k + 1 := ⟨g - 1, by omega⟩
    unfold chain at h ⊢
    by_cases h0 : c = 0
    · rw [if_pos h0] at h ⊢; exact h
    · rw [if_neg h0] at h ⊢
      by_cases hc : c ∈ p.all
      · rw [if_pos hc] at h ⊢
        cases hr : chain p f (p.priv c).next with
        | none => rw [hr] at h; cases h
        | some l' => rw [hr] at h; rw [ih hr g (by omega)]; exact h
      · rw [if_neg hc] at h; cases h

theorem chain_unique {p : Pst} {f g c : Nat} {l l' : List Nat} (h : chain p f c = some l)
    (h' : chain p g c = some l') : l = l' := by
  have h1 := chain_mono h (max f g) (by omega)
  have h2 := chain_mono h' (max f g) (by omega)
  rw [h1] at h2; exact Option.some.inj h2

/-- A linked list in the metadata is followed completely. -/
theorem chain_list {p : Pst} (L : List Nat)
    (h : ∀ (i c : Nat), L[i]? = some c → c ≠ 0 ∧ c ∈ p.all ∧ (p.priv c).next = (L[i + 1]?).getD 0) :
    ∀ f, L.length < f → chain p f (L[0]?.getD 0) = some L := by
  induction L with
  | nil =>
    intro f hf
    obtain ⟨f, rfl⟩ : ∃ k, f = k + 1 := ⟨f - 1, by simp at hf; omega⟩
    simp [chain]
  | cons c r ih =>
    intro f hf
    obtain ⟨f, rfl⟩ : ∃ k, f = k + 1 := ⟨f - 1, by simp at hf; omega⟩
    have h0 := h 0 c (by simp)
    have hr := ih (fun i x hx => by
      have := h (i + 1) x (by simpa using hx)
      simpa using this) f (by simp at hf; omega)
    simp only [List.getElem?_cons_zero, Option.getD_some]
    unfold chain
    rw [if_neg h0.1, if_pos h0.2.1, h0.2.2]
    simp only [Nat.zero_add, List.getElem?_cons_succ]
    rw [hr]; rfl

/-- `c` is a head chunk of stream `s`. -/
def Cand (p : Pst) (s c : Nat) : Prop := (p.priv c).isHead = true ∧ (p.priv c).logdev = s

theorem headFold_spec (p : Pst) (s : Nat) (L : List Nat) (b : Nat × Nat) :
    let r := L.foldl (fun b c =>
      if (p.priv c).isHead ∧ (p.priv c).logdev = s ∧ b.2 < (p.priv c).created
      then (c, (p.priv c).created) else b) b
    (r = b ∨ (r.1 ∈ L ∧ Cand p s r.1 ∧ r.2 = (p.priv r.1).created)) ∧ b.2 ≤ r.2 ∧
    (∀ c ∈ L, Cand p s c → (p.priv c).created ≤ r.2) := by
  induction L generalizing b with
  | nil => simp
  | cons x l ih =>
    simp only [List.foldl_cons]
    by_cases hx : (p.priv x).isHead ∧ (p.priv x).logdev = s ∧ b.2 < (p.priv x).created
    · rw [if_pos hx]
      obtain ⟨h1, h2, h3⟩ := ih (x, (p.priv x).created)
      simp only at h1 h2 h3
      refine ⟨?_, by omega, ?_⟩
      · rcases h1 with h | ⟨h, h'⟩
        · right; rw [h]; exact ⟨List.mem_cons_self, ⟨hx.1, hx.2.1⟩, rfl⟩
        · right; exact ⟨List.mem_cons_of_mem _ h, h'⟩
      · intro c hc hcc
        rcases List.mem_cons.1 hc with h | h
        · subst h; exact h2
        · exact h3 c h hcc
    · rw [if_neg hx]
      obtain ⟨h1, h2, h3⟩ := ih b
      refine ⟨?_, h2, ?_⟩
      · rcases h1 with h | ⟨h, h'⟩
        · exact Or.inl h
        · exact Or.inr ⟨List.mem_cons_of_mem _ h, h'⟩
      · intro c hc hcc
        rcases List.mem_cons.1 hc with h | h
        · subst h
          by_contra hlt
          exact hx ⟨hcc.1, hcc.2, by omega⟩
        · exact h3 c h hcc

theorem headOf_spec (p : Pst) (s : Nat) :
    ((headOf p s).1 = 0 ∧ ∀ c ∈ p.all, Cand p s c → (p.priv c).created = 0) ∨
    ((headOf p s).1 ∈ p.all ∧ Cand p s (headOf p s).1 ∧
      ∀ c ∈ p.all, Cand p s c → (p.priv c).created ≤ (p.priv (headOf p s).1).created) := by
  have h := headFold_spec p s p.all (0, 0)
  simp only at h
  rw [show (List.foldl (fun b c =>
      if (p.priv c).isHead ∧ (p.priv c).logdev = s ∧ b.2 < (p.priv c).created
      then (c, (p.priv c).created) else b) (0, 0) p.all) = headOf p s from rfl] at h
  obtain ⟨h1, _, h3⟩ := h
  rcases h1 with h | ⟨h, h', h''⟩
  · left
    refine ⟨by rw [h], fun c hc hcc => ?_⟩
    have := h3 c hc hcc
    rw [h] at this; simpa using this
  · right
    exact ⟨h, h', fun c hc hcc => by rw [← h'']; exact h3 c hc hcc⟩

/-- The only head chunk of a stream is its first chunk. -/
theorem cand_iff {w : World} (hw : WInv w) {s c : Nat} (hc : c ∈ w.v.all) :
    Cand w.v.pst s c ↔ (w.v.desc s).chunks[0]? = some c := by
  constructor
  · rintro ⟨h1, h2⟩
    simp only [Dev.pst] at h1 h2
    rcases (hw.g.own c).1 hc with h | ⟨s', h⟩
    · rw [(hw.g.poolPriv c h).1] at h1; cases h1
    · obtain ⟨i, hi⟩ := List.mem_iff_getElem?.1 h
      obtain ⟨T, hT, _⟩ := hw.s s'
      by_cases h0 : i = 0
      · subst h0
        have := (hT.head c hi).2
        rw [h2] at this; rw [this]; exact hi
      · have := hT.nonhead i c hi (by omega)
        rw [h1] at this; cases this
  · intro h
    obtain ⟨T, hT, _⟩ := hw.s s
    exact hT.head c h

theorem str_chain {w : World} (hw : WInv w) (s : Nat) :
    ∀ (i c : Nat), (w.v.desc s).chunks[i]? = some c →
      c ≠ 0 ∧ c ∈ w.v.pst.all ∧ (w.v.pst.priv c).next = ((w.v.desc s).chunks[i + 1]?).getD 0 := by
  intro i c hi
  obtain ⟨T, hT, _⟩ := hw.s s
  have hc : c ∈ w.v.all := (hw.g.own c).2 (Or.inr ⟨s, mem_of_getElem? hi⟩)
  exact ⟨fun h => hw.g.zero (h ▸ hc), hc, hT.next i c hi⟩

theorem headOf_eq {w : World} (hw : WInv w) (s : Nat) :
    (headOf w.v.pst s).1 = (w.v.desc s).chunks[0]?.getD 0 := by
  rcases headOf_spec w.v.pst s with ⟨h, h'⟩ | ⟨h, h', _⟩
  · rw [h]
    cases hc : (w.v.desc s).chunks[0]? with
    | none => rfl
    | some c =>
      have hca : c ∈ w.v.all := (hw.g.own c).2 (Or.inr ⟨s, mem_of_getElem? hc⟩)
      have := h' c hca ((cand_iff hw hca).2 hc)
      have := hw.g.created c hca
      simp only [Dev.pst] at *; omega
  · rw [(cand_iff hw h).1 h']; rfl

theorem recover_eq {w : World} (hw : WInv w) (s : Nat) {f : Nat} (hf : (w.v.desc s).chunks.length < f) :
    recoverChunks f w.v.pst s = some (w.v.desc s).chunks := by
  unfold recoverChunks
  rw [headOf_eq hw]
  exact chain_list _ (str_chain hw s) f hf

theorem chunks_length_le {w : World} (hw : WInv w) (s : Nat) :
    (w.v.desc s).chunks.length ≤ w.v.all.length := by
  exact (List.subperm_of_subset (hw.g.strND s)
    (fun c hc => (hw.g.own c).2 (Or.inr ⟨s, hc⟩))).length_le

/-- The descriptor a restart builds. -/
def restartedDesc (cs : Nat) (d : Desc) (tail : Nat) : Desc :=
  { ds := d.ds, wsz := (tail : Int) - d.ds, rsv := 0, chunks := d.chunks,
    total := d.chunks.length * cs, endOff := (d.ds / cs + d.chunks.length) * cs }

theorem restartDesc_eq {cs : Nat} (hcs : 0 < cs) {priv : Nat → Priv} {s : Nat} {d : Desc} {T tail : Nat}
    (hT : SInv cs priv s d T) (h1 : d.ds ≤ tail) :
    restartDesc cs d.chunks d.ds tail = .ok (restartedDesc cs d tail) := by
  unfold restartDesc updateStart restartedDesc
  by_cases hne : d.chunks = []
  · simp only [hne, ne_eq, not_true_eq_false, if_false]
    rw [rup_zero hcs (hT.nil hne).1]
    unfold updateTail
    simp only
    rw [if_pos h1]
    have := mod_eq d.ds cs
    have := (hT.nil hne).1
    simp only [List.length_nil, Nat.zero_mul, Nat.add_zero]
    congr 2; omega
  · simp only [ne_eq, hne, not_false_eq_true, if_true]
    rw [if_pos (by omega)]
    unfold updateTail
    simp only
    rw [if_pos h1]
    have : rdown d.ds cs + d.chunks.length * cs = (d.ds / cs + d.chunks.length) * cs := by
      unfold rdown; ring
    rw [this]

/-- With enough fuel a restart always succeeds. -/
theorem restartOk_of {w : World} (hw : WInv w) {tail : Nat → Nat} (hv : ∀ s, ValidTail w s (tail s))
    {f : Nat} (hf : w.v.all.length < f) :
    RestartOk w.v.pst w.v.cs f (fun s => (w.v.desc s).ds) tail := by
  intro s
  obtain ⟨T, hT, _⟩ := hw.s s
  exact ⟨_, _, recover_eq hw s (by have := chunks_length_le hw s; omega),
    restartDesc_eq hw.g.cs hT (hv s).1⟩

theorem restart_desc {w : World} (hw : WInv w) {tail : Nat → Nat} {f : Nat}
    (hv : ∀ s, ValidTail w s (tail s))
    (h : RestartOk w.v.pst w.v.cs f (fun s => (w.v.desc s).ds) tail) (s : Nat) :
    recoverChunks f w.v.pst s = some (w.v.desc s).chunks ∧
    (restartDev w.v.pst w.v.cs w.v.cap w.v.data f (fun s => (w.v.desc s).ds) tail).desc s =
      restartedDesc w.v.cs (w.v.desc s) (tail s) := by
  obtain ⟨l, d, h1, h2⟩ := h s
  have hl : l = (w.v.desc s).chunks :=
    chain_unique h1 (recover_eq hw s (f := (w.v.desc s).chunks.length + 1) (by omega))
  subst hl
  refine ⟨h1, ?_⟩
  obtain ⟨T, hT, _⟩ := hw.s s
  show (match restartDesc w.v.cs ((recoverChunks f w.v.pst s).getD []) (w.v.desc s).ds (tail s) with
    | .ok d => d | .error _ => {}) = _
  rw [h1, Option.getD_some, restartDesc_eq hw.g.cs hT (hv s).1]

theorem restart_inv {w : World} (hw : WInv w) {tail : Nat → Nat} {f : Nat}
    (hv : ∀ s, ValidTail w s (tail s))
    (h : RestartOk w.v.pst w.v.cs f (fun s => (w.v.desc s).ds) tail) :
    WInv { v := restartDev w.v.pst w.v.cs w.v.cap w.v.data f (fun s => (w.v.desc s).ds) tail
           R := fun _ => []
           A := fun s x => if x < tail s then w.A s x else none } := by
  have hd := restart_desc hw hv h
  have hch : ∀ s, ((restartDev w.v.pst w.v.cs w.v.cap w.v.data f (fun s => (w.v.desc s).ds) tail).desc s).chunks
      = (w.v.desc s).chunks := by
    intro s; rw [(hd s).2]; rfl
  have hall : ∀ c, c ∈ (restartDev w.v.pst w.v.cs w.v.cap w.v.data f (fun s => (w.v.desc s).ds) tail).all ↔
      ∃ s, c ∈ (w.v.desc s).chunks := by
    intro c
    simp only [restartDev, List.mem_filter, List.any_eq_true, List.contains_iff_mem]
    constructor
    · rintro ⟨_, s, _, h2⟩
      rw [(hd s).1] at h2
      exact ⟨s, h2⟩
    · rintro ⟨s, hs⟩
      have hca : c ∈ w.v.all := (hw.g.own c).2 (Or.inr ⟨s, hs⟩)
      refine ⟨hca, s, ?_, by rw [(hd s).1]; exact hs⟩
      have hpos : 0 < (w.v.desc s).chunks.length := List.length_pos_of_mem hs
      have h0 : (w.v.desc s).chunks[0]? = some ((w.v.desc s).chunks[0]) := List.getElem?_eq_getElem hpos
      have h0a : (w.v.desc s).chunks[0] ∈ w.v.all := (hw.g.own _).2 (Or.inr ⟨s, mem_of_getElem? h0⟩)
      have hcand := (cand_iff hw h0a).2 h0
      unfold streams
      rw [List.mem_map]
      exact ⟨_, List.mem_filter.2 ⟨h0a, by simpa using hcand.1⟩, hcand.2⟩
  constructor
  · constructor
    · exact hw.g.cs
    · intro h0
      obtain ⟨s, hs⟩ := (hall 0).1 h0
      exact hw.g.zero ((hw.g.own 0).2 (Or.inr ⟨s, hs⟩))
    · intro c
      rw [show (c ∈ (restartDev w.v.pst w.v.cs w.v.cap w.v.data f (fun s => (w.v.desc s).ds) tail).all) = _ from
        propext (hall c)]
      simp only [hch]
      simp [restartDev]
    · simp [restartDev]
    · exact hw.g.allND.filter _
    · intro s; rw [hch]; exact hw.g.strND s
    · intro s s' c a b; rw [hch] at a b; exact hw.g.strDisj s s' c a b
    · intro s c a; simp [restartDev] at a
    · intro c a; simp [restartDev] at a
    · intro c hc
      obtain ⟨s, hs⟩ := (hall c).1 hc
      exact hw.g.created c ((hw.g.own c).2 (Or.inr ⟨s, hs⟩))
  · intro s
    show Str w.v.cs w.v.priv w.v.data s _ [] _
    rw [(hd s).2]
    obtain ⟨T, hT, hR, hA⟩ := hw.s s
    obtain ⟨v1, v2, v3⟩ := hv s
    rw [hT.tail] at v2
    have v2' : tail s ≤ T := by exact_mod_cast v2
    refine ⟨tail s, ⟨?_, rfl, rfl, v1, ?_, ?_, hT.next, hT.eocL, hT.eocN, hT.head, hT.nonhead⟩,
      ⟨by simp [restartedDesc], by simp, by simp⟩, ?_⟩
    · simp only [Desc.tail, restartedDesc]; push_cast; omega
    · intro hne
      have := hT.nil hne
      refine ⟨this.1, ?_, rfl⟩
      have h2 := hT.tail
      simp only [Desc.tail, this.2.1, this.2.2] at h2
      show (tail s : Int) - (w.v.desc s).ds = 0
      omega
    · intro hne
      have hne' : (w.v.desc s).chunks ≠ [] := hne
      have h1 := hT.last hne'
      have h2 := v3 hne'
      rw [hT.endOff, ← h1, Nat.add_mul] at h2
      have h3 : tail s / w.v.cs = T / w.v.cs := by
        apply div_unique
        · omega
        · have := (div_bounds T hw.g.cs).2; omega
      show tail s / w.v.cs + 1 = (w.v.desc s).ds / w.v.cs + (w.v.desc s).chunks.length
      rw [h3]; exact h1
    · intro x b hx
      simp only at hx
      by_cases hxt : x < tail s
      · rw [if_pos hxt] at hx
        obtain ⟨a1, a2, a3, a4⟩ := hA x b hx
        exact ⟨a1, hxt, a3, by simp⟩
      · rw [if_neg hxt] at hx; cases hx

theorem removeAll_spec (L : List Nat) (v : Dev) :
    let q := (removeAll v L).1
    q.cs = v.cs ∧ q.cap = v.cap ∧ q.desc = v.desc ∧ q.data = v.data ∧ q.pool = v.pool ∧
    (∀ c, c ∈ q.all ↔ c ∈ v.all ∧ c ∉ L) ∧ (∀ c, c ∉ L → q.priv c = v.priv c) ∧
    (v.all.Nodup → q.all.Nodup) := by
  induction L generalizing v with
  | nil => simp [removeAll]
  | cons x l ih =>
    obtain ⟨h1, h2, h3, h4, h5, h6, h7, h8⟩ := ih { v.setPriv x {} with all := v.all.filter (· ≠ x) }
    simp only [removeAll]
    refine ⟨h1, h2, h3, h4, h5, ?_, ?_, ?_⟩
    · intro c; rw [h6 c]; simp; tauto
    · intro c hc
      simp only [List.mem_cons, not_or] at hc
      rw [h7 c hc.2]; simp [Dev.setPriv, upd, hc.1]
    · intro hnd; exact h8 (hnd.filter _)

theorem destroy_inv {w : World} (hw : WInv w) (s : Nat) :
    WInv { v := (destroy w.v s).1, A := upd w.A s (fun _ => none), R := upd w.R s [] } := by
  obtain ⟨h1, h2, h3, h4, h5, h6, h7, h8⟩ := removeAll_spec (w.v.desc s).chunks w.v
  have hv : (destroy w.v s).1 = (removeAll w.v (w.v.desc s).chunks).1.setDesc s {} := rfl
  rw [hv]
  generalize removeAll w.v (w.v.desc s).chunks = q at *
  have hdS : (q.1.setDesc s {}).desc s = {} := by simp [Dev.setDesc, upd]
  have hdN : ∀ s', s' ≠ s → (q.1.setDesc s {}).desc s' = w.v.desc s' := by
    intro s' hs'; simp only [Dev.setDesc, upd_ne hs', h3]
  have hch : ∀ s' c, c ∈ ((q.1.setDesc s {}).desc s').chunks ↔ c ∈ (w.v.desc s').chunks ∧ s' ≠ s := by
    intro s' c
    by_cases hs' : s' = s
    · subst hs'; rw [hdS]; simp
    · rw [hdN s' hs']; simp [hs']
  constructor
  · constructor
    · show 0 < q.1.cs; rw [h1]; exact hw.g.cs
    · intro h; exact hw.g.zero ((h6 0).1 h).1
    · intro c
      show c ∈ q.1.all ↔ c ∈ q.1.pool ∨ _
      rw [h6, h5, hw.g.own c]
      constructor
      · rintro ⟨h | ⟨s', h⟩, hn⟩
        · exact Or.inl h
        · exact Or.inr ⟨s', (hch s' c).2 ⟨h, fun hs => hn (hs ▸ h)⟩⟩
      · rintro (h | ⟨s', h⟩)
        · exact ⟨Or.inl h, fun hc => hw.g.poolDisj s c h hc⟩
        · have := (hch s' c).1 h
          exact ⟨Or.inr ⟨s', this.1⟩, fun hc => this.2 (hw.g.strDisj s' s c this.1 hc)⟩
    · show q.1.pool.Nodup; rw [h5]; exact hw.g.poolND
    · exact h8 hw.g.allND
    · intro s'
      by_cases hs' : s' = s
      · subst hs'
        show ((q.1.setDesc s' {}).desc s').chunks.Nodup
        rw [hdS]; exact List.nodup_nil
      · show ((q.1.setDesc s {}).desc s').chunks.Nodup
        rw [hdN s' hs']; exact hw.g.strND s'
    · intro s1 s2 c a b
      exact hw.g.strDisj s1 s2 c ((hch s1 c).1 a).1 ((hch s2 c).1 b).1
    · intro s' c a b
      have a' : c ∈ w.v.pool := by rw [← h5]; exact a
      exact hw.g.poolDisj s' c a' ((hch s' c).1 b).1
    · intro c hc
      have hc' : c ∈ w.v.pool := by rw [← h5]; exact hc
      show (q.1.priv c).isHead = false ∧ (q.1.priv c).next = 0 ∧ (q.1.priv c).eoc = q.1.cs
      rw [h1, h7 c (fun h => hw.g.poolDisj s c hc' h)]
      exact hw.g.poolPriv c hc'
    · intro c hc
      have := (h6 c).1 hc
      show 0 < (q.1.priv c).created
      rw [h7 c this.2]; exact hw.g.created c this.1
  · intro s'
    show Str q.1.cs q.1.priv q.1.data s' _ _ _
    rw [h1, h4]
    by_cases hs' : s' = s
    · subst hs'
      rw [hdS]; simp only [upd_same]
      refine ⟨0, ?_, ?_, ?_⟩
      · constructor <;> simp [Desc.tail]
      · constructor <;> simp
      · intro x b hx; cases hx
    · rw [hdN s' hs']; simp only [upd_ne hs']
      refine (hw.s s').congr ?_ (fun _ _ => rfl)
      intro c hc
      exact h7 c (fun h => hs' (hw.g.strDisj s' s c hc h))

theorem step_inv {w w' : World} (hw : WInv w) (h : Step w w') : WInv w' := by
  cases h with
  | produce c now v' h => exact produce_inv h hw
  | alloc s sz hsz v' off ws h =>
    have hlt : sz < w.v.cs := by
      by_contra hge
      unfold alloc at h
      rw [if_pos (by omega)] at h; cases h
    rcases alloc_inv hw (s := s) hsz hlt with ⟨h1, _⟩ | ⟨v1, off1, ws1, h1, h2, _⟩
    · rw [h1] at h; cases h
    · rw [h1] at h; cases h; exact h2
  | pwrite s off bs hr v' h =>
    obtain ⟨v1, h1, h2⟩ := pwrite_inv hw hr
    rw [h1] at h; cases h; exact h2
  | truncate s t now hv hnow v' ret ws h =>
    obtain ⟨T, hT, _⟩ := hw.s s
    obtain ⟨v1, ws1, nh, j, h1, h2, _⟩ := truncate_inv hw hv hnow hT
    rw [h1] at h; cases h; exact h2
  | destroy s => exact destroy_inv hw s
  | restart f tail hv h => exact restart_inv hw hv h

theorem reach_inv {w : World} (h : Reach w) : WInv w := by
  induction h with
  | init cs cap data h => exact init_inv h
  | step w w' _ hs ih => exact step_inv ih hs

end HS.Journal
