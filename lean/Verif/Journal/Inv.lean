import Verif.Journal.Lemmas

namespace HS.Journal

/-- Shape of one stream; `T` is its tail. -/
structure SInv (cs : Nat) (priv : Nat → Priv) (s : Nat) (d : Desc) (T : Nat) : Prop where
  tail : d.tail = (T : Int)
  total : d.total = d.chunks.length * cs
  endOff : d.endOff = (d.ds / cs + d.chunks.length) * cs
  dsT : d.ds ≤ T
  nil : d.chunks = [] → d.ds % cs = 0 ∧ d.wsz = 0 ∧ d.rsv = 0
  last : d.chunks ≠ [] → T / cs + 1 = d.ds / cs + d.chunks.length
  next : ∀ i c, d.chunks[i]? = some c → (priv c).next = (d.chunks[i + 1]?).getD 0
  eocL : ∀ i c, d.chunks[i]? = some c → i + 1 = d.chunks.length → (priv c).eoc = cs
  eocN : ∀ i c, d.chunks[i]? = some c → i + 1 < d.chunks.length →
    (priv c).eoc ≤ cs ∧ 0 < (priv c).eoc ∧ (i = 0 → d.ds % cs ≤ (priv c).eoc)
  head : ∀ c, d.chunks[0]? = some c → (priv c).isHead = true ∧ (priv c).logdev = s
  nonhead : ∀ i c, d.chunks[i]? = some c → 0 < i → (priv c).isHead = false

structure RInv (cs : Nat) (priv : Nat → Priv) (d : Desc) (T : Nat) (R : List (Nat × Nat)) : Prop where
  sum : (R.map Prod.snd).sum = d.rsv
  each : ∀ r ∈ R, 0 < r.2 ∧ d.ds ≤ r.1 ∧ r.1 + r.2 ≤ T ∧
    ∃ c, d.chunks[r.1 / cs - d.ds / cs]? = some c ∧ r.1 % cs + r.2 ≤ (priv c).eoc
  disj : R.Pairwise (fun a b => a.1 + a.2 ≤ b.1 ∨ b.1 + b.2 ≤ a.1)

def AInv (cs : Nat) (priv : Nat → Priv) (data : Nat → Nat → Nat) (d : Desc) (T : Nat)
    (R : List (Nat × Nat)) (A : Nat → Option Nat) : Prop :=
  ∀ x b, A x = some b → d.ds ≤ x ∧ x < T ∧
    (∃ c, d.chunks[x / cs - d.ds / cs]? = some c ∧ x % cs < (priv c).eoc ∧ data c (x % cs) = b) ∧
    ∀ r ∈ R, x < r.1 ∨ r.1 + r.2 ≤ x

def Str (cs : Nat) (priv : Nat → Priv) (data : Nat → Nat → Nat) (s : Nat) (d : Desc)
    (R : List (Nat × Nat)) (A : Nat → Option Nat) : Prop :=
  ∃ T, SInv cs priv s d T ∧ RInv cs priv d T R ∧ AInv cs priv data d T R A

theorem mem_of_getElem? {l : List Nat} {i c : Nat} (h : l[i]? = some c) : c ∈ l :=
  List.mem_of_getElem? h

theorem Str.congr {cs : Nat} {priv priv' : Nat → Priv} {data data' : Nat → Nat → Nat} {s : Nat}
    {d : Desc} {R : List (Nat × Nat)} {A : Nat → Option Nat}
    (hp : ∀ c ∈ d.chunks, priv' c = priv c) (hd : ∀ c ∈ d.chunks, data' c = data c)
    (h : Str cs priv data s d R A) : Str cs priv' data' s d R A := by
  obtain ⟨T, hs, hr, ha⟩ := h
  have e : ∀ {i c}, d.chunks[i]? = some c → priv' c = priv c := fun h => hp _ (mem_of_getElem? h)
  refine ⟨T, ⟨hs.tail, hs.total, hs.endOff, hs.dsT, hs.nil, hs.last, ?_, ?_, ?_, ?_, ?_⟩,
    ⟨hr.sum, ?_, hr.disj⟩, ?_⟩
  · intro i c h; rw [e h]; exact hs.next i c h
  · intro i c h; rw [e h]; exact hs.eocL i c h
  · intro i c h; rw [e h]; exact hs.eocN i c h
  · intro c h; rw [e h]; exact hs.head c h
  · intro i c h; rw [e h]; exact hs.nonhead i c h
  · intro r hr1
    obtain ⟨a, b, c, k, hk, hk2⟩ := hr.each r hr1
    exact ⟨a, b, c, k, hk, by rw [e hk]; exact hk2⟩
  · intro x b hx
    obtain ⟨h1, h2, ⟨c, hc, hc2, hc3⟩, h4⟩ := ha x b hx
    exact ⟨h1, h2, ⟨c, hc, by rw [e hc]; exact hc2, by rw [hd c (mem_of_getElem? hc)]; exact hc3⟩, h4⟩

/-- Ownership of chunks. -/
structure GInv (v : Dev) : Prop where
  cs : 0 < v.cs
  zero : 0 ∉ v.all
  own : ∀ c, c ∈ v.all ↔ c ∈ v.pool ∨ ∃ s, c ∈ (v.desc s).chunks
  poolND : v.pool.Nodup
  allND : v.all.Nodup
  strND : ∀ s, (v.desc s).chunks.Nodup
  strDisj : ∀ s s' c, c ∈ (v.desc s).chunks → c ∈ (v.desc s').chunks → s = s'
  poolDisj : ∀ s c, c ∈ v.pool → c ∈ (v.desc s).chunks → False
  poolPriv : ∀ c ∈ v.pool, (v.priv c).isHead = false ∧ (v.priv c).next = 0 ∧ (v.priv c).eoc = v.cs
  created : ∀ c ∈ v.all, 0 < (v.priv c).created

structure WInv (w : World) : Prop where
  g : GInv w.v
  s : ∀ s, Str w.v.cs w.v.priv w.v.data s (w.v.desc s) (w.R s) (w.A s)

theorem init_inv {cs cap : Nat} {data : Nat → Nat → Nat} (h : 0 < cs) :
    WInv (World.init cs cap data) := by
  constructor
  · constructor <;> simp [World.init, h]
  · intro s
    refine ⟨0, ?_, ?_, ?_⟩
    · constructor <;> simp [World.init, Desc.tail]
    · constructor <;> simp [World.init]
    · intro x b hx; simp [World.init] at hx

theorem produce_inv {w : World} {c now : Nat} {v' : Dev} (h : produce w.v c now = some v')
    (hw : WInv w) : WInv { w with v := v' } := by
  unfold produce at h
  split at h
  · cases h
  · rename_i hc
    simp only [not_or] at hc
    obtain ⟨hc1, hc2, hc3⟩ := hc
    cases h
    have hnp : c ∉ w.v.pool := fun h => hc1 ((hw.g.own c).2 (Or.inl h))
    have hns : ∀ s, c ∉ (w.v.desc s).chunks := fun s h => hc1 ((hw.g.own c).2 (Or.inr ⟨s, h⟩))
    constructor
    · constructor
      · exact hw.g.cs
      · simp only [List.mem_cons, not_or]; exact ⟨fun h => hc2 h.symm, hw.g.zero⟩
      · intro x
        have := hw.g.own x
        simp only [List.mem_cons, Dev.setPriv]
        rw [this]; tauto
      · exact List.nodup_cons.2 ⟨hnp, hw.g.poolND⟩
      · exact List.nodup_cons.2 ⟨hc1, hw.g.allND⟩
      · exact hw.g.strND
      · exact hw.g.strDisj
      · intro s x hx hx2
        rcases List.mem_cons.1 hx with h | h
        · exact hns s (h ▸ hx2)
        · exact hw.g.poolDisj s x h hx2
      · intro x hx
        by_cases hxc : x = c
        · subst hxc; simp [Dev.setPriv, upd, initPriv]
        · simp only [Dev.setPriv, upd_ne hxc]
          exact hw.g.poolPriv x ((List.mem_cons.1 hx).resolve_left hxc)
      · intro x hx
        by_cases hxc : x = c
        · subst hxc; simp [Dev.setPriv, upd, initPriv]; omega
        · simp only [Dev.setPriv, upd_ne hxc]
          exact hw.g.created x ((List.mem_cons.1 hx).resolve_left hxc)
    · intro s
      refine (hw.s s).congr ?_ (fun _ _ => rfl)
      intro x hx
      simp only [Dev.setPriv]
      exact upd_ne (fun h => hns s (h ▸ hx))

/-- Reserving at the tail inside the last chunk. -/
theorem reserve_str {cs : Nat} (hcs : 0 < cs) {priv : Nat → Priv} {data : Nat → Nat → Nat} {s : Nat} {d : Desc}
    {T sz : Nat} {R : List (Nat × Nat)} {A : Nat → Option Nat}
    (hs : SInv cs priv s d T) (hr : RInv cs priv d T R) (ha : AInv cs priv data d T R A)
    (hsz : 0 < sz) (hfit : T + sz < d.endOff) :
    Str cs priv data s { d with rsv := d.rsv + sz } ((T, sz) :: R) A := by
  have hne : d.chunks ≠ [] := by
    intro h
    have h1 := hs.endOff; rw [h] at h1
    have h2 := hs.dsT
    have h3 := div_bounds d.ds hcs
    simp at h1; omega
  have hlast := hs.last hne
  have hdiv : (T + sz) / cs = T / cs := by
    apply div_unique
    · have := div_bounds T hcs; omega
    · rw [hlast, ← hs.endOff]; exact hfit
  have hidx : T / cs - d.ds / cs + 1 = d.chunks.length := by
    have h1 : 0 < d.chunks.length := List.length_pos_iff.2 hne
    omega
  have hget : ∃ c, d.chunks[T / cs - d.ds / cs]? = some c :=
    ⟨_, List.getElem?_eq_getElem (by omega)⟩
  obtain ⟨c, hc⟩ := hget
  have he := hs.eocL _ c hc hidx
  refine ⟨T + sz, ⟨?_, hs.total, hs.endOff, ?_, fun h => absurd h hne, ?_, hs.next, hs.eocL, hs.eocN,
    hs.head, hs.nonhead⟩, ⟨?_, ?_, ?_⟩, ?_⟩
  · have := hs.tail; simp only [Desc.tail] at this ⊢; push_cast; omega
  · have := hs.dsT; show d.ds ≤ T + sz; omega
  · intro _; show (T + sz) / cs + 1 = _; rw [hdiv]; exact hlast
  · simp only [List.map_cons, List.sum_cons, hr.sum]; omega
  · intro r hr1
    rcases List.mem_cons.1 hr1 with h | h
    · subst h
      refine ⟨hsz, hs.dsT, Nat.le_refl _, c, hc, ?_⟩
      show T % cs + sz ≤ (priv c).eoc
      rw [he]
      have h1 := mod_eq T cs
      have h2 : T + sz < (T / cs + 1) * cs := by rw [hlast, ← hs.endOff]; exact hfit
      rw [Nat.add_mul] at h2; omega
    · obtain ⟨a, b, e, k⟩ := hr.each r h
      exact ⟨a, b, by omega, k⟩
  · refine List.pairwise_cons.2 ⟨?_, hr.disj⟩
    intro r h
    obtain ⟨a, b, e, k⟩ := hr.each r h
    right; exact e
  · intro x b hx
    obtain ⟨h1, h2, h3, h4⟩ := ha x b hx
    refine ⟨h1, by omega, h3, ?_⟩
    intro r hr1
    rcases List.mem_cons.1 hr1 with h | h
    · subst h; left; exact h2
    · exact h4 r h

end HS.Journal
