import Verif.Format.Model
import Verif.DevMgr.SizeProps
import Verif.Spread.Props
import Mathlib.Tactic.Ring
import Mathlib.Tactic.Linarith

/-!
# Formatting with percentages (C111)
-/
namespace HS.Format

open HS.DevMgr (VParam VFault compose roundUp minChunk maxChunks)
open HS.Spread (onDev share create)

/-! ## The specification -/

/-- Devices that can be: they have room, pages and streams. -/
def Group.Sane (g : Group) : Prop :=
  (∀ s ∈ g.sizes, 0 < s) ∧ g.page ≠ 0 ∧ g.page < 65536 ∧ g.streams ≠ 0 ∧ g.streams < 65536

/-- Parameters a service can be made with, on the devices `g`: a block size that divides the smallest chunk, and a number of chunks and
at least the size of the smallest chunk; or, if it grows, a size of its chunks. -/
def Svc.Sane (g : Group) (v : Svc) : Prop :=
  v.blk ≠ 0 ∧ v.blk < 65536 ∧
    (v.static = true → v.num ≠ 0 ∧ v.num < 65536 ∧ v.blk ∣ minChunk v.fast ∧ minChunk v.fast ≤ pctSize g v.q) ∧
    (v.static = false → v.chunk ≠ 0 ∧ v.chunk < 4000000000)

/-- The quarters of a percent that the services ask for on the fast devices (`true`), on the data devices (`false`); without fast devices
all are on the data devices. -/
def askedOn (sys : Sys) (svcs : List Svc) (b : Bool) : Nat :=
  ((svcs.filter fun v => (v.fast && decide ((sys true).sizes ≠ [])) = b).map Svc.q).sum

/-- What a service gets: of its size, which is the percentage rounded up to a page, less than one block for each chunk is not used; it gets at
most one chunk less on each device than that size has; a service that grows gets no chunk yet. -/
def Served (sys : Sys) (v : Svc) (e : VParam × List Nat) : Prop :=
  let g := if v.fast = true ∧ (sys true).sizes ≠ [] then sys true else sys false
  (v.static = true → e.1.num * e.1.chunk ≤ pctSize g v.q ∧ pctSize g v.q < e.1.num * e.1.chunk + e.1.num * v.blk ∧
    0 < e.1.num ∧ e.2.sum ≤ e.1.num ∧ e.1.num ≤ e.2.sum + g.sizes.length ∧ v.blk ∣ e.1.chunk ∧ minChunk v.fast ≤ e.1.chunk) ∧
  (v.static = false → e.2.sum = 0)

/-! ## Lemmas -/

theorem place_eq (sys : Sys) (f : Bool) : place sys f = (f && decide ((sys true).sizes ≠ [])) := by
  unfold place
  cases f
  · rfl
  · cases h : (sys true).sizes <;> simp

theorem grp_eq (sys : Sys) (v : Svc) :
    (if v.fast = true ∧ (sys true).sizes ≠ [] then sys true else sys false) = sys (place sys v.fast) := by
  rw [place_eq]
  cases hf : v.fast
  · simp
  · by_cases h : (sys true).sizes = [] <;> simp [h]

/-- The bytes that virtual devices have on a device of this size. -/
def onSize (t : Nat) (ps : List VParam) (s : Nat) : Nat := (ps.map fun p => onDev t p.chunk p.num s * p.chunk).sum

/-- The bytes of virtual devices. -/
def need (ps : List VParam) : Nat := (ps.map fun p => p.num * p.chunk).sum

theorem onSize_up {t s : Nat} (h0 : 0 < s) (h1 : s < 2 ^ 64) (h2 : 0 < t) (h3 : t < 2 ^ 64) (ps : List VParam) :
    onSize t ps s * t * 1048576 ≤ need ps * s * 1048577 := by
  induction ps with
  | nil => simp [onSize, need]
  | cons p ps ih =>
    have hs := Spread.share_up (num := p.num) h0 h1 h2 h3
    have ho : onDev t p.chunk p.num s ≤ share t s p.num := Nat.min_le_left _ _
    have e1 : onSize t (p :: ps) s = onDev t p.chunk p.num s * p.chunk + onSize t ps s := by simp [onSize]
    have e2 : need (p :: ps) = p.num * p.chunk + need ps := by simp [need]
    rw [e1, e2]
    calc (onDev t p.chunk p.num s * p.chunk + onSize t ps s) * t * 1048576
        = onDev t p.chunk p.num s * (t * 1048576 * p.chunk) + onSize t ps s * t * 1048576 := by ring
      _ ≤ share t s p.num * (t * 1048576 * p.chunk) + need ps * s * 1048577 := Nat.add_le_add (Nat.mul_le_mul_right _ ho) ih
      _ = share t s p.num * t * 1048576 * p.chunk + need ps * s * 1048577 := by ring
      _ ≤ p.num * s * 1048577 * p.chunk + need ps * s * 1048577 := Nat.add_le_add_right (Nat.mul_le_mul_right _ hs) _
      _ = (p.num * p.chunk + need ps) * s * 1048577 := by ring

theorem onSize_le {t s : Nat} (h0 : 0 < s) (h1 : s < 2 ^ 64) (h2 : 0 < t) (h3 : t < 2 ^ 64) (ps : List VParam)
    (hn : need ps * 1048577 ≤ t * 1048576) : onSize t ps s ≤ s := by
  have h := onSize_up h0 h1 h2 h3 ps
  have hp : 0 < t * 1048576 := by omega
  apply Nat.le_of_mul_le_mul_right _ hp
  calc onSize t ps s * (t * 1048576) = onSize t ps s * t * 1048576 := by ring
    _ ≤ need ps * s * 1048577 := h
    _ = s * (need ps * 1048577) := by ring
    _ ≤ s * (t * 1048576) := Nat.mul_le_mul_left _ hn

theorem need_append (a b : List VParam) : need (a ++ b) = need a + need b := by simp [need]

theorem onSize_append (t : Nat) (a b : List VParam) (s : Nat) : onSize t (a ++ b) s = onSize t a s + onSize t b s := by simp [onSize]

theorem roundUp_lt {n m : Nat} (h0 : m ≠ 0) : roundUp n m < n + m ∧ (n + m < 18446744073709551616 → n ≤ roundUp n m) := by
  unfold roundUp DevMgr.u64
  have h1 := Nat.div_mul_le_self ((n + m - 1) % 18446744073709551616) m
  have h2 := Nat.mod_le (n + m - 1) 18446744073709551616
  refine ⟨by omega, fun h => ?_⟩
  rw [Nat.mod_eq_of_lt (by omega)]
  have h3 := Nat.lt_div_mul_add (a := n + m - 1) (Nat.pos_of_ne_zero h0)
  omega

/-- A service that is made gets a consistent size. -/
theorem compose_svc {g : Group} {v : Svc} (hg : g.Sane) (ht : g.sizes.sum ≤ 1099511627776) (hq : v.q ≤ 400) (hv : v.Sane g) :
    ∃ p, compose v.fast (.striped g.streams) (asked g v) = .ok p ∧ minChunk v.fast ≤ p.chunk ∧ p.num ≤ 65536 ∧
      p.num * p.chunk ≤ pctSize g v.q ∧ v.blk ∣ p.chunk ∧
      (v.static = true → pctSize g v.q < p.num * p.chunk + p.num * v.blk ∧ 0 < p.num) ∧ (v.static = false → p.num = 0) := by
  obtain ⟨g1, g2, g3, g4, g5⟩ := hg
  obtain ⟨v1, v2, v3, v4⟩ := hv
  have hsz : pctSize g v.q < 281474976710656 := by
    have h1 := (roundUp_lt (n := v.q * g.sizes.sum / 400) g2).1
    have h2 : v.q * g.sizes.sum / 400 ≤ g.sizes.sum := by
      apply Nat.div_le_of_le_mul
      exact Nat.mul_le_mul_right _ hq
    unfold pctSize
    omega
  cases hs : v.static with
  | true =>
    obtain ⟨n1, n2, n3, n4⟩ := v3 hs
    have hr := DevMgr.roundUp_spec (n := v.num) (m := g.streams) (by omega) (by omega) g4
    have ha : DevMgr.adjustNum (.striped g.streams) v.num = .ok (roundUp v.num g.streams) := by
      unfold DevMgr.adjustNum DevMgr.u32
      simp only [if_neg g4]
      rw [Nat.mod_eq_of_lt (by omega)]
    have hask : asked g v = ⟨true, pctSize g v.q, v.num, v.blk, v.chunk⟩ := by unfold asked; rw [hs]; rfl
    have hacc := DevMgr.C19_accepts (fast := v.fast) (opt := .striped g.streams)
      (p := ⟨true, pctSize g v.q, v.num, v.blk, v.chunk⟩) (num := roundUp v.num g.streams) rfl ha (by omega) n4 hsz v1 v2 n3
    obtain ⟨p, hp⟩ := hacc
    rw [hask]
    refine ⟨p, hp, ?_⟩
    obtain ⟨num, hadj, hcase, hsan⟩ := DevMgr.compose_ok hp
    obtain ⟨s1, s2, s3, s4, s5, s6⟩ := DevMgr.sanity_ok hsan
    have hm := DevMgr.maxNum_le v.fast (pctSize g v.q)
    unfold maxChunks at hm
    rw [ha] at hadj
    injection hadj with hadj
    rcases hcase with ⟨_, hz, hcase⟩ | ⟨hd, _⟩
    · rcases hcase with ⟨_, hby⟩ | ⟨h0, _, _⟩
      · obtain ⟨b1, b2, b3, b4, b5, b6⟩ := DevMgr.byNum_ok hby hsz hz v2
        simp only at b2 b4 b6
        rw [b4] at b6 s4
        refine ⟨s5, Nat.le_trans s6 hm, by omega, Nat.dvd_of_mod_eq_zero s4, fun _ => ⟨by omega, by omega⟩, fun h => by cases h⟩
      · omega
    · cases hd
  | false =>
    obtain ⟨c1, c2⟩ := v4 hs
    have hask : asked g v = ⟨false, 0, 0, v.blk, v.chunk⟩ := by unfold asked; rw [hs]; rfl
    have ha : DevMgr.adjustNum (.striped g.streams) 0 = .ok 0 := by
      unfold DevMgr.adjustNum DevMgr.u32
      simp only [if_neg g4]
      have hr := DevMgr.roundUp_spec (n := 0) (m := g.streams) (by omega) (by omega) g4
      obtain ⟨k, hk⟩ := hr.2.2
      have : roundUp 0 g.streams = 0 := by
        cases k with
        | zero => simpa using hk
        | succ k =>
          rw [Nat.mul_succ] at hk
          omega
      rw [this]
    have hmin : minChunk v.fast ≤ 33554432 ∧ 0 < minChunk v.fast := by unfold minChunk; split <;> omega
    have hr := DevMgr.roundUp_spec (n := max v.chunk (minChunk v.fast)) (m := v.blk) (by omega) (by omega) v1
    have hu : DevMgr.u32 (roundUp (max v.chunk (minChunk v.fast)) v.blk) = roundUp (max v.chunk (minChunk v.fast)) v.blk := by
      unfold DevMgr.u32; apply Nat.mod_eq_of_lt; omega
    refine ⟨⟨false, 0, 0, v.blk, roundUp (max v.chunk (minChunk v.fast)) v.blk⟩, ?_, ?_, ?_, ?_, hr.2.2, ?_, fun _ => rfl⟩
    · rw [hask]
      unfold compose
      simp only [ha, bind, Except.bind, DevMgr.dynamic, if_neg c1, DevMgr.adjustChunk, if_neg v1, hu]
      unfold DevMgr.sanity
      show (if _ then _ else _) = _
      simp only
      rw [if_neg (by omega), if_neg (by simp), if_neg (by simp [Nat.mod_eq_zero_of_dvd hr.2.2]), if_neg (by omega), if_neg (by omega)]
    · show minChunk v.fast ≤ roundUp _ _
      omega
    · exact Nat.zero_le _
    · show 0 * _ ≤ _
      omega
    · intro h; cases h

/-- The bytes that services ask for on the devices `b`. -/
def askBytes (sys : Sys) (svcs : List Svc) (b : Bool) : Nat :=
  ((svcs.filter fun v => place sys v.fast = b).map fun v => pctSize (sys b) v.q).sum

theorem askBytes_cons (sys : Sys) (v : Svc) (l : List Svc) (b : Bool) :
    askBytes sys (v :: l) b = (if place sys v.fast = b then pctSize (sys b) v.q else 0) + askBytes sys l b := by
  unfold askBytes
  by_cases h : place sys v.fast = b <;> simp [h]

/-- The state after virtual devices `ps b` were made on the devices `b`. -/
structure Inv (sys : Sys) (st : St) (ps : Bool → List VParam) : Prop where
  used : ∀ b, st.used b = (sys b).sizes.map (onSize (sys b).sizes.sum (ps b))
  ids : st.ids * 16777216 ≤ need (ps true) + need (ps false)

theorem zip_used (f : Nat → Nat) (h : Nat → Nat) (c : Nat) (l : List Nat) :
    List.zipWith (fun u n => u + n * c) (l.map f) (l.map h) = l.map fun s => f s + h s * c := by
  induction l with
  | nil => rfl
  | cons a l ih => simp [ih]

theorem zip_all (f : Nat → Nat) (l : List Nat) (h : ∀ s ∈ l, f s ≤ s) :
    (List.zipWith (fun u s => decide (u ≤ s)) (l.map f) l).all id = true := by
  induction l with
  | nil => rfl
  | cons a l ih =>
    have := ih fun s hs => h s (List.mem_cons_of_mem _ hs)
    have ha := h a List.mem_cons_self
    simp only [List.map_cons, List.zipWith_cons_cons, List.all_cons, this, id, Bool.and_true]
    exact decide_eq_true ha

theorem ids_left {i m a b c k : Nat} (h1 : i * k ≤ a + b) (h2 : m * k ≤ c) : (i + m) * k ≤ (a + c) + b := by
  rw [Nat.add_mul]; omega

theorem ids_right {i m a b c k : Nat} (h1 : i * k ≤ a + b) (h2 : m * k ≤ c) : (i + m) * k ≤ a + (b + c) := by
  rw [Nat.add_mul]; omega

theorem ask_step {x d t n p a u Q A : Nat} (h1 : x < d + p) (h2 : d * u ≤ Q) (ih : A * u ≤ a * t + u * n) :
    (x + A) * u ≤ Q + a * t + u * (n + p) := by
  have h3 : x * u ≤ (d + p) * u := Nat.mul_le_mul_right _ (by omega)
  calc (x + A) * u = x * u + A * u := by ring
    _ ≤ (d + p) * u + (a * t + u * n) := Nat.add_le_add h3 ih
    _ = d * u + a * t + u * (n + p) := by ring
    _ ≤ Q + a * t + u * (n + p) := Nat.add_le_add_right (Nat.add_le_add_right h2 _) _

theorem ask_skip {t n p a u A : Nat} (ih : A * u ≤ a * t + u * n) : A * u ≤ a * t + u * (n + p) :=
  Nat.le_trans ih (Nat.add_le_add_left (Nat.mul_le_mul_left _ (Nat.le_add_right _ _)) _)

theorem ids_max {i n : Nat} (h : i * 16777216 ≤ n) (hn : n ≤ 1099511627776) : i ≤ 65536 := by omega

theorem ask_room {A P T : Nat} (h2 : A * 400 ≤ 399 * T + 400 * P) (h4 : P * 410 ≤ T) : A * 1048577 ≤ T * 1048576 := by
  have h : A * 164000 ≤ T * 163990 := by
    calc A * 164000 = A * 400 * 410 := by ring
      _ ≤ (399 * T + 400 * P) * 410 := Nat.mul_le_mul_right _ h2
      _ = T * 163590 + P * 410 * 400 := by ring
      _ ≤ T * 163590 + T * 400 := Nat.add_le_add_left (Nat.mul_le_mul_right _ h4) _
      _ = T * 163990 := by ring
  exact Spread.scale_le (by decide) (by decide) h

/-- One service is made. -/
theorem step_ok {sys : Sys} {st : St} {ps : Bool → List VParam} {v : Svc} {B : Bool → Nat} (hi : Inv sys st ps) (hg : ∀ b, (sys b).Sane)
    (hd : (sys false).sizes ≠ []) (hsum : (sys true).sizes.sum + (sys false).sizes.sum ≤ 1099511627776) (hq : v.q ≤ 400)
    (hv : v.Sane (sys (place sys v.fast))) (hB : ∀ b, (sys b).sizes ≠ [] → B b * 1048577 ≤ (sys b).sizes.sum * 1048576)
    (hBs : B true + B false ≤ 1099511627776)
    (hask : ∀ b, need (ps b) + (if place sys v.fast = b then pctSize (sys b) v.q else 0) ≤ B b) :
    ∃ st' ps' e, createVdev sys st v = .ok st' ∧ Inv sys st' ps' ∧ st'.vdevs = st.vdevs ++ [e] ∧ Served sys v e ∧
      ∀ b, need (ps' b) ≤ need (ps b) + (if place sys v.fast = b then pctSize (sys b) v.q else 0) := by
  have hne : (sys (place sys v.fast)).sizes ≠ [] := by
    rw [place_eq]
    cases v.fast
    · exact hd
    · by_cases h : (sys true).sizes = []
      · simp [h, hd]
      · simpa [h] using h
  have hall : ∀ b, (sys b).sizes.sum ≤ 1099511627776 := by intro b; cases b <;> omega
  generalize hb : place sys v.fast = b at *
  obtain ⟨g1, g2, g3, g4, g5⟩ := hg b
  obtain ⟨p, c1, c2, c3, c4, c5, c6, c7⟩ := compose_svc (hg b) (hall b) hq hv
  have hmin : 16777216 ≤ minChunk v.fast := by unfold minChunk; split <;> omega
  have hlt : (sys b).sizes.sum < 2 ^ 40 + 1 := by have := hall b; omega
  have hcr := Spread.create_eq (chunk := p.chunk) (num := p.num) (sizes := (sys b).sizes) (by omega) g1 c3
  have hle := Spread.sum_le (chunk := p.chunk) (num := p.num) (l := (sys b).sizes) (by omega) g1 c3
  have hpos : 0 < (sys b).sizes.sum := by
    cases hs : (sys b).sizes with
    | nil => exact absurd hs hne
    | cons a l =>
      rw [hs] at g1
      exact Nat.lt_of_lt_of_le (g1 a List.mem_cons_self) (Spread.le_sum List.mem_cons_self)
  have hneed : need (ps b ++ [p]) ≤ B b := by
    have := hask b
    rw [if_pos rfl] at this
    rw [need_append]
    have e : need [p] = p.num * p.chunk := by simp [need]
    omega
  have hroom : need (ps b ++ [p]) * 1048577 ≤ (sys b).sizes.sum * 1048576 :=
    Nat.le_trans (Nat.mul_le_mul_right _ hneed) (hB b hne)
  have hu : List.zipWith (fun u n => u + n * p.chunk) (st.used b) ((sys b).sizes.map (onDev (sys b).sizes.sum p.chunk p.num)) =
      (sys b).sizes.map (onSize (sys b).sizes.sum (ps b ++ [p])) := by
    rw [hi.used b, zip_used]
    apply List.map_congr_left
    intro s _
    rw [onSize_append]
    simp [onSize]
  have hfit := zip_all (onSize (sys b).sizes.sum (ps b ++ [p])) (sys b).sizes (fun s hs =>
    onSize_le (g1 s hs) (Nat.lt_of_le_of_lt (Spread.le_sum hs) (by omega)) hpos (by omega) _ hroom)
  have hother : ∀ c, c ≠ b → need (ps c) ≤ B c := by
    intro c hc
    have := hask c
    rw [if_neg (fun h => hc h.symm)] at this
    omega
  have hidn : (st.ids + ((sys b).sizes.map (onDev (sys b).sizes.sum p.chunk p.num)).sum) * 16777216 ≤
      need (if true = b then ps true ++ [p] else ps true) + need (if false = b then ps false ++ [p] else ps false) := by
    have h1 := hi.ids
    have h2 : ((sys b).sizes.map (onDev (sys b).sizes.sum p.chunk p.num)).sum * 16777216 ≤ p.num * p.chunk :=
      Nat.mul_le_mul hle (by omega)
    have e : need [p] = p.num * p.chunk := by simp [need]
    cases b
    · simp only [Bool.true_eq_false, if_false, if_true, need_append, e]
      exact ids_right h1 h2
    · simp only [Bool.false_eq_true, if_false, if_true, need_append, e]
      exact ids_left h1 h2
  have hids : st.ids + ((sys b).sizes.map (onDev (sys b).sizes.sum p.chunk p.num)).sum ≤ maxChunks := by
    have : need (if true = b then ps true ++ [p] else ps true) + need (if false = b then ps false ++ [p] else ps false) ≤ B true + B false := by
      cases b
      · have := hother true (by decide)
        simp only [Bool.true_eq_false, if_false, if_true]
        omega
      · have := hother false (by decide)
        simp only [Bool.false_eq_true, if_false, if_true]
        omega
    exact ids_max hidn (Nat.le_trans this hBs)
  refine ⟨⟨fun c => if c = b then (sys b).sizes.map (onSize (sys b).sizes.sum (ps b ++ [p])) else st.used c,
      st.ids + ((sys b).sizes.map (onDev (sys b).sizes.sum p.chunk p.num)).sum, _⟩,
    fun c => if c = b then ps c ++ [p] else ps c, (p, (sys b).sizes.map (onDev (sys b).sizes.sum p.chunk p.num)), ?_, ⟨?_, ?_⟩, rfl, ?_, ?_⟩
  · unfold createVdev
    simp only [hb]
    rw [if_neg hne, c1]
    simp only [hcr, hu]
    rw [if_pos ⟨hfit, hids⟩]
  · intro c
    by_cases hc : c = b
    · subst hc; simp
    · simp only [if_neg hc]; exact hi.used c
  · simp only [@eq_comm _ true b, @eq_comm _ false b] at hidn
    simp only [@eq_comm _ true b, @eq_comm _ false b]
    exact hidn
  · unfold Served
    rw [grp_eq, hb]
    refine ⟨fun hs => ?_, fun hs => ?_⟩
    · obtain ⟨d1, d2⟩ := c6 hs
      refine ⟨c4, d1, d2, hle, ?_, c5, c2⟩
      have e : need [p] = p.num * p.chunk := by simp [need]
      have hone : p.num * p.chunk * 1048577 ≤ (sys b).sizes.sum * 1048576 := by
        rw [need_append, e] at hroom
        refine Nat.le_trans (Nat.mul_le_mul_right _ ?_) hroom
        omega
      obtain ⟨l, l1, l2, _⟩ := Spread.C110_close_partial (chunk := p.chunk) (num := p.num) (sizes := (sys b).sizes) (by omega) g1 hne c3 d2
        (by omega) hone
      rw [hcr] at l1
      injection l1 with l1
      rw [l1]
      exact l2
    · have := c7 hs
      show ((sys b).sizes.map (onDev (sys b).sizes.sum p.chunk p.num)).sum = 0
      omega
  · intro c
    by_cases hc : c = b
    · subst hc
      simp only [if_true]
      rw [need_append]
      have e : need [p] = p.num * p.chunk := by simp [need]
      omega
    · simp only [if_neg hc]
      omega

/-- All services are made. -/
theorem all_ok {sys : Sys} {B : Bool → Nat} (hg : ∀ b, (sys b).Sane) (hd : (sys false).sizes ≠ [])
    (hsum : (sys true).sizes.sum + (sys false).sizes.sum ≤ 1099511627776)
    (hB : ∀ b, (sys b).sizes ≠ [] → B b * 1048577 ≤ (sys b).sizes.sum * 1048576) (hBs : B true + B false ≤ 1099511627776) :
    ∀ (svcs : List Svc) (st : St) (ps : Bool → List VParam), Inv sys st ps →
      (∀ v ∈ svcs, v.q ≠ 0 → v.q ≤ 400 ∧ v.Sane (sys (place sys v.fast))) →
      (∀ b, need (ps b) + askBytes sys (svcs.filter fun v => v.q ≠ 0) b ≤ B b) →
      ∃ st' es, createAll sys svcs st = .ok st' ∧ st'.vdevs = st.vdevs ++ es ∧
        List.Forall₂ (Served sys) (svcs.filter fun v => v.q ≠ 0) es := by
  intro svcs
  induction svcs with
  | nil => intro st ps _ _ _; exact ⟨st, [], rfl, by simp, .nil⟩
  | cons v l ih =>
    intro st ps hi hv hn
    have hl : ∀ w ∈ l, w.q ≠ 0 → w.q ≤ 400 ∧ w.Sane (sys (place sys w.fast)) := fun w hw => hv w (List.mem_cons_of_mem _ hw)
    by_cases hq : v.q = 0
    · have e : (v :: l).filter (fun v => v.q ≠ 0) = l.filter fun v => v.q ≠ 0 := by simp [hq]
      rw [e] at hn ⊢
      unfold createAll
      rw [if_pos hq]
      exact ih st ps hi hl hn
    · have e : (v :: l).filter (fun v => v.q ≠ 0) = v :: l.filter fun v => v.q ≠ 0 := by simp [hq]
      rw [e] at hn ⊢
      obtain ⟨hq4, hvs⟩ := hv v List.mem_cons_self hq
      obtain ⟨st', ps', x, s1, s2, s3, s4, s5⟩ := step_ok hi hg hd hsum hq4 hvs hB hBs (fun b => by
        have := hn b
        rw [askBytes_cons] at this
        omega)
      obtain ⟨st2, es, t1, t2, t3⟩ := ih st' ps' s2 hl (fun b => by
        have h1 := hn b
        have h2 := s5 b
        rw [askBytes_cons] at h1
        omega)
      refine ⟨st2, x :: es, ?_, ?_, .cons s4 t3⟩
      · unfold createAll
        rw [if_neg hq, s1]
        exact t1
      · rw [t2, s3, List.append_assoc]; rfl

theorem askedOn_cons (sys : Sys) (v : Svc) (l : List Svc) (b : Bool) :
    askedOn sys (v :: l) b = (if place sys v.fast = b then v.q else 0) + askedOn sys l b := by
  unfold askedOn
  simp only [← place_eq]
  by_cases h : place sys v.fast = b <;> simp [h]

theorem askBytes_le {sys : Sys} {b : Bool} (hp : (sys b).page ≠ 0) : ∀ svcs : List Svc,
    askBytes sys (svcs.filter fun v => v.q ≠ 0) b * 400 ≤
      askedOn sys svcs b * (sys b).sizes.sum + 400 * ((svcs.filter fun v => v.q ≠ 0).length * (sys b).page) := by
  intro svcs
  induction svcs with
  | nil => simp [askBytes]
  | cons v l ih =>
    rw [askedOn_cons]
    by_cases hq : v.q = 0
    · have e : (v :: l).filter (fun v => v.q ≠ 0) = l.filter fun v => v.q ≠ 0 := by simp [hq]
      rw [e, hq]
      simpa using ih
    · have e : (v :: l).filter (fun v => v.q ≠ 0) = v :: l.filter fun v => v.q ≠ 0 := by simp [hq]
      rw [e, askBytes_cons, List.length_cons]
      have h1 := (roundUp_lt (n := v.q * (sys b).sizes.sum / 400) hp).1
      have h2 := Nat.div_mul_le_self (v.q * (sys b).sizes.sum) 400
      have h3 : ((l.filter fun v => v.q ≠ 0).length + 1) * (sys b).page = (l.filter fun v => v.q ≠ 0).length * (sys b).page + (sys b).page := by ring
      rw [h3]
      by_cases hb : place sys v.fast = b
      · rw [if_pos hb, if_pos hb, Nat.add_mul v.q]
        exact ask_step h1 h2 ih
      · rw [if_neg hb, if_neg hb, Nat.zero_add, Nat.zero_add]
        exact ask_skip ih

theorem q_le_askedOn {sys : Sys} {svcs : List Svc} {v : Svc} (hv : v ∈ svcs) : v.q ≤ askedOn sys svcs (place sys v.fast) := by
  induction svcs with
  | nil => cases hv
  | cons w l ih =>
    rw [askedOn_cons]
    rcases List.mem_cons.1 hv with h | h
    · subst h; rw [if_pos rfl]; omega
    · have := ih h; omega

theorem total_le (sys : Sys) : ∀ (svcs : List Svc) (f : Bool), total svcs f ≤ askedOn sys svcs (place sys f) := by
  intro svcs f
  induction svcs with
  | nil => simp [total]
  | cons v l ih =>
    rw [askedOn_cons]
    unfold total at *
    by_cases h : v.fast = f
    · subst h; simp only [List.filter_cons, decide_true, if_true, List.map_cons, List.sum_cons]; omega
    · simp only [List.filter_cons, h, decide_false]
      simp only [Bool.false_eq_true, if_false]
      omega

/-! ## The theorems -/

/-- **C111 (part)**.  A system of at most 1 TiB is formatted: if on the devices of each type (on all devices, if there are no fast ones)
the services ask for at most 99.75 percent, at least one percent is asked for on a type, the parameters of the services are sane, and the devices
have 410 pages for each service, then the formatting succeeds, and every service with a percentage gets what it asked for, save for the
chunks that are lost to rounding. -/
theorem C111_formats_partial {sys : Sys} {svcs : List Svc} (hg : ∀ b, (sys b).Sane) (hd : (sys false).sizes ≠ [])
    (hsum : (sys true).sizes.sum + (sys false).sizes.sum ≤ 1099511627776)
    (hq : ∀ b, askedOn sys svcs b ≤ 399)
    (hp : ∀ b, (sys b).sizes ≠ [] → (svcs.filter fun v => v.q ≠ 0).length * (sys b).page * 410 ≤ (sys b).sizes.sum)
    (hv : ∀ v ∈ svcs, v.q ≠ 0 → v.Sane (if v.fast = true ∧ (sys true).sizes ≠ [] then sys true else sys false))
    (h1 : ∃ f, 4 ≤ ((svcs.filter fun v => v.fast = f).map Svc.q).sum) :
    ∃ st, format sys svcs = .ok st ∧ List.Forall₂ (Served sys) (svcs.filter fun v => v.q ≠ 0) st.vdevs := by
  have hacc : accepted svcs = true := by
    have ht := Nat.le_trans (total_le sys svcs true) (hq _)
    have hf := Nat.le_trans (total_le sys svcs false) (hq _)
    obtain ⟨f, h1⟩ := h1
    have h1' : 4 ≤ total svcs f := h1
    have hne : ¬ total svcs true / 4 + total svcs false / 4 = 0 := by cases f <;> omega
    unfold accepted
    simp only [Bool.and_eq_true, decide_eq_true_eq, Bool.not_eq_true', beq_eq_false_iff_ne]
    exact ⟨⟨by omega, by omega⟩, hne⟩
  have hbytes : ∀ b, (sys b).sizes ≠ [] → askBytes sys (svcs.filter fun v => v.q ≠ 0) b * 1048577 ≤ (sys b).sizes.sum * 1048576 := by
    intro b hb
    have h2 := askBytes_le (sys := sys) (b := b) (hg b).2.1 svcs
    have h3 : askedOn sys svcs b * (sys b).sizes.sum ≤ 399 * (sys b).sizes.sum := Nat.mul_le_mul_right _ (hq b)
    have h4 := hp b hb
    exact ask_room (Nat.le_trans h2 (Nat.add_le_add_right h3 _)) h4
  have hempty : ∀ b, (sys b).sizes = [] → askBytes sys (svcs.filter fun v => v.q ≠ 0) b = 0 := by
    intro b hb
    have hno : ∀ l : List Svc, askBytes sys l b = 0 := by
      intro l
      induction l with
      | nil => rfl
      | cons v l ih =>
        rw [askBytes_cons, ih, if_neg]
        intro h
        rw [place_eq] at h
        cases b with
        | false => exact hd hb
        | true => simp [hb] at h
    exact hno _
  have hAll : ∀ b, askBytes sys (svcs.filter fun v => v.q ≠ 0) b ≤ (sys b).sizes.sum := by
    intro b
    by_cases hb : (sys b).sizes = []
    · rw [hempty b hb]; exact Nat.zero_le _
    · have h := Nat.le_trans (hbytes b hb) (Nat.mul_le_mul_left _ (by decide : 1048576 ≤ 1048577))
      exact Nat.le_of_mul_le_mul_right h (by decide)
  have hinv : Inv sys (blank sys) fun _ => [] := by
    constructor
    · intro b
      simp only [blank]
      apply List.map_congr_left
      intro s _
      simp [onSize]
    · simp [blank, need]
  obtain ⟨st, es, t1, t2, t3⟩ := all_ok (B := fun b => askBytes sys (svcs.filter fun v => v.q ≠ 0) b) hg hd hsum hbytes
    (Nat.le_trans (Nat.add_le_add (hAll true) (hAll false)) hsum) svcs (blank sys) (fun _ => []) hinv (fun v hm hq0 => by
      refine ⟨Nat.le_trans (q_le_askedOn (sys := sys) hm) (Nat.le_trans (hq _) (by decide)), ?_⟩
      have := hv v hm hq0
      rwa [grp_eq] at this) (fun b => by simp [need])
  refine ⟨st, ?_, ?_⟩
  · unfold format; rw [if_pos hacc]; exact t1
  · rw [t2]; simpa [blank] using t3

/-- **C111 (part)**.  Before anything is written, the formatting is refused if and only if the percentages of the services of a type add up to
more than a hundred, or those of each type to less than one. -/
theorem C111_refused_partial {sys : Sys} {svcs : List Svc} :
    format sys svcs = .error .invalid ↔
      (∃ f, 400 < ((svcs.filter fun v => v.fast = f).map Svc.q).sum) ∨ ∀ f, ((svcs.filter fun v => v.fast = f).map Svc.q).sum < 4 := by
  have hall : ∀ (l : List Svc) (st : St), createAll sys l st ≠ .error .invalid := by
    intro l
    induction l with
    | nil => intro st h; cases h
    | cons v l ih =>
      intro st h
      unfold createAll at h
      split at h
      · exact ih _ h
      · split at h
        · rename_i e he
          injection h with h
          subst h
          unfold createVdev at he
          simp only at he
          split at he
          · cases he
          · split at he
            · cases he
            · split at he
              · cases he
              · split at he <;> cases he
        · exact ih _ h
  show _ ↔ (∃ f, 400 < total svcs f) ∨ ∀ f, total svcs f < 4
  unfold format
  by_cases ha : accepted svcs = true
  · rw [if_pos ha]
    refine ⟨fun h => absurd h (hall _ _), fun h => ?_⟩
    exfalso
    unfold accepted at ha
    simp only [Bool.and_eq_true, decide_eq_true_eq, Bool.not_eq_true', beq_eq_false_iff_ne] at ha
    rcases h with ⟨f, h⟩ | h
    · cases f <;> omega
    · have a := h true; have b := h false; omega
  · rw [if_neg ha]
    refine ⟨fun _ => ?_, fun _ => rfl⟩
    unfold accepted at ha
    simp only [Bool.and_eq_true, decide_eq_true_eq, Bool.not_eq_true', beq_eq_false_iff_ne] at ha
    by_cases h1 : 400 < total svcs true
    · exact .inl ⟨true, h1⟩
    · by_cases h2 : 400 < total svcs false
      · exact .inl ⟨false, h2⟩
      · right
        intro f
        have : ¬ (total svcs true / 4 + total svcs false / 4 ≠ 0) := fun h => ha ⟨⟨by omega, by omega⟩, h⟩
        cases f <;> omega

/-! ## Violations -/

/-- Data devices of these sizes, with pages of 4 KiB, and no fast devices. -/
def dataOnly (l : List Nat) : Sys := fun b => if b then ⟨[], 1, 4096⟩ else ⟨l, l.length, 4096⟩

/-- A service of fixed size with blocks of 4 KiB. -/
def fixed (fast : Bool) (q num : Nat) : Svc := ⟨fast, q, true, num, 4096, 0⟩

/-- What a formatting makes of the services: number and size of the chunks, and the chunks on each device. -/
def outcome (r : Except Fault St) : Except Fault (List (Nat × Nat × List Nat)) :=
  match r with
  | .error e => .error e
  | .ok st => .ok (st.vdevs.map fun e => (e.1.num, e.1.chunk, e.2))

/-- **C111 (violated)**.  A hundred percent can be too much: with 2 GiB and a page, two services of 50 percent are each rounded up to a page, and
there is no room for the second. -/
theorem C111_hundred_violated :
    outcome (format (dataOnly [2147487744]) [fixed false 200 1, fixed false 200 1]) = .error .noRoom := by decide +kernel

/-- **C111 (violated)**.  Services for fast and for data devices with 60 percent each are accepted without fast devices, and fail when there is
no room. -/
theorem C111_no_fast_violated :
    outcome (format (dataOnly [4294967296]) [fixed true 240 1, fixed false 240 1]) = .error .noRoom := by decide +kernel

/-- **C111 (violated)**.  Services with 0.75 percent on each type are refused as no services at all, though they have room for their chunks. -/
theorem C111_small_violated :
    outcome (format (dataOnly [1099511627776]) [fixed true 3 1, fixed false 3 1]) = .error .invalid ∧
    outcome (format (dataOnly [1099511627776]) [fixed false 3 1, fixed false 3 1]) = .ok [(2, 4123168768, [2]), (2, 4123168768, [2])] :=
  ⟨by decide +kernel, by decide +kernel⟩

/-- **C111 (violated)**.  A service that is smaller than the smallest chunk is a division by zero. -/
theorem C111_tiny_violated :
    outcome (format (dataOnly [4294967296]) [fixed false 1 1, fixed false 360 8]) = .error (.sizing .divZero) := by decide +kernel

/-- **C111 (violated)**.  Two devices of 64 GiB and a service of eight percent, for which one chunk was asked: it needs three chunks, and gets two. -/
theorem C111_third_lost_violated :
    outcome (format (dataOnly [68719476736, 68719476736]) [fixed false 32 1, fixed false 320 64]) =
      .ok [(3, 3665039360, [1, 1]), (64, 1717985280, [32, 32])] := by decide +kernel

/-- **C111 (violated)**.  Three devices of 64 GiB and a page, and a service of five percent: it is made without any chunk. -/
theorem C111_none_violated :
    outcome (format (dataOnly [68719480832, 68719480832, 68719480832]) [fixed false 20 1, fixed false 320 63]) =
      .ok [(3, 3435974656, [0, 0, 0]), (63, 2617884672, [20, 20, 20])] := by decide +kernel

/-! ## Cases that meet the hypotheses -/

/-- A fast device of 8 GiB and two data devices of 64 GiB; a log that grows. -/
def sys1 : Sys := fun b => if b then ⟨[8589934592], 1, 4096⟩ else ⟨[68719476736, 68719476736], 2, 4096⟩

def svcs1 : List Svc := [fixed false 36 2, ⟨true, 180, false, 0, 512, 67108864⟩, fixed true 40 1, fixed false 0 0, fixed false 320 64]

example : ∃ st, format sys1 svcs1 = .ok st ∧ List.Forall₂ (Served sys1) (svcs1.filter fun v => v.q ≠ 0) st.vdevs :=
  C111_formats_partial (by intro b; cases b <;> (unfold Group.Sane; decide)) (by decide) (by decide) (by intro b; cases b <;> decide)
    (by intro b; cases b <;> decide) (by unfold Svc.Sane; decide +kernel) ⟨true, by decide⟩

example : outcome (format sys1 svcs1) =
    .ok [(3, 4123168768, [1, 1]), (0, 67108864, [0]), (1, 858996736, [1]), (64, 1717985280, [32, 32])] := by decide +kernel

example : format sys1 [fixed true 200 1, fixed true 201 1] = .error .invalid := C111_refused_partial.2 (.inl ⟨true, by decide⟩)

end HS.Format
