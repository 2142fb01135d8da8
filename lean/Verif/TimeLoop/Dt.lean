import Verif.Hydro.State
import Mathlib.Analysis.Real.Sqrt
import Mathlib.Order.WithBot
import Mathlib.Algebra.BigOperators.Fin
import Mathlib.Data.Fin.VecNotation
import Mathlib.Tactic.FinCases
import Mathlib.Tactic.NormNum
import Mathlib.Tactic.Linarith
import Mathlib.Tactic.Ring
import Mathlib.Tactic.FieldSimp
import Mathlib.Tactic.Positivity

/-!
# C42: the time step

Model of `Compute_dt_hydro`, `Compute_dt_parabolic` and `Compute_dt_particle_velocity` (`core/src/compute_dt`) and of
their combination in `DyabloTimeLoop.h` L606-617. Arithmetic is exact, but NaN is kept as a value because the
reductions treat it in their own way; a failed release assertion ends the run.
-/

namespace Verif.Dt

open Verif.Hydro

/-! ### Model -/

/-- A number or NaN. -/
abbrev Num := Option ℝ

/-- `real_type.h` L25: `x > y ? x : y`; comparisons with NaN are false. -/
noncomputable def fmax (x y : Num) : Num :=
  match x, y with
  | some a, some b => if a > b then some a else some b
  | _, y => y

/-- Kokkos `Max::join`: `if( dest < src ) dest = src`. -/
noncomputable def join (dest src : Num) : Num :=
  match dest, src with
  | some a, some b => if a < b then some b else some a
  | dest, _ => dest

/-- How the cells of a rank are shared out in a reduction: runs of cells handled one after the other, and partial
results joined, in any order. -/
inductive Red (α : Type) where
  | run (cells : List α)
  | both (l r : Red α)

/-- The cells taking part. -/
def Red.cells {α : Type} : Red α → List α
  | run cs => cs
  | both l r => l.cells ++ r.cells

/-- `reduce_cell(…, Kokkos::Max<real_t>(inv_dt))`. `lowest` is the neutral element, the lowest finite number. -/
noncomputable def Red.eval {α : Type} (lowest : ℝ) (rate : α → Num) : Red α → Num
  | run cs => cs.foldl (fun acc c => fmax acc (rate c)) (some lowest)
  | both l r => join (l.eval lowest rate) (r.eval lowest rate)

/-- `Compute_dt_hydro.cpp` L121-123: `cfl/inv_dt`, infinite if `inv_dt` is 0 (`cfl` is positive); the run ends unless
it is positive. -/
noncomputable def localDt {α : Type} (lowest cfl : ℝ) (rate : α → Num) (t : Red α) : Option (WithTop ℝ) :=
  match t.eval lowest rate with
  | none => none
  | some inv => if inv = 0 then some ⊤ else if 0 < cfl / inv then some ((cfl / inv : ℝ) : WithTop ℝ) else none

/-- L39-54: the smallest of all ranks; a rank that fails ends the run. -/
noncomputable def globalDt {α : Type} (lowest cfl : ℝ) (rate : α → Num) (ranks : List (Red α)) : Option (WithTop ℝ) :=
  (ranks.mapM (localDt lowest cfl rate)).map fun l => l.foldl min ⊤

/-- `DyabloTimeLoop.h` L606-616: the smallest of all kernels, starting from the largest number. -/
noncomputable def timeStep (largest : ℝ) (kernels : List (Option (WithTop ℝ))) : Option (WithTop ℝ) :=
  (kernels.mapM id).map fun l => l.foldl min (largest : WithTop ℝ)

/-- `Compute_dt_hydro.cpp` L75-94, the rate of one cell. The primitive state is computed with `consToPrim<3>` in all
dimensions. Where a quotient or root is not defined, or a quotient is infinite, the result is NaN here. -/
noncomputable def hydroRate (ndim : ℕ) (gamma : ℝ) (c : Cons ℝ × (Fin 3 → ℝ)) : Num :=
  let q := consToPrim 3 gamma (getCons ndim c.1)
  let csq := q.p * gamma / q.rho
  if q.rho = 0 ∨ csq < 0 ∨ c.2 0 = 0 ∨ c.2 1 = 0 ∨ c.2 2 = 0 then none
  else
    let cs := Real.sqrt csq
    let vx := cs + |q.u|
    let vy := cs + |q.v|
    let vz := if ndim = 2 then 0 else cs + |q.w|
    some (vx / c.2 0 + vy / c.2 1 + vz / c.2 2)

/-- The primitive state of MHD, `State_MHD.h`. -/
structure MhdPrim where
  rho : ℝ
  p : ℝ
  v : Fin 3 → ℝ
  B : Fin 3 → ℝ

/-- L99-119: one more candidate per direction for MHD, from the primitive state. -/
noncomputable def mhdDirRate (gamma : ℝ) (q : MhdPrim) (size : Fin 3 → ℝ) (i : Fin 3) : ℝ :=
  let cs := Real.sqrt (q.p * gamma / q.rho)
  let gr := cs * cs * q.rho
  let bt2 : Fin 3 → ℝ := ![q.B 1 * q.B 1 + q.B 2 * q.B 2, q.B 0 * q.B 0 + q.B 2 * q.B 2, q.B 0 * q.B 0 + q.B 1 * q.B 1]
  let b2 := q.B 0 * q.B 0 + q.B 1 * q.B 1 + q.B 2 * q.B 2
  let cf1 := gr - b2
  let cf2 := gr + b2 + Real.sqrt (cf1 * cf1 + 4 * gr * bt2 i)
  let cf := Real.sqrt (1 / 2 * cf2 / q.rho)
  let cmax := if |q.v i - cf| > |q.v i + cf| then |q.v i - cf| else |q.v i + cf|
  cmax / size i

/-- L75-119 for MHD; the running maximum over the candidates of a cell is the rate of the cell. -/
noncomputable def mhdRate (ndim : ℕ) (gamma : ℝ) (c : MhdPrim × (Fin 3 → ℝ)) : Num :=
  let q := c.1
  let csq := q.p * gamma / q.rho
  if q.rho = 0 ∨ csq < 0 ∨ c.2 0 = 0 ∨ c.2 1 = 0 ∨ c.2 2 = 0 then none
  else
    let cs := Real.sqrt csq
    let vz := if ndim = 2 then 0 else cs + |q.v 2|
    let r := some ((cs + |q.v 0|) / c.2 0 + (cs + |q.v 1|) / c.2 1 + vz / c.2 2)
    ((List.finRange 3).filter fun i => i.val < ndim).foldl (fun acc i => fmax acc (some (mhdDirRate gamma q c.2 i))) r

/-- `Compute_dt_parabolic.cpp` L74-101: `kappa` and `mu` are the coefficients at the cell, `none` if the term is not
solved explicitly. -/
noncomputable def parabolicRate (ndim : ℕ) (c : (Option ℝ × Option ℝ) × (Fin 3 → ℝ)) : Num :=
  if c.2 0 = 0 ∨ c.2 1 = 0 ∨ c.2 2 = 0 then none
  else
    let one (k : Option ℝ) : Num :=
      match k with
      | none => some 0
      | some k =>
        let m := fmax (some (k / (c.2 0 * c.2 0))) (some (k / (c.2 1 * c.2 1)))
        if ndim = 3 then fmax m (some (k / (c.2 2 * c.2 2))) else m
    fmax (one c.1.1) (one c.1.2)

/-- `Compute_dt_particle_velocity.cpp` L61-82: the velocity of a particle and the sizes of the cell it is in. -/
noncomputable def particleRate (ndim : ℕ) (smallV : ℝ) (c : (Fin 3 → ℝ) × (Fin 3 → ℝ)) : Num :=
  let vx := smallV + c.1 0
  let vy := smallV + c.1 1
  let vz := if ndim = 3 then smallV + c.1 2 else 0
  let v := Real.sqrt (vx * vx + vy * vy + vz * vz)
  let dmin := if c.2 0 < c.2 1 then c.2 0 else c.2 1
  let dmin := if ndim = 3 then (if dmin < c.2 2 then dmin else c.2 2) else dmin
  if dmin = 0 then none else some (v / dmin)

/-! ### Specification -/

/-- Momentum in a direction. -/
def momentum (U : Cons ℝ) (k : Fin 3) : ℝ := ![U.ru, U.rv, U.rw] k

/-- Sound speed of an ideal gas. -/
noncomputable def soundSpeed (ndim : ℕ) (gamma : ℝ) (U : Cons ℝ) : ℝ :=
  Real.sqrt (gamma * pressure ndim gamma U / U.rho)

/-- Sum over the directions of the largest signal speed over the size of the cell. -/
noncomputable def courant (ndim : ℕ) (gamma : ℝ) (c : Cons ℝ × (Fin 3 → ℝ)) : ℝ :=
  ∑ k ∈ Finset.univ.filter (fun k : Fin 3 => k.val < ndim),
    (|momentum c.1 k / c.1.rho| + soundSpeed ndim gamma c.1) / c.2 k

/-- A cell with positive density, pressure and sizes. -/
def GoodCell (ndim : ℕ) (gamma : ℝ) (c : Cons ℝ × (Fin 3 → ℝ)) : Prop :=
  0 < c.1.rho ∧ 0 < pressure ndim gamma c.1 ∧ ∀ k, 0 < c.2 k

/-- Speed of fast magnetosonic waves in direction `i`, textbook form with the sound speed `a` and the Alfvén speeds
`B/sqrt(rho)`. -/
noncomputable def fastSpeed (gamma : ℝ) (q : MhdPrim) (i : Fin 3) : ℝ :=
  let a2 := gamma * q.p / q.rho
  let b2 := (∑ k, q.B k ^ 2) / q.rho
  let bi2 := q.B i ^ 2 / q.rho
  Real.sqrt ((a2 + b2 + Real.sqrt ((a2 + b2) ^ 2 - 4 * a2 * bi2)) / 2)

/-! ### Reductions -/

theorem fmax_some (a b : ℝ) : fmax (some a) (some b) = some (max a b) := by
  unfold fmax
  simp only
  split
  · rename_i h; rw [max_eq_left (le_of_lt h)]
  · rename_i h; rw [max_eq_right (not_lt.1 h)]

theorem join_some (a b : ℝ) : join (some a) (some b) = some (max a b) := by
  unfold join
  simp only
  split
  · rename_i h; rw [max_eq_right (le_of_lt h)]
  · rename_i h; rw [max_eq_left (not_lt.1 h)]

theorem run_spec {α : Type} (rate : α → Num) (r : α → ℝ) (cs : List α) (h : ∀ c ∈ cs, rate c = some (r c)) (a : ℝ) :
    ∃ m, cs.foldl (fun acc c => fmax acc (rate c)) (some a) = some m ∧ a ≤ m ∧ (∀ c ∈ cs, r c ≤ m) ∧
      (m = a ∨ ∃ c ∈ cs, r c = m) := by
  induction cs generalizing a with
  | nil => exact ⟨a, rfl, le_rfl, by simp, Or.inl rfl⟩
  | cons c cs ih =>
    rw [List.foldl_cons, h c List.mem_cons_self, fmax_some]
    obtain ⟨m, h1, h2, h3, h4⟩ := ih (fun c hc => h c (List.mem_cons_of_mem _ hc)) (max a (r c))
    refine ⟨m, h1, le_trans (le_max_left _ _) h2, fun c' hc' => ?_, ?_⟩
    · rcases List.mem_cons.1 hc' with rfl | hc'
      · exact le_trans (le_max_right _ _) h2
      · exact h3 c' hc'
    · rcases h4 with h4 | ⟨c', hc', h4⟩
      · rcases max_choice a (r c) with h5 | h5
        · exact Or.inl (h4.trans h5)
        · exact Or.inr ⟨c, List.mem_cons_self, (h4.trans h5).symm⟩
      · exact Or.inr ⟨c', List.mem_cons_of_mem _ hc', h4⟩

/-- Without NaN a reduction gives the maximum, in whatever order it is made. -/
theorem eval_spec {α : Type} (lowest : ℝ) (rate : α → Num) (r : α → ℝ) (t : Red α)
    (h : ∀ c ∈ t.cells, rate c = some (r c)) :
    ∃ m, t.eval lowest rate = some m ∧ lowest ≤ m ∧ (∀ c ∈ t.cells, r c ≤ m) ∧
      (m = lowest ∨ ∃ c ∈ t.cells, r c = m) := by
  induction t with
  | run cs => exact run_spec rate r cs h lowest
  | both a b iha ihb =>
    unfold Red.cells at h ⊢
    obtain ⟨m, h1, h2, h3, h4⟩ := iha fun c hc => h c (List.mem_append_left _ hc)
    obtain ⟨n, k1, k2, k3, k4⟩ := ihb fun c hc => h c (List.mem_append_right _ hc)
    refine ⟨max m n, by unfold Red.eval; rw [h1, k1, join_some], le_trans h2 (le_max_left _ _), fun c hc => ?_, ?_⟩
    · rcases List.mem_append.1 hc with hc | hc
      · exact le_trans (h3 c hc) (le_max_left _ _)
      · exact le_trans (k3 c hc) (le_max_right _ _)
    · rcases max_choice m n with e | e <;> rw [e]
      · exact h4.imp id fun ⟨c, hc, h⟩ => ⟨c, List.mem_append_left _ hc, h⟩
      · exact k4.imp id fun ⟨c, hc, h⟩ => ⟨c, List.mem_append_right _ hc, h⟩

theorem foldl_min (l : List (WithTop ℝ)) (a : WithTop ℝ) :
    l.foldl min a ≤ a ∧ (∀ x ∈ l, l.foldl min a ≤ x) ∧ (l.foldl min a = a ∨ l.foldl min a ∈ l) := by
  induction l generalizing a with
  | nil => exact ⟨le_rfl, by simp, Or.inl rfl⟩
  | cons x l ih =>
    rw [List.foldl_cons]
    obtain ⟨h1, h2, h3⟩ := ih (min a x)
    refine ⟨le_trans h1 (min_le_left _ _), fun y hy => ?_, ?_⟩
    · rcases List.mem_cons.1 hy with rfl | hy
      · exact le_trans h1 (min_le_right _ _)
      · exact h2 y hy
    · rcases h3 with h3 | h3
      · rcases min_choice a x with e | e
        · exact Or.inl (h3.trans e)
        · exact Or.inr (by rw [h3, e]; exact List.mem_cons_self)
      · exact Or.inr (List.mem_cons_of_mem _ h3)

theorem mapM_some {α β : Type} {f : α → Option β} {l : List α} (h : ∀ a ∈ l, ∃ b, f a = some b) :
    ∃ r, l.mapM f = some r ∧ (∀ a ∈ l, ∃ b ∈ r, f a = some b) ∧ ∀ b ∈ r, ∃ a ∈ l, f a = some b := by
  induction l with
  | nil => exact ⟨[], rfl, by simp, by simp⟩
  | cons a l ih =>
    obtain ⟨b, hb⟩ := h a List.mem_cons_self
    obtain ⟨r, h1, h2, h3⟩ := ih fun a ha => h a (List.mem_cons_of_mem _ ha)
    refine ⟨b :: r, by rw [List.mapM_cons, hb, h1]; rfl, ?_, ?_⟩
    · intro a' ha'
      rcases List.mem_cons.1 ha' with rfl | ha'
      · exact ⟨b, List.mem_cons_self, hb⟩
      · obtain ⟨b', hb', e⟩ := h2 a' ha'
        exact ⟨b', List.mem_cons_of_mem _ hb', e⟩
    · intro b' hb'
      rcases List.mem_cons.1 hb' with rfl | hb'
      · exact ⟨a, List.mem_cons_self, hb⟩
      · obtain ⟨a', ha', e⟩ := h3 b' hb'
        exact ⟨a', List.mem_cons_of_mem _ ha', e⟩

/-- The step of a kernel whose rates are not negative, each rank having some cell. -/
theorem globalDt_spec {α : Type} {lowest cfl : ℝ} (hl : lowest < 0) (hc : 0 < cfl) (rate : α → Num) (r : α → ℝ)
    (ranks : List (Red α)) (hne : ∀ t ∈ ranks, t.cells ≠ [])
    (h : ∀ t ∈ ranks, ∀ c ∈ t.cells, rate c = some (r c) ∧ 0 ≤ r c) :
    ∃ dt : WithTop ℝ, globalDt lowest cfl rate ranks = some dt ∧ 0 < dt ∧
      (∀ t ∈ ranks, ∀ c ∈ t.cells, ∀ x : ℝ, dt = x → x * r c ≤ cfl) ∧
      ((∃ t ∈ ranks, ∃ c ∈ t.cells, 0 < r c) → ∃ x : ℝ, dt = x ∧ ∃ t ∈ ranks, ∃ c ∈ t.cells, x * r c = cfl) := by
  -- one rank
  have hloc : ∀ t ∈ ranks, ∃ dt : WithTop ℝ, localDt lowest cfl rate t = some dt ∧ 0 < dt ∧
      (∀ c ∈ t.cells, 0 < r c → ∃ x : ℝ, dt = x) ∧ (∀ x : ℝ, dt = x → (∀ c ∈ t.cells, x * r c ≤ cfl) ∧
        ∃ c ∈ t.cells, x * r c = cfl) := by
    intro t ht
    obtain ⟨m, h1, -, h3, h4⟩ := eval_spec lowest rate r t fun c hc => (h t ht c hc).1
    have hm : ∃ c ∈ t.cells, r c = m := by
      rcases h4 with h4 | h4
      · obtain ⟨c, hc⟩ := List.exists_mem_of_ne_nil _ (hne t ht)
        have := h3 c hc
        have := (h t ht c hc).2
        linarith
      · exact h4
    have hm0 : 0 ≤ m := by
      obtain ⟨c, hc, e⟩ := hm
      rw [← e]; exact (h t ht c hc).2
    unfold localDt
    rw [h1]
    simp only
    by_cases hz : m = 0
    · rw [if_pos hz]
      refine ⟨⊤, rfl, WithTop.coe_lt_top 0, fun c hc hr => ?_, fun x hx => absurd hx.symm (WithTop.coe_ne_top)⟩
      have := h3 c hc
      rw [hz] at this
      exact absurd this (not_le.2 hr)
    · have hmp : 0 < m := lt_of_le_of_ne hm0 (Ne.symm hz)
      have hpos : 0 < cfl / m := div_pos hc hmp
      rw [if_neg hz, if_pos hpos]
      refine ⟨_, rfl, by exact_mod_cast hpos, fun c _ _ => ⟨_, rfl⟩, fun x hx => ?_⟩
      have hx : cfl / m = x := by exact_mod_cast hx
      rw [← hx]
      refine ⟨fun c hc => ?_, ?_⟩
      · have := h3 c hc
        rw [div_mul_eq_mul_div, div_le_iff₀ hmp]
        exact mul_le_mul_of_nonneg_left this (le_of_lt ‹0 < cfl›)
      · obtain ⟨c, hc, e⟩ := hm
        exact ⟨c, hc, by rw [e]; exact div_mul_cancel₀ _ hz⟩
  obtain ⟨l, k1, k2, k3⟩ := mapM_some fun t ht => (hloc t ht).imp fun _ h => h.1
  obtain ⟨m1, m2, m3⟩ := foldl_min l ⊤
  have hfrom : ∀ x : ℝ, l.foldl min ⊤ = x → ∃ t ∈ ranks, localDt lowest cfl rate t = some (x : WithTop ℝ) := by
    intro x hx
    rcases m3 with m3 | m3
    · rw [m3] at hx; exact absurd hx.symm WithTop.coe_ne_top
    · rw [hx] at m3
      exact k3 _ m3
  refine ⟨l.foldl min ⊤, by unfold globalDt; rw [k1]; rfl, ?_, ?_, ?_⟩
  · rcases m3 with m3 | m3
    · rw [m3]; exact WithTop.coe_lt_top 0
    · obtain ⟨t, ht, e⟩ := k3 _ m3
      obtain ⟨dt, e1, e2, -⟩ := hloc t ht
      rw [e] at e1
      rw [Option.some.inj e1]
      exact e2
  · intro t ht c hc' x hx
    obtain ⟨dt, e1, e2, e3, e4⟩ := hloc t ht
    obtain ⟨b, hb, e⟩ := k2 t ht
    rw [e1] at e
    have hle := m2 b hb
    rw [← Option.some.inj e, hx] at hle
    have hr := (h t ht c hc').2
    by_cases htop : dt = ⊤
    · -- the rank does not limit the step: its rates are 0
      rcases eq_or_lt_of_le hr with h0 | h0
      · rw [← h0, mul_zero]; exact hc.le
      · obtain ⟨y, hy⟩ := e3 c hc' h0
        rw [htop] at hy
        exact absurd hy.symm WithTop.coe_ne_top
    · obtain ⟨y, hy⟩ := WithTop.ne_top_iff_exists.1 htop
      rw [← hy] at hle
      have hle : x ≤ y := by exact_mod_cast hle
      exact le_trans (mul_le_mul_of_nonneg_right hle hr) ((e4 y hy.symm).1 c hc')
  · rintro ⟨t, ht, c, hc', hr⟩
    obtain ⟨dt, e1, -, e3, -⟩ := hloc t ht
    obtain ⟨b, hb, e⟩ := k2 t ht
    rw [e1] at e
    have hle := m2 b hb
    obtain ⟨y, hy⟩ := e3 c hc' hr
    rw [← Option.some.inj e, hy] at hle
    obtain ⟨x, hx⟩ := WithTop.ne_top_iff_exists.1 (ne_of_lt (lt_of_le_of_lt hle (WithTop.coe_lt_top y)))
    refine ⟨x, hx.symm, ?_⟩
    obtain ⟨t', ht', e'⟩ := hfrom x hx.symm
    obtain ⟨dt', e1', -, -, e4'⟩ := hloc t' ht'
    rw [e'] at e1'
    exact ⟨t', ht', (e4' x (Option.some.inj e1').symm).2⟩

/-! ### Rates of cells -/

theorem hydroRate_good {ndim : ℕ} (hd : ndim = 2 ∨ ndim = 3) {gamma : ℝ} (hg : 1 < gamma) {c : Cons ℝ × (Fin 3 → ℝ)}
    (h : GoodCell ndim gamma c) : hydroRate ndim gamma c = some (courant ndim gamma c) ∧ 0 < courant ndim gamma c := by
  obtain ⟨h1, h2, h3⟩ := h
  have hp : (consToPrim 3 gamma (getCons ndim c.1)).p = pressure ndim gamma c.1 := by
    unfold pressure kinetic consToPrim getCons
    simp only
    rcases hd with rfl | rfl
    · simp only [if_neg (show ¬ (2 : ℕ) = 3 by decide)]
      field_simp
      ring
    · simp only [if_true]
      field_simp
  have hcs : 0 < pressure ndim gamma c.1 * gamma / c.1.rho := div_pos (mul_pos h2 (by linarith)) h1
  have hc0 : 0 < soundSpeed ndim gamma c.1 := by
    unfold soundSpeed
    rw [mul_comm]
    exact Real.sqrt_pos.2 hcs
  constructor
  · unfold hydroRate
    simp only
    rw [hp]
    have hr : (consToPrim 3 gamma (getCons ndim c.1)).rho = c.1.rho := rfl
    rw [hr, if_neg]
    · congr 1
      unfold courant soundSpeed
      rw [mul_comm gamma]
      rcases hd with rfl | rfl
      · rw [show (Finset.univ.filter fun k : Fin 3 => k.val < 2) = {0, 1} by decide, Finset.sum_pair (by decide)]
        simp only [if_true]
        rw [zero_div, add_zero, add_comm |_|, add_comm |_|]
        rfl
      · rw [show (Finset.univ.filter fun k : Fin 3 => k.val < 3) = {0, 1, 2} by decide,
          Finset.sum_insert (by decide), Finset.sum_pair (by decide)]
        simp only [if_neg (show ¬ (3 : ℕ) = 2 by decide)]
        rw [add_comm |_|, add_comm |_|, add_comm |_|, ← add_assoc]
        rfl
    · rintro (h | h | h | h | h)
      · exact h1.ne' h
      · exact absurd h (not_lt.2 hcs.le)
      · exact (h3 _).ne' h
      · exact (h3 _).ne' h
      · exact (h3 _).ne' h
  · unfold courant
    refine Finset.sum_pos (fun k _ => div_pos (add_pos_of_nonneg_of_pos (abs_nonneg _) hc0) (h3 k)) ⟨0, ?_⟩
    rcases hd with rfl | rfl <;> decide

/-! ### Theorems -/

/-- C42: the step of the hydro kernel is positive and meets the stability bound in every cell of every rank, with
equality in one of them, however the reductions are ordered. -/
theorem C42_hydro_partial {ndim : ℕ} (hd : ndim = 2 ∨ ndim = 3) {gamma lowest cfl : ℝ} (hg : 1 < gamma)
    (hl : lowest < 0) (hc : 0 < cfl) (ranks : List (Red (Cons ℝ × (Fin 3 → ℝ)))) (hne : ranks ≠ [])
    (hcell : ∀ t ∈ ranks, t.cells ≠ []) (h : ∀ t ∈ ranks, ∀ c ∈ t.cells, GoodCell ndim gamma c) :
    ∃ dt : ℝ, globalDt lowest cfl (hydroRate ndim gamma) ranks = some (dt : WithTop ℝ) ∧ 0 < dt ∧
      (∀ t ∈ ranks, ∀ c ∈ t.cells, dt ≤ cfl / courant ndim gamma c) ∧
      ∃ t ∈ ranks, ∃ c ∈ t.cells, dt = cfl / courant ndim gamma c := by
  obtain ⟨dt, h1, h2, h3, h4⟩ := globalDt_spec hl hc (hydroRate ndim gamma) (courant ndim gamma) ranks hcell
    fun t ht c hc' => ⟨(hydroRate_good hd hg (h t ht c hc')).1, (hydroRate_good hd hg (h t ht c hc')).2.le⟩
  have hpos := fun t ht c hc' => (hydroRate_good hd hg (h t ht c hc')).2
  obtain ⟨t, ht⟩ := List.exists_mem_of_ne_nil _ hne
  obtain ⟨c, hc'⟩ := List.exists_mem_of_ne_nil _ (hcell t ht)
  obtain ⟨x, hx, t', ht', c', hc'', e⟩ := h4 ⟨t, ht, c, hc', hpos t ht c hc'⟩
  refine ⟨x, by rw [h1, hx], by rw [hx] at h2; exact_mod_cast h2, fun t ht c hc' => ?_, t', ht', c', hc'', ?_⟩
  · rw [le_div_iff₀ (hpos t ht c hc')]
    exact h3 t ht c hc' x hx
  · rw [eq_div_iff (hpos t' ht' c' hc'').ne', e]

/-- C42, negation: a rank without cells ends the run, whatever the others hold. -/
theorem C42_empty_rank_fails {α : Type} {lowest cfl : ℝ} (hl : lowest < 0) (hc : 0 < cfl) (rate : α → Num)
    (ranks : List (Red α)) (h : Red.run [] ∈ ranks) : globalDt lowest cfl rate ranks = none := by
  have hz : localDt lowest cfl rate (Red.run []) = none := by
    unfold localDt Red.eval
    simp only [List.foldl_nil]
    rw [if_neg hl.ne, if_neg (not_lt.2 (div_neg_of_pos_of_neg hc hl).le)]
  unfold globalDt
  have : ranks.mapM (localDt lowest cfl rate) = none := by
    induction ranks with
    | nil => cases h
    | cons t l ih =>
      rw [List.mapM_cons]
      rcases List.mem_cons.1 h with h | h
      · rw [← h, hz]; rfl
      · rw [ih h]
        cases localDt lowest cfl rate t <;> rfl
  rw [this]
  rfl

/-- C42, outside its hypotheses: one cell whose rate is NaN makes the maximum forget the cells before it, so the run
goes on with a step that is too long for them. -/
theorem C42_nan_forgets_fails {lowest cfl : ℝ} (hc : 0 < cfl) :
    globalDt lowest cfl id [Red.run [some 10, none, some 1]] = some (cfl : WithTop ℝ) := by
  have hp : 0 < cfl / 1 := by rw [div_one]; exact hc
  unfold globalDt
  have : localDt lowest cfl id (Red.run [some 10, none, some 1]) = some (cfl : WithTop ℝ) := by
    have e : (Red.run [some 10, none, some 1]).eval lowest id = some 1 := by
      have e1 : ∀ x : Num, fmax x none = none := fun x => by cases x <;> rfl
      have e2 : ∀ y : Num, fmax none y = y := fun y => by cases y <;> rfl
      unfold Red.eval
      rw [List.foldl_cons, List.foldl_cons, List.foldl_cons, List.foldl_nil]
      simp only [id]
      rw [e1, e2]
    unfold localDt
    rw [e]
    simp only
    rw [if_neg one_ne_zero, if_pos hp, div_one]
  rw [List.mapM_cons, this]
  rfl

/-- C42: several kernels together: the step is at most that of each of them. -/
theorem C42_all_kernels {largest : ℝ} (hl : 0 < largest) (dts : List (WithTop ℝ)) (h : ∀ d ∈ dts, 0 < d) :
    ∃ dt : ℝ, timeStep largest (dts.map some) = some (dt : WithTop ℝ) ∧ 0 < dt ∧ dt ≤ largest ∧
      ∀ d ∈ dts, (dt : WithTop ℝ) ≤ d := by
  have hm : (dts.map some).mapM id = some dts := by
    clear h
    induction dts with
    | nil => rfl
    | cons d l ih => rw [List.map_cons, List.mapM_cons, ih]; rfl
  obtain ⟨m1, m2, m3⟩ := foldl_min dts (largest : WithTop ℝ)
  obtain ⟨x, hx⟩ := WithTop.ne_top_iff_exists.1 (ne_of_lt (lt_of_le_of_lt m1 (WithTop.coe_lt_top largest)))
  refine ⟨x, by unfold timeStep; rw [hm, hx]; rfl, ?_, ?_, ?_⟩
  · have : (0 : WithTop ℝ) < dts.foldl min (largest : WithTop ℝ) := by
      rcases m3 with m3 | m3
      · rw [m3]; exact_mod_cast hl
      · exact h _ m3
    rw [← hx] at this
    exact_mod_cast this
  · rw [← hx] at m1; exact_mod_cast m1
  · intro d hd
    rw [hx]
    exact m2 d hd

/-- C42 for MHD: besides the bound of the hydro kernel, the step keeps the fast waves within `cfl` cells in each
direction. -/
theorem C42_mhd_partial {ndim : ℕ} (hd : ndim = 2 ∨ ndim = 3) {gamma lowest cfl : ℝ} (hg : 0 < gamma)
    (hl : lowest < 0) (hc : 0 < cfl) (ranks : List (Red (MhdPrim × (Fin 3 → ℝ)))) (hcell : ∀ t ∈ ranks, t.cells ≠ [])
    (h : ∀ t ∈ ranks, ∀ c ∈ t.cells, 0 < c.1.rho ∧ 0 < c.1.p ∧ ∀ k, 0 < c.2 k) (hne : ranks ≠ []) :
    ∃ dt : ℝ, globalDt lowest cfl (mhdRate ndim gamma) ranks = some (dt : WithTop ℝ) ∧ 0 < dt ∧
      ∀ t ∈ ranks, ∀ c ∈ t.cells,
        (∀ i : Fin 3, i.val < ndim → dt * ((|c.1.v i| + fastSpeed gamma c.1 i) / c.2 i) ≤ cfl) ∧
        dt * (∑ k ∈ Finset.univ.filter (fun k : Fin 3 => k.val < ndim),
          (|c.1.v k| + Real.sqrt (gamma * c.1.p / c.1.rho)) / c.2 k) ≤ cfl := by
  -- the speed of the code is the textbook one
  have hfast : ∀ q : MhdPrim, 0 < q.rho → 0 < q.p → ∀ size : Fin 3 → ℝ, (∀ k, 0 < size k) → ∀ i,
      mhdDirRate gamma q size i = (|q.v i| + fastSpeed gamma q i) / size i := by
    intro q h1 h2 size h3 i
    have hcs : 0 ≤ q.p * gamma / q.rho := (div_pos (mul_pos h2 hg) h1).le
    unfold mhdDirRate
    simp only
    rw [Real.mul_self_sqrt hcs, div_mul_cancel₀ _ h1.ne']
    congr 1
    have e : Real.sqrt (1 / 2 * (q.p * gamma + (q.B 0 * q.B 0 + q.B 1 * q.B 1 + q.B 2 * q.B 2) +
        Real.sqrt ((q.p * gamma - (q.B 0 * q.B 0 + q.B 1 * q.B 1 + q.B 2 * q.B 2)) *
          (q.p * gamma - (q.B 0 * q.B 0 + q.B 1 * q.B 1 + q.B 2 * q.B 2)) + 4 * (q.p * gamma) *
          (![q.B 1 * q.B 1 + q.B 2 * q.B 2, q.B 0 * q.B 0 + q.B 2 * q.B 2, q.B 0 * q.B 0 + q.B 1 * q.B 1] : Fin 3 → ℝ) i)) /
        q.rho) = fastSpeed gamma q i := by
      unfold fastSpeed
      simp only [Fin.sum_univ_three]
      congr 1
      have e2 : ((gamma * q.p / q.rho + (q.B 0 ^ 2 + q.B 1 ^ 2 + q.B 2 ^ 2) / q.rho) ^ 2 -
          4 * (gamma * q.p / q.rho) * (q.B i ^ 2 / q.rho)) =
          ((q.p * gamma - (q.B 0 * q.B 0 + q.B 1 * q.B 1 + q.B 2 * q.B 2)) *
          (q.p * gamma - (q.B 0 * q.B 0 + q.B 1 * q.B 1 + q.B 2 * q.B 2)) + 4 * (q.p * gamma) *
          (![q.B 1 * q.B 1 + q.B 2 * q.B 2, q.B 0 * q.B 0 + q.B 2 * q.B 2, q.B 0 * q.B 0 + q.B 1 * q.B 1] : Fin 3 → ℝ) i) /
            q.rho ^ 2 := by
        fin_cases i <;> simp <;> field_simp <;> ring
      rw [e2, Real.sqrt_div' _ (by positivity), Real.sqrt_sq h1.le]
      field_simp
    rw [e]
    have hf : 0 ≤ fastSpeed gamma q i := Real.sqrt_nonneg _
    generalize fastSpeed gamma q i = f at hf
    generalize q.v i = v
    rcases le_total 0 v with hv | hv
    · rw [abs_of_nonneg hv, abs_of_nonneg (add_nonneg hv hf), if_neg]
      rw [gt_iff_lt, not_lt, abs_le]
      constructor <;> linarith
    · rw [abs_of_nonpos hv, abs_of_nonpos (show v - f ≤ 0 by linarith)]
      split
      · ring
      · rename_i hn
        rw [gt_iff_lt, not_lt] at hn
        have : |v + f| ≤ -(v - f) := by rw [abs_le]; constructor <;> linarith
        linarith
  set S : MhdPrim × (Fin 3 → ℝ) → ℝ := fun c => ∑ k ∈ Finset.univ.filter (fun k : Fin 3 => k.val < ndim),
          (|c.1.v k| + Real.sqrt (gamma * c.1.p / c.1.rho)) / c.2 k with hS
  -- the rate of a cell
  have hrate : ∀ c : MhdPrim × (Fin 3 → ℝ), 0 < c.1.rho ∧ 0 < c.1.p ∧ (∀ k, 0 < c.2 k) →
      ∃ m, mhdRate ndim gamma c = some m ∧ S c ≤ m ∧ 0 < S c ∧
        ∀ i : Fin 3, i.val < ndim → (|c.1.v i| + fastSpeed gamma c.1 i) / c.2 i ≤ m := by
    rintro c ⟨h1, h2, h3⟩
    have hcs : 0 < c.1.p * gamma / c.1.rho := div_pos (mul_pos h2 hg) h1
    have hS0 : 0 < S c := by
      rw [hS]
      refine Finset.sum_pos (fun k _ => div_pos (add_pos_of_nonneg_of_pos (abs_nonneg _) (Real.sqrt_pos.2 ?_)) (h3 k)) ⟨0, ?_⟩
      · rw [mul_comm]; exact hcs
      · rcases hd with rfl | rfl <;> decide
    have hbase : Real.sqrt (c.1.p * gamma / c.1.rho) = Real.sqrt (gamma * c.1.p / c.1.rho) := by rw [mul_comm gamma]
    have hfirst : (Real.sqrt (c.1.p * gamma / c.1.rho) + |c.1.v 0|) / c.2 0 +
        (Real.sqrt (c.1.p * gamma / c.1.rho) + |c.1.v 1|) / c.2 1 +
        (if ndim = 2 then 0 else Real.sqrt (c.1.p * gamma / c.1.rho) + |c.1.v 2|) / c.2 2 = S c := by
      rw [hbase, hS]
      rcases hd with rfl | rfl
      · simp only
        rw [show (Finset.univ.filter fun k : Fin 3 => k.val < 2) = {0, 1} by decide, Finset.sum_pair (by decide),
          if_pos trivial, zero_div, add_zero, add_comm |_|, add_comm |_|]
      · simp only
        rw [show (Finset.univ.filter fun k : Fin 3 => k.val < 3) = {0, 1, 2} by decide,
          Finset.sum_insert (by decide), Finset.sum_pair (by decide), if_neg (by decide), add_comm |_|, add_comm |_|,
          add_comm |_|, ← add_assoc]
    have hun : mhdRate ndim gamma c = ((List.finRange 3).filter fun i => i.val < ndim).foldl
        (fun acc i => fmax acc (some (mhdDirRate gamma c.1 c.2 i))) (some (S c)) := by
      unfold mhdRate
      simp only
      rw [if_neg, hfirst]
      rintro (h | h | h | h | h)
      · exact h1.ne' h
      · exact absurd h (not_lt.2 hcs.le)
      · exact (h3 _).ne' h
      · exact (h3 _).ne' h
      · exact (h3 _).ne' h
    obtain ⟨m, m1, m2, m3, -⟩ := run_spec (fun i => some (mhdDirRate gamma c.1 c.2 i))
      (fun i => mhdDirRate gamma c.1 c.2 i) ((List.finRange 3).filter fun i => i.val < ndim) (fun _ _ => rfl) (S c)
    refine ⟨m, by rw [hun]; exact m1, m2, hS0, fun i hi => ?_⟩
    rw [← hfast c.1 h1 h2 c.2 h3 i]
    exact m3 i (List.mem_filter.2 ⟨List.mem_finRange i, by simpa using hi⟩)
  let r : MhdPrim × (Fin 3 → ℝ) → ℝ := fun c => (mhdRate ndim gamma c).getD 0
  have hr : ∀ c : MhdPrim × (Fin 3 → ℝ), 0 < c.1.rho ∧ 0 < c.1.p ∧ (∀ k, 0 < c.2 k) →
      mhdRate ndim gamma c = some (r c) ∧ S c ≤ r c ∧ 0 < r c ∧
        ∀ i : Fin 3, i.val < ndim → (|c.1.v i| + fastSpeed gamma c.1 i) / c.2 i ≤ r c := by
    intro c hc
    obtain ⟨m, m1, m2, m3, m4⟩ := hrate c hc
    have : r c = m := by show (mhdRate ndim gamma c).getD 0 = m; rw [m1]; rfl
    rw [this]
    exact ⟨m1, m2, by linarith, m4⟩
  obtain ⟨dt, h1, h2, h3, h4⟩ := globalDt_spec hl hc (mhdRate ndim gamma) r ranks hcell
    fun t ht c hc' => ⟨(hr c (h t ht c hc')).1, (hr c (h t ht c hc')).2.2.1.le⟩
  obtain ⟨t, ht⟩ := List.exists_mem_of_ne_nil _ hne
  obtain ⟨c, hc'⟩ := List.exists_mem_of_ne_nil _ (hcell t ht)
  obtain ⟨x, hx, -⟩ := h4 ⟨t, ht, c, hc', (hr c (h t ht c hc')).2.2.1⟩
  have hx0 : 0 < x := by rw [hx] at h2; exact_mod_cast h2
  refine ⟨x, by rw [h1, hx], hx0, fun t ht c hc' => ⟨fun i hi => ?_, ?_⟩⟩
  · exact le_trans (mul_le_mul_of_nonneg_left ((hr c (h t ht c hc')).2.2.2 i hi) hx0.le) (h3 t ht c hc' x hx)
  · exact le_trans (mul_le_mul_of_nonneg_left (hr c (h t ht c hc')).2.1 hx0.le) (h3 t ht c hc' x hx)

/-- C42 for diffusion: the step times the coefficient is at most `cfl` times the squared size, in every direction. -/
theorem C42_parabolic_partial {ndim : ℕ} {lowest cfl : ℝ} (hl : lowest < 0) (hc : 0 < cfl)
    (ranks : List (Red ((Option ℝ × Option ℝ) × (Fin 3 → ℝ)))) (hcell : ∀ t ∈ ranks, t.cells ≠ [])
    (h : ∀ t ∈ ranks, ∀ c ∈ t.cells, (∀ k, 0 < c.2 k) ∧ (∀ k ∈ c.1.1, 0 ≤ k) ∧ ∀ k ∈ c.1.2, 0 ≤ k) :
    ∃ dt : WithTop ℝ, globalDt lowest cfl (parabolicRate ndim) ranks = some dt ∧ 0 < dt ∧
      ∀ t ∈ ranks, ∀ c ∈ t.cells, ∀ k, k ∈ c.1.1 ∨ k ∈ c.1.2 → ∀ i : Fin 3, i.val < 2 ∨ ndim = 3 →
        ∀ x : ℝ, dt = x → x * k ≤ cfl * c.2 i ^ 2 := by
  let r : (Option ℝ × Option ℝ) × (Fin 3 → ℝ) → ℝ := fun c => (parabolicRate ndim c).getD 0
  have hr : ∀ t ∈ ranks, ∀ c ∈ t.cells, parabolicRate ndim c = some (r c) ∧ 0 ≤ r c ∧
      ∀ k, k ∈ c.1.1 ∨ k ∈ c.1.2 → ∀ i : Fin 3, i.val < 2 ∨ ndim = 3 → k / c.2 i ^ 2 ≤ r c := by
    intro t ht c hc'
    obtain ⟨h1, h2, h3⟩ := h t ht c hc'
    -- one coefficient
    have hone : ∀ k : Option ℝ, (∀ a ∈ k, 0 ≤ a) → ∃ m : ℝ, (match k with
        | none => some 0
        | some k =>
          let m := fmax (some (k / (c.2 0 * c.2 0))) (some (k / (c.2 1 * c.2 1)))
          if ndim = 3 then fmax m (some (k / (c.2 2 * c.2 2))) else m : Num) = some m ∧ 0 ≤ m ∧
        ∀ a ∈ k, ∀ i : Fin 3, i.val < 2 ∨ ndim = 3 → a / c.2 i ^ 2 ≤ m := by
      intro k hk
      cases k with
      | none => exact ⟨0, rfl, le_rfl, fun a ha => by cases ha⟩
      | some k =>
        have hk := hk k rfl
        have n0 : ∀ i, 0 ≤ k / (c.2 i * c.2 i) := fun i => div_nonneg hk (mul_self_nonneg _)
        simp only
        rw [fmax_some]
        by_cases hn : ndim = 3
        · rw [if_pos hn, fmax_some]
          refine ⟨_, rfl, le_max_of_le_right (n0 2), fun a ha i _ => ?_⟩
          rw [← Option.mem_some.1 ha, sq]
          fin_cases i
          · exact le_max_of_le_left (le_max_left _ _)
          · exact le_max_of_le_left (le_max_right _ _)
          · exact le_max_right _ _
        · rw [if_neg hn]
          refine ⟨_, rfl, le_max_of_le_right (n0 1), fun a ha i hi => ?_⟩
          rw [← Option.mem_some.1 ha, sq]
          fin_cases i
          · exact le_max_left _ _
          · exact le_max_right _ _
          · rcases hi with hi | hi
            · exact absurd hi (by decide)
            · exact absurd hi hn
    obtain ⟨m, m1, m2, m3⟩ := hone c.1.1 h2
    obtain ⟨n, n1, n2, n3⟩ := hone c.1.2 h3
    have e : parabolicRate ndim c = some (max m n) := by
      unfold parabolicRate
      rw [if_neg]
      · simp only
        rw [m1, n1, fmax_some]
      · rintro (h | h | h) <;> exact (h1 _).ne' h
    have er : r c = max m n := by show (parabolicRate ndim c).getD 0 = _; rw [e]; rfl
    rw [er]
    refine ⟨e, le_max_of_le_left m2, fun k hk i hi => ?_⟩
    rcases hk with hk | hk
    · exact le_max_of_le_left (m3 k hk i hi)
    · exact le_max_of_le_right (n3 k hk i hi)
  obtain ⟨dt, h1, h2, h3, -⟩ := globalDt_spec hl hc (parabolicRate ndim) r ranks hcell
    fun t ht c hc' => ⟨(hr t ht c hc').1, (hr t ht c hc').2.1⟩
  refine ⟨dt, h1, h2, fun t ht c hc' k hk i hi x hx => ?_⟩
  have hx0 : 0 < x := by rw [hx] at h2; exact_mod_cast h2
  have hs : 0 < c.2 i ^ 2 := by have := (h t ht c hc').1 i; positivity
  have := le_trans (mul_le_mul_of_nonneg_left ((hr t ht c hc').2.2 k hk i hi) hx0.le) (h3 t ht c hc' x hx)
  rwa [← mul_div_assoc, div_le_iff₀ hs] at this

/-- C42 for particles that move in no negative direction: none crosses more than `cfl` cells. -/
theorem C42_particle_partial {ndim : ℕ} {lowest cfl smallV : ℝ} (hl : lowest < 0) (hc : 0 < cfl)
    (hs : 0 ≤ smallV) (ranks : List (Red ((Fin 3 → ℝ) × (Fin 3 → ℝ)))) (hcell : ∀ t ∈ ranks, t.cells ≠ [])
    (h : ∀ t ∈ ranks, ∀ c ∈ t.cells, ∀ k, 0 < c.2 k ∧ 0 ≤ c.1 k) :
    ∃ dt : WithTop ℝ, globalDt lowest cfl (particleRate ndim smallV) ranks = some dt ∧ 0 < dt ∧
      ∀ t ∈ ranks, ∀ c ∈ t.cells, ∀ i : Fin 3, i.val < 2 ∨ ndim = 3 → ∀ x : ℝ, dt = x → x * |c.1 i| ≤ cfl * c.2 i := by
  let r : (Fin 3 → ℝ) × (Fin 3 → ℝ) → ℝ := fun c => (particleRate ndim smallV c).getD 0
  have hr : ∀ t ∈ ranks, ∀ c ∈ t.cells, particleRate ndim smallV c = some (r c) ∧ 0 ≤ r c ∧
      ∀ i : Fin 3, i.val < 2 ∨ ndim = 3 → |c.1 i| / c.2 i ≤ r c := by
    intro t ht c hc'
    have h := h t ht c hc'
    set vx := smallV + c.1 0 with hvx
    set vy := smallV + c.1 1 with hvy
    set vz := (if ndim = 3 then smallV + c.1 2 else 0) with hvz
    set d1 := (if c.2 0 < c.2 1 then c.2 0 else c.2 1) with hd1
    set dm := (if ndim = 3 then (if d1 < c.2 2 then d1 else c.2 2) else d1) with hdm
    have a1 : d1 ≤ c.2 0 ∧ d1 ≤ c.2 1 ∧ 0 < d1 := by
      rw [hd1]; split
      · rename_i hh; exact ⟨le_rfl, hh.le, (h 0).1⟩
      · rename_i hh; exact ⟨not_lt.1 hh, le_rfl, (h 1).1⟩
    have a2 : dm ≤ d1 ∧ (ndim = 3 → dm ≤ c.2 2) ∧ 0 < dm := by
      rw [hdm]; split
      · split
        · rename_i hh; exact ⟨le_rfl, fun _ => hh.le, a1.2.2⟩
        · rename_i hh; exact ⟨not_lt.1 hh, fun _ => le_rfl, (h 2).1⟩
      · rename_i hh; exact ⟨le_rfl, fun e => absurd e hh, a1.2.2⟩
    have e : particleRate ndim smallV c = some (Real.sqrt (vx * vx + vy * vy + vz * vz) / dm) := by
      unfold particleRate
      simp only
      rw [if_neg a2.2.2.ne']
    have er : r c = Real.sqrt (vx * vx + vy * vy + vz * vz) / dm := by
      show (particleRate ndim smallV c).getD 0 = _; rw [e]; rfl
    rw [er]
    refine ⟨e, div_nonneg (Real.sqrt_nonneg _) a2.2.2.le, fun i hi => ?_⟩
    have hcmp : |c.1 i| ≤ Real.sqrt (vx * vx + vy * vy + vz * vz) := by
      rw [abs_of_nonneg (h i).2]
      refine Real.le_sqrt_of_sq_le ?_
      have x0 := mul_self_nonneg vx
      have y0 := mul_self_nonneg vy
      have z0 := mul_self_nonneg vz
      fin_cases i
      · have := (h 0).2
        show c.1 0 ^ 2 ≤ _
        nlinarith
      · have := (h 1).2
        show c.1 1 ^ 2 ≤ _
        nlinarith
      · have := (h 2).2
        show c.1 2 ^ 2 ≤ _
        have hn : ndim = 3 := by
          rcases hi with hi | hi
          · exact absurd hi (by decide)
          · exact hi
        rw [if_pos hn] at hvz
        nlinarith
    have hdim : dm ≤ c.2 i := by
      fin_cases i
      · exact le_trans a2.1 a1.1
      · exact le_trans a2.1 a1.2.1
      · rcases hi with hi | hi
        · exact absurd hi (by decide)
        · exact a2.2.1 hi
    exact div_le_div₀ (Real.sqrt_nonneg _) hcmp a2.2.2 hdim
  obtain ⟨dt, h1, h2, h3, -⟩ := globalDt_spec hl hc (particleRate ndim smallV) r ranks hcell
    fun t ht c hc' => ⟨(hr t ht c hc').1, (hr t ht c hc').2.1⟩
  refine ⟨dt, h1, h2, fun t ht c hc' i hi x hx => ?_⟩
  have hx0 : 0 < x := by rw [hx] at h2; exact_mod_cast h2
  have := le_trans (mul_le_mul_of_nonneg_left ((hr t ht c hc').2.2 i hi) hx0.le) (h3 t ht c hc' x hx)
  rwa [← mul_div_assoc, div_le_iff₀ (h t ht c hc' i).1] at this

/-- C42, negation for particles: the small velocity is added to the signed components (L68-70), so particles that
move in negative directions get a step that is too long. Here one moves with velocity -1 in a cell of size 1. -/
theorem C42_particle_fails {lowest cfl smallV : ℝ} (hl : lowest < 0) (hc : 0 < cfl) (hs : 0 < smallV)
    (hs1 : smallV < 1) : ∃ dt : ℝ,
    globalDt lowest cfl (particleRate 2 smallV) [Red.run [(![-1, -smallV, 0], ![1, 1, 1])]] = some (dt : WithTop ℝ) ∧
      cfl * 1 < dt * |(-1 : ℝ)| := by
  have e : particleRate 2 smallV (![-1, -smallV, 0], ![1, 1, 1]) = some (1 - smallV) := by
    unfold particleRate
    simp
    rw [show (smallV + -1) * (smallV + -1) = (1 - smallV) ^ 2 by ring, Real.sqrt_sq (by linarith)]
  have hm : 0 < 1 - smallV := by linarith
  refine ⟨cfl / (1 - smallV), ?_, ?_⟩
  · have hev : (Red.run [((![-1, -smallV, 0] : Fin 3 → ℝ), (![1, 1, 1] : Fin 3 → ℝ))]).eval lowest (particleRate 2 smallV) =
        some (1 - smallV) := by
      unfold Red.eval
      rw [List.foldl_cons, List.foldl_nil, e, fmax_some, max_eq_right (by linarith)]
    unfold globalDt
    have : localDt lowest cfl (particleRate 2 smallV) (Red.run [(![-1, -smallV, 0], ![1, 1, 1])]) =
        some ((cfl / (1 - smallV) : ℝ) : WithTop ℝ) := by
      unfold localDt
      rw [hev]
      simp only
      rw [if_neg hm.ne', if_pos (div_pos hc hm)]
    rw [List.mapM_cons, this]
    rfl
  · rw [abs_neg, abs_one, mul_one, mul_one, lt_div_iff₀ hm]
    nlinarith

/-! ### Examples -/

/-- A gas at rest next to a moving one, on two ranks; one rank reduces in two parts. -/
example : ∃ dt : ℝ, globalDt (-10) (1 / 2) (hydroRate 3 (5 / 3))
    [Red.both (Red.run [(⟨1, 3 / 2, 0, 0, 0⟩, fun _ => 1)]) (Red.run []), Red.run [(⟨2, 4, 1, -1, 1⟩, fun _ => 1 / 2)]] =
      some (dt : WithTop ℝ) ∧ 0 < dt := by
  obtain ⟨dt, h1, h2, -⟩ := C42_hydro_partial (ndim := 3) (Or.inr rfl) (gamma := 5 / 3) (lowest := -10) (cfl := 1 / 2)
    (by norm_num) (by norm_num) (by norm_num)
    [Red.both (Red.run [(⟨1, 3 / 2, 0, 0, 0⟩, fun _ => 1)]) (Red.run []), Red.run [(⟨2, 4, 1, -1, 1⟩, fun _ => 1 / 2)]]
    (by simp) (by simp [Red.cells]) (by
      intro t ht c hc
      simp only [List.mem_cons, List.not_mem_nil, or_false] at ht
      rcases ht with rfl | rfl
      · simp only [Red.cells, List.append_nil, List.mem_singleton] at hc
        subst hc
        refine ⟨by norm_num, by norm_num [pressure, kinetic], fun _ => by norm_num⟩
      · simp only [Red.cells, List.mem_singleton] at hc
        subst hc
        refine ⟨by norm_num, by norm_num [pressure, kinetic], fun _ => by norm_num⟩)
  exact ⟨dt, h1, h2⟩

/-- A magnetised gas. -/
example : ∃ dt : ℝ, globalDt (-10) (1 / 2) (mhdRate 2 (5 / 3))
    [Red.run [(⟨1, 1, ![1, -2, 0], ![1, 0, 1]⟩, fun _ => 1)]] = some (dt : WithTop ℝ) ∧ 0 < dt := by
  obtain ⟨dt, h1, h2, -⟩ := C42_mhd_partial (ndim := 2) (Or.inl rfl) (gamma := 5 / 3) (lowest := -10) (cfl := 1 / 2)
    (by norm_num) (by norm_num) (by norm_num) [Red.run [(⟨1, 1, ![1, -2, 0], ![1, 0, 1]⟩, fun _ => 1)]]
    (by simp [Red.cells]) (by
      intro t ht c hc
      simp only [List.mem_singleton] at ht
      subst ht
      simp only [Red.cells, List.mem_singleton] at hc
      subst hc
      exact ⟨by norm_num, by norm_num, fun _ => by norm_num⟩) (by simp)
  exact ⟨dt, h1, h2⟩

/-- Conduction without viscosity, and a rank with neither. -/
example : ∃ dt : WithTop ℝ, globalDt (-10) (1 / 2) (parabolicRate 2)
    [Red.run [((some 3, none), fun _ => 1)], Red.run [((none, none), fun _ => 1)]] = some dt ∧ 0 < dt := by
  obtain ⟨dt, h1, h2, -⟩ := C42_parabolic_partial (ndim := 2) (lowest := -10) (cfl := 1 / 2) (by norm_num) (by norm_num)
    [Red.run [((some 3, none), fun _ => 1)], Red.run [((none, none), fun _ => 1)]] (by simp [Red.cells]) (by
      intro t ht c hc
      simp only [List.mem_cons, List.not_mem_nil, or_false] at ht
      rcases ht with rfl | rfl <;> simp only [Red.cells, List.mem_singleton] at hc <;> subst hc
      · exact ⟨fun _ => by norm_num, fun k hk => by rw [← Option.mem_some.1 hk]; norm_num, fun k hk => by cases hk⟩
      · exact ⟨fun _ => by norm_num, (fun k hk => by cases hk), (fun k hk => by cases hk)⟩)
  exact ⟨dt, h1, h2⟩

end Verif.Dt
