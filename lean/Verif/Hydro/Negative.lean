import Verif.Hydro.Hancock
import Verif.Hydro.Positive

/-!
# C86: negative densities at the default Courant number

A gas in four octants of 8 by 8 cells of size 1, at rest and with density 1 except in a cross of nine cells.
-/

namespace Verif.Hydro.Euler

open Verif.Octree Verif.Cells Verif.Flux Verif.Hydro Verif.Dt

/-! ### The gas -/

noncomputable def coldParams : Params := ⟨7 / 5, 1 / 10 ^ 10, 1 / 10 ^ 10, 1 / 10 ^ 10⟩

def coldDomain : Domain 2 := ⟨![0, 0], ![16, 16]⟩

/-- A state with pressure 1/5600. -/
noncomputable def coldGas (rho u v : ℝ) : Cons ℝ := ⟨rho, 1 / 2240 + rho * (u ^ 2 + v ^ 2) / 2, rho * u, rho * v, 0⟩

/-- Along x the gas moves at speed 1 and its density grows, along y it moves away from the middle. -/
noncomputable def cross (o : Oct 2) (x : Fin 2 → ℕ) : Cons ℝ :=
  if o = ⟨1, ![0, 0]⟩ then
    if x = ![1, 3] then coldGas (1 / 10) 1 0
    else if x = ![2, 3] then coldGas (1 / 10) 1 0
    else if x = ![3, 3] then coldGas 1 1 0
    else if x = ![4, 3] then coldGas 2 1 0
    else if x = ![5, 3] then coldGas 2 1 0
    else if x = ![3, 1] then coldGas 1 0 (-1)
    else if x = ![3, 2] then coldGas 1 0 (-1)
    else if x = ![3, 4] then coldGas 1 0 1
    else if x = ![3, 5] then coldGas 1 0 1
    else coldGas 1 0 0
  else coldGas 1 0 0

theorem coldParams_ok : coldParams.Ok := ⟨by norm_num [coldParams], by norm_num [coldParams], by norm_num [coldParams]⟩

theorem cold_pressure {rho : ℝ} (h : rho ≠ 0) (u v : ℝ) : pressure 2 coldParams.gamma (coldGas rho u v) = 1 / 5600 := by
  unfold pressure kinetic coldGas coldParams
  simp only [if_neg (show ¬ (2 : ℕ) = 3 by decide)]
  field_simp
  ring

/-- What the gas is made of. -/
theorem cross_cases {Q : Cons ℝ → Prop} (h : ∀ rho u v : ℝ, 1 / 10 ≤ rho → rho ≤ 2 → |u| + |v| ≤ 1 → Q (coldGas rho u v))
    (o : Oct 2) (x : Fin 2 → ℕ) : Q (cross o x) := by
  unfold cross
  repeat' split
  all_goals exact h _ _ _ (by norm_num) (by norm_num) (by norm_num)

theorem cold_size (o : Oct 2) (ho : o.level = 1) (x : Fin 2 → ℕ) (j : Fin 2) :
    cellSize coldDomain (cellGrid torus ![8, 8]) (cellOct ![8, 8] o x) j = 1 := by
  rw [cellSize_eq]
  have : (cellOct ![8, 8] o x).level = 1 := ho
  rw [this]
  fin_cases j <;> decide +kernel

theorem cold_courant {rho u v : ℝ} (hr : 0 < rho) (o : Oct 2) (ho : o.level = 1) (x : Fin 2 → ℕ) :
    courant 2 coldParams.gamma (coldGas rho u v, sizes coldDomain torus ![8, 8] o x) =
      |u| + |v| + 2 * √(1 / (4000 * rho)) := by
  rw [courant_eq (P := coldParams) (Or.inl rfl), Fin.sum_univ_two, cold_size o ho, cold_size o ho]
  unfold soundSpeed
  rw [cold_pressure hr.ne']
  have e : coldParams.gamma * (1 / 5600) / (coldGas rho u v).rho = 1 / (4000 * rho) := by
    unfold coldParams coldGas
    simp only
    field_simp
    norm_num
  rw [e]
  have e0 : momentum (coldGas rho u v) (Fin.ofNat 3 (0 : Fin 2)) / (coldGas rho u v).rho = u := by
    show rho * u / rho = u
    field_simp
  have e1 : momentum (coldGas rho u v) (Fin.ofNat 3 (1 : Fin 2)) / (coldGas rho u v).rho = v := by
    show rho * v / rho = v
    field_simp
  rw [e0, e1]
  push_cast
  ring

theorem cold_toPrim {rho : ℝ} (h : rho ≠ 0) (u v : ℝ) :
    (massScheme coldParams 2).toPrim (coldGas rho u v) = comps ⟨rho, 1 / 5600, u, v, 0⟩ := by
  funext i
  fin_cases i
  · rfl
  · exact (toPrim_p (Or.inl rfl) h).trans (cold_pressure h u v)
  · show rho * u / rho = u
    field_simp
  · show rho * v / rho = v
    field_simp
  · rfl

theorem cold_recon (a q c : Prim ℝ) (sg : ℝ) :
    prim (reconstruct (massScheme coldParams 2) (comps q) (slope (comps a) (comps q) (comps c) 1 1) sg (1 / 2)) =
      ⟨max (q.rho + sg * (1 / 2) * computeSlope a.rho q.rho c.rho 1 1) (1 / 10 ^ 10),
        q.p + sg * (1 / 2) * computeSlope a.p q.p c.p 1 1, q.u + sg * (1 / 2) * computeSlope a.u q.u c.u 1 1,
        q.v + sg * (1 / 2) * computeSlope a.v q.v c.v 1 1, q.w + sg * (1 / 2) * computeSlope a.w q.w c.w 1 1⟩ := rfl

/-! ### Fluxes -/

/-- A gas that is faster than sound carries its own density. -/
theorem super_right {P : Params} {l r : Prim ℝ} (h : 0 < waveL P l r) : (hllc P l r).rho = sideR P l * l.u := by
  unfold hllc godunov sample
  rw [if_pos h]

theorem super_left {P : Params} (hP : P.Ok) {l r : Prim ℝ} (h : waveR P l r ≤ 0) :
    (hllc P l r).rho = sideR P r * r.u := by
  obtain ⟨w1, w2, -, -, s1, s2⟩ := waves hP l r
  unfold hllc godunov sample
  rw [if_neg (by linarith), if_neg (by linarith), if_neg (by linarith)]

theorem cold_sideR {q : Prim ℝ} (hr : 1 / 10 ≤ q.rho) : sideR coldParams q = q.rho :=
  max_eq_left (by show 1 / 10 ^ 10 ≤ q.rho; linarith [show (1 : ℝ) / 10 ^ 10 ≤ 1 / 10 by norm_num])

theorem cold_fast {q : Prim ℝ} (hr : 1 / 10 ≤ q.rho) (hr' : q.rho ≤ 2) (hp : q.p = 1 / 5600) :
    cfast coldParams q < 1 / 10 := by
  unfold cfast
  rw [Real.sqrt_lt' (by norm_num)]
  have hq : 0 < q.rho := by linarith
  refine max_lt ?_ (by unfold coldParams; norm_num)
  unfold sideP
  rw [cold_sideR hr, hp]
  show (7 / 5 : ℝ) * max (1 / 5600) (q.rho * (1 / 10 ^ 10)) / q.rho < (1 / 10) ^ 2
  rw [max_eq_left (by linarith), div_lt_iff₀ hq]
  linarith

theorem cold_right {l r : Prim ℝ} (hl : 1 / 10 ≤ l.rho) (hl' : l.rho ≤ 2) (hr : 1 / 10 ≤ r.rho) (hr' : r.rho ≤ 2)
    (hp : l.p = 1 / 5600) (hq : r.p = 1 / 5600) (hu : 1 / 2 ≤ l.u) (hv : 1 / 2 ≤ r.u) :
    (hllc coldParams l r).rho = l.rho * l.u := by
  rw [super_right, cold_sideR hl]
  unfold waveL
  have := max_lt (cold_fast hl hl' hp) (cold_fast hr hr' hq)
  have := le_min hu hv
  linarith

theorem cold_left {l r : Prim ℝ} (hl : 1 / 10 ≤ l.rho) (hl' : l.rho ≤ 2) (hr : 1 / 10 ≤ r.rho) (hr' : r.rho ≤ 2)
    (hp : l.p = 1 / 5600) (hq : r.p = 1 / 5600) (hu : l.u ≤ -(1 / 2)) (hv : r.u ≤ -(1 / 2)) :
    (hllc coldParams l r).rho = r.rho * r.u := by
  rw [super_left coldParams_ok, cold_sideR hr]
  unfold waveR
  have := max_lt (cold_fast hl hl' hp) (cold_fast hr hr' hq)
  have := max_le hu hv
  linarith

abbrev middle : Oct 2 := ⟨1, ![0, 0]⟩

theorem cold_next (bval : CellIndex 2 → Cons ℝ) (j : Fin 2) (t : ℤ) (y : Fin 2 → ℕ)
    (h : ∀ k, (y k : ℤ) = (![3, 3] : Fin 2 → ℕ) k + faceOff j t k) (hy : ∀ k, y k < (![8, 8] : Fin 2 → ℕ) k) :
    nextTo (gasSource cross bval) torus Hancock.four.toFinset ![8, 8] middle ![3, 3] j t = some (cross middle y) := by
  unfold nextTo
  have := patchRead_interior (I := gasSource cross bval) (G := torus) (M := Hancock.four.toFinset) (o := middle)
    (x := y) (b := ![8, 8]) hy
  refine Eq.trans ?_ this
  congr 1
  funext k
  exact (h k).symm

theorem cold_ghost (j : Fin 2) (s : ℤ) (hs : s = 1 ∨ s = -1) :
    ∃ r, getNeighborGhost torus Hancock.four.toFinset ⟨middle, ![3, 3], ![8, 8], .localToBlock⟩ (faceOff j s) = some r ∧
      r.levelDiff = 0 := by
  have : (getNeighborGhost torus Hancock.four.toFinset ⟨middle, ![3, 3], ![8, 8], .localToBlock⟩ (faceOff j s)).map
      CellIndex.levelDiff = some 0 := by
    rcases hs with rfl | rfl <;> fin_cases j <;> decide +kernel
  exact Option.map_eq_some_iff.1 this

theorem ds_zero : (dsFactors 0 : ℝ × ℝ) = (1, 1) := by unfold dsFactors; simp
theorem df_zero : (dfFactors 0 : ℝ × ℝ) = (1 / 2, 1 / 2) := by unfold dfFactors; simp

/-- The fluxes of the middle cell. -/
theorem cold_ifaceR (bval : CellIndex 2 → Cons ℝ) (j : Fin 2) (y1 y2 y3 : Fin 2 → ℕ)
    (h1 : ∀ k, (y1 k : ℤ) = (![3, 3] : Fin 2 → ℕ) k + faceOff j (-1) k) (b1 : ∀ k, y1 k < (![8, 8] : Fin 2 → ℕ) k)
    (h2 : ∀ k, (y2 k : ℤ) = (![3, 3] : Fin 2 → ℕ) k + faceOff j 1 k) (b2 : ∀ k, y2 k < (![8, 8] : Fin 2 → ℕ) k)
    (h3 : ∀ k, (y3 k : ℤ) = (![3, 3] : Fin 2 → ℕ) k + faceOff j 2 k) (b3 : ∀ k, y3 k < (![8, 8] : Fin 2 → ℕ) k)
    {q q1 q2 q3 : Prim ℝ} (e : (massScheme coldParams 2).toPrim (cross middle ![3, 3]) = comps q)
    (e1 : (massScheme coldParams 2).toPrim (cross middle y1) = comps q1)
    (e2 : (massScheme coldParams 2).toPrim (cross middle y2) = comps q2)
    (e3 : (massScheme coldParams 2).toPrim (cross middle y3) = comps q3) :
    ifaceR (massScheme coldParams 2) (gasSource cross bval) coldDomain torus Hancock.four.toFinset ![8, 8] middle
      ![3, 3] j = some (hllc coldParams
        (swapPrim (Fin.ofNat 3 j) (prim (reconstruct (massScheme coldParams 2) (comps q)
          (slope (comps q1) (comps q) (comps q2) 1 1) 1 (1 / 2))))
        (swapPrim (Fin.ofNat 3 j) (prim (reconstruct (massScheme coldParams 2) (comps q2)
          (slope (comps q) (comps q2) (comps q3) 1 1) (-1) (1 / 2))))).rho := by
  obtain ⟨rR, g1, l1⟩ := cold_ghost j 1 (Or.inl rfl)
  obtain ⟨rL, g2, l2⟩ := cold_ghost j (-1) (Or.inr rfl)
  unfold ifaceR
  rw [patchRead_interior (x := ![3, 3]) (b := ![8, 8]) (by decide), cold_next bval j 1 y2 h2 b2,
    cold_next bval j (-1) y1 h1 b1, g1, g2]
  simp only [Option.bind_some]
  rw [l1, if_pos (le_refl _), if_neg (lt_irrefl _), cold_next bval j 2 y3 h3 b3, Option.map_some]
  congr 1
  rw [show (gasSource cross bval).U middle ![3, 3] = cross middle ![3, 3] from rfl, e, e1, e2, e3, ds_zero, df_zero]
  exact flux_rho j _ _

theorem cold_ifaceL (bval : CellIndex 2 → Cons ℝ) (j : Fin 2) (y1 y2 y3 : Fin 2 → ℕ)
    (h1 : ∀ k, (y1 k : ℤ) = (![3, 3] : Fin 2 → ℕ) k + faceOff j (-1) k) (b1 : ∀ k, y1 k < (![8, 8] : Fin 2 → ℕ) k)
    (h2 : ∀ k, (y2 k : ℤ) = (![3, 3] : Fin 2 → ℕ) k + faceOff j 1 k) (b2 : ∀ k, y2 k < (![8, 8] : Fin 2 → ℕ) k)
    (h3 : ∀ k, (y3 k : ℤ) = (![3, 3] : Fin 2 → ℕ) k + faceOff j (-2) k) (b3 : ∀ k, y3 k < (![8, 8] : Fin 2 → ℕ) k)
    {q q1 q2 q3 : Prim ℝ} (e : (massScheme coldParams 2).toPrim (cross middle ![3, 3]) = comps q)
    (e1 : (massScheme coldParams 2).toPrim (cross middle y1) = comps q1)
    (e2 : (massScheme coldParams 2).toPrim (cross middle y2) = comps q2)
    (e3 : (massScheme coldParams 2).toPrim (cross middle y3) = comps q3) :
    ifaceL (massScheme coldParams 2) (gasSource cross bval) coldDomain torus Hancock.four.toFinset ![8, 8] middle
      ![3, 3] j = some (hllc coldParams
        (swapPrim (Fin.ofNat 3 j) (prim (reconstruct (massScheme coldParams 2) (comps q1)
          (slope (comps q3) (comps q1) (comps q) 1 1) 1 (1 / 2))))
        (swapPrim (Fin.ofNat 3 j) (prim (reconstruct (massScheme coldParams 2) (comps q)
          (slope (comps q1) (comps q) (comps q2) 1 1) (-1) (1 / 2))))).rho := by
  obtain ⟨rR, g1, l1⟩ := cold_ghost j 1 (Or.inl rfl)
  obtain ⟨rL, g2, l2⟩ := cold_ghost j (-1) (Or.inr rfl)
  unfold ifaceL
  rw [patchRead_interior (x := ![3, 3]) (b := ![8, 8]) (by decide), cold_next bval j 1 y2 h2 b2,
    cold_next bval j (-1) y1 h1 b1, g1, g2]
  simp only [Option.bind_some]
  rw [l2, if_pos (le_refl _), if_neg (lt_irrefl _), cold_next bval j (-2) y3 h3 b3, Option.map_some]
  congr 1
  rw [show (gasSource cross bval).U middle ![3, 3] = cross middle ![3, 3] from rfl, e, e1, e2, e3, ds_zero, df_zero]
  exact flux_rho j _ _

theorem cross_33 : (massScheme coldParams 2).toPrim (cross middle ![3, 3]) = comps ⟨1, 1 / 5600, 1, 0, 0⟩ :=
  (congrArg _ (by simp [cross])).trans (cold_toPrim one_ne_zero 1 0)
theorem cross_13 : (massScheme coldParams 2).toPrim (cross middle ![1, 3]) = comps ⟨1 / 10, 1 / 5600, 1, 0, 0⟩ :=
  (congrArg _ (by simp [cross])).trans (cold_toPrim (by norm_num) 1 0)
theorem cross_23 : (massScheme coldParams 2).toPrim (cross middle ![2, 3]) = comps ⟨1 / 10, 1 / 5600, 1, 0, 0⟩ :=
  (congrArg _ (by simp [cross])).trans (cold_toPrim (by norm_num) 1 0)
theorem cross_43 : (massScheme coldParams 2).toPrim (cross middle ![4, 3]) = comps ⟨2, 1 / 5600, 1, 0, 0⟩ :=
  (congrArg _ (by simp [cross])).trans (cold_toPrim (by norm_num) 1 0)
theorem cross_53 : (massScheme coldParams 2).toPrim (cross middle ![5, 3]) = comps ⟨2, 1 / 5600, 1, 0, 0⟩ :=
  (congrArg _ (by simp [cross])).trans (cold_toPrim (by norm_num) 1 0)
theorem cross_31 : (massScheme coldParams 2).toPrim (cross middle ![3, 1]) = comps ⟨1, 1 / 5600, 0, -1, 0⟩ :=
  (congrArg _ (by simp [cross])).trans (cold_toPrim one_ne_zero 0 (-1))
theorem cross_32 : (massScheme coldParams 2).toPrim (cross middle ![3, 2]) = comps ⟨1, 1 / 5600, 0, -1, 0⟩ :=
  (congrArg _ (by simp [cross])).trans (cold_toPrim one_ne_zero 0 (-1))
theorem cross_34 : (massScheme coldParams 2).toPrim (cross middle ![3, 4]) = comps ⟨1, 1 / 5600, 0, 1, 0⟩ :=
  (congrArg _ (by simp [cross])).trans (cold_toPrim one_ne_zero 0 1)
theorem cross_35 : (massScheme coldParams 2).toPrim (cross middle ![3, 5]) = comps ⟨1, 1 / 5600, 0, 1, 0⟩ :=
  (congrArg _ (by simp [cross])).trans (cold_toPrim one_ne_zero 0 1)

theorem flux_x_right (bval : CellIndex 2 → Cons ℝ) : ifaceR (massScheme coldParams 2) (gasSource cross bval) coldDomain
    torus Hancock.four.toFinset ![8, 8] middle ![3, 3] 0 = some (29 / 20) := by
  rw [cold_ifaceR bval 0 ![2, 3] ![4, 3] ![5, 3] (by decide) (by decide) (by decide) (by decide) (by decide)
    (by decide) cross_33 cross_23 cross_43 cross_53, cold_recon, cold_recon]
  rw [cold_right] <;> norm_num [computeSlope, swapPrim, abs_of_pos]

theorem flux_x_left (bval : CellIndex 2 → Cons ℝ) : ifaceL (massScheme coldParams 2) (gasSource cross bval) coldDomain
    torus Hancock.four.toFinset ![8, 8] middle ![3, 3] 0 = some (1 / 10) := by
  rw [cold_ifaceL bval 0 ![2, 3] ![4, 3] ![1, 3] (by decide) (by decide) (by decide) (by decide) (by decide)
    (by decide) cross_33 cross_23 cross_43 cross_13, cold_recon, cold_recon]
  rw [cold_right] <;> norm_num [computeSlope, swapPrim, abs_of_pos]

theorem flux_y_right (bval : CellIndex 2 → Cons ℝ) : ifaceR (massScheme coldParams 2) (gasSource cross bval) coldDomain
    torus Hancock.four.toFinset ![8, 8] middle ![3, 3] 1 = some (1 / 2) := by
  rw [cold_ifaceR bval 1 ![3, 2] ![3, 4] ![3, 5] (by decide) (by decide) (by decide) (by decide) (by decide)
    (by decide) cross_33 cross_32 cross_34 cross_35, cold_recon, cold_recon]
  rw [cold_right] <;> norm_num [computeSlope, swapPrim, abs_of_pos]

theorem flux_y_left (bval : CellIndex 2 → Cons ℝ) : ifaceL (massScheme coldParams 2) (gasSource cross bval) coldDomain
    torus Hancock.four.toFinset ![8, 8] middle ![3, 3] 1 = some (-(1 / 2)) := by
  rw [cold_ifaceL bval 1 ![3, 2] ![3, 4] ![3, 1] (by decide) (by decide) (by decide) (by decide) (by decide)
    (by decide) cross_33 cross_32 cross_34 cross_31, cold_recon, cold_recon]
  rw [cold_left] <;> norm_num [computeSlope, swapPrim, abs_of_pos]

theorem cold_gas (o : Oct 2) (x : Fin 2 → ℕ) : Gas coldParams 2 (cross o x) := by
  refine cross_cases (fun rho u v h1 h2 _ => ?_) o x
  have hr : 0 < rho := by linarith
  refine ⟨?_, ?_⟩
  · show 1 / 10 ^ 10 ≤ rho
    linarith [show (1 : ℝ) / 10 ^ 10 ≤ 1 / 10 by norm_num]
  · rw [cold_pressure hr.ne']
    show rho * (1 / 10 ^ 10) ≤ 1 / 5600
    linarith

theorem cold_dt {cfl dt : ℝ} (hdt : 0 < dt) {o : Oct 2} (ho : o ∈ Hancock.four.toFinset) (x : Fin 2 → ℕ)
    (h : dt * (11 / 10) ≤ cfl) :
    dt ≤ cfl / courant 2 coldParams.gamma (cross o x, sizes coldDomain torus ![8, 8] o x) := by
  have ho : o.level = 1 := (by decide : ∀ o ∈ Hancock.four.toFinset, o.level = 1) o ho
  refine cross_cases (Q := fun c => dt ≤ cfl / courant 2 coldParams.gamma (c, sizes coldDomain torus ![8, 8] o x))
    (fun rho u v h1 _ h2 => ?_) o x
  have hr : 0 < rho := by linarith
  rw [cold_courant hr o ho]
  have hs : √(1 / (4000 * rho)) ≤ 1 / 20 := by
    rw [Real.sqrt_le_left (by norm_num), div_le_iff₀ (by positivity)]
    linarith
  have hs0 : 0 < √(1 / (4000 * rho)) := Real.sqrt_pos.2 (by positivity)
  rw [le_div_iff₀ (by positivity)]
  nlinarith

/-! ### Theorem -/

/-- The hypotheses of `C86_density_partial` hold for the same gas with a smaller time step; a quarter of the mass
stays in every cell. -/
example (bval : CellIndex 2 → Cons ℝ) : ∃ rho, updateCell (massScheme coldParams 2) (gasSource cross bval) coldDomain
    torus Hancock.four.toFinset ![8, 8] (1 / 22) (cross middle ![3, 3]).rho middle ![3, 3] = some rho ∧ 1 / 4 ≤ rho := by
  obtain ⟨rho, h1, h2⟩ := C86_density_partial coldParams_ok torus_pos Hancock.four_torus.1 Hancock.four_torus.2
    (Or.inl rfl) torus_periodic (D := coldDomain) (by unfold Domain.Ok; decide) (b := ![8, 8]) (by decide) cross bval
    (fun o _ x _ => cold_gas o x) (dt := 1 / 22) (cfl := 1 / 20) (by norm_num)
    (fun o ho x _ => cold_dt (by norm_num) ho x (by norm_num)) (o := middle) (by decide) (x := ![3, 3]) (by decide)
  have e : (cross middle ![3, 3]).rho = 1 := by simp [cross, coldGas]
  refine ⟨rho, h1, ?_⟩
  rw [e] at h2
  norm_num at h2
  linarith

/-- **C86** fails at the default of `hydro/hydro_cfl`, 1/2 (`core/src/compute_dt/Compute_dt_hydro.cpp` L31). The mesh,
the gas and the time step meet all hypotheses of `C86_density_partial`; the time step is the one of the code, it is
reached in a cell. The density of a cell becomes negative. -/
theorem C86_default_fails :
    coldParams.Ok ∧ torus.Pos ∧ Tiling torus Hancock.four.toFinset ∧ Balanced torus Hancock.four.toFinset ∧
    (∀ k, torus.periodic k = true) ∧ Domain.Ok coldDomain ∧
    (∀ k, 4 ≤ (![8, 8] : Fin 2 → ℕ) k ∧ 2 ∣ (![8, 8] : Fin 2 → ℕ) k) ∧ (∀ o x, Gas coldParams 2 (cross o x)) ∧
    ∃ dt : ℝ, 0 < dt ∧
      (∀ o ∈ Hancock.four.toFinset, ∀ x : Fin 2 → ℕ, (∀ k, x k < (![8, 8] : Fin 2 → ℕ) k) →
        dt ≤ (1 / 2) / courant 2 coldParams.gamma (cross o x, sizes coldDomain torus ![8, 8] o x)) ∧
      dt = (1 / 2) / courant 2 coldParams.gamma (cross middle ![2, 3], sizes coldDomain torus ![8, 8] middle ![2, 3]) ∧
      ∀ bval, ∃ rho < 0, updateCell (massScheme coldParams 2) (gasSource cross bval) coldDomain torus
        Hancock.four.toFinset ![8, 8] dt (cross middle ![3, 3]).rho middle ![3, 3] = some rho := by
  refine ⟨coldParams_ok, torus_pos, Hancock.four_torus.1, Hancock.four_torus.2, torus_periodic,
    by unfold Domain.Ok; decide, by decide, fun o x => ?_, 5 / 11, by norm_num, fun o ho x _ => ?_, ?_, fun bval => ?_⟩
  · exact cold_gas o x
  · exact cold_dt (by norm_num) ho x (by norm_num)
  · have : cross middle ![2, 3] = coldGas (1 / 10) 1 0 := by simp [cross]
    rw [this, cold_courant (by norm_num) middle rfl]
    have hs : √(1 / (4000 * (1 / 10)) : ℝ) = 1 / 20 := by
      rw [show (1 / (4000 * (1 / 10)) : ℝ) = (1 / 20) ^ 2 by norm_num]
      exact Real.sqrt_sq (by norm_num)
    rw [hs]
    norm_num
  · obtain ⟨rho, h, -⟩ := updateCell_eq torus_pos Hancock.four_torus.1 Hancock.four_torus.2 (Or.inl rfl)
      (D := coldDomain) (by unfold Domain.Ok; decide) (b := ![8, 8]) (by decide) (massScheme coldParams 2) rfl
      (gasSource cross bval) (o := middle) (by decide) (x := ![3, 3]) (by decide) (5 / 11)
      (cross middle ![3, 3]).rho
    refine ⟨rho, ?_, h⟩
    unfold updateCell at h
    obtain ⟨l, -, h⟩ := Option.bind_eq_some_iff.1 h
    have hsize : ∀ j, (getCellSize coldDomain torus ⟨middle, ![3, 3], ![8, 8], .localToBlock⟩ j : ℚ) = 1 := by
      intro j
      rw [getCellSize_eq torus_pos coldDomain ⟨middle, ![3, 3], ![8, 8], .localToBlock⟩ (by decide)]
      exact cold_size middle rfl _ j
    rw [show List.finRange 2 = [0, 1] from rfl] at h
    simp only [List.mapM_cons, List.mapM_nil, flux_x_left, flux_x_right, flux_y_left, flux_y_right, hsize] at h
    have e : (cross middle ![3, 3]).rho = 1 := by simp [cross, coldGas]
    rw [e] at h
    rw [← Option.some.inj h]
    norm_num

end Verif.Hydro.Euler
