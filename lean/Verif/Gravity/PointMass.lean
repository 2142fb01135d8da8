import Mathlib.Algebra.BigOperators.Fin
import Mathlib.Analysis.Calculus.Deriv.Inv
import Mathlib.Analysis.Calculus.Deriv.Pow
import Mathlib.Analysis.SpecialFunctions.Sqrt
import Mathlib.Data.Fintype.Basic
import Mathlib.Tactic.FinCases

/-!
# C78: gravity of a point mass

Models of `core/src/gravity/GravitySolver_point_mass.cpp` and of `core/src/gravity/GravitySolver_analytical.tpp` for one cell. Arithmetic is
exact and over the real numbers.
-/

namespace Verif.Gravity

/-! ### Model -/

/-- Settings, `GravitySolver_point_mass.cpp` L13-18. -/
structure PointMass where
  pos : Fin 3 → ℝ
  Gmass : ℝ
  softening : ℝ

/-- `GravitySolver_point_mass.cpp` L39. -/
def PointMass.r2 (M : PointMass) (x : Fin 3 → ℝ) : ℝ :=
  let rx := x 0 - M.pos 0
  let ry := x 1 - M.pos 1
  let rz := x 2 - M.pos 2
  rx * rx + ry * ry + rz * rz + M.softening * M.softening

/-- `GravitySolver_point_mass.cpp` L31-49. `none`: a division by 0, the code writes values that are no numbers. -/
noncomputable def PointMass.value (M : PointMass) (x : Fin 3 → ℝ) : Option (Fin 3 → ℝ) :=
  let r2 := M.r2 x
  let r := √r2
  if r2 * r = 0 then none
  else
    let c := -M.Gmass / (r2 * r)
    some fun k => c * (x k - M.pos k)

/-- `AMRBlockForeachCell.h` L78: in 2D the third coordinate of the centre of a cell is 0. -/
noncomputable def cellCenter (ndim : ℕ) (c : Fin 3 → ℝ) : Fin 3 → ℝ := fun k => if ndim = 2 ∧ k = 2 then 0 else c k

/-- `GravitySolver_analytical.tpp`, `update_gravity_field`, for one cell with the centre `c`: in 2D the third component is not written. `old` is
what was stored. -/
noncomputable def PointMass.update (M : PointMass) (ndim : ℕ) (old c : Fin 3 → ℝ) : Option (Fin 3 → ℝ) :=
  (M.value (cellCenter ndim c)).map fun g k => if k = 2 then (if ndim = 3 then g k else old k) else g k

/-! ### Specification -/

/-- Distance to the mass, in the directions of the domain. -/
noncomputable def PointMass.dist2 (M : PointMass) (ndim : ℕ) (x : Fin 3 → ℝ) : ℝ :=
  ∑ k : Fin 3, if k.val < ndim then (x k - M.pos k) ^ 2 else 0

/-- Softened potential of the mass. -/
noncomputable def PointMass.potential (M : PointMass) (ndim : ℕ) (x : Fin 3 → ℝ) : ℝ :=
  -M.Gmass / √(M.dist2 ndim x + M.softening ^ 2)

/-- `g` is the force at `x`: minus the gradient of the potential, in the directions of the domain. -/
def PointMass.IsForce (M : PointMass) (ndim : ℕ) (g x : Fin 3 → ℝ) : Prop :=
  ∀ k : Fin 3, k.val < ndim → HasDerivAt (fun s => M.potential ndim (Function.update x k s)) (-g k) (x k)

/-! ### Proofs -/

/-- The slope of the potential along one direction. -/
theorem potential_deriv {G A p a : ℝ} (h : 0 < A + (a - p) ^ 2) :
    HasDerivAt (fun s => -G / √(A + (s - p) ^ 2)) (G / ((A + (a - p) ^ 2) * √(A + (a - p) ^ 2)) * (a - p)) a := by
  have hs := Real.sqrt_pos.2 h
  have h1 : HasDerivAt (fun s : ℝ => A + (s - p) ^ 2) (2 * (a - p)) a := by
    have h0 : HasDerivAt (fun s : ℝ => s - p) 1 a := (hasDerivAt_id a).sub_const p
    have h1 : HasDerivAt (fun s : ℝ => (s - p) ^ 2) (2 * (a - p)) a := (h0.pow 2).congr_deriv (by simp)
    exact h1.const_add A
  have h2 := (h1.sqrt h.ne').inv hs.ne'
  have h3 := h2.const_mul (-G)
  refine (h3.congr_deriv ?_).congr_of_eventuallyEq (Filter.Eventually.of_forall fun s => ?_)
  · have e := Real.sq_sqrt h.le
    rw [e]
    field_simp
  · simp [div_eq_mul_inv]

theorem dist2_update (M : PointMass) (ndim : ℕ) (x : Fin 3 → ℝ) {k : Fin 3} (hk : k.val < ndim) (s : ℝ) :
    M.dist2 ndim (Function.update x k s) + M.softening ^ 2 =
      (M.dist2 ndim x - (x k - M.pos k) ^ 2 + M.softening ^ 2) + (s - M.pos k) ^ 2 := by
  have e : ∀ j : Fin 3, (if j.val < ndim then (Function.update x k s j - M.pos j) ^ 2 else 0) =
      (if j.val < ndim then (x j - M.pos j) ^ 2 else 0) + if j = k then (s - M.pos k) ^ 2 - (x k - M.pos k) ^ 2 else 0 := by
    intro j
    by_cases h : j = k
    · subst h
      rw [Function.update_self, if_pos hk, if_pos hk, if_pos rfl]; ring
    · rw [Function.update_of_ne h, if_neg h, add_zero]
  unfold PointMass.dist2
  rw [Finset.sum_congr rfl fun j _ => e j, Finset.sum_add_distrib, Finset.sum_ite_eq' Finset.univ k]
  simp only [Finset.mem_univ, if_true]
  ring

/-- The one vector that is the force. -/
theorem isForce_iff (M : PointMass) (ndim : ℕ) (g x : Fin 3 → ℝ) (h : 0 < M.dist2 ndim x + M.softening ^ 2) :
    M.IsForce ndim g x ↔ ∀ k : Fin 3, k.val < ndim →
      g k = -(M.Gmass / ((M.dist2 ndim x + M.softening ^ 2) * √(M.dist2 ndim x + M.softening ^ 2)) * (x k - M.pos k)) := by
  refine forall_congr' fun k => forall_congr' fun hk => ?_
  have e : (fun s => M.potential ndim (Function.update x k s)) =
      fun s => -M.Gmass / √((M.dist2 ndim x - (x k - M.pos k) ^ 2 + M.softening ^ 2) + (s - M.pos k) ^ 2) := by
    funext s
    rw [PointMass.potential, dist2_update M ndim x hk]
  have e2 : (M.dist2 ndim x - (x k - M.pos k) ^ 2 + M.softening ^ 2) + (x k - M.pos k) ^ 2 = M.dist2 ndim x + M.softening ^ 2 := by ring
  have hd := potential_deriv (G := M.Gmass) (A := M.dist2 ndim x - (x k - M.pos k) ^ 2 + M.softening ^ 2) (p := M.pos k) (a := x k)
    (by rw [e2]; exact h)
  rw [e2] at hd
  rw [e]
  constructor
  · intro h'
    have := h'.unique hd
    linarith
  · intro h'
    rw [h', neg_neg]
    exact hd

theorem dist2_r2 (M : PointMass) {ndim : ℕ} (h : ndim = 3 ∨ ndim = 2 ∧ M.pos 2 = 0) (c : Fin 3 → ℝ) :
    M.r2 (cellCenter ndim c) = M.dist2 ndim c + M.softening ^ 2 := by
  unfold PointMass.dist2 PointMass.r2 cellCenter
  rw [Fin.sum_univ_three]
  rcases h with rfl | ⟨rfl, h⟩
  · simp; ring
  · simp [h]; ring

/-- **C78** In three dimensions, and in two if the third coordinate of the mass is 0, the code writes the force of the point mass: minus the
gradient of its softened potential. Missing: two dimensions with another third coordinate, as the default one (`C78_2d_fails`). -/
theorem C78_partial (M : PointMass) {ndim : ℕ} (h : ndim = 3 ∨ ndim = 2 ∧ M.pos 2 = 0) (old c : Fin 3 → ℝ)
    (hs : M.softening ≠ 0 ∨ ∃ k : Fin 3, k.val < ndim ∧ c k ≠ M.pos k) :
    ∃ g, M.update ndim old c = some g ∧ M.IsForce ndim g c ∧ ∀ k : Fin 3, ndim ≤ k.val → g k = old k := by
  have hpos : 0 < M.dist2 ndim c + M.softening ^ 2 := by
    have h0 : ∀ k : Fin 3, 0 ≤ if k.val < ndim then (c k - M.pos k) ^ 2 else 0 := fun k => by
      split_ifs
      · exact sq_nonneg _
      · exact le_rfl
    have hd : 0 ≤ M.dist2 ndim c := Finset.sum_nonneg fun k _ => h0 k
    rcases hs with hs | ⟨k, hk, hs⟩
    · have : 0 < M.softening ^ 2 := by positivity
      linarith
    · have : 0 < M.dist2 ndim c := by
        refine Finset.sum_pos' (fun k _ => h0 k) ⟨k, Finset.mem_univ k, ?_⟩
        rw [if_pos hk]
        have : c k - M.pos k ≠ 0 := sub_ne_zero.2 hs
        positivity
      have := sq_nonneg M.softening
      linarith
  have hr := dist2_r2 M h c
  have hn : ¬ M.r2 (cellCenter ndim c) * √(M.r2 (cellCenter ndim c)) = 0 := by
    rw [hr]; exact (mul_pos hpos (Real.sqrt_pos.2 hpos)).ne'
  unfold PointMass.update PointMass.value
  simp only [if_neg hn, Option.map_some]
  refine ⟨_, rfl, (isForce_iff M ndim _ c hpos).2 fun k hk => ?_, fun k hk => ?_⟩
  · rw [hr]
    have hk2 : k = 2 → ndim = 3 := by
      rintro rfl
      rcases h with rfl | ⟨rfl, -⟩
      · rfl
      · exact absurd hk (by decide)
    have hc : cellCenter ndim c k = c k := by
      unfold cellCenter
      rw [if_neg]
      rintro ⟨h2, rfl⟩
      have := hk2 rfl
      omega
    by_cases e : k = 2
    · rw [if_pos e, if_pos (hk2 e), hc]; ring
    · rw [if_neg e, hc]; ring
  · rcases h with rfl | ⟨rfl, -⟩
    · exact absurd k.isLt (by omega)
    · have : k = 2 := by
        apply Fin.ext
        have := k.isLt
        show k.val = 2
        omega
      rw [if_pos this, if_neg (by decide)]

/-- **C78** Without a softening the field at the mass itself is not defined. -/
theorem C78_singular (M : PointMass) (ndim : ℕ) (old : Fin 3 → ℝ) (hs : M.softening = 0) (h : ndim = 3 ∨ M.pos 2 = 0) :
    M.update ndim old M.pos = none := by
  have : M.r2 (cellCenter ndim M.pos) = 0 := by
    unfold PointMass.r2 cellCenter
    rcases h with rfl | h
    · simp [hs]
    · simp [hs, h]
  unfold PointMass.update PointMass.value
  simp [this]

theorem center0 (c : Fin 3 → ℝ) : cellCenter 2 c 0 = c 0 := if_neg (by decide)
theorem center1 (c : Fin 3 → ℝ) : cellCenter 2 c 1 = c 1 := if_neg (by decide)
theorem center2 (c : Fin 3 → ℝ) : cellCenter 2 c 2 = 0 := if_pos (by decide)

/-- The default settings. -/
noncomputable def defaultMass : PointMass := ⟨fun _ => 1 / 2, 1, 1 / 200⟩

/-- **C78** does not hold in two dimensions with the default settings: the third coordinate of the mass, 1/2, adds to the distance of every
cell. The cell at (1, 1/2) is attracted too weakly. -/
theorem C78_2d_fails (old : Fin 3 → ℝ) : ∃ g, defaultMass.update 2 old ![1, 1 / 2, 0] = some g ∧ ¬ defaultMass.IsForce 2 g ![1, 1 / 2, 0] := by
  have hr : defaultMass.r2 (cellCenter 2 ![1, 1 / 2, 0]) = 1 / 2 + 1 / 40000 := by
    unfold PointMass.r2 defaultMass
    rw [center0, center1, center2]
    norm_num
  have hd : defaultMass.dist2 2 ![1, 1 / 2, 0] + defaultMass.softening ^ 2 = 1 / 4 + 1 / 40000 := by
    unfold PointMass.dist2 defaultMass
    rw [Fin.sum_univ_three]
    norm_num
  have hn : ¬ ((1 / 2 + 1 / 40000 : ℝ) * √(1 / 2 + 1 / 40000) = 0) := (mul_pos (by norm_num) (Real.sqrt_pos.2 (by norm_num))).ne'
  unfold PointMass.update PointMass.value
  simp only [hr, if_neg hn, Option.map_some]
  refine ⟨_, rfl, fun h => ?_⟩
  rw [isForce_iff _ _ _ _ (by rw [hd]; norm_num), hd] at h
  have := h 0 (by norm_num)
  rw [if_neg (by decide), center0] at this
  have h1 : 0 < √(1 / 4 + 1 / 40000 : ℝ) := Real.sqrt_pos.2 (by norm_num)
  have h2 : √(1 / 4 + 1 / 40000 : ℝ) < √(1 / 2 + 1 / 40000) := Real.sqrt_lt_sqrt (by norm_num) (by norm_num)
  have h3 : (1 / 4 + 1 / 40000 : ℝ) * √(1 / 4 + 1 / 40000) < (1 / 2 + 1 / 40000) * √(1 / 2 + 1 / 40000) := by nlinarith
  have h4 := one_div_lt_one_div_of_lt (mul_pos (by norm_num) h1) h3
  have e : ∀ a : ℝ, -(1 : ℝ) / a = -(1 / a) := fun a => neg_div _ _
  simp only [defaultMass, e, Matrix.cons_val_zero] at this
  linarith

/-! ### Examples -/

/-- The default mass in three dimensions. -/
example (old : Fin 3 → ℝ) : ∃ g, defaultMass.update 3 old ![1, 1 / 2, 1 / 4] = some g ∧ defaultMass.IsForce 3 g ![1, 1 / 2, 1 / 4] := by
  obtain ⟨g, h1, h2, -⟩ := C78_partial defaultMass (Or.inl rfl) old ![1, 1 / 2, 1 / 4] (Or.inl (by norm_num [defaultMass]))
  exact ⟨g, h1, h2⟩

/-- A mass without softening at the origin of a plane: the force at (3, 4) has the size 1/25. -/
example (old : Fin 3 → ℝ) : ∃ g, PointMass.update ⟨fun _ => 0, 1, 0⟩ 2 old ![3, 4, 0] = some g ∧ g 0 = -3 / 125 ∧ g 1 = -4 / 125 := by
  have hr : PointMass.r2 ⟨fun _ => 0, 1, 0⟩ (cellCenter 2 ![3, 4, 0]) = 25 := by
    unfold PointMass.r2
    rw [center0, center1, center2]
    norm_num
  have hq : √(25 : ℝ) = 5 := by
    rw [show (25 : ℝ) = 5 ^ 2 by norm_num]
    exact Real.sqrt_sq (by norm_num)
  unfold PointMass.update PointMass.value
  have hn : ¬ ((25 : ℝ) * 5 = 0) := by norm_num
  simp only [hr, hq, if_neg hn, Option.map_some]
  refine ⟨_, rfl, ?_, ?_⟩
  · rw [if_neg (by decide), center0]; norm_num
  · rw [if_neg (by decide), center1]; norm_num

end Verif.Gravity
