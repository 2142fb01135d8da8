import Verif.Refine.Gradient
import Mathlib.Algebra.BigOperators.Fin
import Mathlib.Algebra.Order.BigOperators.Group.Finset
import Mathlib.Algebra.Order.BigOperators.Ring.Finset

/-!
# Criteria of one cell: mass and downflows

Model of `getMarker` of `core/src/refine_condition/RefineCondition_mass.cpp` L31-47 and
`RefineCondition_downflows.cpp` L47-63, and of the value of `RefineCondition_second_derivative_error.cpp` L145-168 from
the patch of an octant.
-/

namespace Verif.Refine

open Verif.Octree Verif.Cells Verif.Flux Verif.Hydro

variable {d : ℕ} {F : Type} [Field F] [LinearOrder F]

/-! ### Model -/

/-- `RefineCondition_mass.cpp` L35-36, `local_mass`. -/
def cellMass (rho : F) (size : Fin d → F) : F := (List.finRange d).foldl (fun m k => m * size k) rho

/-- L38-46. -/
def massMark (rho : F) (size : Fin d → F) (massRefine massCoarsen : F) : ℤ :=
  criterion (some (cellMass rho size)) massRefine massCoarsen

/-- `RefineCondition_downflows.cpp` L51-60. For density 0 the quotient is an infinity or NaN; zeros have no sign here. -/
def downflowMark (sign rho rhoV vRefine vCoarsen : F) : ℤ :=
  if rho = 0 then if 0 < sign * rhoV then refine else if sign * rhoV < 0 then coarsen else noChange
  else criterion (some (sign * rhoV / rho)) vRefine vCoarsen

/-- `RefineCondition_second_derivative_error.cpp` L145-159: `f_max` of cell `x`. `prim` are the density and the pressure
of a state. -/
def secondDerivativeCell {V : Type} (eps : F) (prim : List (V → F)) (I : Source d V) (G : Grid d) (M : Finset (Oct d))
    (b : Fin d → ℕ) (o : Oct d) (x : Fin d → ℕ) : Option F :=
  (prim.mapM fun q => (List.finRange d).mapM fun j =>
    (patchRead I G M b o fun k => (x k : ℤ) + faceOff j (-1) k).bind fun l =>
      (patchRead I G M b o fun k => (x k : ℤ) + 0).bind fun c =>
        (patchRead I G M b o fun k => (x k : ℤ) + faceOff j 1 k).map fun r => (q l, q c, q r)).map fun v =>
    secondDerivativeMax eps v.flatten

/-! ### Proofs -/

omit [LinearOrder F] in
theorem cellMass_eq (rho : F) (size : Fin d → F) : cellMass rho size = rho * ∏ k, size k := by
  unfold cellMass
  have h : ∀ (l : List (Fin d)) (a : F), l.foldl (fun m k => m * size k) a = a * (l.map size).prod := by
    intro l
    induction l with
    | nil => intro a; simp
    | cons k l ih => intro a; rw [List.foldl_cons, ih, List.map_cons, List.prod_cons, mul_assoc]
  rw [h, ← List.ofFn_eq_map, List.prod_ofFn]

theorem massMark_three (rho : F) (size : Fin d → F) (t t' : F) :
    massMark rho size t t' = -1 ∨ massMark rho size t t' = 0 ∨ massMark rho size t t' = 1 := criterion_three _ _ _

theorem downflowMark_three (sign rho rhoV t t' : F) : downflowMark sign rho rhoV t t' = -1 ∨
    downflowMark sign rho rhoV t t' = 0 ∨ downflowMark sign rho rhoV t t' = 1 := by
  unfold downflowMark
  split
  · unfold refine coarsen noChange
    split_ifs <;> simp
  · exact criterion_three _ _ _

end Verif.Refine
