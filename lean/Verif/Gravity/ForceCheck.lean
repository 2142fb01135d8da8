import Verif.Gravity.ForceLaw

/-!
# C88: meshes with level jumps where the force is wrong, and cases that meet the hypotheses
-/

namespace Verif.Gravity

open Verif.Octree Verif.Cells Verif.Flux

/-- Blocks of two cells in each direction. -/
def two : Fin 3 → ℕ := ![2, 2, 2]

theorem two_pos' : ∀ k, 0 < two k := by decide

/-- A potential that is not zero in one cell of a small octant. -/
def bumpPhi : Fld 3 ℚ := fun o x => if o = ⟨2, ![2, 0, 0]⟩ ∧ x 0 = 0 ∧ x 1 = 0 ∧ x 2 = 0 then 1 else 0

/-- The density that has this potential, up to the mean density 1000. -/
def bumpRho : Fld 3 ℚ := fun o x =>
  1000 - (matprod (fun _ => false) bumpPhi duoDomain duoGrid duo.toFinset two o x).getD 0 / cellVolume duoDomain duoGrid two o x

/-- Its acceleration along x. -/
def bumpAccel : Fld 3 ℚ := fun o x =>
  (gradient (fun _ => false) bumpPhi duoDomain duoGrid duo.toFinset two o x 0).getD 0

theorem bump_mean : rhoMean duoDomain duoGrid duo.toFinset two bumpRho = 1000 := by decide +kernel

theorem bump_positive : ∀ o ∈ duo.toFinset, ∀ x ∈ Fintype.piFinset fun k => Finset.range (two k), 0 < bumpRho o x := by
  decide +kernel

theorem bump_force : netForce duoDomain duoGrid duo.toFinset two bumpRho bumpAccel = -1 / 2 := by decide +kernel

/-- **C88**, disagreement: the third law does not hold on a mesh with a level jump. A gas in a periodic box whose potential solves the
equation of the solver exactly is accelerated as a whole by its own gravity. -/
theorem C88_refined_fails : ∃ (rho phi g : Fld 3 ℚ),
    (∀ o ∈ duo.toFinset, ∀ x : Fin 3 → ℕ, (∀ k, x k < two k) → 0 < rho o x ∧
      matprod (fun _ => false) phi duoDomain duoGrid duo.toFinset two o x =
        some (rhs duoDomain duoGrid two 1 (rhoMean duoDomain duoGrid duo.toFinset two rho) rho o x) ∧
      gradient (fun _ => false) phi duoDomain duoGrid duo.toFinset two o x 0 = some (g o x)) ∧
    netForce duoDomain duoGrid duo.toFinset two rho g ≠ 0 := by
  refine ⟨bumpRho, bumpPhi, bumpAccel, fun o ho x hx => ⟨?_, ?_, ?_⟩, by rw [bump_force]; norm_num⟩
  · exact bump_positive o ho x (Fintype.mem_piFinset.2 fun k => Finset.mem_range.2 (hx k))
  · have h := matprod_eq duo_wf.toPos duo_tiling duo_balanced duoDomain_ok (fun _ => false) bumpPhi ho hx
    have hv : cellVolume duoDomain duoGrid two o x ≠ 0 := by
      rw [cellVolume_eq duo_wf.toPos two_pos']
      exact (volume_pos (cellGrid_pos duo_wf.toPos two_pos') duoDomain_ok _).ne'
    rw [bump_mean]
    unfold rhs bumpRho
    rw [h, Option.getD_some]
    congr 1
    push_cast
    field_simp
    simp
  · unfold bumpAccel
    rw [gradient_eq duo_wf.toPos duo_tiling duo_balanced duoDomain_ok (fun _ => false) bumpPhi ho hx 0]
    rfl

/-- **C88**, disagreement: next to a larger cell a linear potential gives a wrong acceleration. Here the potential is `y` in a closed
box, and the acceleration along x is not 0 in cells at the level jump. -/
theorem C88_larger_neighbour_fails :
    gradient (fun _ => true) (linear duoDomain duoBox two ![0, 1, 0]) duoDomain duoBox duo.toFinset two
      ⟨2, ![2, 0, 0]⟩ ![0, 0, 0] 0 = some (1 / 6 : ℚ) := by
  decide +kernel

/-! ### Cases that meet the hypotheses -/

/-- A uniform mesh of eight octants in a periodic box. -/
def cubeGrid : Grid 3 := ⟨1, ![2, 2, 2], fun _ => true⟩

def cube : List (Oct 3) :=
  [⟨1, ![0, 0, 0]⟩, ⟨1, ![1, 0, 0]⟩, ⟨1, ![0, 1, 0]⟩, ⟨1, ![1, 1, 0]⟩, ⟨1, ![0, 0, 1]⟩, ⟨1, ![1, 0, 1]⟩, ⟨1, ![0, 1, 1]⟩,
    ⟨1, ![1, 1, 1]⟩]

def cubeDomain : Domain 3 := ⟨fun _ => 0, fun _ => 1⟩

theorem cube_wf : cubeGrid.WF := ⟨⟨by decide⟩, by decide⟩
theorem cube_tiling : Tiling cubeGrid cube.toFinset := tiling_of_check cube_wf _ 1 (by decide +kernel)
theorem cube_balanced : Balanced cubeGrid cube.toFinset := balanced_of_check cube_wf _ 1 (by decide +kernel)
theorem cubeDomain_ok : Domain.Ok cubeDomain := by unfold Domain.Ok; decide +kernel

/-- A density that is not uniform. -/
def cubeRho : Fld 3 ℚ := fun o x => 1 + (o.pos 0 + x 0 * x 1 + 2 * x 2 : ℕ)

def cubeRhs : Fld 3 ℚ := rhs cubeDomain cubeGrid two 1 (rhoMean cubeDomain cubeGrid cube.toFinset two cubeRho) cubeRho

theorem cube_solvable : Solvable (fun _ => false) cubeGrid cube.toFinset two cubeRhs :=
  Or.inl (C49_compatible cube_wf.toPos cube_tiling two_pos' cubeDomain_ok 1 1 cubeRho).1

/-- C88 (third law for the solver): the solver ends on this mesh. -/
example : ∃ phi, solve (fun _ => false) cubeDomain cubeGrid cube.toFinset two (1 / 100)
    (cube.toFinset.card * (∏ k, two k) + 1) cubeRhs (fun _ _ => 0) = some phi :=
  C49_terminates cube_wf.toPos cube_tiling cube_balanced (by decide) cubeDomain_ok two_pos' _ cube_solvable _ _

example : (∀ o ∈ cube.toFinset, o.level = 1) ∧ (∀ k, cubeGrid.periodic k = true) ∧ cubeRhs ⟨1, ![0, 0, 0]⟩ ![0, 0, 0] ≠ 0 := by
  decide +kernel

/-- The potential that is not zero in one cell of the uniform mesh, and its density. -/
def cubePhi : Fld 3 ℚ := fun o x => if o = ⟨1, ![0, 0, 0]⟩ ∧ x 0 = 0 ∧ x 1 = 0 ∧ x 2 = 0 then 1 else 0

/-- C88 (third law): such a solution; the accelerations are not 0. -/
example : (∀ o ∈ cube.toFinset, ∀ x ∈ Fintype.piFinset fun k => Finset.range (two k),
      matprod (fun _ => false) cubePhi cubeDomain cubeGrid cube.toFinset two o x =
        some (rhs cubeDomain cubeGrid two 1 1000 (fun o x =>
          1000 - (matprod (fun _ => false) cubePhi cubeDomain cubeGrid cube.toFinset two o x).getD 0 /
            cellVolume cubeDomain cubeGrid two o x) o x)) ∧
    rhoMean cubeDomain cubeGrid cube.toFinset two (fun o x =>
      1000 - (matprod (fun _ => false) cubePhi cubeDomain cubeGrid cube.toFinset two o x).getD 0 /
        cellVolume cubeDomain cubeGrid two o x) = 1000 ∧
    gradient (fun _ => false) cubePhi cubeDomain cubeGrid cube.toFinset two ⟨1, ![0, 0, 0]⟩ ![1, 0, 0] 0 = some 2 := by
  decide +kernel

/-- C88 (linear potentials): a cell whose neighbours along x are a cell of the same size and smaller ones. -/
example : gradient (fun _ => true) (linear duoDomain duoBox two ![3, 5, 7]) duoDomain duoBox duo.toFinset two
    ⟨1, ![0, 0, 0]⟩ ![1, 0, 0] 0 = some (-3 : ℚ) := by decide +kernel

/-- C88 (error next to a larger cell): the hypotheses hold in a cell of a small octant, whose larger neighbour is below. -/
example : gradient (fun _ => true) (linear duoDomain duoBox two ![3, 5, 7]) duoDomain duoBox duo.toFinset two
    ⟨2, ![2, 0, 0]⟩ ![0, 0, 0] 0 = some (-3 + (-1 : ℤ) / 6 * (5 * -1 + 7 * -1) : ℚ) := by decide +kernel

end Verif.Gravity
