import Verif.Gravity.Converge
import Verif.Octree.Check
import Mathlib.Data.Fin.VecNotation

/-!
# C49: a mesh in 3D with a level jump that meets the hypotheses
-/

namespace Verif.Gravity

open Verif.Octree Verif.Cells Verif.Flux

/-- A box of two coarse octants, periodic. -/
def duoGrid : Grid 3 := ⟨1, ![2, 1, 1], fun _ => true⟩

/-- One coarse octant, and eight smaller ones in place of the other. -/
def duo : List (Oct 3) :=
  [⟨1, ![0, 0, 0]⟩,
   ⟨2, ![2, 0, 0]⟩, ⟨2, ![3, 0, 0]⟩, ⟨2, ![2, 1, 0]⟩, ⟨2, ![3, 1, 0]⟩,
   ⟨2, ![2, 0, 1]⟩, ⟨2, ![3, 0, 1]⟩, ⟨2, ![2, 1, 1]⟩, ⟨2, ![3, 1, 1]⟩]

def duoDomain : Domain 3 := ⟨fun _ => 0, ![2, 1, 1]⟩

theorem duo_wf : duoGrid.WF := ⟨⟨by decide⟩, by decide⟩
theorem duo_tiling : Tiling duoGrid duo.toFinset := tiling_of_check duo_wf _ 2 (by decide +kernel)
theorem duo_balanced : Balanced duoGrid duo.toFinset := balanced_of_check duo_wf _ 2 (by decide +kernel)
theorem duoDomain_ok : Domain.Ok duoDomain := by unfold Domain.Ok; decide +kernel

/-- One cell per octant. -/
def one : Fin 3 → ℕ := ![1, 1, 1]

theorem one_pos : ∀ k, 0 < one k := by decide

/-- A density that is not uniform. -/
def duoRho : Fld 3 ℚ := fun o _ => if o.level = 1 then 1 else 1 + (o.pos 0 + o.pos 1 : ℕ)

def duoRhs : Fld 3 ℚ := rhs duoDomain duoGrid one 1 (rhoMean duoDomain duoGrid duo.toFinset one duoRho) duoRho

theorem duo_solvable : Solvable (fun _ => false) duoGrid duo.toFinset one duoRhs :=
  Or.inl (C49_compatible duo_wf.toPos duo_tiling one_pos duoDomain_ok 1 1 duoRho).1

/-- The operator across a level jump, by evaluation: the coarse cell sees four smaller cells at distance 3/4. -/
example : matprod (fun _ => false) duoRho duoDomain duoGrid duo.toFinset one ⟨1, ![0, 0, 0]⟩ ![0, 0, 0] =
    some (1 * (1 - (3 + 4 + 3 + 4) / 4) / (3 / 4) + 1 * (1 - (4 + 5 + 4 + 5) / 4) / (3 / 4)) := by
  decide +kernel

/-- The hypotheses of the theorems hold on this mesh, and the solver ends. -/
example : ∃ phi, solve (fun _ => false) duoDomain duoGrid duo.toFinset one (1 / 100)
    (duo.toFinset.card * (∏ k, one k) + 1) duoRhs (fun _ _ => 0) = some phi :=
  C49_terminates duo_wf.toPos duo_tiling duo_balanced (by decide) duoDomain_ok one_pos _ duo_solvable _ _

/-- By evaluation: there is something to solve, and one iteration is enough for a low accuracy. -/
example : duoRhs ⟨2, ![2, 0, 0]⟩ ![0, 0, 0] ≠ 0 ∧
    (solve (fun _ => false) duoDomain duoGrid duo.toFinset one (1 / 4) 1 duoRhs (fun _ _ => 0)).isSome = false ∧
    (solve (fun _ => false) duoDomain duoGrid duo.toFinset one (1 / 4) 2 duoRhs (fun _ _ => 0)).isSome = true := by
  decide +kernel

/-- The same box with the potential fixed to 0 around it and any sources: a density that is not cancelled. -/
def duoBox : Grid 3 := ⟨1, ![2, 1, 1], fun _ => false⟩

example : ∃ phi, solve (fun _ => false) duoDomain duoBox duo.toFinset one (1 / 100)
    (duo.toFinset.card * (∏ k, one k) + 1) (fun _ _ => (1 : ℚ)) (fun _ _ => 0) = some phi :=
  have hw : duoBox.WF := ⟨⟨by decide⟩, by decide⟩
  C49_terminates hw.toPos (tiling_of_check hw _ 2 (by decide +kernel)) (balanced_of_check hw _ 2 (by decide +kernel))
    (by decide) duoDomain_ok one_pos _ (Or.inr ⟨0, rfl, rfl⟩) _ _

end Verif.Gravity
