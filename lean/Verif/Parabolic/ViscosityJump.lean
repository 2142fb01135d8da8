import Verif.Parabolic.ViscosityMesh
import Mathlib.Algebra.BigOperators.Pi

/-!
# C64: the viscous term where the level changes
-/

namespace Verif.Parabolic.Viscosity

open Verif.Octree Verif.Cells Verif.Flux

/-- A jet in one small cell. -/
def jet : Source 2 ℚ :=
  ⟨fun o x => if o = ⟨2, ![2, 0]⟩ ∧ x 0 = 0 ∧ x 1 = 0 then 1 else 0, fun _ => 0, fun l => l.sum / 4⟩

def jetVel (u : ℚ) : Fin 3 → ℚ := ![u, 0, 0]

def jetRhs (o : Oct 2) (x : Fin 2 → ℕ) : Flow ℚ :=
  rhs false 1 (size3 1 torusDomain torus ![4, 4] o x) fun e f g =>
    (velAt jetVel jet torus quad.toFinset ![4, 4] o x e f g).getD fun _ => 0

/-- The momentum all cells receive, with the volumes of the cells; and the same without the third size of the cells in the
areas of the faces. -/
theorem jet_total : cellSum ![4, 4] quad.toFinset (fun o x =>
    ((volume torusDomain (cellGrid torus ![4, 4]) (cellOct ![4, 4] o x) : ℚ) * (jetRhs o x).u,
      (volume torusDomain (cellGrid torus ![4, 4]) (cellOct ![4, 4] o x) : ℚ) *
        ((jetRhs o x).u / (size3 1 torusDomain torus ![4, 4] o x 2 : ℚ)))) = ((-2 / 3, -2) : ℚ × ℚ) := by
  decide +kernel

/-- **C64** (disagreement) On a periodic mesh with two levels the viscous terms change the total momentum. This is not only for the
third size of the cells: without it the sum is not zero either. -/
theorem C64_jump_fails : ∃ r : Oct 2 → (Fin 2 → ℕ) → Flow ℚ,
    (∀ o ∈ quad.toFinset, ∀ x : Fin 2 → ℕ, (∀ k, x k < (![4, 4] : Fin 2 → ℕ) k) →
      rhsCell 1 jetVel jet 1 torusDomain torus quad.toFinset ![4, 4] o x = some (r o x)) ∧
    cellSum ![4, 4] quad.toFinset (fun o x =>
      (volume torusDomain (cellGrid torus ![4, 4]) (cellOct ![4, 4] o x) : ℚ) * (r o x).mom 0) ≠ 0 ∧
    cellSum ![4, 4] quad.toFinset (fun o x => (volume torusDomain (cellGrid torus ![4, 4]) (cellOct ![4, 4] o x) : ℚ) *
      ((r o x).mom 0 / (size3 1 torusDomain torus ![4, 4] o x 2 : ℚ))) ≠ 0 := by
  have h := jet_total
  unfold cellSum at h
  have h1 := congrArg Prod.fst h
  have h2 := congrArg Prod.snd h
  simp only [Prod.fst_sum, Prod.snd_sum] at h1 h2
  refine ⟨jetRhs, ?_, ?_, ?_⟩
  · intro o ho x hx
    obtain ⟨r, hr⟩ := C64_defined torus_pos torus_tiling torus_balanced (b := ![4, 4]) (by decide) (1 : ℚ) jetVel jet 1 torusDomain
      ho hx
    unfold rhsCell at hr ⊢
    split at hr
    · rw [if_pos ‹_›]
      rfl
    · cases hr
  · unfold cellSum
    intro h0
    have := h1.symm.trans h0
    norm_num at this
  · unfold cellSum
    intro h0
    have := h2.symm.trans h0
    norm_num at this

end Verif.Parabolic.Viscosity
