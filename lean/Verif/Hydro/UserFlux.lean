import Verif.Hydro.Boundary

/-!
# C47: user-defined fluxes at boundaries

Where `overrideBoundaryFlux` and `overrideBoundaryHeatFlux` (`core/src/boundary_conditions/BoundaryConditions.h`
L164-197) are called. `F` is the type of the flux; `user flux min` is the function of the user with all
its other arguments fixed, `min` is its argument `min_bound`.
-/

namespace Verif.Hydro

variable {d : ℕ} {K F : Type}

/-! ### Model -/

/-- `HydroUpdate_hancock_oneneighbor.cpp` L293-296. -/
def overrideOne (B : Boundary d K) (user : F → Bool → F) (j : Fin d) (s : ℤ) (flux : F) : F :=
  if s = 1 ∧ B.bcMin j = .user then user flux true
  else if s = -1 ∧ B.bcMax j = .user then user flux false
  else flux

/-- `HydroUpdate_utils.h` L571-588, without `well_balanced`: the fluxes of both sides. `bL`, `bR`: the side is on the
boundary. -/
def overrideEuler (B : Boundary d K) (user : F → Bool → F) (j : Fin d) (bL bR : Bool) (fluxL fluxR : F) : F × F :=
  (if bL then if B.bcMin j = .user then user fluxL true else fluxL else fluxL,
    if bR then if B.bcMax j = .user then user fluxR false else fluxR else fluxR)

/-- `ParabolicTerm_thermal_conduction.h` L238-241. -/
def overrideHeat (B : Boundary d K) (user : F → Bool → F) (j : Fin d) (bL bR : Bool) (fluxL fluxR : F) : F × F :=
  (if bL ∧ B.bcMin j = .user then user fluxL true else fluxL,
    if bR ∧ B.bcMax j = .user then user fluxR false else fluxR)

/-! ### Specification -/

/-- `g` is the right flux through side `s` (-1 or 1) in direction `j`, if the solver found `f`. -/
def RightFlux (B : Boundary d K) (user : F → Bool → F) (j : Fin d) (s : ℤ) (onBoundary : Prop) (f g : F) : Prop :=
  (onBoundary → B.at j s = .user → g = user f (decide (s = -1))) ∧ (¬ (onBoundary ∧ B.at j s = .user) → g = f)

/-! ### Theorems -/

/-- **C47** The fluxes of `euler_update` and of the heat conduction are replaced on the right sides. -/
theorem C47_user_flux (B : Boundary d K) (user : F → Bool → F) (j : Fin d) (bL bR : Bool) (fluxL fluxR : F) :
    RightFlux B user j (-1) (bL = true) fluxL (overrideEuler B user j bL bR fluxL fluxR).1 ∧
      RightFlux B user j 1 (bR = true) fluxR (overrideEuler B user j bL bR fluxL fluxR).2 ∧
      RightFlux B user j (-1) (bL = true) fluxL (overrideHeat B user j bL bR fluxL fluxR).1 ∧
      RightFlux B user j 1 (bR = true) fluxR (overrideHeat B user j bL bR fluxL fluxR).2 := by
  refine ⟨?_, ?_, ?_, ?_⟩ <;> (constructor <;> (intro h; simp_all [Boundary.at, overrideEuler, overrideHeat]))

/-- **C47** The same in `HydroUpdate_hancock_oneneighbor` needs the same condition on both sides and a function that does
not look at the side. -/
theorem C47_user_flux_partial (B : Boundary d K) (user : F → Bool → F) (j : Fin d) {s : ℤ} (hs : s = 1 ∨ s = -1)
    (h : B.bcMin j = B.bcMax j) (hu : ∀ f, user f true = user f false) (flux : F) :
    RightFlux B user j s True flux (overrideOne B user j s flux) := by
  rcases hs with rfl | rfl <;> constructor <;> intro h' <;> simp_all [Boundary.at, overrideOne]

/-- **C47** Otherwise it is wrong: the user defines the flux at the lower side only, and the upper one gets it; or on both,
and they are told the other side. -/
theorem C47_user_flux_fails :
    (∃ (B : Boundary 1 ℚ) (user : ℚ → Bool → ℚ), B.bcMin 0 = .user ∧ B.bcMax 0 = .absorbing ∧
      overrideOne B user 0 (-1) 1 = 1 ∧ ¬ RightFlux B user 0 (-1) True 1 (overrideOne B user 0 (-1) 1) ∧
      ¬ RightFlux B user 0 1 True 1 (overrideOne B user 0 1 1)) ∧
    ∃ (B : Boundary 1 ℚ) (user : ℚ → Bool → ℚ), B.bcMin 0 = B.bcMax 0 ∧
      ¬ RightFlux B user 0 1 True 1 (overrideOne B user 0 1 1) := by
  refine ⟨⟨⟨fun _ => .user, fun _ => .absorbing, fun _ _ _ => ⟨0, 0, 0, 0, 0⟩⟩, fun _ m => if m then 2 else 3, rfl, rfl,
    ?_, ?_, ?_⟩, ⟨fun _ => .user, fun _ => .user, fun _ _ _ => ⟨0, 0, 0, 0, 0⟩⟩, fun _ m => if m then 2 else 3, rfl, ?_⟩
  · simp [overrideOne]
  all_goals simp [RightFlux, overrideOne, Boundary.at]

/-- A function of the user that does something. -/
example : ∃ (B : Boundary 1 ℚ) (user : ℚ → Bool → ℚ), B.bcMin 0 = .user ∧ B.bcMin 0 = B.bcMax 0 ∧
    (∀ f, user f true = user f false) ∧ overrideOne B user 0 1 5 ≠ 5 :=
  ⟨⟨fun _ => .user, fun _ => .user, fun _ _ _ => ⟨0, 0, 0, 0, 0⟩⟩, fun f _ => 2 * f, rfl, rfl, fun _ => rfl, by
    norm_num [overrideOne]⟩

end Verif.Hydro
