import Verif.Hydro.WellBalanced

/-!
# C97: where the well-balanced option does not keep the equilibrium
-/

namespace Verif.Hydro.WellBalanced

open Verif.Octree Verif.Cells Verif.Flux Verif.Hydro Verif.Hydro.Euler

/-- Two gases at rest with different pressures: there is a mass flux. -/
theorem mass_moves {P : Params} (hP : P.Ok) (dir : Fin 3) (l r : Prim ℝ) (hl : l.vel dir = 0) (hr : r.vel dir = 0)
    (hla : Admissible P l) (hra : Admissible P r) (hp : l.p ≠ r.p) : (fluxDir P dir l r).rho ≠ 0 := by
  have hlu : (swapPrim dir l).u = 0 := by fin_cases dir <;> exact hl
  have hru : (swapPrim dir r).u = 0 := by fin_cases dir <;> exact hr
  have e : ∀ q : Prim ℝ, Admissible P q → sideP P (swapPrim dir q) = q.p := by
    intro q hq
    have h1 : (swapPrim dir q).rho = q.rho := by fin_cases dir <;> rfl
    have h2 : (swapPrim dir q).p = q.p := by fin_cases dir <;> rfl
    unfold sideP sideR
    rw [h1, h2, max_eq_left hq.1, max_eq_left hq.2]
  have hf : (fluxDir P dir l r).rho = (hllc P (swapPrim dir l) (swapPrim dir r)).rho := by
    unfold fluxDir
    fin_cases dir <;> rfl
  rw [hf]
  have hpe : sideP P (swapPrim dir l) ≠ sideP P (swapPrim dir r) := by rw [e l hla, e r hra]; exact hp
  generalize swapPrim dir l = l' at *
  generalize swapPrim dir r = r' at *
  obtain ⟨w1, w2, hL, hR, h1, h2⟩ := waves hP l' r'
  rw [hlu] at w1
  rw [hru] at w2
  have hu : ustar P l' r' ≠ 0 := by
    unfold ustar
    rw [hlu, hru, mul_zero, mul_zero, zero_add, zero_add]
    exact div_ne_zero (sub_ne_zero.2 hpe) (add_pos hR hL).ne'
  have hs : (hllc P l' r').rho = (sample P l' r').ro * (sample P l' r').uo := rfl
  rw [hs]
  by_cases h : 0 < ustar P l' r'
  · have e : sample P l' r' = ⟨rstar P l' r' l' (waveL P l' r'), ustar P l' r', pstar P l' r', estar P l' r' l' (waveL P l' r')⟩ := by
      unfold sample
      rw [if_neg (by linarith), if_pos h]
    rw [e]
    refine mul_ne_zero ?_ hu
    unfold rstar
    have a1 : waveL P l' r' - l'.u < 0 := by rw [hlu]; linarith
    have a2 : waveL P l' r' - ustar P l' r' < 0 := by linarith
    exact div_ne_zero (mul_ne_zero (sideR_pos hP l').ne' a1.ne) a2.ne
  · have e : sample P l' r' = ⟨rstar P l' r' r' (waveR P l' r'), ustar P l' r', pstar P l' r', estar P l' r' r' (waveR P l' r')⟩ := by
      unfold sample
      rw [if_neg (by linarith), if_neg h, if_pos (by linarith)]
    rw [e]
    refine mul_ne_zero ?_ hu
    unfold rstar
    have a1 : 0 < waveR P l' r' - r'.u := by rw [hru]; linarith
    have a2 : 0 < waveR P l' r' - ustar P l' r' := by linarith
    exact div_ne_zero (mul_ne_zero (sideR_pos hP r').ne' a1.ne') a2.ne'

theorem even_inner {d : ℕ} {G : Grid d} {M : Finset (Oct d)} {b : Fin d → ℕ} {o : Oct d} {x : Fin d → ℕ} {j : Fin d} {s : ℤ}
    (hG : G.Pos) (hM : Tiling G M) (hB : Balanced G M) (ho : o ∈ M) (hx : ∀ k, x k < b k) (hs : s = 1 ∨ s = -1)
    (h : 0 ≤ (x j : ℤ) + s ∧ (x j : ℤ) + s < b j) : EvenSide G M b o x j s := by
  intro q hq
  rw [(inner hG hM hB ho hx hs h).2.2, Finset.mem_singleton] at hq
  rw [hq]
  rfl

/-- What `clean_negative_primitive_values` does to a density. -/
theorem clean_rho {d : ℕ} (gamma smallr smallp : ℝ) (u : Cons ℝ) :
    (cleanNegative d gamma smallr smallp u).rho = if u.rho < 0 then smallr else u.rho := by
  have e : (consToPrim d gamma (getCons d u)).rho = u.rho := rfl
  unfold cleanNegative
  simp only [e]
  by_cases h : u.rho < 0
  · rw [if_pos (Or.inl h), if_pos h, if_pos h]
    unfold setCons primToCons
    simp only
    split <;> rfl
  · rw [if_neg h, if_neg h]
    split
    · unfold setCons primToCons
      simp only
      split <;> rfl
    · rfl

section

variable (bval : CellIndex 2 → Cons ℝ)

theorem exB : ∀ k, 4 ≤ (![4, 4] : Fin 2 → ℕ) k ∧ 2 ∣ (![4, 4] : Fin 2 → ℕ) k := by decide

theorem exO : (⟨2, ![2, 0]⟩ : Oct 2) ∈ quad.toFinset := by decide

theorem exX : ∀ k, (![0, 1] : Fin 2 → ℕ) k < (![4, 4] : Fin 2 → ℕ) k := by decide

theorem exSize : (getCellSize unitSquare quadGrid ⟨⟨2, ![2, 0]⟩, ![0, 1], ![4, 4], .localToBlock⟩ 0 : ℚ) = 1 / 16 := by
  decide +kernel

theorem exGhost : getNeighborGhost quadGrid quad.toFinset ⟨⟨2, ![2, 0]⟩, ![0, 1], ![4, 4], .localToBlock⟩ (faceOff 0 (-1)) =
    some ⟨⟨1, ![0, 0]⟩, ![3, 0], ![4, 4], .bigger⟩ := by decide +kernel

theorem exFlux : (wbFlux (exSetup true) (axis (0 : Fin 2)) (toPrim (exSetup true) 2 (exGas true ⟨1, ![0, 0]⟩ ![3, 0]))
    (toPrim (exSetup true) 2 (exGas true ⟨2, ![2, 0]⟩ ![0, 1])) ((1 / 16 : ℚ) : ℝ)).1.rho ≠ 0 := by
  have hpc := exGas_pressure true ⟨1, ![0, 0]⟩ ![3, 0]
  have hpf := exGas_pressure true ⟨2, ![2, 0]⟩ ![0, 1]
  have m1 : middle unitSquare (cellGrid quadGrid ![4, 4]) (cellOct ![4, 4] ⟨1, ![0, 0]⟩ ![3, 0]) 0 = 7 / 16 := by
    norm_num [middle, lo, hi, cellGrid, cellOct, Grid.count, quadGrid, unitSquare]
  have m2 : middle unitSquare (cellGrid quadGrid ![4, 4]) (cellOct ![4, 4] ⟨2, ![2, 0]⟩ ![0, 1]) 0 = 17 / 32 := by
    norm_num [middle, lo, hi, cellGrid, cellOct, Grid.count, quadGrid, unitSquare]
  rw [m1] at hpc
  rw [m2] at hpf
  have r : ∀ o x, (exGas true o x).rho = 1 := fun o x => rfl
  have q1 : (toPrim (exSetup true) 2 (exGas true ⟨1, ![0, 0]⟩ ![3, 0])).p = 10 - 7 / 16 := by
    rw [toPrim_p' (Or.inl rfl) (by rw [r]; norm_num)]
    exact hpc.trans (by norm_num)
  have q2 : (toPrim (exSetup true) 2 (exGas true ⟨2, ![2, 0]⟩ ![0, 1])).p = 10 - 17 / 32 := by
    rw [toPrim_p' (Or.inl rfl) (by rw [r]; norm_num)]
    exact hpf.trans (by norm_num)
  have v : ∀ o x, (toPrim (exSetup true) 2 (exGas true o x)).u = 0 := fun o x => by
    show (0 : ℝ) / 1 = 0
    norm_num
  have r' : ∀ o x, (toPrim (exSetup true) 2 (exGas true o x)).rho = 1 := fun o x => rfl
  have g : (exSetup true).g (axis (0 : Fin 2)) = -1 := rfl
  have a : axis (0 : Fin 2) = 0 := rfl
  unfold wbFlux
  simp only [g, r', q1, q2]
  rw [a]
  refine mass_moves (exSetup_ok true) 0 _ _ (v _ _) (v _ _) ⟨?_, ?_⟩ ⟨?_, ?_⟩ ?_ <;> simp only [exSetup] <;> push_cast <;> norm_num

theorem exLeft : ∃ f p, WellBalanced.side (exSetup true) (gasSource (exGas true) bval) unitSquare quadGrid quad.toFinset ![4, 4]
    ⟨2, ![2, 0]⟩ ![0, 1] 0 (-1) = some ⟨false, f, some p⟩ ∧ f.rho ≠ 0 := by
  have hnear : nextTo (gasSource (exGas true) bval) quadGrid quad.toFinset ![4, 4] ⟨2, ![2, 0]⟩ ![0, 1] 0 (-1) =
      some (exGas true ⟨1, ![0, 0]⟩ ![3, 0]) := by
    have h := patchRead_near (I := gasSource (exGas true) bval) (s := -1) (j := 0)
      (r := ⟨⟨1, ![0, 0]⟩, ![3, 0], ![4, 4], .bigger⟩) (fun k => le_trans (by norm_num) (exB k).1) exX (Or.inr rfl) exGhost
      (fun h => Status.noConfusion h) (by decide)
    unfold nextTo
    exact h
  obtain ⟨p, h2⟩ := Option.isSome_iff_exists.1 (by decide +kernel : (getNeighbor
    (⟨⟨1, ![0, 0]⟩, ![3, 0], ![4, 4], .bigger⟩ : CellIndex 2) (faceOff 0 (-1))).isSome = true)
  unfold WellBalanced.side
  rw [patchRead_interior exX, hnear, exGhost]
  simp only [Option.bind_some]
  rw [if_pos (by decide), if_pos (by decide), h2, exSize]
  simp only [Option.map_some]
  exact ⟨_, _, rfl, exFlux⟩

theorem exHydrostatic (s : Bool) :
    Hydrostatic (exSetup s).P.gamma (exSetup s).g unitSquare quadGrid quad.toFinset ![4, 4] (exGas s) :=
  linear_hydrostatic (exSetup_ok _) quadGrid_pos (by decide) quad_tiling (by decide)

theorem exStep (dt : ℝ) : ∃ m : ℝ, m ≠ 0 ∧ ∀ u : Cons ℝ, ∃ w, stepDir (exSetup true) (gasSource (exGas true) bval) unitSquare quadGrid
    quad.toFinset ![4, 4] ⟨2, ![2, 0]⟩ ![0, 1] dt u 0 = some w ∧ w.rho = u.rho + dt / ((1 / 16 : ℚ) : ℝ) * m := by
  obtain ⟨f, p, hL, hm⟩ := exLeft bval
  refine ⟨f.rho, hm, fun u => ?_⟩
  have hR := side_inside (S := exSetup true) (D := unitSquare) (I := gasSource (exGas true) bval) (j := (0 : Fin 2)) (exSetup_ok true)
    (Or.inl rfl) quadGrid_pos quad_tiling quad_balanced unitSquare_ok exB (exHydrostatic true) (exGas_floors true quad_tiling) exO
    exX (s := 1) (Or.inl rfl) (even_inner quadGrid_pos quad_tiling quad_balanced exO exX (Or.inl rfl) (by decide))
    (inner quadGrid_pos quad_tiling quad_balanced exO exX (Or.inl rfl) (by decide)).2.1
  generalize faceP (exSetup true) unitSquare quadGrid ![4, 4] (gasSource (exGas true) bval).U ⟨2, ![2, 0]⟩ ![0, 1] 0 ((1 : ℤ) : ℝ) = pR at hR
  unfold stepDir
  rw [patchRead_interior exX, hL, hR, exSize]
  simp only [Option.bind_some]
  unfold stepFaces
  simp only [Bool.false_eq_true, if_false, Option.bind_some, Option.map_some]
  refine ⟨_, rfl, ?_⟩
  have hS : (exSetup true).inStep = true := rfl
  have z : ∀ m, (momFlux (axis (0 : Fin 2)) m).rho = 0 := fun m => rfl
  simp only [hS, if_true, setCons, plus, times, getCons, z]
  ring

end

/-- **C97** fails at a jump in refinement: both pressures are extrapolated over half the size of the cell that is
updated (L150-151), though the middle of the bigger neighbour is twice as far from the face. A gas in equilibrium flows: the
density of a cell next to a bigger one changes, for any time step that is not 0. -/
theorem C97_refined_fails :
    Hydrostatic (exSetup true).P.gamma (exSetup true).g unitSquare quadGrid quad.toFinset ![4, 4] (exGas true) ∧
    AboveFloors (exSetup true).P (exSetup true).g unitSquare quadGrid quad.toFinset ![4, 4] (exGas true) ∧
    ∀ (bval : CellIndex 2 → Cons ℝ) (dt : ℝ), dt ≠ 0 → ∀ old, ∃ v,
      update (exSetup true) (gasSource (exGas true) bval) unitSquare quadGrid quad.toFinset ![4, 4] dt
        ⟨2, ![2, 0]⟩ ![0, 1] old = some v ∧ v.rho ≠ (exGas true ⟨2, ![2, 0]⟩ ![0, 1]).rho := by
  refine ⟨exHydrostatic true, exGas_floors true quad_tiling, fun bval dt hdt old => ?_⟩
  obtain ⟨m, hm, h0⟩ := exStep bval dt
  obtain ⟨l, hl⟩ := patch_filled (I := gasSource (exGas true) bval) quadGrid_pos quad_tiling quad_balanced exB exO
  obtain ⟨w, hw, hrho⟩ := h0 (setCons 2 old (getCons 2 (exGas true ⟨2, ![2, 0]⟩ ![0, 1])))
  have h3 := stepDir_rest (S := exSetup true) (D := unitSquare) (I := gasSource (exGas true) bval) rfl (exSetup_ok true) (Or.inl rfl)
    quadGrid_pos quad_tiling quad_balanced unitSquare_ok exB (exHydrostatic true) (exGas_floors true quad_tiling) exO exX dt w 1
    (fun s hs => even_inner quadGrid_pos quad_tiling quad_balanced exO exX hs (by rcases hs with rfl | rfl <;> decide))
  have hfr : List.finRange 2 = [0, 1] := by decide
  have e1 : (exGas true ⟨2, ![2, 0]⟩ ![0, 1]).rho = 1 := rfl
  have e2 : (setCons 2 old (getCons 2 (exGas true ⟨2, ![2, 0]⟩ ![0, 1]))).rho = (exGas true ⟨2, ![2, 0]⟩ ![0, 1]).rho := rfl
  rw [e2, e1] at hrho
  refine ⟨cleanNegative 2 (exSetup true).P.gamma (exSetup true).P.smallr (exSetup true).P.smallp w, ?_, ?_⟩
  · unfold update fluxes
    rw [hl, Option.bind_some, hfr, List.foldlM_cons]
    have hw' : stepDir (exSetup true) (gasSource (exGas true) bval) unitSquare quadGrid quad.toFinset ![4, 4] ⟨2, ![2, 0]⟩ ![0, 1] dt
      (setCons 2 old (getCons 2 ((gasSource (exGas true) bval).U ⟨2, ![2, 0]⟩ ![0, 1]))) 0 = some w := hw
    rw [hw', Option.bind_eq_bind, Option.bind_some, List.foldlM_cons, h3, Option.bind_eq_bind, Option.bind_some, List.foldlM_nil]
    rfl
  · rw [clean_rho, e1]
    have hne : w.rho ≠ 1 := by
      rw [hrho]
      have : dt / ((1 / 16 : ℚ) : ℝ) * m ≠ 0 := mul_ne_zero (div_ne_zero hdt (by norm_num)) hm
      intro h
      exact this (by linarith)
    split
    · norm_num [exSetup]
    · exact hne

/-! ### Gravity from a field -/

section

variable (bval : CellIndex 2 → Cons ℝ)

theorem exO' : (⟨1, ![0, 0]⟩ : Oct 2) ∈ quad.toFinset := by decide

theorem exSide {x : Fin 2 → ℕ} (hx : ∀ k, x k < (![4, 4] : Fin 2 → ℕ) k) (j : Fin 2) {s : ℤ} (hs : s = 1 ∨ s = -1)
    (h : 0 ≤ (x j : ℤ) + s ∧ (x j : ℤ) + s < (![4, 4] : Fin 2 → ℕ) j) :
    WellBalanced.side (exSetup false) (gasSource (exGas false) bval) unitSquare quadGrid quad.toFinset ![4, 4] ⟨1, ![0, 0]⟩ x j s =
      some ⟨false, momFlux (axis j) (faceP (exSetup false) unitSquare quadGrid ![4, 4] (exGas false) ⟨1, ![0, 0]⟩ x j s),
        some (faceP (exSetup false) unitSquare quadGrid ![4, 4] (exGas false) ⟨1, ![0, 0]⟩ x j s)⟩ :=
  side_inside (S := exSetup false) (D := unitSquare) (I := gasSource (exGas false) bval) (exSetup_ok false)
    (Or.inl rfl) quadGrid_pos quad_tiling quad_balanced unitSquare_ok exB (exHydrostatic false) (exGas_floors false quad_tiling) exO'
    hx hs (even_inner quadGrid_pos quad_tiling quad_balanced exO' hx hs h)
    (inner quadGrid_pos quad_tiling quad_balanced exO' hx hs h).2.1

/-- Without gravity in the step, faces in equilibrium accelerate the gas against gravity. -/
theorem stepFaces_field {S : Setup} (hS : S.inStep = false) (dir : Fin 3) (rho h dt pL pR : ℝ) (u : Cons ℝ) :
    stepFaces S 2 dir rho h dt ⟨false, momFlux dir pL, some pL⟩ ⟨false, momFlux dir pR, some pR⟩ u =
      some (setCons 2 u (plus (getCons 2 u) (momFlux dir (dt / h * (pL - pR))))) := by
  unfold stepFaces
  simp only [hS, Bool.false_eq_true, if_false, Option.bind_some, Option.map_some]
  congr 2
  fin_cases dir <;> simp only [momFlux, plus, times] <;> rw [Cons.mk.injEq] <;> refine ⟨?_, ?_, ?_, ?_, ?_⟩ <;> ring

/-- At a wall they do not. -/
theorem stepFaces_wall {S : Setup} (hS : S.inStep = false) (dir : Fin 3) (rho h dt p pR : ℝ) (f u : Cons ℝ) :
    stepFaces S 2 dir rho h dt ⟨true, f, some p⟩ ⟨false, momFlux dir pR, some pR⟩ u = some u := by
  unfold stepFaces
  simp only [hS, Bool.false_eq_true, if_false, if_true, Option.bind_some, Option.map_some, mul_zero, zero_mul, sub_zero]
  congr 1
  conv_rhs => rw [← set_get (d := 2) u]
  congr 1
  fin_cases dir <;> simp only [momFlux, plus, times] <;> rw [Cons.mk.injEq] <;> refine ⟨?_, ?_, ?_, ?_, ?_⟩ <;> ring

theorem exFold {x : Fin 2 → ℕ} (dt : ℝ) {u v w : Cons ℝ}
    (h0 : stepDir (exSetup false) (gasSource (exGas false) bval) unitSquare quadGrid quad.toFinset ![4, 4] ⟨1, ![0, 0]⟩ x dt u 0 = some v)
    (h1 : stepDir (exSetup false) (gasSource (exGas false) bval) unitSquare quadGrid quad.toFinset ![4, 4] ⟨1, ![0, 0]⟩ x dt v 1 = some w)
    {old : Cons ℝ} (hu : u = setCons 2 old (getCons 2 (exGas false ⟨1, ![0, 0]⟩ x))) :
    update (exSetup false) (gasSource (exGas false) bval) unitSquare quadGrid quad.toFinset ![4, 4] dt ⟨1, ![0, 0]⟩ x old =
      some (cleanNegative 2 2 (1 / 100) (1 / 100) (gravityCorrection 2 dt 1 ![-1, 0, 0] w)) := by
  subst hu
  obtain ⟨l, hl⟩ := patch_filled (I := gasSource (exGas false) bval) quadGrid_pos quad_tiling quad_balanced exB exO'
  have hfr : List.finRange 2 = [0, 1] := by decide
  unfold update fluxes
  rw [hl, Option.bind_some, hfr, List.foldlM_cons]
  have h0' : stepDir (exSetup false) (gasSource (exGas false) bval) unitSquare quadGrid quad.toFinset ![4, 4] ⟨1, ![0, 0]⟩ x dt
      (setCons 2 old (getCons 2 ((gasSource (exGas false) bval).U ⟨1, ![0, 0]⟩ x))) 0 = some v := h0
  rw [h0', Option.bind_eq_bind, Option.bind_some, List.foldlM_cons, h1, Option.bind_eq_bind, Option.bind_some, List.foldlM_nil]
  rfl

theorem exDir {x : Fin 2 → ℕ} (hx : ∀ k, x k < (![4, 4] : Fin 2 → ℕ) k) (dt : ℝ) (u : Cons ℝ) (j : Fin 2)
    (h : 1 ≤ x j ∧ x j ≤ 2) :
    stepDir (exSetup false) (gasSource (exGas false) bval) unitSquare quadGrid quad.toFinset ![4, 4] ⟨1, ![0, 0]⟩ x dt u j =
      some (setCons 2 u (plus (getCons 2 u) (momFlux (axis j) (-(dt * (exSetup false).g (axis j)))))) := by
  have hb4 : (![4, 4] : Fin 2 → ℕ) j = 4 := by fin_cases j <;> rfl
  have hL := exSide bval hx j (s := -1) (Or.inr rfl) (by rw [hb4]; omega)
  have hR := exSide bval hx j (s := 1) (Or.inl rfl) (by rw [hb4]; omega)
  have hb0 : ∀ k, 0 < (![4, 4] : Fin 2 → ℕ) k := by decide
  have hz := cellSize_pos (cellGrid_pos quadGrid_pos hb0) unitSquare_ok (cellOct ![4, 4] ⟨1, ![0, 0]⟩ x) j
  have hz' : ((cellSize unitSquare (cellGrid quadGrid ![4, 4]) (cellOct ![4, 4] ⟨1, ![0, 0]⟩ x) j : ℚ) : ℝ) ≠ 0 := by
    exact_mod_cast hz.ne'
  unfold stepDir
  rw [patchRead_interior hx, hL, hR]
  simp only [Option.bind_some]
  rw [getCellSize_eq quadGrid_pos unitSquare ⟨⟨1, ![0, 0]⟩, x, ![4, 4], .localToBlock⟩ hb0, stepFaces_field rfl]
  congr 4
  unfold faceP
  have r : (exGas false ⟨1, ![0, 0]⟩ x).rho = 1 := rfl
  rw [r]
  simp only
  generalize pressure 2 (exSetup false).P.gamma (exGas false ⟨1, ![0, 0]⟩ x) = p
  generalize ((cellSize unitSquare (cellGrid quadGrid ![4, 4]) (cellOct ![4, 4] ⟨1, ![0, 0]⟩ x) j : ℚ) : ℝ) = h at hz' ⊢
  push_cast
  field_simp
  ring

theorem exForm (s : Bool) (o : Oct 2) (x : Fin 2 → ℕ) : exGas s o x = ⟨1, (exGas s o x).e, 0, 0, 0⟩ := rfl

theorem exEnergy (x : Fin 2 → ℕ) : (exGas false ⟨1, ![0, 0]⟩ x).e =
    10 - (middle unitSquare (cellGrid quadGrid ![4, 4]) (cellOct ![4, 4] ⟨1, ![0, 0]⟩ x) 0 : ℝ) := by
  rw [← exGas_pressure false]
  rw [exForm]
  unfold pressure kinetic
  norm_num

end

/-- **C97** fails with `gravity_type=constant_field`, which no assertion excludes. The pressures at the faces contain
gravity, the source does not: it is added afterwards by `apply_gravity_correction`, which brings the momentum back to 0
but takes away the kinetic energy that the fluxes did not give, so that the gas cools. At a wall, the other side's pressure is used without
the weight (`gval` is 0, L562) and the gas falls. -/
theorem C97_field_fails :
    Hydrostatic (exSetup false).P.gamma (exSetup false).g unitSquare quadGrid quad.toFinset ![4, 4] (exGas false) ∧
    AboveFloors (exSetup false).P (exSetup false).g unitSquare quadGrid quad.toFinset ![4, 4] (exGas false) ∧
    ∀ (bval : CellIndex 2 → Cons ℝ) (dt : ℝ), 0 < dt → dt ≤ 1 → ∀ old,
      (∃ v, update (exSetup false) (gasSource (exGas false) bval) unitSquare quadGrid quad.toFinset ![4, 4] dt
        ⟨1, ![0, 0]⟩ ![1, 1] old = some v ∧ v.e = (exGas false ⟨1, ![0, 0]⟩ ![1, 1]).e - dt ^ 2 / 2) ∧
      ∃ v, update (exSetup false) (gasSource (exGas false) bval) unitSquare quadGrid quad.toFinset ![4, 4] dt
        ⟨1, ![0, 0]⟩ ![0, 1] old = some v ∧ v.ru = -dt := by
  refine ⟨exHydrostatic false, exGas_floors false quad_tiling, fun bval dt h0 h1 old => ⟨?_, ?_⟩⟩
  · have hx : ∀ k, (![1, 1] : Fin 2 → ℕ) k < (![4, 4] : Fin 2 → ℕ) k := by decide
    have he := exEnergy ![1, 1]
    have m : middle unitSquare (cellGrid quadGrid ![4, 4]) (cellOct ![4, 4] ⟨1, ![0, 0]⟩ ![1, 1]) 0 = 3 / 16 := by
      norm_num [middle, lo, hi, cellGrid, cellOct, Grid.count, quadGrid, unitSquare]
    rw [m] at he
    refine ⟨_, exFold bval dt (exDir bval hx dt _ 0 (by decide)) (exDir bval hx dt _ 1 (by decide)) rfl, ?_⟩
    have hg0 : (exSetup false).g (axis (0 : Fin 2)) = -1 := rfl
    have hg1 : (exSetup false).g (axis (1 : Fin 2)) = 0 := rfl
    have e : gravityCorrection 2 dt 1 ![-1, 0, 0] (setCons 2
        (setCons 2 (setCons 2 old (getCons 2 (exGas false ⟨1, ![0, 0]⟩ ![1, 1])))
          (plus (getCons 2 (setCons 2 old (getCons 2 (exGas false ⟨1, ![0, 0]⟩ ![1, 1]))))
            (momFlux (axis (0 : Fin 2)) (-(dt * (exSetup false).g (axis (0 : Fin 2)))))))
        (plus (getCons 2 (setCons 2 (setCons 2 old (getCons 2 (exGas false ⟨1, ![0, 0]⟩ ![1, 1])))
          (plus (getCons 2 (setCons 2 old (getCons 2 (exGas false ⟨1, ![0, 0]⟩ ![1, 1]))))
            (momFlux (axis (0 : Fin 2)) (-(dt * (exSetup false).g (axis (0 : Fin 2))))))))
          (momFlux (axis (1 : Fin 2)) (-(dt * (exSetup false).g (axis (1 : Fin 2))))))) =
        ⟨1, (exGas false ⟨1, ![0, 0]⟩ ![1, 1]).e - dt ^ 2 / 2, 0, 0, old.rw⟩ := by
      rw [hg0, hg1, exForm]
      have a0 : axis (0 : Fin 2) = 0 := rfl
      have a1 : axis (1 : Fin 2) = 1 := rfl
      rw [a0, a1]
      simp only [gravityCorrection, setCons, getCons, plus, momFlux]
      rw [Cons.mk.injEq]
      refine ⟨by ring, ?_, ?_, ?_, ?_⟩ <;> simp <;> ring
    rw [e, C51_valid_unchanged 2 (Or.inl rfl)]
    · exact one_pos
    · unfold pressure kinetic
      simp only [he]
      push_cast
      norm_num
      nlinarith
  · have hx : ∀ k, (![0, 1] : Fin 2 → ℕ) k < (![4, 4] : Fin 2 → ℕ) k := by decide
    have he := exEnergy ![0, 1]
    have m : middle unitSquare (cellGrid quadGrid ![4, 4]) (cellOct ![4, 4] ⟨1, ![0, 0]⟩ ![0, 1]) 0 = 1 / 16 := by
      norm_num [middle, lo, hi, cellGrid, cellOct, Grid.count, quadGrid, unitSquare]
    rw [m] at he
    obtain ⟨f, p, hL⟩ := side_outside (S := exSetup false) (I := gasSource (exGas false) bval) (D := unitSquare) (j := (0 : Fin 2))
      quadGrid_pos quad_tiling quad_balanced exB exO' hx (s := -1) (Or.inr rfl) (by
        intro h
        have := h 0
        simp [quadGrid, cellGrid, target, faceOff] at this)
    have hR := exSide bval hx 0 (s := 1) (Or.inl rfl) (by decide)
    have hd0 : ∀ u, stepDir (exSetup false) (gasSource (exGas false) bval) unitSquare quadGrid quad.toFinset ![4, 4] ⟨1, ![0, 0]⟩
        ![0, 1] dt u 0 = some u := by
      intro u
      unfold stepDir
      rw [patchRead_interior hx, hL, hR]
      simp only [Option.bind_some]
      exact stepFaces_wall rfl _ _ _ _ _ _ _ _
    refine ⟨_, exFold bval dt (hd0 _) (exDir bval hx dt _ 1 (by decide)) rfl, ?_⟩
    have hg1 : (exSetup false).g (axis (1 : Fin 2)) = 0 := rfl
    have e : gravityCorrection 2 dt 1 ![-1, 0, 0] (setCons 2
        (setCons 2 old (getCons 2 (exGas false ⟨1, ![0, 0]⟩ ![0, 1])))
        (plus (getCons 2 (setCons 2 old (getCons 2 (exGas false ⟨1, ![0, 0]⟩ ![0, 1]))))
          (momFlux (axis (1 : Fin 2)) (-(dt * (exSetup false).g (axis (1 : Fin 2))))))) =
        ⟨1, (exGas false ⟨1, ![0, 0]⟩ ![0, 1]).e + dt ^ 2 / 2, -dt, 0, old.rw⟩ := by
      rw [hg1, exForm]
      have a1 : axis (1 : Fin 2) = 1 := rfl
      rw [a1]
      simp only [gravityCorrection, setCons, getCons, plus, momFlux]
      rw [Cons.mk.injEq]
      refine ⟨by ring, ?_, ?_, ?_, ?_⟩ <;> simp <;> ring
    rw [e, C51_valid_unchanged 2 (Or.inl rfl)]
    · exact one_pos
    · unfold pressure kinetic
      simp only [he]
      push_cast
      norm_num

end Verif.Hydro.WellBalanced
