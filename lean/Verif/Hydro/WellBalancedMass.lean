import Verif.Hydro.WellBalancedFails
import Verif.Hydro.Hancock

/-!
# C97: nothing leaves the domain with the well-balanced option
-/

namespace Verif.Hydro.WellBalanced

open Verif.Octree Verif.Cells Verif.Flux Verif.Hydro Verif.Hydro.Euler

variable {d : ℕ} {S : Setup} {D : Domain d} {G : Grid d} {M : Finset (Oct d)} {b : Fin d → ℕ} {I : Source d (Cons ℝ)}
  {o : Oct d} {x : Fin d → ℕ}

/-- The mass flux from a cell to its upper neighbour of the same size. -/
noncomputable def massFlux (S : Setup) (I : Source d (Cons ℝ)) (D : Domain d) (G : Grid d) (M : Finset (Oct d))
    (b : Fin d → ℕ) (j : Fin d) (c q : Oct d) : ℝ :=
  (wbFlux S (axis j) (toPrim S d (I.U (unbox b M c).1 (unbox b M c).2)) (toPrim S d (I.U (unbox b M q).1 (unbox b M q).2))
    (cellSize D (cellGrid G b) c j : ℚ)).1.rho

theorem stepFaces_rho {dir : Fin 3} {rho size dt : ℝ} {L R : Face} (hL : L.pout ≠ none) (hR : R.pout ≠ none) (u : Cons ℝ) :
    ∃ w, stepFaces S d dir rho size dt L R u = some w ∧ w.rho = u.rho +
      dt / size * ((if L.boundary then 0 else L.flux.rho) - if R.boundary then 0 else R.flux.rho) := by
  obtain ⟨bl, fl, pl⟩ := L
  obtain ⟨br, fr, pr⟩ := R
  obtain ⟨pl, rfl⟩ := Option.ne_none_iff_exists'.1 hL
  obtain ⟨pr, rfl⟩ := Option.ne_none_iff_exists'.1 hR
  have z : ∀ m, (momFlux dir m).rho = 0 := fun m => by fin_cases dir <;> rfl
  unfold stepFaces
  cases bl <;> cases br <;> cases S.inStep <;>
    simp only [Bool.false_eq_true, if_false, if_true, Option.bind_some, Option.map_some] <;>
    refine ⟨_, rfl, ?_⟩ <;> simp only [setCons, plus, times, getCons, z] <;> ring

/-- The two sides of a cell on a mesh with one level. -/
theorem side_mass (hG : G.Pos) (hM : Tiling G M) (hB : Balanced G M) (hD : Domain.Ok D) (hb : ∀ k, 4 ≤ b k ∧ 2 ∣ b k)
    {L : ℕ} (hL : ∀ o ∈ M, o.level = L) (ho : o ∈ M) (hx : ∀ k, x k < b k) (j : Fin d) {s : ℤ} (hs : s = 1 ∨ s = -1) :
    ∃ F, WellBalanced.side S I D G M b o x j s = some F ∧ F.pout ≠ none ∧
      (volume D (cellGrid G b) (cellOct b o x) : ℝ) * (if F.boundary then 0 else F.flux.rho) =
        (cellSize D (cellGrid G b) (cellOct b o x) j : ℝ) *
          sideSum D G M b (massFlux S I D G M b) (fun _ _ _ _ => 0) j s o x := by
  have hb0 : ∀ k, 0 < b k := fun k => by have := (hb k).1; omega
  have hG' := cellGrid_pos hG hb0
  by_cases hin : InDomain (cellGrid G b) o.level (target b o x (faceOff j s))
  · obtain ⟨o', h2, x', h3, hn, -, hside⟩ := side_even (S := S) (I := I) (D := D) hG hM hB hb ho hx hs
      (even_of_uniform hL ho j s) hin
    have hlev : (cellOct b o x).level = (cellOct b o' x').level := by
      show o.level = o'.level
      rw [hL o ho, hL o' h2]
    have ha := area_of_le (D := D) hG' hD (c := cellOct b o x) (q := cellOct b o' x') (hM.valid _ h2).1 (Or.inl hlev) j
    refine ⟨_, hside, by simp, ?_⟩
    unfold sideSum OnBoundary
    rw [hn, Finset.sum_singleton, if_neg (not_not.2 hin), add_zero, ← ha]
    unfold massFlux
    rw [unbox_cell ho hx, unbox_cell h2 h3, size_level hlev.symm D _ j]
    simp only [Bool.false_eq_true, if_false]
    push_cast
    rcases hs with rfl | rfl
    · rw [if_neg (by decide), if_pos rfl]
      ring
    · rw [if_pos rfl, if_neg (by decide)]
      ring
  · obtain ⟨f, p, hside⟩ := side_outside (S := S) (I := I) (D := D) hG hM hB hb ho hx hs hin
    obtain ⟨-, -, -, h3⟩ := outside hG hM hB ⟨o, x, b, .localToBlock⟩ ho hx rfl j hs hin
    simp only at h3
    refine ⟨_, hside, by simp, ?_⟩
    unfold sideSum
    rw [h3, Finset.sum_empty]
    simp

theorem stepDir_mass (hG : G.Pos) (hM : Tiling G M) (hB : Balanced G M) (hD : Domain.Ok D) (hb : ∀ k, 4 ≤ b k ∧ 2 ∣ b k)
    {L : ℕ} (hL : ∀ o ∈ M, o.level = L) (ho : o ∈ M) (hx : ∀ k, x k < b k) (dt : ℝ) (u : Cons ℝ) (j : Fin d) :
    ∃ w, stepDir S I D G M b o x dt u j = some w ∧
      (volume D (cellGrid G b) (cellOct b o x) : ℝ) * w.rho = (volume D (cellGrid G b) (cellOct b o x) : ℝ) * u.rho -
        dt * (sideSum D G M b (massFlux S I D G M b) (fun _ _ _ _ => 0) j 1 o x -
          sideSum D G M b (massFlux S I D G M b) (fun _ _ _ _ => 0) j (-1) o x) := by
  have hb0 : ∀ k, 0 < b k := fun k => by have := (hb k).1; omega
  have hz := cellSize_pos (cellGrid_pos hG hb0) hD (cellOct b o x) j
  have hz' : ((cellSize D (cellGrid G b) (cellOct b o x) j : ℚ) : ℝ) ≠ 0 := by exact_mod_cast hz.ne'
  obtain ⟨F, f1, f2, f3⟩ := side_mass (S := S) (I := I) hG hM hB hD hb hL ho hx j (s := -1) (Or.inr rfl)
  obtain ⟨R, r1, r2, r3⟩ := side_mass (S := S) (I := I) hG hM hB hD hb hL ho hx j (s := 1) (Or.inl rfl)
  unfold stepDir
  rw [patchRead_interior hx, f1, r1]
  simp only [Option.bind_some]
  rw [getCellSize_eq hG D ⟨o, x, b, .localToBlock⟩ hb0]
  obtain ⟨w, w1, w2⟩ := stepFaces_rho (S := S) (d := d) (dir := axis j) (rho := (toPrim S d (I.U o x)).rho)
    (size := (cellSize D (cellGrid G b) (cellOct b o x) j : ℚ)) (dt := dt) f2 r2 u
  refine ⟨w, w1, ?_⟩
  rw [w2, mul_add, mul_left_comm, mul_sub, f3, r3]
  field_simp
  ring

/-- **C97** Nothing leaves the domain: on a mesh with one level, whatever the state of the gas, the conditions at the
boundaries (absorbing ones too) and the kind of gravity, the fluxes do not change the total mass. Missing: meshes with
several levels, where the two sides of a face do not agree (`C45_well_balanced_fails`), and the repair of negative values. -/
theorem C97_mass_partial (hG : G.Pos) (hM : Tiling G M) (hB : Balanced G M) (hD : Domain.Ok D)
    (hb : ∀ k, 4 ≤ b k ∧ 2 ∣ b k) {L : ℕ} (hL : ∀ o ∈ M, o.level = L) (dt : ℝ) (old : Oct d → (Fin d → ℕ) → Cons ℝ) :
    ∃ V : Oct d → (Fin d → ℕ) → Cons ℝ,
      (∀ o ∈ M, ∀ x : Fin d → ℕ, (∀ k, x k < b k) → fluxes S I D G M b dt o x (old o x) = some (V o x)) ∧
      cellSum b M (fun o x => (volume D (cellGrid G b) (cellOct b o x) : ℝ) * (V o x).rho) =
        cellSum b M (fun o x => (volume D (cellGrid G b) (cellOct b o x) : ℝ) * (I.U o x).rho) := by
  have hb0 : ∀ k, 0 < b k := fun k => by have := (hb k).1; omega
  have step : ∀ o ∈ M, ∀ x : Fin d → ℕ, (∀ k, x k < b k) → ∃ w, fluxes S I D G M b dt o x (old o x) = some w ∧
      (volume D (cellGrid G b) (cellOct b o x) : ℝ) * w.rho = (volume D (cellGrid G b) (cellOct b o x) : ℝ) * (I.U o x).rho -
        dt * ∑ j, (sideSum D G M b (massFlux S I D G M b) (fun _ _ _ _ => 0) j 1 o x -
          sideSum D G M b (massFlux S I D G M b) (fun _ _ _ _ => 0) j (-1) o x) := by
    intro o ho x hx
    have hfold : ∀ (l : List (Fin d)) (u : Cons ℝ), ∃ w, l.foldlM (stepDir S I D G M b o x dt) u = some w ∧
        (volume D (cellGrid G b) (cellOct b o x) : ℝ) * w.rho = (volume D (cellGrid G b) (cellOct b o x) : ℝ) * u.rho -
          dt * (l.map fun j => sideSum D G M b (massFlux S I D G M b) (fun _ _ _ _ => 0) j 1 o x -
            sideSum D G M b (massFlux S I D G M b) (fun _ _ _ _ => 0) j (-1) o x).sum := by
      intro l
      induction l with
      | nil => exact fun u => ⟨u, rfl, by simp⟩
      | cons j l ih =>
        intro u
        obtain ⟨w, w1, w2⟩ := stepDir_mass (S := S) (I := I) hG hM hB hD hb hL ho hx dt u j
        obtain ⟨v, v1, v2⟩ := ih w
        refine ⟨v, ?_, ?_⟩
        · rw [List.foldlM_cons, w1]
          exact v1
        · rw [v2, w2, List.map_cons, List.sum_cons]
          ring
    obtain ⟨l, hl⟩ := patch_filled (I := I) hG hM hB hb ho
    obtain ⟨w, w1, w2⟩ := hfold (List.finRange d) (setCons d (old o x) (getCons d (I.U o x)))
    unfold fluxes
    rw [hl, Option.bind_some, w1]
    refine ⟨_, rfl, ?_⟩
    have e : (if S.inStep then w else gravityCorrection d dt (I.U o x).rho S.g w).rho = w.rho := by
      split <;> rfl
    rw [e, w2, ← List.ofFn_eq_map, List.sum_ofFn]
    rfl
  obtain ⟨U', h1, h2⟩ := balance (K := ℝ) hG hM hb0 D (massFlux S I D G M b) (fun _ _ _ _ => 0) dt
    (fun o x => (fluxes S I D G M b dt o x (old o x)).map Cons.rho) (fun o x => (I.U o x).rho) fun o ho x hx => by
      obtain ⟨w, w1, w2⟩ := step o ho x hx
      exact ⟨w.rho, by rw [w1]; rfl, w2⟩
  have : ∀ o (x : Fin d → ℕ), ∃ v, o ∈ M → (∀ k, x k < b k) → fluxes S I D G M b dt o x (old o x) = some v := by
    intro o x
    by_cases h : o ∈ M ∧ ∀ k, x k < b k
    · obtain ⟨w, w1, -⟩ := step o h.1 x h.2
      exact ⟨w, fun _ _ => w1⟩
    · exact ⟨old o x, fun a c => absurd ⟨a, c⟩ h⟩
  choose V hV using this
  refine ⟨V, fun o ho x hx => hV o x ho hx, ?_⟩
  have e : cellSum b M (fun o x => (volume D (cellGrid G b) (cellOct b o x) : ℝ) * (V o x).rho) =
      cellSum b M (fun o x => (volume D (cellGrid G b) (cellOct b o x) : ℝ) * U' o x) := by
    refine cellSum_congr fun o ho x hx => ?_
    have := h1 o ho x hx
    rw [hV o x ho hx, Option.map_some] at this
    rw [Option.some.inj this]
  rw [e, h2]
  unfold outflow cellSum
  simp

/-- The hypotheses of `C97_run` and `C97_mass_partial` hold on a mesh with one level, for a gas that is not uniform. -/
example : (exSetup true).inStep = true ∧ (exSetup true).P.Ok ∧ quadGrid.Pos ∧ Tiling quadGrid Hancock.four.toFinset ∧
    Balanced quadGrid Hancock.four.toFinset ∧ Domain.Ok unitSquare ∧ (∀ o ∈ Hancock.four.toFinset, o.level = 1) ∧
    (∀ k, 4 ≤ (![4, 4] : Fin 2 → ℕ) k ∧ 2 ∣ (![4, 4] : Fin 2 → ℕ) k) ∧
    Hydrostatic (exSetup true).P.gamma (exSetup true).g unitSquare quadGrid Hancock.four.toFinset ![4, 4] (exGas true) ∧
    AboveFloors (exSetup true).P (exSetup true).g unitSquare quadGrid Hancock.four.toFinset ![4, 4] (exGas true) :=
  have hT : Tiling quadGrid Hancock.four.toFinset := 
    tiling_of_check ⟨⟨by decide⟩, by decide⟩ _ 1 (by decide +kernel)
  ⟨rfl, exSetup_ok _, quadGrid_pos, hT, balanced_of_check ⟨⟨by decide⟩, by decide⟩ _ 1 (by decide +kernel), unitSquare_ok, by decide, exB,
    linear_hydrostatic (exSetup_ok _) quadGrid_pos (by decide) hT (by decide), exGas_floors _ hT⟩

/-- Away from equilibrium mass does move between the cells: here in a uniform gas. -/
example : (wbFlux (exSetup true) 0 ⟨1, 10, 0, 0, 0⟩ ⟨1, 10, 0, 0, 0⟩ (1 / 8)).1.rho ≠ 0 := by
  unfold wbFlux
  refine mass_moves (exSetup_ok true) 0 _ _ rfl rfl ?_ ?_ ?_ <;> norm_num [exSetup, Admissible]

end Verif.Hydro.WellBalanced
