import Mathlib.Tactic.FinCases
import Mathlib.Tactic.NormNum
import Verif.Legacy.UpdateProps
import Verif.Octree.Check

/-!
# C84: the block-based update where the level changes

A concrete mesh on which momentum is not conserved: one octant refined, one not, both directions
periodic. The refined octant contains rows of velocity 10 and 14 (density 1, pressure 1), the other one
the mean state. Each octant computes the flux between them with its own states.
-/

namespace Verif.Legacy

open Verif.Octree Verif.Cells Verif.Legacy.Spec

noncomputable section

def jumpGrid : Grid 2 := ⟨1, ![2, 1], fun _ => true⟩

def jumpMesh : List (Oct 2) :=
  [⟨2, ![0, 0]⟩, ⟨2, ![1, 0]⟩, ⟨2, ![0, 1]⟩, ⟨2, ![1, 1]⟩, ⟨1, ![1, 0]⟩]

theorem jumpGrid_wf : jumpGrid.WF := ⟨⟨by decide⟩, by decide⟩

theorem jumpMesh_tiling : Tiling jumpGrid jumpMesh.toFinset :=
  tiling_of_check jumpGrid_wf jumpMesh 2 (by decide)

theorem jumpMesh_balanced : Balanced jumpGrid jumpMesh.toFinset :=
  balanced_of_check jumpGrid_wf jumpMesh 2 (by decide)

/-- Blocks of 4 × 4 cells with 2 ghost cells. -/
def jumpPar : Par 2 :=
  ⟨jumpGrid, fun _ => 4, 2, fun _ => .periodic, fun _ => .periodic, false⟩

/-- `γ = 2`, no gravity, the conservative update. -/
def jumpUPar (slopeType : ℤ) : UPar 2 :=
  ⟨⟨2, 1 / 1000, 1 / 1000, 1 / 1000⟩, .none, 0, slopeType, fun _ => 1, true⟩

/-- Density 1, x momentum `m`, energy `e`, at rest in y. -/
def flow (m e : ℝ) : Cell 2
  | .rho => 1
  | .etot => e
  | .mom k => if k = 0 then m else 0
  | .grav _ => 0

def rowFlow (odd : Bool) : Cell 2 := if odd then flow 14 99 else flow 10 51

def meanFlow : Cell 2 := flow 12 75

def jumpData : Mesh 2 := fun o x =>
  if o.level = 2 then rowFlow (decide (x 1 % 2 = 1)) else meanFlow

/-- The field seen by the blocks of the refined octants. -/
def jumpField (X : Fin 2 → ℤ) : Cell 2 :=
  if X 0 % 16 < 8 then rowFlow (decide (X 1 % 2 = 1)) else meanFlow

def hv (c : Cell 2) : State 2 := fun v => c v.var

theorem mem_jumpMesh {o : Oct 2} (ho : o ∈ jumpMesh.toFinset) :
    (o.level = 2 ∧ o.pos 0 < 2 ∧ o.pos 1 < 2) ∨ (o.level = 1 ∧ o.pos 0 = 1 ∧ o.pos 1 = 0) := by
  simp only [jumpMesh, List.mem_toFinset, List.mem_cons, List.not_mem_nil, or_false] at ho
  rcases ho with rfl | rfl | rfl | rfl | rfl <;> simp

/-- Values at the level of the refined octants. -/
theorem isMean_fine {W : Fin 2 → ℕ} {V : ℝ} {v : Var 2}
    (h : IsMean jumpPar.b jumpMesh.toFinset (fun o x => jumpData o x v) 2 W V) :
    V = jumpField (fun i => W i) v ∧ W 0 < 16 := by
  obtain ⟨c, hc, rfl⟩ := h
  have hb : ∀ i, jumpPar.b i = 4 := fun _ => rfl
  have key : ∀ s, jumpData (c s).1 (c s).2 v = jumpField (fun i => W i) v ∧ W 0 < 16 := by
    intro s
    obtain ⟨h1, h2, h3, h4⟩ := hc s
    have x0 := h2 0
    have x1 := h2 1
    have p0 := h4 0
    have p1 := h4 1
    have s0 := (s 0).isLt
    have s1 := (s 1).isLt
    simp only [cellOct, hb] at p0 p1 x0 x1
    unfold jumpData jumpField
    beta_reduce
    rcases mem_jumpMesh h1 with ⟨e1, e2, e3⟩ | ⟨e1, e2, e3⟩
    · rw [e1] at p0 p1
      rw [if_pos e1, if_pos (by omega)]
      exact ⟨congrArg (fun t => rowFlow t v) (decide_eq_decide.mpr (by omega)), by omega⟩
    · rw [e1] at p0 p1
      rw [if_neg (by omega), if_neg (by omega)]
      exact ⟨rfl, by omega⟩
  refine ⟨?_, (key fun _ => 0).2⟩
  rw [Finset.sum_congr rfl fun s _ => (key s).1]
  simp
  ring

theorem rowFlow_mean (v : Var 2) : rowFlow false v + rowFlow true v = 2 * meanFlow v := by
  cases v with
  | mom k =>
    by_cases hk : k = 0 <;> norm_num [rowFlow, meanFlow, flow, hk]
  | rho => norm_num [rowFlow, meanFlow, flow]
  | etot => norm_num [rowFlow, meanFlow, flow]
  | grav k => simp [rowFlow, meanFlow, flow]

/-- Values at the level of the octant that is not refined. -/
theorem isMean_coarse {W : Fin 2 → ℕ} {V : ℝ} {v : Var 2}
    (h : IsMean jumpPar.b jumpMesh.toFinset (fun o x => jumpData o x v) 1 W V) :
    V = meanFlow v := by
  obtain ⟨c, hc, rfl⟩ := h
  have hb : ∀ i, jumpPar.b i = 4 := fun _ => rfl
  have key : ∀ s, jumpData (c s).1 (c s).2 v =
      if W 0 < 4 then rowFlow (decide (s 1 = 1)) v else meanFlow v := by
    intro s
    obtain ⟨h1, h2, h3, h4⟩ := hc s
    have x0 := h2 0
    have x1 := h2 1
    have p0 := h4 0
    have p1 := h4 1
    have s0 := (s 0).isLt
    have s1 := (s 1).isLt
    simp only [cellOct, hb] at p0 p1 x0 x1
    unfold jumpData
    rcases mem_jumpMesh h1 with ⟨e1, e2, e3⟩ | ⟨e1, e2, e3⟩
    · rw [e1] at p0 p1
      rw [if_pos e1, if_pos (by omega)]
      refine congrArg (fun t => rowFlow t v) (decide_eq_decide.mpr ?_)
      rw [Fin.ext_iff, Fin.val_one]
      omega
    · rw [e1] at p0 p1
      rw [if_neg (by omega), if_neg (by omega)]
  rw [Finset.sum_congr rfl fun s _ => key s]
  by_cases hW : W 0 < 4
  · simp only [hW, if_true]
    rw [← (finTwoArrowEquiv (Fin 2)).symm.sum_comp]
    simp only [finTwoArrowEquiv_symm_apply, Matrix.cons_val_one, Fintype.sum_prod_type,
      Fin.sum_univ_two, Matrix.cons_val_fin_one]
    have := rowFlow_mean v
    norm_num
    linarith
  · simp [hW]
    ring

/-! ### What the blocks contain -/

theorem jump_block {o : Oct 2} (ho : o ∈ jumpMesh.toFinset) (B : Block 2) :
    ∃ B', fillGhosts jumpPar jumpMesh.toFinset jumpData o B = some B' ∧
      (o.level = 2 → Holds jumpPar B' (fun X => hv (jumpField X)) fun i => (o.pos i * 4 : ℕ)) ∧
      (o.level = 1 → Holds jumpPar B' (fun _ => hv meanFlow) fun _ => 0) := by
  obtain ⟨B', h1, h2, -⟩ := C83_ghost_values_partial (P := jumpPar) jumpGrid_wf.toPos
    jumpMesh_tiling jumpMesh_balanced ho (by decide) (by decide) (by decide)
    (fun _ _ _ _ => by decide) (by unfold PeriodicOk; decide) (by decide) jumpData B
  have hs : ∀ (l : ℕ) (p : Fin 2 → ℤ) (v : HV 2), varSign (fun i => imageSign (wall (jumpPar.bcMin i))
      (wall (jumpPar.bcMax i)) ((cellGrid jumpPar.G jumpPar.b).count i l)
        (lattice jumpPar.b o p i)) v.var = 1 := by
    intro l p v
    cases v <;> simp [varSign, HV.var, imageSign, jumpPar, wall]
  refine ⟨B', h1, fun hl => ?_, fun hl => ?_⟩
  · intro q hq
    obtain ⟨W, hW, hm⟩ := h2 q hq
    funext v
    have hv' : Copied jumpPar v.var := by cases v <;> trivial
    have hm' := hm v.var hv'
    rw [hs, one_mul, hl] at hm'
    obtain ⟨e, -⟩ := isMean_fine hm'
    unfold getCons
    rw [e]
    rw [hl] at hW
    have key : ∀ i, ∃ t : ℤ, (W i : ℤ) = (o.pos i * 4 : ℕ) + q i + t * 16 ∨
        (W i : ℤ) = (o.pos i * 4 : ℕ) + q i + t * 8 ∧ i = 1 := by
      intro i
      obtain ⟨-, t, -, ht⟩ := hW i
      simp only [image, wall, jumpPar, lattice] at ht
      refine ⟨-t, ?_⟩
      fin_cases i
      · left
        simp [cellGrid, Grid.count, jumpGrid] at ht ⊢
        omega
      · right
        simp [cellGrid, Grid.count, jumpGrid] at ht ⊢
        omega
    obtain ⟨t0, k0⟩ := key 0
    obtain ⟨t1, k1⟩ := key 1
    have k0' : (W 0 : ℤ) = (o.pos 0 * 4 : ℕ) + q 0 + t0 * 16 := by
      rcases k0 with h | ⟨-, h⟩
      · exact h
      · exact absurd h (by decide)
    have e0 : (W 0 : ℤ) % 16 = ((o.pos 0 * 4 : ℕ) + q 0) % 16 := by omega
    have e1 : (W 1 : ℤ) % 2 = ((o.pos 1 * 4 : ℕ) + q 1) % 2 := by
      rcases k1 with h | ⟨h, -⟩ <;> omega
    unfold hv jumpField
    rw [e0, e1]
  · intro q hq
    obtain ⟨W, hW, hm⟩ := h2 q hq
    funext v
    have hv' : Copied jumpPar v.var := by cases v <;> trivial
    have hm' := hm v.var hv'
    rw [hs, one_mul, hl] at hm'
    exact isMean_coarse hm'

/-! ### Fluxes -/

/-- Density 1, velocity `u` along x, pressure `p`. -/
def primFlow (u p : ℝ) : State 2
  | .rho => 1
  | .e => p
  | .mom k => if k = 0 then u else 0

theorem toPrim_flow (t : ℤ) {u p : ℝ} (hp : 1 ≤ p) :
    toPrim (jumpUPar t).rp (hv (flow u (p + u * u / 2))) = primFlow u p := by
  have e1 : max (1 : ℝ) (1 / 1000) = 1 := by norm_num
  funext v
  cases v with
  | rho =>
    simp [toPrim, hv, HV.var, flow, jumpUPar, primFlow]
    norm_num
  | e =>
    simp only [toPrim, hv, HV.var, flow, jumpUPar, primFlow, e1, Fin.sum_univ_two]
    rw [max_eq_left (by norm_num; linarith)]
    norm_num
    ring
  | mom k => simp only [toPrim, hv, HV.var, flow, jumpUPar, primFlow, e1, div_one]

def jumpU (X : Fin 2 → ℤ) : ℝ := if X 0 % 16 < 8 then (if X 1 % 2 = 1 then 14 else 10) else 12

def jumpP (X : Fin 2 → ℤ) : ℝ := if X 0 % 16 < 8 then 1 else 3

theorem toPrim_jumpField (t : ℤ) (X : Fin 2 → ℤ) :
    toPrim (jumpUPar t).rp (hv (jumpField X)) = primFlow (jumpU X) (jumpP X) := by
  unfold jumpField jumpU jumpP
  by_cases h0 : X 0 % 16 < 8
  · by_cases h1 : X 1 % 2 = 1
    · simp only [h0, h1, if_true, rowFlow, decide_true]
      rw [← toPrim_flow t le_rfl]
      norm_num
    · simp only [h0, h1, if_true, if_false, rowFlow, decide_false, Bool.false_eq_true]
      rw [← toPrim_flow t le_rfl]
      norm_num
  · simp only [h0, if_false, meanFlow]
    rw [← toPrim_flow t (by norm_num)]
    norm_num

theorem jump_slope (t : ℤ) (j : Fin 2) (X : Fin 2 → ℤ) :
    fieldSlope (jumpUPar t) (fun X => hv (jumpField X)) j X = 0 := by
  funext v
  unfold fieldSlope
  refine (C84_slopes _ _ _ _).2.2.1 ?_
  simp only [toPrim_jumpField]
  have key : (jumpU (X - Pi.single j 1) = jumpU X ∧ jumpP (X - Pi.single j 1) = jumpP X) ∨
      (jumpU (X + Pi.single j 1) = jumpU X ∧ jumpP (X + Pi.single j 1) = jumpP X) ∨
      (jumpU (X + Pi.single j 1) = jumpU (X - Pi.single j 1) ∧
        jumpP (X + Pi.single j 1) = jumpP (X - Pi.single j 1)) := by
    fin_cases j
    · by_cases h : (X 0 - 1) % 16 < 8 ↔ X 0 % 16 < 8
      · left
        simp [jumpU, jumpP, h]
      · right
        left
        have h' : (X 0 + 1) % 16 < 8 ↔ X 0 % 16 < 8 := by omega
        simp [jumpU, jumpP, h']
    · right
      right
      have h' : (X 1 + 1) % 2 = 1 ↔ (X 1 - 1) % 2 = 1 := by omega
      simp [jumpU, jumpP, h']
  rcases key with ⟨h1, h2⟩ | ⟨h1, h2⟩ | ⟨h1, h2⟩
  · rw [h1, h2, sub_self, zero_mul]
  · rw [h1, h2, sub_self, mul_zero]
  · rw [h1, h2]
    nlinarith [mul_self_nonneg (primFlow (jumpU X) (jumpP X) v -
      primFlow (jumpU (X - Pi.single j 1)) (jumpP (X - Pi.single j 1)) v)]

theorem jump_faceState (t : ℤ) (r : Fin 2 → ℝ) (k : Fin 2) (s : ℝ) (X : Fin 2 → ℤ) :
    faceState (jumpUPar t) r (fun X => hv (jumpField X)) k s X = primFlow (jumpU X) (jumpP X) := by
  unfold faceState
  simp only [jump_slope, toPrim_jumpField]
  funext v
  cases v with
  | rho =>
    simp [reconstruct, primFlow, jumpUPar]
    norm_num
  | _ => simp [reconstruct, primFlow]

theorem cfast_le (t : ℤ) {u v w p : ℝ} (hp : 1 ≤ p) (hp3 : p ≤ 3) :
    Hydro.cfast (jumpUPar t).rp ⟨1, p, u, v, w⟩ ≤ 3 := by
  unfold Hydro.cfast Hydro.sideP Hydro.sideR
  simp only [jumpUPar]
  rw [Real.sqrt_le_left (by norm_num), max_eq_left (by norm_num : (1 / 1000 : ℝ) ≤ 1),
    max_eq_left (by linarith : 1 * (1 / 1000 : ℝ) ≤ p)]
  refine max_le (by linarith) (by norm_num)

/-- Supersonic flow: the flux of x momentum is that of the left state. -/
theorem x_flux (t : ℤ) {u p u' p' : ℝ} (hu : 10 ≤ u) (hu' : 10 ≤ u') (hp : 1 ≤ p) (hp3 : p ≤ 3)
    (hp' : 1 ≤ p') (hp3' : p' ≤ 3) :
    riemannHydro (jumpUPar t).rp (primFlow u p) (primFlow u' p') (.mom 0) = u * u + p := by
  have hL : 0 < Hydro.waveL (jumpUPar t).rp ⟨1, p, u, 0, 0⟩ ⟨1, p', u', 0, 0⟩ := by
    unfold Hydro.waveL
    have h1 := cfast_le t (u := u) (v := 0) (w := 0) hp hp3
    have h2 := cfast_le t (u := u') (v := 0) (w := 0) hp' hp3'
    have h3 := max_le h1 h2
    have h4 : 10 ≤ min u u' := le_min hu hu'
    simp only
    linarith
  have e : ∀ u p, toHydro (primFlow u p) = ⟨1, p, u, 0, 0⟩ := fun u p => by
    simp [toHydro, primFlow]
  unfold riemannHydro
  rw [e, e]
  unfold Hydro.hllc Hydro.sample
  rw [if_pos hL]
  simp only [ofFlux, Hydro.godunov, Hydro.sideR, Hydro.sideP, jumpUPar,
    max_eq_left (by norm_num : (1 / 1000 : ℝ) ≤ 1),
    max_eq_left (by linarith : 1 * (1 / 1000 : ℝ) ≤ p)]
  simp

/-- No flux of x momentum between rows. -/
theorem y_flux (t : ℤ) (u u' p : ℝ) :
    swapDir 1 (riemannHydro (jumpUPar t).rp (swapDir 1 (primFlow u p)) (swapDir 1 (primFlow u' p)))
      (.mom 0) = 0 := by
  have e : ∀ u p, toHydro (swapDir 1 (primFlow u p)) = ⟨1, p, 0, u, 0⟩ := fun u p => by
    simp [toHydro, primFlow, swapDir]
  have hL : ¬ 0 < Hydro.waveL (jumpUPar t).rp ⟨1, p, 0, u, 0⟩ ⟨1, p, 0, u', 0⟩ := by
    unfold Hydro.waveL
    have h1 : 0 ≤ Hydro.cfast (jumpUPar t).rp ⟨1, p, 0, u, 0⟩ := Real.sqrt_nonneg _
    have h2 := le_max_left (Hydro.cfast (jumpUPar t).rp ⟨1, p, 0, u, 0⟩)
      (Hydro.cfast (jumpUPar t).rp ⟨1, p, 0, u', 0⟩)
    simp only [min_self]
    linarith
  have hs : Hydro.ustar (jumpUPar t).rp ⟨1, p, 0, u, 0⟩ ⟨1, p, 0, u', 0⟩ = 0 := by
    simp [Hydro.ustar, Hydro.sideP, Hydro.sideR]
  have hf : ∀ f : State 2, swapDir 1 f (.mom 0) = f (.mom 1) := fun f => by simp [swapDir]
  rw [hf]
  unfold riemannHydro
  rw [e, e]
  unfold Hydro.hllc Hydro.sample
  rw [if_neg hL, hs, if_neg (lt_irrefl _)]
  split <;> simp [ofFlux, Hydro.godunov]

theorem jump_flux (t : ℤ) (r : Fin 2 → ℝ) (X : Fin 2 → ℤ) :
    faceFlux (riemannHydro (jumpUPar t).rp) (jumpUPar t) r (fun X => hv (jumpField X)) 0 X (.mom 0) =
      jumpU (X - Pi.single 0 1) * jumpU (X - Pi.single 0 1) + jumpP (X - Pi.single 0 1) ∧
    faceFlux (riemannHydro (jumpUPar t).rp) (jumpUPar t) r (fun X => hv (jumpField X)) 1 X (.mom 0) =
      0 := by
  have hu : ∀ X, 10 ≤ jumpU X := fun X => by unfold jumpU; split_ifs <;> norm_num
  have hp : ∀ X, 1 ≤ jumpP X ∧ jumpP X ≤ 3 := fun X => by unfold jumpP; split_ifs <;> norm_num
  have hz : ∀ f : State 2, swapDir 0 f = f := fun f => by
    funext v
    cases v <;> simp [swapDir]
  constructor
  · unfold faceFlux
    rw [jump_faceState, jump_faceState, hz, hz, hz]
    exact x_flux t (hu _) (hu _) (hp _).1 (hp _).2 (hp _).1 (hp _).2
  · unfold faceFlux
    rw [jump_faceState, jump_faceState]
    have : jumpP (X - Pi.single 1 1) = jumpP X := by simp [jumpP]
    rw [this]
    exact y_flux t _ _ _

/-! ### One step -/

theorem jump_step {t : ℤ} {dt : ℝ} {o : Oct 2} (ho : o ∈ jumpMesh.toFinset) (B : Block 2)
    {x : Fin 2 → ℕ} (hx : ∀ i, x i < 4) :
    ∃ u, step (riemannHydro (jumpUPar t).rp) jumpPar (jumpUPar t) dt jumpMesh.toFinset jumpData B o x =
      some u ∧ u (.mom 0) = jumpData o x (.mom 0) +
        if o.level = 2 ∧ o.pos 0 = 0 ∧ x 0 = 0 then
          dtdx jumpPar (jumpUPar t) dt ⟨2, 0⟩ 0 * (if x 1 % 2 = 1 then -50 else 46) else 0 := by
  obtain ⟨B', h1, h2, h3⟩ := jump_block ho B
  unfold step
  rw [h1, Option.bind_some]
  unfold updateCell
  rw [if_neg (by simp [jumpUPar])]
  unfold correct
  refine ⟨allFaces (riemannHydro (jumpUPar t).rp) jumpPar (jumpUPar t) dt
    (dtdx jumpPar (jumpUPar t) dt o) B' fun i => x i, if_pos rfl, ?_⟩
  rcases mem_jumpMesh ho with ⟨e1, e2, e3⟩ | ⟨e1, e2, e3⟩
  · rw [allFaces_eq (UP := jumpUPar t) (h2 e1) (by decide) rfl (riemannHydro (jumpUPar t).rp) dt _
      (fun i => ⟨by omega, by exact_mod_cast hx i⟩) (.mom 0), Fin.sum_univ_two,
      (jump_flux t _ _).1, (jump_flux t _ _).1, (jump_flux t _ _).2, (jump_flux t _ _).2,
      dtdx_level (o' := ⟨2, 0⟩) e1]
    have hX : (fun i => ((o.pos i * 4 : ℕ) : ℤ) + (x i : ℤ) : Fin 2 → ℤ) =
        fun i => ((o.pos i * 4 + x i : ℕ) : ℤ) := by
      funext i
      push_cast
      rfl
    have y0 := hx 0
    have hd : jumpField (fun i => ((o.pos i * 4 + x i : ℕ) : ℤ)) = jumpData o x := by
      unfold jumpField jumpData
      beta_reduce
      rw [if_pos e1, if_pos (by omega)]
      exact congrArg rowFlow (decide_eq_decide.mpr (by omega))
    rw [hX, add_sub_cancel_right]
    simp only [hv, HV.var, hd]
    have u1 : jumpU (fun i => ((o.pos i * 4 + x i : ℕ) : ℤ)) = if x 1 % 2 = 1 then 14 else 10 := by
      unfold jumpU
      beta_reduce
      rw [if_pos (by omega)]
      exact if_congr (by omega) rfl rfl
    have p1 : jumpP (fun i => ((o.pos i * 4 + x i : ℕ) : ℤ)) = 1 := by
      unfold jumpP
      beta_reduce
      rw [if_pos (by omega)]
    rw [u1, p1]
    by_cases hc : o.pos 0 = 0 ∧ x 0 = 0
    · have hneg : ¬ ((o.pos 0 * 4 + x 0 : ℕ) - 1 : ℤ) % 16 < 8 := by
        rw [hc.1, hc.2]
        decide
      have u2 : jumpU ((fun i => ((o.pos i * 4 + x i : ℕ) : ℤ)) - Pi.single 0 1) = 12 := by
        unfold jumpU
        simp only [Pi.sub_apply, Pi.single_eq_same]
        rw [if_neg hneg]
      have p2 : jumpP ((fun i => ((o.pos i * 4 + x i : ℕ) : ℤ)) - Pi.single 0 1) = 3 := by
        unfold jumpP
        simp only [Pi.sub_apply, Pi.single_eq_same]
        rw [if_neg hneg]
      have hc' : o.level = 2 ∧ o.pos 0 = 0 ∧ x 0 = 0 := ⟨e1, hc⟩
      rw [u2, p2]
      simp only [if_pos hc']
      by_cases h1 : x 1 % 2 = 1
      · simp only [h1, if_true]
        ring
      · simp only [h1, if_false]
        ring
    · have hpos : ((o.pos 0 * 4 + x 0 : ℕ) - 1 : ℤ) % 16 < 8 := by omega
      have u2 : jumpU ((fun i => ((o.pos i * 4 + x i : ℕ) : ℤ)) - Pi.single 0 1) =
          if x 1 % 2 = 1 then 14 else 10 := by
        unfold jumpU
        simp only [Pi.sub_apply, Pi.single_eq_same]
        rw [if_pos hpos]
        simp only [Pi.single_eq_of_ne (show (1 : Fin 2) ≠ 0 by decide), sub_zero]
        exact if_congr (by omega) rfl rfl
      have p2 : jumpP ((fun i => ((o.pos i * 4 + x i : ℕ) : ℤ)) - Pi.single 0 1) = 1 := by
        unfold jumpP
        simp only [Pi.sub_apply, Pi.single_eq_same]
        rw [if_pos hpos]
      have hc' : ¬ (o.level = 2 ∧ o.pos 0 = 0 ∧ x 0 = 0) := fun h => hc h.2
      rw [u2, p2]
      simp only [if_neg hc']
      ring
  · rw [allFaces_eq (UP := jumpUPar t) (h3 e1) (by decide) rfl (riemannHydro (jumpUPar t).rp) dt _
      (fun i => ⟨by omega, by exact_mod_cast hx i⟩) (.mom 0), if_neg (by omega)]
    have hc : ∀ k (X Y : Fin 2 → ℤ) (r : Fin 2 → ℝ),
        faceFlux (riemannHydro (jumpUPar t).rp) (jumpUPar t) r (fun _ => hv meanFlow) k X =
          faceFlux (riemannHydro (jumpUPar t).rp) (jumpUPar t) r (fun _ => hv meanFlow) k Y :=
      fun _ _ _ _ => rfl
    have hd : jumpData o x = meanFlow := by
      unfold jumpData
      rw [if_neg (by omega)]
    rw [hd]
    simp only [hv, HV.var, add_zero, sub_eq_self]
    refine Finset.sum_eq_zero fun k _ => ?_
    rw [hc k _ (fun i => 0 + (x i : ℤ)), sub_self, mul_zero]

/-- Sums over the cells of a block. -/
theorem sum_block (g : (Fin 2 → ℕ) → ℝ) :
    ∑ x ∈ Fintype.piFinset (fun _ : Fin 2 => Finset.range 4), g x =
      ∑ i ∈ Finset.range 4, ∑ j ∈ Finset.range 4, g ![i, j] := by
  rw [← Finset.sum_product']
  refine Finset.sum_bij' (fun x _ => (x 0, x 1)) (fun y _ => ![y.1, y.2]) ?_ ?_ ?_ ?_ ?_
  · intro x hx
    rw [Fintype.mem_piFinset] at hx
    simp only [Finset.mem_product]
    exact ⟨hx 0, hx 1⟩
  · rintro ⟨i, j⟩ h
    rw [Finset.mem_product] at h
    rw [Fintype.mem_piFinset]
    intro k
    fin_cases k
    · exact h.1
    · exact h.2
  · intro x _
    funext k
    fin_cases k <;> rfl
  · rintro ⟨i, j⟩ _
    rfl
  · intro x _
    congr 1
    funext k
    fin_cases k <;> rfl

/-- Size of an octant relative to the domain: the cells of an octant all have the same volume. -/
def octVolume (G : Grid 2) (o : Oct 2) : ℝ := ∏ i, ((getSize G o i : ℚ) : ℝ)

/-- C84: where the level changes the update does not conserve. On a balanced mesh in a periodic
domain, without gravity, with the conservative update and the HLLC solver, momentum changes in every
step (`dt ≠ 0`), for any limiter. -/
theorem C84_not_conservative_over_level_jumps (t : ℤ) {dt : ℝ} (hdt : dt ≠ 0)
    (B : Oct 2 → Block 2) :
    ∃ U2 : Oct 2 → (Fin 2 → ℕ) → State 2,
      (∀ o ∈ jumpMesh.toFinset, ∀ x : Fin 2 → ℕ, (∀ i, x i < jumpPar.b i) →
        step (riemannHydro (jumpUPar t).rp) jumpPar (jumpUPar t) dt jumpMesh.toFinset jumpData (B o) o x
          = some (U2 o x)) ∧
      ∑ o ∈ jumpMesh.toFinset, octVolume jumpGrid o *
          ∑ x ∈ Fintype.piFinset (fun i => Finset.range (jumpPar.b i)), U2 o x (.mom 0) ≠
        ∑ o ∈ jumpMesh.toFinset, octVolume jumpGrid o *
          ∑ x ∈ Fintype.piFinset (fun i => Finset.range (jumpPar.b i)), jumpData o x (.mom 0) := by
  classical
  set r := dtdx jumpPar (jumpUPar t) dt ⟨2, 0⟩ 0 with hr
  have hr0 : r ≠ 0 := by
    rw [hr]
    simp [dtdx, getSize, cellCount, jumpPar, jumpUPar, jumpGrid, hdt]
  let δ : Oct 2 → (Fin 2 → ℕ) → ℝ := fun o x =>
    if o.level = 2 ∧ o.pos 0 = 0 ∧ x 0 = 0 then r * (if x 1 % 2 = 1 then -50 else 46) else 0
  have hstep : ∀ o x, ∃ u : State 2, o ∈ jumpMesh.toFinset → (∀ i, x i < jumpPar.b i) →
      step (riemannHydro (jumpUPar t).rp) jumpPar (jumpUPar t) dt jumpMesh.toFinset jumpData (B o) o x
        = some u ∧ u (.mom 0) = jumpData o x (.mom 0) + δ o x := by
    intro o x
    by_cases h : o ∈ jumpMesh.toFinset ∧ ∀ i, x i < jumpPar.b i
    · obtain ⟨u, h1, h2⟩ := jump_step (t := t) (dt := dt) h.1 (B o) h.2
      exact ⟨u, fun _ _ => ⟨h1, h2⟩⟩
    · exact ⟨0, fun a b => absurd ⟨a, b⟩ h⟩
  choose U2 hU2 using hstep
  refine ⟨U2, fun o ho x hx => (hU2 o x ho hx).1, ?_⟩
  have hsum : ∑ o ∈ jumpMesh.toFinset, octVolume jumpGrid o *
      ∑ x ∈ Fintype.piFinset (fun i => Finset.range (jumpPar.b i)), U2 o x (.mom 0) =
      ∑ o ∈ jumpMesh.toFinset, octVolume jumpGrid o *
        ∑ x ∈ Fintype.piFinset (fun i => Finset.range (jumpPar.b i)), jumpData o x (.mom 0) +
      ∑ o ∈ jumpMesh.toFinset, octVolume jumpGrid o *
        ∑ x ∈ Fintype.piFinset (fun i => Finset.range (jumpPar.b i)), δ o x := by
    rw [← Finset.sum_add_distrib]
    refine Finset.sum_congr rfl fun o ho => ?_
    rw [← mul_add, ← Finset.sum_add_distrib]
    refine congrArg _ (Finset.sum_congr rfl fun x hx => ?_)
    refine (hU2 o x ho fun i => ?_).2
    rw [Fintype.mem_piFinset] at hx
    exact Finset.mem_range.1 (hx i)
  rw [hsum, Ne, add_eq_left]
  have hs : ∀ o, ∑ x ∈ Fintype.piFinset (fun i => Finset.range (jumpPar.b i)), δ o x =
      if o.level = 2 ∧ o.pos 0 = 0 then -8 * r else 0 := by
    intro o
    refine (sum_block _).trans ?_
    by_cases h : o.level = 2 ∧ o.pos 0 = 0
    · simp [Finset.sum_range_succ, δ, h]
      ring
    · rw [if_neg h]
      refine Finset.sum_eq_zero fun i _ => Finset.sum_eq_zero fun j _ => if_neg ?_
      tauto
  simp only [hs]
  have hL : ∀ F : Oct 2 → ℝ, ∑ o ∈ jumpMesh.toFinset, F o =
      F ⟨2, ![0, 0]⟩ + (F ⟨2, ![1, 0]⟩ + (F ⟨2, ![0, 1]⟩ + (F ⟨2, ![1, 1]⟩ + F ⟨1, ![1, 0]⟩))) := by
    intro F
    rw [List.sum_toFinset _ (by decide)]
    simp [jumpMesh]
  rw [hL]
  simp [octVolume, getSize, cellCount, jumpGrid, Fin.prod_univ_two]
  norm_num
  exact hr0

/-- The hypotheses of the conservation theorem other than that on the levels hold. -/
example : jumpPar.G.Pos ∧ Tiling jumpPar.G jumpMesh.toFinset ∧
    Balanced jumpPar.G jumpMesh.toFinset ∧ (∀ i, 0 < jumpPar.b i) ∧ (∀ i, 2 ∣ jumpPar.b i) ∧
    (∀ i, 2 * jumpPar.w ≤ jumpPar.b i) ∧ 2 ≤ jumpPar.w ∧ PeriodicOk jumpPar ∧
    (∀ i, jumpPar.bcMin i = .periodic) ∧ (jumpUPar 2).gravity = .none ∧
    (jumpUPar 2).conservative = true ∧ (jumpUPar 2).rp.Ok :=
  ⟨jumpGrid_wf.toPos, jumpMesh_tiling, jumpMesh_balanced, by decide, by decide, by decide, by decide,
    by unfold PeriodicOk; decide, fun _ => rfl, rfl, rfl,
    ⟨by norm_num [jumpUPar], by norm_num [jumpUPar], by norm_num [jumpUPar]⟩⟩

end

end Verif.Legacy
