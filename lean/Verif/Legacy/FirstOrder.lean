import Verif.Legacy.UpdateProps

/-!
# C84: the block-based update as a Godunov scheme
-/

namespace Verif.Legacy

open Verif.Octree Verif.Cells Verif.Legacy.Spec

noncomputable section

variable {d : ℕ}

/-! ### Specification -/

/-- Conservative variables of an ideal gas with density `q .rho`, pressure `q .e`, velocity `q (.mom k)`. -/
def Spec.consOf (gamma : ℝ) (q : State d) : State d
  | .rho => q .rho
  | .e => q .e / (gamma - 1) + q .rho * (∑ k, q (.mom k) ^ 2) / 2
  | .mom k => q .rho * q (.mom k)

/-- Time derivatives of density, pressure and velocity given by the Euler equations, from the state
and its derivatives along all directions. -/
def Spec.eulerRate (gamma : ℝ) (q : State d) (dq : Fin d → State d) : State d
  | .rho => -∑ k, (q (.mom k) * dq k .rho + q .rho * dq k (.mom k))
  | .e => -∑ k, (q (.mom k) * dq k .e + gamma * q .e * dq k (.mom k))
  | .mom j => -(∑ k, q (.mom k) * dq k (.mom j)) - dq j .e / q .rho

/-- The state with the first component of velocity and component `k` exchanged. -/
def Spec.exchanged (k : Fin d) (q : State d) : State d
  | .mom j => q (.mom (if j = ⟨0, k.pos⟩ then k else if j = k then ⟨0, k.pos⟩ else j))
  | v => q v

/-- Flux along direction `k`, for a function `RS` that gives the flux along the first one. -/
def Spec.dirFlux (RS : State d → State d → State d) (k : Fin d) (l r : State d) : State d :=
  exchanged k (RS (exchanged k l) (exchanged k r))

/-! ### Proofs -/

theorem toPrim_consOf {R : Hydro.Params} (hR : R.Ok) {q : State d} (h1 : R.smallr ≤ q .rho)
    (h2 : q .rho * R.smallp ≤ q .e) : toPrim R (consOf R.gamma q) = q := by
  have hr : 0 < q .rho := lt_of_lt_of_le hR.smallr h1
  have hg : R.gamma - 1 ≠ 0 := by linarith [hR.gamma]
  have e1 : max (q .rho) R.smallr = q .rho := max_eq_left h1
  have e2 : ∀ k, q .rho * q (.mom k) / q .rho = q (.mom k) := fun k => by
    rw [mul_comm, mul_div_assoc, div_self hr.ne', mul_one]
  funext v
  cases v with
  | rho => exact e1
  | e =>
    simp only [toPrim, consOf, e1, e2]
    have e3 : (R.gamma - 1) * q .rho * ((q .e / (R.gamma - 1) +
        q .rho * (∑ k, q (.mom k) ^ 2) / 2) / q .rho - 1 / 2 * ∑ k, q (.mom k) * q (.mom k)) =
        q .e := by
      simp only [pow_two]
      generalize ∑ k, q (.mom k) * q (.mom k) = s
      field_simp
      ring
    rw [e3, max_eq_left h2]
  | mom k =>
    simp only [toPrim, consOf, e1, e2]

/-- C84: the state at a face is the value of the cell, moved half a cell along its slope and half a
time step along the Euler equations (`r k = dt / dx_k`; slopes are differences over one cell). -/
theorem C84_half_step {R : Hydro.Params} {q : State d} (dt : ℝ) {dx : Fin d → ℝ} (dq : Fin d → State d)
    (k : Fin d) (s : ℝ) (hρ : R.smallr ≤ q .rho + s / 2 * dq k .rho +
      dt / 2 * eulerRate R.gamma q (fun j v => dq j v / dx j) .rho) (v : HV d) :
    reconstruct R (fun j => dt / dx j) q dq (Pi.single k s) v =
      q v + s / 2 * dq k v + dt / 2 * eulerRate R.gamma q (fun j v => dq j v / dx j) v := by
  have hs : ∀ v, ∑ j, (Pi.single k s : Fin d → ℝ) j * (dq j v * (1 / 2)) = s / 2 * dq k v := by
    intro v
    rw [sum_single_mul k s fun j => dq j v * (1 / 2)]
    ring
  have h1 : ∑ j, (-q (.mom j) * (dq j .rho * (1 / 2)) - dq j (.mom j) * (1 / 2) * q .rho) *
      (dt / dx j) = dt / 2 * eulerRate R.gamma q (fun j v => dq j v / dx j) .rho := by
    simp only [eulerRate]
    rw [mul_neg, ← neg_mul, Finset.mul_sum]
    refine Finset.sum_congr rfl fun j _ => ?_
    ring
  cases v with
  | rho =>
    simp only [reconstruct, hs, h1]
    rw [max_eq_right]
    · ring
    · linarith
  | e =>
    simp only [reconstruct, hs, eulerRate]
    have : ∑ j, (-q (.mom j) * (dq j .e * (1 / 2)) - dq j (.mom j) * (1 / 2) * R.gamma * q .e) *
        (dt / dx j) = dt / 2 * -∑ j, (q (.mom j) * (dq j .e / dx j) +
          R.gamma * q .e * (dq j (.mom j) / dx j)) := by
      rw [mul_neg, ← neg_mul, Finset.mul_sum]
      refine Finset.sum_congr rfl fun j _ => ?_
      ring
    rw [this]
    ring
  | mom i =>
    simp only [reconstruct, hs, eulerRate]
    have : ∑ j, (-q (.mom j) * (dq j (.mom i) * (1 / 2)) -
        if i = j then dq j .e * (1 / 2) / q .rho else 0) * (dt / dx j) =
        dt / 2 * (-(∑ j, q (.mom j) * (dq j (.mom i) / dx j)) - dq i .e / dx i / q .rho) := by
      simp only [sub_mul, ite_mul, zero_mul]
      rw [Finset.sum_sub_distrib, Finset.sum_ite_eq, if_pos (Finset.mem_univ _), mul_sub, mul_neg,
        ← neg_mul, Finset.mul_sum]
      congr 1
      · refine Finset.sum_congr rfl fun j _ => ?_
        ring
      · ring
    rw [this]
    ring

/-- The hypothesis can be met with slopes and a time step that are not zero: density 1 with slope 1,
velocity 1/2. -/
example : (1 / 1000 : ℝ) ≤ (fun v => if v = .rho then 1 else 1 / 2 : State 1) .rho +
    1 / 2 * (if (HV.rho : HV 1) = .rho then 1 else 0) +
    1 / 2 * eulerRate 2 (fun v => if v = .rho then 1 else 1 / 2 : State 1)
      (fun _ v => (if v = .rho then 1 else 0) / 1) .rho := by
  simp [eulerRate]
  norm_num

theorem swapDir_eq (k : Fin d) (q : State d) : swapDir k q = exchanged k q := by
  funext v
  cases v with
  | mom j => simp only [swapDir, exchanged, Equiv.swap_apply_def]
  | _ => rfl

/-- C84: without slopes (slope type neither 1 nor 2) the update of a cell that does not touch the
surface of its block is Godunov's: with states `W` of cells, which the conservative variables
describe, the cell gets the fluxes between its neighbours and itself, times time step over cell
size. -/
theorem C84_godunov {P : Par d} {UP : UPar d} {M : Finset (Oct d)} {o : Oct d} (hG : P.G.Pos)
    (hM : Tiling P.G M) (hB : Balanced P.G M) (ho : o ∈ M)
    (hb : ∀ i, 0 < P.b i) (hev : ∀ i, 2 ∣ P.b i) (hw : ∀ i, P.w ≤ P.b i) (hw2 : 2 ≤ P.w)
    (hsm : ∀ n ∈ M, Touch P.G o n → o.level < n.level → ∀ i, 2 * P.w ≤ P.b i)
    (hper : PeriodicOk P) (hu : ∀ i, P.bcMin i ≠ .user ∧ P.bcMax i ≠ .user)
    (hg : UP.gravity = .none) (hc : UP.conservative = true) (hR : UP.rp.Ok)
    (ht : ¬ (UP.slopeType = 1 ∨ UP.slopeType = 2))
    (RS : State d → State d → State d) (dt : ℝ) (U : Mesh d) (B : Block d)
    (W : (Fin d → ℤ) → State d)
    (hW : ∀ y : Fin d → ℕ, (∀ i, y i < P.b i) →
      UP.rp.smallr ≤ W (fun i => y i) .rho ∧
      W (fun i => y i) .rho * UP.rp.smallp ≤ W (fun i => y i) .e ∧
      ∀ v : HV d, U o y v.var = consOf UP.rp.gamma (W fun i => y i) v)
    {x : Fin d → ℕ} (hx : ∀ i, 1 ≤ x i ∧ x i + 1 < P.b i) :
    step RS P UP dt M U B o x = some fun v => U o x v.var -
      ∑ k, dt / ((1 / P.G.count k o.level) * UP.L k / P.b k) *
        (dirFlux RS k (W fun i => x i) (W ((fun i => (x i : ℤ)) + Pi.single k 1)) v -
          dirFlux RS k (W ((fun i => (x i : ℤ)) - Pi.single k 1)) (W fun i => x i) v) := by
  obtain ⟨B', h1, -, h2⟩ := C83_ghost_values_partial hG hM hB ho hb hev hw hsm hper hu U B
  have hold : Holds P B' (getCons B') (fun _ => 0) := fun q _ => by simp
  have hin : ∀ p : Fin d → ℤ, (∀ i, 0 ≤ p i ∧ p i < P.b i) →
      toPrim UP.rp (getCons B' p) = W p := by
    intro p hp
    obtain ⟨w1, w2, w3⟩ := hW (fun i => (p i).toNat) fun i => by have := hp i; omega
    have e : (fun i => ((p i).toNat : ℤ)) = p := by
      funext i
      have := hp i
      omega
    rw [e] at w1 w2 w3
    have : getCons B' p = consOf UP.rp.gamma (W p) := by
      funext v
      unfold getCons
      rw [h2 p hp _ (fun k hk => by cases v <;> cases hk), w3]
    rw [this, toPrim_consOf hR w1 w2]
  have hslope : ∀ j X, fieldSlope UP (getCons B') j X = 0 := fun j X => by
    funext v
    unfold fieldSlope
    rw [slopeScalar_eq, if_neg ht]
    rfl
  have hface : ∀ (p : Fin d → ℤ), (∀ i, 0 ≤ p i ∧ p i < P.b i) → ∀ k s r,
      faceState UP r (getCons B') k s p = W p := by
    intro p hp k s r
    unfold faceState
    simp only [hslope]
    rw [hin p hp]
    have hr : UP.rp.smallr ≤ W p .rho := by
      obtain ⟨w1, -, -⟩ := hW (fun i => (p i).toNat) fun i => by have := hp i; omega
      have e : (fun i => ((p i).toNat : ℤ)) = p := by
        funext i
        have := hp i
        omega
      rwa [e] at w1
    funext v
    cases v with
    | rho => simp [reconstruct, hr]
    | _ => simp [reconstruct]
  unfold step
  rw [h1, Option.bind_some]
  unfold updateCell
  rw [if_neg (by simp [hc])]
  unfold correct
  simp only [hg, if_true]
  congr 1
  funext v
  have hx0 : ∀ i, 0 ≤ (x i : ℤ) ∧ (x i : ℤ) < P.b i := fun i => by
    have := hx i
    omega
  rw [allFaces_eq hold hw2 hg RS dt _ hx0 v]
  simp only [zero_add]
  have hp : ∀ k i, 0 ≤ ((fun i => (x i : ℤ)) + Pi.single k (1 : ℤ) : Fin d → ℤ) i ∧
      ((fun i => (x i : ℤ)) + Pi.single k (1 : ℤ) : Fin d → ℤ) i < P.b i := by
    intro k i
    have := hx i
    by_cases h : i = k
    · subst h
      simp only [Pi.add_apply, Pi.single_eq_same]
      omega
    · simp only [Pi.add_apply, Pi.single_eq_of_ne h]
      omega
  have hn : ∀ k i, 0 ≤ ((fun i => (x i : ℤ)) - Pi.single k (1 : ℤ) : Fin d → ℤ) i ∧
      ((fun i => (x i : ℤ)) - Pi.single k (1 : ℤ) : Fin d → ℤ) i < P.b i := by
    intro k i
    have := hx i
    by_cases h : i = k
    · subst h
      simp only [Pi.sub_apply, Pi.single_eq_same]
      omega
    · simp only [Pi.sub_apply, Pi.single_eq_of_ne h]
      omega
  congr 1
  · unfold getCons
    rw [h2 _ hx0 _ (fun k hk => by cases v <;> cases hk)]
    simp
  · refine Finset.sum_congr rfl fun k _ => ?_
    unfold faceFlux dirFlux
    simp only [swapDir_eq]
    rw [add_sub_cancel_right, hface _ hx0, hface _ (hp k), hface _ (hn k), hface _ hx0]
    congr 1
    unfold dtdx
    rw [if_pos hc]
    simp only [getSize, cellCount, Grid.count, Nat.shiftLeft_eq]
    push_cast
    rfl

/-- The hypotheses on cells can be met: a cell of a block of 4 × 4 cells with states that vary. -/
example : ∃ (W : (Fin 2 → ℤ) → State 2) (U : (Fin 2 → ℕ) → Cell 2),
    (∀ y : Fin 2 → ℕ, (∀ i, y i < twoPar.b i) → (1 / 1000 : ℝ) ≤ W (fun i => y i) .rho ∧
      W (fun i => y i) .rho * (1 / 1000) ≤ W (fun i => y i) .e ∧
      ∀ v : HV 2, U y v.var = consOf 2 (W fun i => y i) v) ∧
    W ![1, 1] .e ≠ W ![2, 1] .e ∧ (∀ i, 1 ≤ (fun _ => 1 : Fin 2 → ℕ) i ∧ 1 + 1 < twoPar.b i) := by
  refine ⟨fun X => fun
    | .rho => 1
    | .e => 1 + (X 0 : ℝ)
    | .mom _ => 0, fun y => fun
    | .rho => 1
    | .etot => 1 + (y 0 : ℝ)
    | .mom _ => 0
    | .grav _ => 0, fun y _ => ⟨by norm_num, ?_, fun v => ?_⟩, by norm_num, by decide⟩
  · have : (0 : ℝ) ≤ (y 0 : ℝ) := Nat.cast_nonneg _
    simp only [Int.cast_natCast]
    linarith
  · cases v <;> norm_num [consOf, HV.var]

end

end Verif.Legacy
