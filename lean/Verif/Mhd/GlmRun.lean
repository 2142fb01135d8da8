import Verif.Mhd.Glm
import Mathlib.Analysis.SpecificLimits.Basic

/-!
# The decay of the cleaning potential over many steps

Steps without fluxes, with a time step that may change from step to step, as it does in a run
(`DyabloTimeLoop.h` computes it anew in each iteration).
-/

namespace Verif.Mhd

/-- The potential of a cell after the first `n` steps of `HydroUpdate_euler.cpp` L215-218, where nothing flows; `dt i` is the
time step of step `i`. Simplified: the parameters, of which `ch` is set in the constructor (`RiemannSolvers.h` L50-81), are the
same in all steps. -/
noncomputable def psiRun (G : GlmParams) (ndim : ℕ) (dt : ℕ → ℝ) (psi : ℝ) : ℕ → ℝ
  | 0 => psi
  | n + 1 => psiStep G (dt n) ndim (psiRun G ndim dt psi n) 0 0 0

/-- The same for the two stages of `HydroUpdate_RK2.cpp` L162-165. -/
noncomputable def psiRunRK2 (G : GlmParams) (ndim : ℕ) (dt : ℕ → ℝ) (psi : ℝ) : ℕ → ℝ
  | 0 => psi
  | n + 1 => psiRK2 G (dt n) ndim (psiRunRK2 G ndim dt psi n)

/-- The potential `p n` at the start of step `n`, if it decays during each step as the cleaning system asks for,
with the cleaning speed `ch / dt` of that step. -/
def DecaysInSteps (G : GlmParams) (dt p : ℕ → ℝ) : Prop :=
  ∀ n, ∃ f : ℝ → ℝ, Decays (G.ch / dt n) (√(G.cr * (G.ch / dt n))) f ∧ f 0 = p n ∧ f (dt n) = p (n + 1)

variable {G : GlmParams} {dt : ℕ → ℝ}

/-- **C72** In 2D the potential follows the equation of the decay through any number of steps, with any time steps.
Missing for the full claim: 3D and the Runge-Kutta update, where it is false (`C72_decay_fails`,
`C72_decay_rk2_fails`). -/
theorem C72_decay_run_partial (hc : 0 < G.ch) (hr : 0 < G.cr) (ht : ∀ n, 0 < dt n) {p : ℕ → ℝ}
    (h : DecaysInSteps G dt p) (n : ℕ) : psiRun G 2 dt (p 0) n = p n := by
  induction n with
  | zero => rfl
  | succ n ih =>
    obtain ⟨f, hf, h0, h1⟩ := h n
    rw [psiRun, ih, ← h0, ← h1]
    exact C72_decay_partial hc hr (ht n) hf

/-- **C72** What a step makes of the potential and of the fluxes: each flux is damped in its own direction and in those
that follow, the potential in all of them. -/
theorem C72_step_exact {dt : ℝ} (hc : 0 < G.ch) (hr : 0 < G.cr) (ht : 0 < dt) (psi dfx dfy dfz : ℝ) :
    psiStep G dt 2 psi dfx dfy dfz = (psi + dfx) * Real.exp (-(G.ch / G.cr)) + dfy * Real.exp (-(G.ch / G.cr) / 2) ∧
      psiStep G dt 3 psi dfx dfy dfz = (psi + dfx) * Real.exp (-(G.ch / G.cr) * (3 / 2)) +
        dfy * Real.exp (-(G.ch / G.cr)) + dfz * Real.exp (-(G.ch / G.cr) / 2) := by
  have e2 : Real.exp (-(G.ch / G.cr)) = Real.exp (-(G.ch / G.cr) / 2) ^ 2 := by
    rw [← Real.exp_nat_mul]
    congr 1
    push_cast
    ring
  have e3 : Real.exp (-(G.ch / G.cr) * (3 / 2)) = Real.exp (-(G.ch / G.cr) / 2) ^ 3 := by
    rw [← Real.exp_nat_mul]
    congr 1
    push_cast
    ring
  unfold psiStep psiDir
  rw [glmDamp_eq hc hr ht, e2, e3]
  constructor
  · rw [if_neg (by norm_num)]
    ring
  · rw [if_pos rfl]
    ring

/-- **C72** What is left of the potential after `n` steps depends on the number of steps and not on the time that
passed, in 2D and 3D: each step takes the same factor. -/
theorem C72_decay_steps (hc : 0 < G.ch) (hr : 0 < G.cr) (ht : ∀ n, 0 < dt n) {ndim : ℕ} (hd : ndim = 2 ∨ ndim = 3)
    (psi : ℝ) (n : ℕ) :
    psiRun G ndim dt psi n = psi * Real.exp (-(G.ch / G.cr) * (ndim / 2)) ^ n := by
  induction n with
  | zero => simp [psiRun]
  | succ n ih =>
    rw [psiRun, ih, pow_succ, ← mul_assoc]
    generalize psi * Real.exp (-(G.ch / G.cr) * (ndim / 2)) ^ n = x
    unfold psiStep psiDir
    rw [glmDamp_eq hc hr (ht n)]
    rcases hd with rfl | rfl
    · rw [if_neg (by norm_num), add_zero, add_zero, mul_assoc, ← Real.exp_add]
      congr 2
      push_cast
      ring
    · rw [if_pos rfl, add_zero, add_zero, add_zero, mul_assoc, mul_assoc, ← Real.exp_add, ← Real.exp_add]
      congr 2
      push_cast
      ring

/-- **C72** The same for the Runge-Kutta update. -/
theorem C72_decay_steps_rk2 (hc : 0 < G.ch) (hr : 0 < G.cr) (ht : ∀ n, 0 < dt n) {ndim : ℕ}
    (hd : ndim = 2 ∨ ndim = 3) (psi : ℝ) (n : ℕ) :
    psiRunRK2 G ndim dt psi n = psi * ((1 + Real.exp (-(G.ch / G.cr) * ndim)) / 2) ^ n := by
  induction n with
  | zero => simp [psiRunRK2]
  | succ n ih =>
    have h2 := C72_decay_steps hc hr (dt := fun _ => dt n) (fun _ => ht n) hd (psiRunRK2 G ndim dt psi n) 2
    rw [psiRunRK2, psiRK2]
    have e : psiStep G (dt n) ndim (psiStep G (dt n) ndim (psiRunRK2 G ndim dt psi n) 0 0 0) 0 0 0 =
        psiRun G ndim (fun _ => dt n) (psiRunRK2 G ndim dt psi n) 2 := rfl
    rw [e, h2, ih, ← Real.exp_nat_mul,
      show ((2 : ℕ) : ℝ) * (-(G.ch / G.cr) * (ndim / 2)) = -(G.ch / G.cr) * ndim by push_cast; ring, pow_succ]
    ring

private theorem rk2_factor (hc : 0 < G.ch) (hr : 0 < G.cr) {ndim : ℕ} (hd : ndim = 2 ∨ ndim = 3) :
    0 < (1 + Real.exp (-(G.ch / G.cr) * ndim)) / 2 ∧ (1 + Real.exp (-(G.ch / G.cr) * ndim)) / 2 < 1 := by
  have h0 := Real.exp_pos (-(G.ch / G.cr) * ndim)
  have hn : (0 : ℝ) < ndim := by rcases hd with rfl | rfl <;> norm_num
  have h1 : Real.exp (-(G.ch / G.cr) * ndim) < 1 := by
    rw [Real.exp_lt_one_iff]
    have := mul_pos (div_pos hc hr) hn
    linarith
  constructor <;> linarith

/-- **C72** With both updates, in 2D and 3D, and with any time steps the potential vanishes in the long run where nothing
flows. -/
theorem C72_vanishes (hc : 0 < G.ch) (hr : 0 < G.cr) (ht : ∀ n, 0 < dt n) {ndim : ℕ} (hd : ndim = 2 ∨ ndim = 3)
    (psi : ℝ) :
    Filter.Tendsto (psiRun G ndim dt psi) Filter.atTop (nhds 0) ∧
      Filter.Tendsto (psiRunRK2 G ndim dt psi) Filter.atTop (nhds 0) := by
  have hn : (0 : ℝ) < ndim := by rcases hd with rfl | rfl <;> norm_num
  constructor
  · rw [show psiRun G ndim dt psi = fun n => psi * Real.exp (-(G.ch / G.cr) * (ndim / 2)) ^ n from
      funext (C72_decay_steps hc hr ht hd psi), show (0 : ℝ) = psi * 0 by ring]
    refine (tendsto_pow_atTop_nhds_zero_of_lt_one (Real.exp_pos _).le ?_).const_mul psi
    rw [Real.exp_lt_one_iff]
    have := mul_pos (div_pos hc hr) hn
    linarith
  · rw [show psiRunRK2 G ndim dt psi = fun n => psi * ((1 + Real.exp (-(G.ch / G.cr) * ndim)) / 2) ^ n from
      funext (C72_decay_steps_rk2 hc hr ht hd psi), show (0 : ℝ) = psi * 0 by ring]
    have h := rk2_factor hc hr hd
    exact (tendsto_pow_atTop_nhds_zero_of_lt_one h.1.le h.2).const_mul psi

/-! ### The hypotheses can be met -/

/-- Time steps that change, and a potential that decays in them. -/
example : (∀ n : ℕ, (0 : ℝ) < 1 / (n + 1)) ∧ 0 < gEx.ch ∧ 0 < gEx.cr ∧
    ∃ p, DecaysInSteps gEx (fun n => 1 / (n + 1)) p ∧ p 0 = 2 := by
  have hc : 0 < gEx.ch := by norm_num [gEx]
  have hr : 0 < gEx.cr := by norm_num [gEx]
  have ht : ∀ n : ℕ, (0 : ℝ) < 1 / (n + 1) := fun n => by positivity
  refine ⟨ht, hc, hr, psiRun gEx 2 (fun n => 1 / (n + 1)) 2, fun n => ?_, rfl⟩
  refine ⟨_, decays_exp _ _ (psiRun gEx 2 (fun n => 1 / (n + 1)) 2 n), by simp, ?_⟩
  rw [psiRun, ← C72_decay_partial hc hr (ht n) (decays_exp _ _ _)]
  simp

end Verif.Mhd
