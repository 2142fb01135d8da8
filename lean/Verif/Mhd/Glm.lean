import Verif.Mhd.HlldMirror
import Mathlib.Analysis.SpecialFunctions.ExpDeriv
import Mathlib.Analysis.Calculus.MeanValue

/-!
# C72: divergence cleaning

Models of `riemann_hydro` for `PrimGLMMHDState` (`core/src/RiemannSolvers.h` L640-684), of the cleaning
speed in the constructor of `RiemannParams` (L49-78) and of the damping in `euler_update`
(`core/src/hydro/HydroUpdate_utils.h` L616-622), over the real numbers.
-/

namespace Verif.Mhd

/-! ### Model -/

/-- `RiemannSolverType` L15-20. The first value has no name in the configuration (L25-32). -/
inductive Solver
  | hll
  | hllc
  | fiveWaves
  | hlld

/-- `RiemannParams` L36-97, the members read here. `ch` is divided by the time step where it is used. -/
structure GlmParams where
  base : Params
  solver : Solver
  ch : ℝ
  cr : ℝ

section

variable (G : GlmParams) (dt : ℝ)

/-- `RiemannSolvers.h` L651. -/
noncomputable def glmCh : ℝ := G.ch / dt

/-- L652-653, `HydroUpdate_utils.h` L618-620. -/
noncomputable def glmDamp : ℝ :=
  let cp := √(G.cr * glmCh G dt)
  Real.exp (-(1 / 2) * dt * glmCh G dt * glmCh G dt / (cp * cp))

variable (l r : GPrim ℝ)

/-- `RiemannSolvers.h` L656-660. -/
noncomputable def glmBx : ℝ :=
  l.bx + 1 / 2 * (r.bx - l.bx) - 1 / 2 / glmCh G dt * (r.psi * glmDamp G dt - l.psi * glmDamp G dt)

/-- L669. -/
noncomputable def glmPsi : ℝ :=
  l.psi * glmDamp G dt + 1 / 2 * (r.psi * glmDamp G dt - l.psi * glmDamp G dt) -
    1 / 2 * glmCh G dt * (r.bx - l.bx)

/-- L646-666: the flux of the solver for magnetohydrodynamics. For the other solvers an `assert` fails;
without assertions (`NDEBUG`) the flux stays 0. -/
noncomputable def glmMhd (ndebug : Bool) : Option (Cons ℝ) :=
  match G.solver with
  | .fiveWaves => some (fiveWaves G.base (glmToMhd l) (glmToMhd r))
  | .hlld => some (hlld G.base (glmBx G dt l r) (glmToMhd l) (glmToMhd r))
  | _ => if ndebug then some ⟨0, 0, 0, 0, 0, 0, 0, 0⟩ else none

/-- L673-683. -/
noncomputable def glmAdd (f : Cons ℝ) : GCons ℝ :=
  ⟨f.rho, f.e, f.ru, f.rv, f.rw, f.bx + glmPsi G dt l r, f.by', f.bz,
    glmCh G dt * glmCh G dt * glmBx G dt l r⟩

/-- L640-684; `none` is the failed assertion. -/
noncomputable def glmFlux (ndebug : Bool) : Option (GCons ℝ) :=
  (glmMhd G dt l r ndebug).map (glmAdd G dt l r)

end

/-- `HydroUpdate_utils.h` L600-624, the variable `psi`: `df` is `(fluxL.psi - fluxR.psi) * dtddir`. -/
noncomputable def psiDir (G : GlmParams) (dt psi df : ℝ) : ℝ := (psi + df) * glmDamp G dt

/-- `HydroUpdate_euler.cpp` L215-218, `HydroUpdate_RK2.cpp` L233-236: one direction after the other. -/
noncomputable def psiStep (G : GlmParams) (dt : ℝ) (ndim : ℕ) (psi dfx dfy dfz : ℝ) : ℝ :=
  let p := psiDir G dt (psiDir G dt psi dfx) dfy
  if ndim = 3 then psiDir G dt p dfz else p

/-- `HydroUpdate_RK2.cpp` L162-165, without fluxes: two stages, then the mean with the old value. -/
noncomputable def psiRK2 (G : GlmParams) (dt : ℝ) (ndim : ℕ) (psi : ℝ) : ℝ :=
  1 / 2 * (psi + psiStep G dt ndim (psiStep G dt ndim psi 0 0 0) 0 0 0)

/-- `RiemannSolvers.h` L50-81: `ch` of the constructor. `L` is the size of the domain, `b` the block size. The product is of
type `uint32_t`. -/
noncomputable def glmMinDx (L : ℝ) (levelMax b : ℕ) : ℝ := L / ((2 ^ levelMax * b % 2 ^ 32 : ℕ) : ℝ)
noncomputable def glmChInit (ndim : ℕ) (L : Fin 3 → ℝ) (levelMax : ℕ) (b : Fin 3 → ℕ) (cfl : ℝ) : ℝ :=
  let h := min (glmMinDx (L 0) levelMax (b 0)) (glmMinDx (L 1) levelMax (b 1))
  1 / 2 * cfl * (if ndim = 3 then min h (glmMinDx (L 2) levelMax (b 2)) else h)

/-! ### Specification -/

/-- The system `∂t b + ∂x ψ = 0`, `∂t ψ + c² ∂x b = 0` of the normal field and the potential: the jump
condition at a wave of speed `S`. -/
def CleanJump (c S : ℝ) (x y : ℝ × ℝ) : Prop :=
  y.2 - x.2 = S * (y.1 - x.1) ∧ c ^ 2 * (y.1 - x.1) = S * (y.2 - x.2)

/-- The potential that decays with rate `c² / cp²`, as a function of time. -/
def Decays (c cp : ℝ) (f : ℝ → ℝ) : Prop := ∀ t, HasDerivAt f (-(c ^ 2 / cp ^ 2) * f t) t

def GPrim.mirror (d : Fin 3) (q : GPrim ℝ) : GPrim ℝ :=
  ⟨q.rho, q.p, if d = 0 then -q.u else q.u, if d = 1 then -q.v else q.v, if d = 2 then -q.w else q.w,
    if d = 0 then -q.bx else q.bx, if d = 1 then -q.by' else q.by', if d = 2 then -q.bz else q.bz, q.psi⟩

/-- Mirror image of a flux, see `Cons.mirrorFlux`; the potential is a scalar. -/
def GCons.mirrorFlux (d : Fin 3) (f : GCons ℝ) : GCons ℝ :=
  ⟨-f.rho, -f.e, if d = 0 then f.ru else -f.ru, if d = 1 then f.rv else -f.rv,
    if d = 2 then f.rw else -f.rw, if d = 0 then f.bx else -f.bx, if d = 1 then f.by' else -f.by',
    if d = 2 then f.bz else -f.bz, -f.psi⟩

/-! ### The Riemann problem of the cleaning system -/

section

variable {G : GlmParams} {dt : ℝ} (hc : 0 < G.ch) (hr : 0 < G.cr) (ht : 0 < dt)

include hc ht in
theorem glmCh_pos : 0 < glmCh G dt := div_pos hc ht

include hc hr ht in
/-- The factor of the damping does not depend on the time step. -/
theorem glmDamp_eq : glmDamp G dt = Real.exp (-(G.ch / G.cr) / 2) := by
  have h := glmCh_pos hc ht
  unfold glmDamp
  simp only
  rw [Real.mul_self_sqrt (mul_pos hr h).le]
  congr 1
  unfold glmCh at *
  field_simp

/-- **C72** Normal field and potential at the face solve the Riemann problem of the cleaning system with
waves of speeds `-ch` and `ch`, between the fields of the two sides and their damped potentials; nothing
else does. Their fluxes are those of the cleaning system; everything else is the flux of the solver for
magnetohydrodynamics. -/
theorem C72_fan (hc : 0 < G.ch) (ht : 0 < dt) (l r : GPrim ℝ) (ndebug : Bool) {f : GCons ℝ}
    (hf : glmFlux G dt l r ndebug = some f) :
    ∃ (b p : ℝ), (∀ x : ℝ × ℝ, (CleanJump (G.ch / dt) (-(G.ch / dt)) (l.bx, l.psi * glmDamp G dt) x ∧
        CleanJump (G.ch / dt) (G.ch / dt) x (r.bx, r.psi * glmDamp G dt)) ↔ x = (b, p)) ∧
      f.psi = (G.ch / dt) ^ 2 * b ∧
      ∃ g, (match G.solver with
        | .fiveWaves => g = fiveWaves G.base (glmToMhd l) (glmToMhd r)
        | .hlld => g = hlld G.base b (glmToMhd l) (glmToMhd r)
        | _ => ndebug = true) ∧
        f.bx = g.bx + p ∧ f.mhd = { g with bx := g.bx + p } := by
  have h := glmCh_pos hc ht
  refine ⟨glmBx G dt l r, glmPsi G dt l r, ?_, ?_, ?_⟩
  · show ∀ x : ℝ × ℝ, (CleanJump (glmCh G dt) (-(glmCh G dt)) _ x ∧ CleanJump (glmCh G dt) (glmCh G dt) x _) ↔ _
    unfold glmBx glmPsi
    generalize glmCh G dt = c at *
    generalize glmDamp G dt = d at *
    rintro ⟨b, p⟩
    simp only [CleanJump, Prod.mk.injEq]
    constructor
    · rintro ⟨⟨h1, -⟩, h3, -⟩
      constructor
      · field_simp
        linear_combination h1 + h3
      · linear_combination (h1 - h3) / 2
    · rintro ⟨rfl, rfl⟩
      refine ⟨⟨?_, ?_⟩, ?_, ?_⟩ <;> field_simp <;> ring
  · unfold glmFlux at hf
    obtain ⟨g, -, rfl⟩ := Option.map_eq_some_iff.1 hf
    show glmCh G dt * glmCh G dt * _ = (glmCh G dt) ^ 2 * _
    ring
  · unfold glmFlux at hf
    obtain ⟨g, hg, rfl⟩ := Option.map_eq_some_iff.1 hf
    refine ⟨g, ?_, rfl, rfl⟩
    unfold glmMhd at hg
    cases hs : G.solver <;> rw [hs] at hg <;> simp only at hg ⊢
    · split at hg
      · assumption
      · exact absurd hg (by simp)
    · split at hg
      · assumption
      · exact absurd hg (by simp)
    · exact (Option.some.inj hg).symm
    · exact (Option.some.inj hg).symm

/-- **C72** Between two equal states without potential the flux is that of magnetohydrodynamics, and the
flux of the potential is `ch²` times the normal field. -/
theorem C72_consistent (hg : 1 < G.base.gamma) (hse : 0 < G.base.smalle)
    (hs : G.solver = .fiveWaves ∨ G.solver = .hlld) {q : GPrim ℝ} (hq : Gas (glmToMhd q)) (hpsi : q.psi = 0)
    (ndebug : Bool) : ∃ f, glmFlux G dt q q ndebug = some f ∧ f.mhd = mhdFlux G.base.gamma 0 (glmToMhd q) ∧
      f.psi = (G.ch / dt) ^ 2 * q.bx := by
  have eb : glmBx G dt q q = q.bx := by unfold glmBx; ring
  have ep : glmPsi G dt q q = 0 := by unfold glmPsi; rw [hpsi]; ring
  have add : ∀ f : Cons ℝ, (glmAdd G dt q q f).mhd = f ∧ (glmAdd G dt q q f).psi = (G.ch / dt) ^ 2 * q.bx := by
    intro f
    unfold glmAdd GCons.mhd
    rw [ep, eb]
    constructor
    · simp
    · show glmCh G dt * glmCh G dt * q.bx = (glmCh G dt) ^ 2 * q.bx
      ring
  unfold glmFlux glmMhd
  rcases hs with hs | hs <;> rw [hs] <;> simp only [Option.map_some, Option.some.injEq]
  · refine ⟨_, rfl, ?_, (add _).2⟩
    rw [(add _).1]
    exact C70_consistent (by linarith) 0 hq
  · refine ⟨_, rfl, ?_, (add _).2⟩
    rw [(add _).1, eb]
    exact C71_consistent hg hse hq

/-- **C72** Without assertions, the default solver (`hllc`) gives no flux of mass, momentum, energy and
tangential field at all; with them the program ends. -/
theorem C72_default_fails (hs : G.solver = .hllc) (l r : GPrim ℝ) :
    glmFlux G dt l r false = none ∧
    ∃ f, glmFlux G dt l r true = some f ∧ f.rho = 0 ∧ f.e = 0 ∧ f.ru = 0 ∧ f.rv = 0 ∧ f.rw = 0 ∧
      f.by' = 0 ∧ f.bz = 0 := by
  unfold glmFlux glmMhd
  rw [hs]
  exact ⟨rfl, _, rfl, rfl, rfl, rfl, rfl, rfl, rfl, rfl⟩

end

/-! ### Mirror images -/

theorem glmToMhd_mirror (d : Fin 3) (q : GPrim ℝ) : glmToMhd (q.mirror d) = (glmToMhd q).mirror d := rfl

theorem glmBx_mirror (G : GlmParams) (dt : ℝ) (l r : GPrim ℝ) :
    glmBx G dt (r.mirror 0) (l.mirror 0) = -glmBx G dt l r := by
  unfold glmBx GPrim.mirror; simp only [if_true]; ring

theorem glmPsi_mirror (G : GlmParams) (dt : ℝ) (l r : GPrim ℝ) :
    glmPsi G dt (r.mirror 0) (l.mirror 0) = glmPsi G dt l r := by
  unfold glmPsi GPrim.mirror; simp only [if_true]; ring

theorem glmAdd_mirror (G : GlmParams) (dt : ℝ) (l r : GPrim ℝ) (f : Cons ℝ) :
    glmAdd G dt (r.mirror 0) (l.mirror 0) (f.mirrorFlux 0) = (glmAdd G dt l r f).mirrorFlux 0 := by
  unfold glmAdd
  rw [glmBx_mirror, glmPsi_mirror]
  simp [Cons.mirrorFlux, GCons.mirrorFlux]

/-- **C72** Mirror images of problems have mirror images of fluxes where this holds for the solver of
magnetohydrodynamics (`C70_mirror_partial`, `C71_mirror_partial`). -/
theorem C72_mirror_partial {G : GlmParams} {dt : ℝ} (hg : 1 < G.base.gamma) (hse : 0 < G.base.smalle)
    {l r : GPrim ℝ} (hl : Gas (glmToMhd l)) (hr : Gas (glmToMhd r)) (ndebug : Bool)
    (h : match G.solver with
      | .fiveWaves => l.bx = r.bx ∨ (fiveWaves G.base (glmToMhd l) (glmToMhd r)).rho ≠ 0
      | .hlld =>
        let bx := glmBx G dt l r
        let L := glmToMhd l
        let R := glmToMhd r
        hSL G.base bx L R ≤ hSLs G.base bx L R ∧ hSRs G.base bx L R ≤ hSR G.base bx L R ∧
          hSL G.base bx L R ≠ 0 ∧ hSR G.base bx L R ≠ 0
      | _ => True) :
    glmFlux G dt (r.mirror 0) (l.mirror 0) ndebug =
      (glmFlux G dt l r ndebug).map (GCons.mirrorFlux 0) := by
  have key : glmMhd G dt (r.mirror 0) (l.mirror 0) ndebug =
      (glmMhd G dt l r ndebug).map (Cons.mirrorFlux 0) := by
    unfold glmMhd
    cases hs : G.solver <;> rw [hs] at h <;> simp only at h ⊢
    · cases ndebug <;> simp [Cons.mirrorFlux]
    · cases ndebug <;> simp [Cons.mirrorFlux]
    · rw [glmToMhd_mirror, glmToMhd_mirror, Option.map_some, mirror_x G.base _ _ h]
    · rw [glmToMhd_mirror, glmToMhd_mirror, glmBx_mirror, Option.map_some,
        C71_mirror_partial hg hse hl hr (Or.inl h.2.2.1) (Or.inl h.2.2.2) h.1 h.2.1]
  unfold glmFlux
  rw [key, Option.map_map, Option.map_map]
  congr 1
  funext f
  exact glmAdd_mirror G dt l r f

/-! ### Damping -/

section

variable {G : GlmParams} {dt : ℝ} (hc : 0 < G.ch) (hr : 0 < G.cr) (ht : 0 < dt)

theorem decays_unique {c cp : ℝ} {f : ℝ → ℝ} (h : Decays c cp f) (t : ℝ) :
    f t = f 0 * Real.exp (-(c ^ 2 / cp ^ 2) * t) := by
  have hd : ∀ t, HasDerivAt (fun t => f t * Real.exp ((c ^ 2 / cp ^ 2) * t)) 0 t := by
    intro t
    have h1 : HasDerivAt (fun t => Real.exp ((c ^ 2 / cp ^ 2) * t))
        (Real.exp ((c ^ 2 / cp ^ 2) * t) * (c ^ 2 / cp ^ 2 * 1)) t :=
      ((hasDerivAt_id t).const_mul (c ^ 2 / cp ^ 2)).exp
    have h2 := (h t).mul h1
    rw [show -(c ^ 2 / cp ^ 2) * f t * Real.exp ((c ^ 2 / cp ^ 2) * t) +
      f t * (Real.exp ((c ^ 2 / cp ^ 2) * t) * (c ^ 2 / cp ^ 2 * 1)) = 0 by ring] at h2
    exact h2
  have hconst := is_const_of_deriv_eq_zero (fun t => (hd t).differentiableAt) (fun t => (hd t).deriv) t 0
  simp only [mul_zero, Real.exp_zero, mul_one] at hconst
  rw [← hconst, mul_assoc, ← Real.exp_add, neg_mul, add_neg_cancel, Real.exp_zero, mul_one]

/-- The cleaning system asks for the decay with rate `ch²/cp²`, where `cp² = cr ch`. -/
theorem decay_factor (hc : 0 < G.ch) (hr : 0 < G.cr) (ht : 0 < dt) {f : ℝ → ℝ}
    (h : Decays (G.ch / dt) (√(G.cr * (G.ch / dt))) f) : f dt = f 0 * glmDamp G dt ^ 2 := by
  rw [decays_unique h, glmDamp_eq hc hr ht, ← Real.exp_nat_mul, Real.sq_sqrt (by positivity)]
  congr 2
  field_simp
  norm_num

/-- **C72** In 2D, where nothing flows, a step of the update solves the equation of the decay. Missing for
the full claim: 3D, where it is false (`C72_decay_fails`). -/
theorem C72_decay_partial (hc : 0 < G.ch) (hr : 0 < G.cr) (ht : 0 < dt) {f : ℝ → ℝ}
    (h : Decays (G.ch / dt) (√(G.cr * (G.ch / dt))) f) : psiStep G dt 2 (f 0) 0 0 0 = f dt := by
  rw [decay_factor hc hr ht h]
  unfold psiStep psiDir
  rw [if_neg (by norm_num)]
  ring

/-- There is such a decay. -/
theorem decays_exp (c cp a : ℝ) : Decays c cp (fun t => a * Real.exp (-(c ^ 2 / cp ^ 2) * t)) := by
  intro t
  have h1 := (((hasDerivAt_id t).const_mul (-(c ^ 2 / cp ^ 2))).exp).const_mul a
  rw [show a * (Real.exp (-(c ^ 2 / cp ^ 2) * id t) * (-(c ^ 2 / cp ^ 2) * 1)) =
    -(c ^ 2 / cp ^ 2) * (a * Real.exp (-(c ^ 2 / cp ^ 2) * t)) by simp only [id]; ring] at h1
  exact h1

/-- **C72** In 3D the potential is damped three times: it decays by `3/2` of the rate. -/
theorem C72_decay_fails (hc : 0 < G.ch) (hr : 0 < G.cr) (ht : 0 < dt) :
    ∃ f : ℝ → ℝ, Decays (G.ch / dt) (√(G.cr * (G.ch / dt))) f ∧ psiStep G dt 3 (f 0) 0 0 0 < f dt := by
  refine ⟨_, decays_exp _ _ 1, ?_⟩
  rw [decay_factor hc hr ht (decays_exp _ _ 1)]
  have hd : glmDamp G dt < 1 := by
    rw [glmDamp_eq hc hr ht, Real.exp_lt_one_iff]
    have := div_pos hc hr
    linarith
  have h0 : 0 < glmDamp G dt := Real.exp_pos _
  unfold psiStep psiDir
  simp only [if_true, mul_zero, Real.exp_zero, mul_one, one_mul, add_zero]
  rw [show glmDamp G dt * glmDamp G dt * glmDamp G dt = glmDamp G dt ^ 2 * glmDamp G dt by ring]
  have := mul_lt_mul_of_pos_left hd (pow_pos h0 2)
  linarith

/-- **C72** With the Runge-Kutta update the potential decays too slowly in 2D, where a single stage is exact. It
keeps more than half of its value in any step, however strong the damping, in 2D and 3D. -/
theorem C72_decay_rk2_fails (hc : 0 < G.ch) (hr : 0 < G.cr) (ht : 0 < dt) :
    (∃ f : ℝ → ℝ, Decays (G.ch / dt) (√(G.cr * (G.ch / dt))) f ∧ f dt < psiRK2 G dt 2 (f 0)) ∧
      ∀ ndim psi, 0 < psi → psi / 2 < psiRK2 G dt ndim psi := by
  have hd : glmDamp G dt < 1 := by
    rw [glmDamp_eq hc hr ht, Real.exp_lt_one_iff]
    have := div_pos hc hr
    linarith
  have h0 : 0 < glmDamp G dt := Real.exp_pos _
  refine ⟨⟨_, decays_exp _ _ 1, ?_⟩, fun ndim psi hp => ?_⟩
  · rw [decay_factor hc hr ht (decays_exp _ _ 1)]
    unfold psiRK2 psiStep psiDir
    simp only [if_neg (show ¬ (2 = 3) by decide), mul_zero, Real.exp_zero, mul_one, one_mul, add_zero]
    have hlt : glmDamp G dt ^ 2 < 1 := by nlinarith
    have : 0 < (1 - glmDamp G dt ^ 2) ^ 2 := pow_pos (by linarith) 2
    nlinarith
  · unfold psiRK2 psiStep psiDir
    simp only [add_zero]
    split <;> (have : 0 < psi * (glmDamp G dt) ^ 4 := by positivity) <;>
      (have : 0 < psi * (glmDamp G dt) ^ 6 := by positivity) <;> nlinarith

/-- **C72** The directions are not treated alike: the flux along the first direction is damped more often
than that along the second. -/
theorem C72_direction_fails (hc : 0 < G.ch) (hr : 0 < G.cr) (ht : 0 < dt) (ndim : ℕ) :
    psiStep G dt ndim 0 1 0 0 < psiStep G dt ndim 0 0 1 0 := by
  have hd : glmDamp G dt < 1 := by
    rw [glmDamp_eq hc hr ht, Real.exp_lt_one_iff]
    have := div_pos hc hr
    linarith
  have h0 : 0 < glmDamp G dt := Real.exp_pos _
  unfold psiStep psiDir
  simp only [zero_mul, add_zero, zero_add, one_mul]
  have := mul_lt_mul_of_pos_left hd h0
  split
  · have := mul_lt_mul_of_pos_right this h0
    linarith
  · linarith

end

/-! ### Cleaning speed -/

/-- **C72** During a time step a cleaning wave crosses at most the fraction `cfl/2` of a cell, for every
cell of every mesh: a coarse grid of `n` octants at the minimum level, `n ≤ 2^levelMin` (checked by
`AMRmesh.cpp` L44-50), refined up to `levelMax`. The number of cells has to fit into 32 bits. -/
theorem C72_speed {ndim : ℕ} (hdim : ndim = 2 ∨ ndim = 3) {L : Fin 3 → ℝ} (hL : ∀ d, 0 < L d)
    {levelMin level levelMax : ℕ} (h1 : levelMin ≤ level) (h2 : level ≤ levelMax) {b n : Fin 3 → ℕ}
    (hb : ∀ d, 0 < b d) (hn : ∀ d, 0 < n d ∧ n d ≤ 2 ^ levelMin) (hfit : ∀ d, 2 ^ levelMax * b d < 2 ^ 32)
    {cfl dt : ℝ} (hcfl : 0 ≤ cfl) (ht : 0 < dt) {G : GlmParams}
    (hG : G.ch = glmChInit ndim L levelMax b cfl) (d : Fin 3) (hd : d.val < ndim) :
    glmCh G dt * dt ≤ cfl / 2 * (L d / (n d * 2 ^ (level - levelMin) * b d : ℕ)) := by
  have key : ∀ d, glmMinDx (L d) levelMax (b d) ≤ L d / (n d * 2 ^ (level - levelMin) * b d : ℕ) := by
    intro d
    unfold glmMinDx
    rw [Nat.mod_eq_of_lt (hfit d)]
    apply div_le_div_of_nonneg_left (hL d).le
    · have := Nat.mul_pos (Nat.mul_pos (hn d).1 (pow_pos (by norm_num : 0 < 2) (level - levelMin))) (hb d)
      exact_mod_cast this
    · have : n d * 2 ^ (level - levelMin) * b d ≤ 2 ^ levelMax * b d := by
        apply Nat.mul_le_mul_right
        calc n d * 2 ^ (level - levelMin) ≤ 2 ^ levelMin * 2 ^ (level - levelMin) :=
              Nat.mul_le_mul_right _ (hn d).2
          _ = 2 ^ level := by rw [← pow_add, Nat.add_sub_cancel' h1]
          _ ≤ 2 ^ levelMax := Nat.pow_le_pow_right (by norm_num) h2
      exact_mod_cast this
  unfold glmCh
  rw [div_mul_cancel₀ _ ht.ne', hG]
  unfold glmChInit
  simp only
  have hh : (if ndim = 3 then min (min (glmMinDx (L 0) levelMax (b 0)) (glmMinDx (L 1) levelMax (b 1)))
      (glmMinDx (L 2) levelMax (b 2)) else
      min (glmMinDx (L 0) levelMax (b 0)) (glmMinDx (L 1) levelMax (b 1))) ≤
      glmMinDx (L d) levelMax (b d) := by
    rcases hdim with rfl | rfl
    · rw [if_neg (by norm_num)]
      fin_cases d
      · exact min_le_left _ _
      · exact min_le_right _ _
      · simp at hd
    · rw [if_pos rfl]
      fin_cases d
      · exact (min_le_left _ _).trans (min_le_left _ _)
      · exact (min_le_left _ _).trans (min_le_right _ _)
      · exact min_le_right _ _
  have := mul_le_mul_of_nonneg_left (hh.trans (key d)) (show 0 ≤ 1 / 2 * cfl by linarith)
  linarith

/-! ### The hypotheses can be met -/

noncomputable def gEx : GlmParams := ⟨⟨5 / 3, 1 / 10 ^ 5, false⟩, .hlld, 1 / 100, 1 / 10⟩

example : 0 < gEx.ch ∧ 0 < gEx.cr ∧ 1 < gEx.base.gamma ∧ 0 < gEx.base.smalle ∧
    (∃ f, glmFlux gEx 1 ⟨1, 1, 0, 0, 0, 1, 0, 0, 2⟩ ⟨1, 2, 0, 0, 0, 3, 0, 0, 1⟩ false = some f) := by
  refine ⟨by norm_num [gEx], by norm_num [gEx], by norm_num [gEx], by norm_num [gEx], _, rfl⟩

/-- A mesh of 3 x 4 x 2 coarse octants. -/
example : ∃ (b n : Fin 3 → ℕ), (∀ d, 0 < b d) ∧ (∀ d, 0 < n d ∧ n d ≤ 2 ^ 2) ∧
    (∀ d, 2 ^ 6 * b d < 2 ^ 32) ∧ n 0 ≠ n 1 := by
  refine ⟨fun _ => 4, ![3, 4, 2], by simp, ?_, by simp, by simp⟩
  intro d
  fin_cases d <;> simp

end Verif.Mhd
