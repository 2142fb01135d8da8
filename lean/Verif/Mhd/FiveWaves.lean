import Verif.Mhd.State
import Mathlib.Analysis.Real.Sqrt
import Mathlib.Tactic.LinearCombination
import Mathlib.Tactic.Positivity

/-!
# C70: the five waves Riemann solver of magnetohydrodynamics

Model of `riemann_five_waves` (`core/src/RiemannSolvers.h` L207-302) over the real numbers, and of the
overloads `riemann_hydro` for `PrimMHDState` L599-628, which only call it. `fmax` is the maximum (no NaN).
-/

namespace Verif.Mhd

/-! ### Model -/

/-- `RiemannParams` L36-97, the members read by the solvers of magnetohydrodynamics. -/
structure Params where
  gamma : ℝ
  smalle : ℝ
  threeWaves : Bool

/-- L215. -/
noncomputable def epsilon : ℝ := 1 / 10 ^ 16

/-- L218, L228. -/
noncomputable def emag (q : Prim ℝ) : ℝ := 1 / 2 * (q.bx * q.bx + q.by' * q.by' + q.bz * q.bz)

/-- L219-220, L229-230. -/
noncomputable def b2 (q : Prim ℝ) : ℝ := q.bx * q.bx
noncomputable def b2t (q : Prim ℝ) : ℝ := 2 * emag q - b2 q

/-- L222, L232. -/
noncomputable def cs (P : Params) (q : Prim ℝ) : ℝ := √(P.gamma * q.p / q.rho)

/-- L223-224, L233-234. -/
noncomputable def cA5 (q : Prim ℝ) : ℝ := √(q.rho * (3 / 2 * b2 q + 1 / 2 * b2t q)) + epsilon
noncomputable def cB5 (P : Params) (q : Prim ℝ) : ℝ :=
  √(q.rho * (q.rho * cs P q * cs P q + 3 / 2 * b2t q + 1 / 2 * b2 q))

/-- L236-241: the normal components of the stress. -/
noncomputable def stress (q : Prim ℝ) : Fin 3 → ℝ
  | 0 => -q.bx * q.bx + emag q + q.p
  | 1 => -q.bx * q.by'
  | 2 => -q.bx * q.bz

/-- L243-249: `B2` and `cs` are arguments. -/
noncomputable def fast5 (q : Prim ℝ) (B2 cs : ℝ) : ℝ :=
  let c02 := cs * cs
  let ca2 := B2 / q.rho
  let cap2 := q.bx * q.bx / q.rho
  √(1 / 2 * (c02 + ca2) + 1 / 2 * √((c02 + ca2) * (c02 + ca2) - 4 * c02 * cap2))

/-- L252-255. -/
def lost (P : Params) (l r : Prim ℝ) : Prop :=
  l.bx * r.bx < -epsilon ∨ l.by' * r.by' < -epsilon ∨ l.bz * r.bz < -epsilon ∨ P.threeWaves = true

/-- L257-259. -/
noncomputable def cThree (P : Params) (l r : Prim ℝ) : ℝ :=
  max (l.rho * fast5 l (emag l * 2) (cs P l)) (r.rho * fast5 r (emag r * 2) (cs P r))

open Classical in
/-- L261-270: the vectors `cL` and `cR`; `q` is the state of the side. -/
noncomputable def speeds (P : Params) (l r q : Prim ℝ) : Fin 3 → ℝ
  | 0 => if lost P l r then cThree P l r else cB5 P q
  | 1 => if lost P l r then cThree P l r else cA5 q
  | 2 => if lost P l r then cThree P l r else cA5 q

/-- L273-274. -/
def velocity (q : Prim ℝ) : Fin 3 → ℝ
  | 0 => q.u
  | 1 => q.v
  | 2 => q.w

/-- L267-271, L276-277. -/
noncomputable def uStar (P : Params) (l r : Prim ℝ) (i : Fin 3) : ℝ :=
  1 / (speeds P l r l i + speeds P l r r i) *
    (speeds P l r l i * velocity l i + speeds P l r r i * velocity r i + stress l i - stress r i)
noncomputable def pStar (P : Params) (l r : Prim ℝ) (i : Fin 3) : ℝ :=
  1 / (speeds P l r l i + speeds P l r r i) *
    (speeds P l r r i * stress l i + speeds P l r l i * stress r i +
      speeds P l r l i * speeds P l r r i * (velocity l i - velocity r i))

/-- `riemann_five_waves` L207-302, without `p_out` (which is `pstar[IX]`). -/
noncomputable def fiveWaves (P : Params) (l r : Prim ℝ) : Cons ℝ :=
  let us := uStar P l r
  let ps := pStar P l r
  let qr := if 0 < us 0 then l else r
  let bnext := if 0 < us 0 then r.bx else l.bx
  let ur := primToCons 3 P.gamma qr
  ⟨us 0 * ur.rho, us 0 * ur.e + (ps 0 * us 0 + ps 1 * us 1 + ps 2 * us 2), us 0 * ur.ru + ps 0,
    us 0 * ur.rv + ps 1, us 0 * ur.rw + ps 2, us 0 * ur.bx - bnext * us 0, us 0 * ur.by' - bnext * us 1,
    us 0 * ur.bz - bnext * us 2⟩

/-- `HydroUpdate_utils.h` L158-166: flux along direction `dir`, for `MHDState` with the function
`riemann_hydro` L618-628. -/
noncomputable def fluxDir5 (P : Params) (dir : Fin 3) (l r : Prim ℝ) : Cons ℝ :=
  swapCons dir (fiveWaves P (swapPrim dir l) (swapPrim dir r))

/-! ### Specification -/

/-- Scalar product. -/
def dot (a b : Fin 3 → ℝ) : ℝ := a 0 * b 0 + a 1 * b 1 + a 2 * b 2

/-- Total energy of an ideal gas with a magnetic field. -/
noncomputable def energy (gamma : ℝ) (q : Prim ℝ) : ℝ :=
  q.p / (gamma - 1) + q.rho * dot q.vel q.vel / 2 + dot q.mag q.mag / 2

/-- A state from density, energy, momentum and field. -/
def Cons.of (rho e : ℝ) (m b : Fin 3 → ℝ) : Cons ℝ := ⟨rho, e, m 0, m 1, m 2, b 0, b 1, b 2⟩

/-- The flux of ideal magnetohydrodynamics along direction `d`. -/
noncomputable def mhdFlux (gamma : ℝ) (d : Fin 3) (q : Prim ℝ) : Cons ℝ :=
  let pt := q.p + dot q.mag q.mag / 2
  Cons.of (q.rho * q.vel d)
    ((energy gamma q + pt) * q.vel d - q.mag d * dot q.vel q.mag)
    (fun i => q.rho * q.vel i * q.vel d + (if i = d then pt else 0) - q.mag d * q.mag i)
    (fun i => q.mag i * q.vel d - q.mag d * q.vel i)

/-- A gas: positive density and pressure. -/
def Gas (q : Prim ℝ) : Prop := 0 < q.rho ∧ 0 < q.p

/-- Mirror image at a wall normal to `d`: the normal components of velocity and field change sign. -/
def Prim.mirror (d : Fin 3) (q : Prim ℝ) : Prim ℝ :=
  ⟨q.rho, q.p, if d = 0 then -q.u else q.u, if d = 1 then -q.v else q.v, if d = 2 then -q.w else q.w,
    if d = 0 then -q.bx else q.bx, if d = 1 then -q.by' else q.by', if d = 2 then -q.bz else q.bz⟩

/-- The mirror image of a flux through a wall normal to `d`: everything changes sign, the normal
components of momentum and field twice. -/
def Cons.mirrorFlux (d : Fin 3) (f : Cons ℝ) : Cons ℝ :=
  ⟨-f.rho, -f.e, if d = 0 then f.ru else -f.ru, if d = 1 then f.rv else -f.rv,
    if d = 2 then f.rw else -f.rw, if d = 0 then f.bx else -f.bx, if d = 1 then f.by' else -f.by',
    if d = 2 then f.bz else -f.bz⟩

/-- The stability condition of the relaxation solver (Bouchut, Klingenberg, Waagan): `cb` and `ca` are
the speeds per area of the pressure waves and of the shear waves of the state `q`. -/
def Stable (gamma : ℝ) (q : Prim ℝ) (cb ca : ℝ) : Prop :=
  0 < cb ∧ 0 < ca ∧ q.rho * (gamma * q.p + q.by' ^ 2 + q.bz ^ 2) ≤ cb ^ 2 ∧ q.rho * q.bx ^ 2 ≤ ca ^ 2 ∧
    q.rho ^ 2 * q.bx ^ 2 * (q.by' ^ 2 + q.bz ^ 2) ≤
      (cb ^ 2 - q.rho * (gamma * q.p + q.by' ^ 2 + q.bz ^ 2)) * (ca ^ 2 - q.rho * q.bx ^ 2)

/-! ### The speeds -/

theorem epsilon_pos : 0 < epsilon := by unfold epsilon; positivity

theorem cs_sq {P : Params} (hg : 0 < P.gamma) {q : Prim ℝ} (hq : Gas q) :
    q.rho * (cs P q * cs P q) = P.gamma * q.p := by
  unfold cs
  rw [Real.mul_self_sqrt (div_nonneg (mul_pos hg hq.2).le hq.1.le)]
  have := hq.1.ne'
  field_simp

theorem b2t_eq (q : Prim ℝ) : b2t q = q.by' ^ 2 + q.bz ^ 2 := by
  unfold b2t emag b2
  ring

/-- The square of density times fast speed is the larger root of the dispersion relation. -/
theorem fast_sq {P : Params} (hg : 0 < P.gamma) {q : Prim ℝ} (hq : Gas q) :
    let X := (q.rho * fast5 q (emag q * 2) (cs P q)) ^ 2
    q.rho * (P.gamma * q.p + q.by' ^ 2 + q.bz ^ 2) ≤ X ∧ q.rho * q.bx ^ 2 ≤ X ∧
    (X - q.rho * (P.gamma * q.p + q.by' ^ 2 + q.bz ^ 2)) * (X - q.rho * q.bx ^ 2) =
      q.rho ^ 2 * q.bx ^ 2 * (q.by' ^ 2 + q.bz ^ 2) := by
  intro X
  have hr := hq.1
  have hcs := cs_sq hg hq
  have hgp : 0 < P.gamma * q.p := mul_pos hg hq.2
  -- the inner root, multiplied by the density
  obtain ⟨D, hD⟩ : ∃ D, D = (cs P q * cs P q + emag q * 2 / q.rho) * (cs P q * cs P q + emag q * 2 / q.rho)
    - 4 * (cs P q * cs P q) * (q.bx * q.bx / q.rho) := ⟨_, rfl⟩
  have hD' : q.rho ^ 2 * D = (P.gamma * q.p + q.by' ^ 2 + q.bz ^ 2 - q.bx ^ 2) ^ 2 +
      4 * q.bx ^ 2 * (q.by' ^ 2 + q.bz ^ 2) := by
    have e1 : q.rho ^ 2 * D = (q.rho * (cs P q * cs P q) + emag q * 2) ^ 2 -
        4 * (q.rho * (cs P q * cs P q)) * q.bx ^ 2 := by
      rw [hD]; field_simp
    rw [e1, hcs]
    unfold emag
    ring
  have hD0 : 0 ≤ D := by
    have : 0 ≤ q.rho ^ 2 * D := by rw [hD']; positivity
    exact nonneg_of_mul_nonneg_right this (by positivity)
  obtain ⟨s, hs⟩ : ∃ s, s = q.rho * √D := ⟨_, rfl⟩
  have hs0 : 0 ≤ s := by rw [hs]; positivity
  have hs2 : s ^ 2 = (P.gamma * q.p + q.by' ^ 2 + q.bz ^ 2 - q.bx ^ 2) ^ 2 +
      4 * q.bx ^ 2 * (q.by' ^ 2 + q.bz ^ 2) := by
    rw [hs, mul_pow, Real.sq_sqrt hD0, hD']
  have hX : X = q.rho * (1 / 2 * (P.gamma * q.p + (q.bx ^ 2 + q.by' ^ 2 + q.bz ^ 2) + s)) := by
    have h0 : 0 ≤ 1 / 2 * (cs P q * cs P q + emag q * 2 / q.rho) + 1 / 2 * √D := by
      have : 0 ≤ emag q := by unfold emag; nlinarith [mul_self_nonneg q.bx, mul_self_nonneg q.by', mul_self_nonneg q.bz]
      have := mul_self_nonneg (cs P q)
      positivity
    have e : X = q.rho ^ 2 * (1 / 2 * (cs P q * cs P q + emag q * 2 / q.rho) + 1 / 2 * √D) := by
      show (q.rho * fast5 q (emag q * 2) (cs P q)) ^ 2 = _
      unfold fast5
      simp only
      rw [← hD, mul_pow, Real.sq_sqrt h0]
    rw [e, hs, ← hcs]
    unfold emag
    field_simp
  have key1 : |P.gamma * q.p + q.by' ^ 2 + q.bz ^ 2 - q.bx ^ 2| ≤ s := by
    apply abs_le_of_sq_le_sq _ hs0
    rw [hs2]
    have : 0 ≤ 4 * q.bx ^ 2 * (q.by' ^ 2 + q.bz ^ 2) := by positivity
    linarith
  have k1 := le_trans (le_abs_self _) key1
  have k3 := neg_le_of_abs_le key1
  refine ⟨?_, ?_, ?_⟩
  · rw [hX]
    apply mul_le_mul_of_nonneg_left _ hr.le
    linarith
  · rw [hX]
    apply mul_le_mul_of_nonneg_left _ hr.le
    linarith
  · rw [hX]
    linear_combination q.rho ^ 2 / 4 * hs2

/-- A larger speed keeps the stability condition. -/
theorem stable_mono {gamma : ℝ} {q : Prim ℝ} {cb ca cb' ca' : ℝ} (h : Stable gamma q cb ca)
    (hb : cb ≤ cb') (ha : ca ≤ ca') : Stable gamma q cb' ca' := by
  obtain ⟨h1, h2, h3, h4, h5⟩ := h
  have e1 : cb ^ 2 ≤ cb' ^ 2 := pow_le_pow_left₀ h1.le hb 2
  have e2 : ca ^ 2 ≤ ca' ^ 2 := pow_le_pow_left₀ h2.le ha 2
  refine ⟨lt_of_lt_of_le h1 hb, lt_of_lt_of_le h2 ha, h3.trans e1, h4.trans e2, h5.trans ?_⟩
  exact mul_le_mul (by linarith) (by linarith) (by linarith) (by linarith)

theorem stable_fast {P : Params} (hg : 0 < P.gamma) {q : Prim ℝ} (hq : Gas q) :
    Stable P.gamma q (q.rho * fast5 q (emag q * 2) (cs P q)) (q.rho * fast5 q (emag q * 2) (cs P q)) := by
  obtain ⟨h1, h2, h3⟩ := fast_sq hg hq
  have h0 : 0 ≤ q.rho * fast5 q (emag q * 2) (cs P q) := mul_nonneg hq.1.le (Real.sqrt_nonneg _)
  have hpos : 0 < q.rho * fast5 q (emag q * 2) (cs P q) := by
    apply lt_of_le_of_ne h0
    intro h
    rw [← h] at h1
    have : 0 < q.rho * (P.gamma * q.p + q.by' ^ 2 + q.bz ^ 2) :=
      mul_pos hq.1 (by have := mul_pos hg hq.2; positivity)
    nlinarith
  exact ⟨hpos, hpos, h1, h2, h3.ge⟩

theorem stable_five {P : Params} (hg : 0 < P.gamma) {q : Prim ℝ} (hq : Gas q) :
    Stable P.gamma q (cB5 P q) (cA5 q) := by
  have hr := hq.1
  have hgp := mul_pos hg hq.2
  have hcs := cs_sq hg hq
  have h1 : 0 ≤ q.rho * (3 / 2 * b2 q + 1 / 2 * b2t q) := by
    rw [b2t_eq]; unfold b2
    have := mul_self_nonneg q.bx
    positivity
  have h2 : q.rho * (q.rho * cs P q * cs P q + 3 / 2 * b2t q + 1 / 2 * b2 q) =
      q.rho * (P.gamma * q.p + 3 / 2 * (q.by' ^ 2 + q.bz ^ 2) + 1 / 2 * q.bx ^ 2) := by
    rw [mul_assoc q.rho (cs P q), hcs, b2t_eq]; unfold b2
    ring
  have h2' : 0 < q.rho * (P.gamma * q.p + 3 / 2 * (q.by' ^ 2 + q.bz ^ 2) + 1 / 2 * q.bx ^ 2) := by
    positivity
  have hb : cB5 P q ^ 2 = q.rho * (P.gamma * q.p + 3 / 2 * (q.by' ^ 2 + q.bz ^ 2) + 1 / 2 * q.bx ^ 2) := by
    unfold cB5
    rw [h2, Real.sq_sqrt h2'.le]
  have ha : q.rho * (3 / 2 * q.bx ^ 2 + 1 / 2 * (q.by' ^ 2 + q.bz ^ 2)) ≤ cA5 q ^ 2 := by
    have e : (√(q.rho * (3 / 2 * b2 q + 1 / 2 * b2t q))) ^ 2 ≤ cA5 q ^ 2 :=
      pow_le_pow_left₀ (Real.sqrt_nonneg _) (by unfold cA5; linarith [epsilon_pos]) 2
    rw [Real.sq_sqrt h1, b2t_eq] at e
    unfold b2 at e
    linarith
  have s1 : 0 ≤ q.bx ^ 2 := sq_nonneg _
  have s2 : 0 ≤ q.by' ^ 2 + q.bz ^ 2 := by positivity
  refine ⟨?_, ?_, ?_, ?_, ?_⟩
  · unfold cB5; rw [h2]; exact Real.sqrt_pos.2 h2'
  · unfold cA5; have := Real.sqrt_nonneg (q.rho * (3 / 2 * b2 q + 1 / 2 * b2t q)); linarith [epsilon_pos]
  · rw [hb]
    apply mul_le_mul_of_nonneg_left _ hr.le
    linarith
  · refine le_trans ?_ ha
    apply mul_le_mul_of_nonneg_left _ hr.le
    linarith
  · have e1 : q.rho * (1 / 2 * (q.by' ^ 2 + q.bz ^ 2) + 1 / 2 * q.bx ^ 2) ≤
        cA5 q ^ 2 - q.rho * q.bx ^ 2 := by linarith
    have e2 : cB5 P q ^ 2 - q.rho * (P.gamma * q.p + q.by' ^ 2 + q.bz ^ 2) =
        q.rho * (1 / 2 * (q.by' ^ 2 + q.bz ^ 2) + 1 / 2 * q.bx ^ 2) := by rw [hb]; ring
    rw [e2]
    have e3 : 0 ≤ q.rho * (1 / 2 * (q.by' ^ 2 + q.bz ^ 2) + 1 / 2 * q.bx ^ 2) := by positivity
    refine le_trans ?_ (mul_le_mul_of_nonneg_left e1 e3)
    nlinarith [mul_nonneg (sq_nonneg q.rho) (sq_nonneg (q.by' ^ 2 + q.bz ^ 2 - q.bx ^ 2))]

/-- The speeds of both sides are stable. -/
theorem speeds_stable {P : Params} (hg : 0 < P.gamma) {l r : Prim ℝ} (hl : Gas l) (hr : Gas r) :
    Stable P.gamma l (speeds P l r l 0) (speeds P l r l 1) ∧
      Stable P.gamma r (speeds P l r r 0) (speeds P l r r 1) := by
  by_cases h : lost P l r
  · have e : ∀ q, speeds P l r q 0 = cThree P l r ∧ speeds P l r q 1 = cThree P l r := by
      intro q; simp only [speeds, if_pos h, and_self]
    rw [(e l).1, (e l).2, (e r).1, (e r).2]
    exact ⟨stable_mono (stable_fast hg hl) (le_max_left _ _) (le_max_left _ _),
      stable_mono (stable_fast hg hr) (le_max_right _ _) (le_max_right _ _)⟩
  · have e : ∀ q, speeds P l r q 0 = cB5 P q ∧ speeds P l r q 1 = cA5 q := by
      intro q; simp only [speeds, if_neg h, and_self]
    rw [(e l).1, (e l).2, (e r).1, (e r).2]
    exact ⟨stable_five hg hl, stable_five hg hr⟩

theorem speeds_two (P : Params) (l r q : Prim ℝ) : speeds P l r q 2 = speeds P l r q 1 := rfl

theorem speeds_pos {P : Params} (hg : 0 < P.gamma) {l r : Prim ℝ} (hl : Gas l) (hr : Gas r) (i : Fin 3) :
    0 < speeds P l r l i ∧ 0 < speeds P l r r i := by
  obtain ⟨h1, h2⟩ := speeds_stable hg hl hr
  fin_cases i
  · exact ⟨h1.1, h2.1⟩
  · exact ⟨h1.2.1, h2.2.1⟩
  · exact ⟨h1.2.1, h2.2.1⟩

theorem star_rel {P : Params} (hg : 0 < P.gamma) {l r : Prim ℝ} (hl : Gas l) (hr : Gas r) (i : Fin 3) :
    pStar P l r i = stress l i + speeds P l r l i * (velocity l i - uStar P l r i) ∧
      pStar P l r i = stress r i + speeds P l r r i * (uStar P l r i - velocity r i) := by
  obtain ⟨h1, h2⟩ := speeds_pos hg hl hr i
  have : speeds P l r l i + speeds P l r r i ≠ 0 := by linarith
  unfold pStar uStar
  constructor <;> field_simp <;> ring

/-! ### C70 -/

theorem velocity_eq (q : Prim ℝ) : velocity q = q.vel := by
  funext i
  fin_cases i <;> rfl

theorem energy_eq (gamma : ℝ) (q : Prim ℝ) : (primToCons 3 gamma q).e = energy gamma q := by
  unfold primToCons energy dot
  simp only [Prim.vel, Prim.mag, if_true]
  ring

/-- **C70** The solver is a relaxation solver: there are speeds on both sides that satisfy the stability
condition, velocities and stresses behind the waves that satisfy the relations across all of them, and
the flux transports the state on the side the middle wave comes from. -/
theorem C70_relaxation {P : Params} (hg : 0 < P.gamma) {l r : Prim ℝ} (hl : Gas l) (hr : Gas r) :
    ∃ (bL aL bR aR : ℝ) (us ps : Fin 3 → ℝ),
      Stable P.gamma l bL aL ∧ Stable P.gamma r bR aR ∧
      (ps 0 - (l.p + dot l.mag l.mag / 2 - l.bx ^ 2) = bL * (l.u - us 0) ∧
        ps 1 - (-l.bx * l.by') = aL * (l.v - us 1) ∧ ps 2 - (-l.bx * l.bz) = aL * (l.w - us 2)) ∧
      (ps 0 - (r.p + dot r.mag r.mag / 2 - r.bx ^ 2) = bR * (us 0 - r.u) ∧
        ps 1 - (-r.bx * r.by') = aR * (us 1 - r.v) ∧ ps 2 - (-r.bx * r.bz) = aR * (us 2 - r.w)) ∧
      ∀ q ∈ [l, r], q = (if 0 < us 0 then l else r) → ∀ b ∈ [l.bx, r.bx],
        b = (if 0 < us 0 then r.bx else l.bx) →
        fiveWaves P l r = Cons.of (q.rho * us 0) (energy P.gamma q * us 0 + dot ps us)
          (fun i => q.rho * q.vel i * us 0 + ps i) (fun i => q.mag i * us 0 - b * us i) := by
  obtain ⟨s1, s2⟩ := speeds_stable hg hl hr
  have hrel := star_rel hg hl hr
  have m0 : ∀ q : Prim ℝ, stress q 0 = q.p + dot q.mag q.mag / 2 - q.bx ^ 2 := by
    intro q
    simp only [stress, emag, dot, Prim.mag]
    ring
  refine ⟨_, _, _, _, uStar P l r, pStar P l r, s1, s2, ⟨?_, ?_, ?_⟩, ⟨?_, ?_, ?_⟩, ?_⟩
  · have := (hrel 0).1; rw [m0] at this; rw [this]; simp only [velocity]; ring
  · have := (hrel 1).1; rw [this]; simp only [velocity, stress]; ring
  · have := (hrel 2).1; rw [this, speeds_two]; simp only [velocity, stress]; ring
  · have := (hrel 0).2; rw [m0] at this; rw [this]; simp only [velocity]; ring
  · have := (hrel 1).2; rw [this]; simp only [velocity, stress]; ring
  · have := (hrel 2).2; rw [this, speeds_two]; simp only [velocity, stress]; ring
  · intro q _ hq b _ hb
    unfold fiveWaves
    simp only [← hq, ← hb]
    rw [energy_eq]
    simp only [Cons.of, dot, primToCons, Prim.vel, Prim.mag, if_true, Cons.mk.injEq]
    refine ⟨by ring, by ring, by ring, by ring, by ring, by ring, by ring, by ring⟩

/-- Exchange of directions and the physical flux. -/
theorem mhdFlux_swap (gamma : ℝ) (d : Fin 3) (q : Prim ℝ) :
    swapCons d (mhdFlux gamma 0 (swapPrim d q)) = mhdFlux gamma d q := by
  fin_cases d <;>
    simp [mhdFlux, swapCons, swapPrim, Cons.of, dot, energy, Prim.vel, Prim.mag] <;> ring_nf <;> trivial

theorem gas_swap {q : Prim ℝ} (d : Fin 3) (hq : Gas q) : Gas (swapPrim d q) := by
  fin_cases d <;> exact hq

/-- Across a contact the state behind the waves is that in front of them. -/
theorem contact_star {P : Params} (hg : 0 < P.gamma) {l r : Prim ℝ} (hl : Gas l) (hr : Gas r)
    (hp : l.p = r.p) (hv : l.vel = r.vel) (hb : l.mag = r.mag) (i : Fin 3) :
    uStar P l r i = l.vel i ∧ pStar P l r i = stress l i := by
  obtain ⟨h1, h2⟩ := speeds_pos hg hl hr i
  have hs : speeds P l r l i + speeds P l r r i ≠ 0 := by linarith
  have e1 : velocity l i = l.vel i := by rw [velocity_eq]
  have e2 : velocity r i = l.vel i := by rw [velocity_eq, hv]
  have e3 : stress r i = stress l i := by
    have b0 : l.bx = r.bx := congrFun hb 0
    have b1 : l.by' = r.by' := congrFun hb 1
    have b2 : l.bz = r.bz := congrFun hb 2
    fin_cases i <;> simp only [stress, emag, b0, b1, b2, hp]
  unfold uStar pStar
  rw [e1, e2, e3]
  constructor <;> field_simp <;> ring

/-- **C70** A contact discontinuity (a jump of the density only) is resolved exactly: the flux is the
physical flux of the state on the side it comes from. -/
theorem C70_contact {P : Params} (hg : 0 < P.gamma) (d : Fin 3) {l r : Prim ℝ} (hl : Gas l) (hr : Gas r)
    (hp : l.p = r.p) (hv : l.vel = r.vel) (hb : l.mag = r.mag) :
    fluxDir5 P d l r = if 0 < l.vel d then mhdFlux P.gamma d l else mhdFlux P.gamma d r := by
  -- along the first direction
  have key : ∀ {l r : Prim ℝ}, Gas l → Gas r → l.p = r.p → l.vel = r.vel → l.mag = r.mag →
      fiveWaves P l r = if 0 < l.u then mhdFlux P.gamma 0 l else mhdFlux P.gamma 0 r := by
    intro l r hl hr hp hv hb
    have h := fun i => contact_star hg hl hr hp hv hb i
    have hu : uStar P l r 0 = l.u := (h 0).1
    have hv1 : uStar P l r 1 = l.v := (h 1).1
    have hv2 : uStar P l r 2 = l.w := (h 2).1
    have b0 : l.bx = r.bx := congrFun hb 0
    have b1 : l.by' = r.by' := congrFun hb 1
    have b2 : l.bz = r.bz := congrFun hb 2
    have v0 : l.u = r.u := congrFun hv 0
    have v1 : l.v = r.v := congrFun hv 1
    have v2 : l.w = r.w := congrFun hv 2
    unfold fiveWaves
    simp only [hu, hv1, hv2, (h 0).2, (h 1).2, (h 2).2, energy_eq]
    split
    · simp only [mhdFlux, Cons.of, dot, primToCons, Prim.vel, Prim.mag, if_true, stress, emag,
        Cons.mk.injEq, ← b0, if_neg (show ¬ ((1 : Fin 3) = 0) by decide),
        if_neg (show ¬ ((2 : Fin 3) = 0) by decide)]
      refine ⟨by ring, by ring, by ring, by ring, by ring, by ring, by ring, by ring⟩
    · simp only [mhdFlux, Cons.of, dot, primToCons, Prim.vel, Prim.mag, if_true, stress, emag,
        Cons.mk.injEq, b0, b1, b2, v0, v1, v2, hp, if_neg (show ¬ ((1 : Fin 3) = 0) by decide),
        if_neg (show ¬ ((2 : Fin 3) = 0) by decide)]
      refine ⟨by ring, by ring, by ring, by ring, by ring, by ring, by ring, by ring⟩
  have hv' : (swapPrim d l).vel = (swapPrim d r).vel := by
    funext i
    rw [(C69_swap d l ⟨0, 0, 0, 0, 0, 0, 0, 0⟩).2.2.1, (C69_swap d r ⟨0, 0, 0, 0, 0, 0, 0, 0⟩).2.2.1, hv]
  have hb' : (swapPrim d l).mag = (swapPrim d r).mag := by
    funext i
    rw [(C69_swap d l ⟨0, 0, 0, 0, 0, 0, 0, 0⟩).2.2.2.1, (C69_swap d r ⟨0, 0, 0, 0, 0, 0, 0, 0⟩).2.2.2.1, hb]
  have hp' : (swapPrim d l).p = (swapPrim d r).p := by fin_cases d <;> exact hp
  have hu : (swapPrim d l).u = l.vel d := by fin_cases d <;> rfl
  unfold fluxDir5
  rw [key (gas_swap d hl) (gas_swap d hr) hp' hv' hb', hu]
  split <;> exact mhdFlux_swap _ _ _

/-- **C70** The flux between two equal states is the physical flux. -/
theorem C70_consistent {P : Params} (hg : 0 < P.gamma) (d : Fin 3) {q : Prim ℝ} (hq : Gas q) :
    fluxDir5 P d q q = mhdFlux P.gamma d q := by
  rw [C70_contact hg d hq hq rfl rfl rfl]
  split <;> rfl

/-- Two states on the sides of a moving contact discontinuity. -/
example : Gas ⟨1, 2, 3, 4, 5, 6, 7, 8⟩ ∧ Gas ⟨9, 2, 3, 4, 5, 6, 7, 8⟩ := by
  unfold Gas; norm_num

/-! ### C70: mirror symmetry -/

section

local notation "mx" => Prim.mirror (0 : Fin 3)

theorem mx_emag (q : Prim ℝ) : emag (mx q) = emag q := by
  unfold emag; simp [Prim.mirror]

theorem mx_cThree (P : Params) (l r : Prim ℝ) : cThree P (mx r) (mx l) = cThree P l r := by
  unfold cThree
  rw [max_comm, mx_emag, mx_emag]
  have : ∀ (q : Prim ℝ) (B c : ℝ), fast5 (mx q) B c = fast5 q B c := by
    intro q B c; unfold fast5; simp [Prim.mirror]
  rw [this, this]
  rfl

theorem mx_lost (P : Params) (l r : Prim ℝ) : lost P (mx r) (mx l) ↔ lost P l r := by
  unfold lost
  simp only [Prim.mirror, if_true, if_neg (show ¬ ((0 : Fin 3) = 1) by decide),
    if_neg (show ¬ ((0 : Fin 3) = 2) by decide), neg_mul_neg, mul_comm r.bx, mul_comm r.by', mul_comm r.bz]

theorem mx_speeds (P : Params) (l r q : Prim ℝ) (i : Fin 3) :
    speeds P (mx r) (mx l) (mx q) i = speeds P l r q i := by
  have hA : cA5 (mx q) = cA5 q := by
    unfold cA5 b2t b2; rw [mx_emag]; simp [Prim.mirror]
  have hB : cB5 P (mx q) = cB5 P q := by
    unfold cB5 b2t b2; rw [mx_emag]; simp [Prim.mirror, cs]
  by_cases h : lost P l r
  · have h' := (mx_lost P l r).2 h
    fin_cases i <;> simp only [speeds, if_pos h, if_pos h', mx_cThree]
  · have h' : ¬ lost P (mx r) (mx l) := fun x => h ((mx_lost P l r).1 x)
    fin_cases i <;> simp only [speeds, if_neg h, if_neg h', hA, hB]

/-- Sign of a component under the mirror. -/
def sgn (i : Fin 3) : ℝ := if i = 0 then -1 else 1

theorem mx_velocity (q : Prim ℝ) (i : Fin 3) : velocity (mx q) i = sgn i * velocity q i := by
  fin_cases i <;> simp [velocity, Prim.mirror, sgn]

theorem mx_stress (q : Prim ℝ) (i : Fin 3) : stress (mx q) i = -(sgn i * stress q i) := by
  have := mx_emag q
  fin_cases i
  · have e : (mx q).bx = -q.bx := rfl
    have e' : (mx q).p = q.p := rfl
    simp only [stress, this, sgn, e, e', Fin.zero_eta, if_true]; ring
  · simp [stress, Prim.mirror, sgn]
  · simp [stress, Prim.mirror, sgn]

theorem mx_uStar (P : Params) (l r : Prim ℝ) (i : Fin 3) :
    uStar P (mx r) (mx l) i = sgn i * uStar P l r i := by
  unfold uStar
  rw [mx_speeds, mx_speeds, mx_velocity, mx_velocity, mx_stress, mx_stress,
    add_comm (speeds P l r r i) (speeds P l r l i)]
  ring

theorem mx_pStar (P : Params) (l r : Prim ℝ) (i : Fin 3) :
    pStar P (mx r) (mx l) i = -(sgn i * pStar P l r i) := by
  unfold pStar
  rw [mx_speeds, mx_speeds, mx_velocity, mx_velocity, mx_stress, mx_stress,
    add_comm (speeds P l r r i) (speeds P l r l i)]
  ring

theorem mirror_x (P : Params) (l r : Prim ℝ) (h : l.bx = r.bx ∨ (fiveWaves P l r).rho ≠ 0) :
    fiveWaves P (mx r) (mx l) = Cons.mirrorFlux 0 (fiveWaves P l r) := by
  have u0 : uStar P (mx r) (mx l) 0 = -uStar P l r 0 := by rw [mx_uStar]; simp [sgn]
  have u1 : uStar P (mx r) (mx l) 1 = uStar P l r 1 := by rw [mx_uStar]; simp [sgn]
  have u2 : uStar P (mx r) (mx l) 2 = uStar P l r 2 := by rw [mx_uStar]; simp [sgn]
  have p0 : pStar P (mx r) (mx l) 0 = pStar P l r 0 := by rw [mx_pStar]; simp [sgn]
  have p1 : pStar P (mx r) (mx l) 1 = -pStar P l r 1 := by rw [mx_pStar]; simp [sgn]
  have p2 : pStar P (mx r) (mx l) 2 = -pStar P l r 2 := by rw [mx_pStar]; simp [sgn]
  have h' : l.bx = r.bx ∨ uStar P l r 0 ≠ 0 := by
    rcases h with h | h
    · exact Or.inl h
    · right
      intro h0
      apply h
      unfold fiveWaves
      simp only [h0, zero_mul]
  unfold fiveWaves
  simp only [u0, u1, u2, p0, p1, p2]
  simp only [Cons.mirrorFlux, if_true, if_neg (show ¬ ((0 : Fin 3) = 1) by decide),
    if_neg (show ¬ ((0 : Fin 3) = 2) by decide)]
  generalize uStar P l r 0 = a at *
  rcases lt_trichotomy a 0 with ha | rfl | ha
  · rw [if_pos (show 0 < -a by linarith), if_pos (show 0 < -a by linarith), if_neg (not_lt.2 ha.le),
      if_neg (not_lt.2 ha.le)]
    simp only [primToCons, Prim.mirror, if_true, if_neg (show ¬ ((0 : Fin 3) = 1) by decide),
      if_neg (show ¬ ((0 : Fin 3) = 2) by decide), Cons.mk.injEq]
    refine ⟨by ring, by ring, by ring, by ring, by ring, by ring, by ring, by ring⟩
  · rcases h' with h' | h'
    · simp only [neg_zero, lt_irrefl, if_false, zero_mul, mul_zero]
      simp [Prim.mirror, h']
      ring
    · exact absurd rfl h'
  · rw [if_neg (show ¬ 0 < -a by linarith), if_neg (show ¬ 0 < -a by linarith), if_pos ha, if_pos ha]
    simp only [primToCons, Prim.mirror, if_true, if_neg (show ¬ ((0 : Fin 3) = 1) by decide),
      if_neg (show ¬ ((0 : Fin 3) = 2) by decide), Cons.mk.injEq]
    refine ⟨by ring, by ring, by ring, by ring, by ring, by ring, by ring, by ring⟩

end

theorem swap_mirror (d : Fin 3) (q : Prim ℝ) : swapPrim d (q.mirror d) = (swapPrim d q).mirror 0 := by
  fin_cases d <;> simp [swapPrim, Prim.mirror]

theorem swap_mirrorFlux (d : Fin 3) (f : Cons ℝ) :
    swapCons d (f.mirrorFlux 0) = (swapCons d f).mirrorFlux d := by
  fin_cases d <;> simp [swapCons, Cons.mirrorFlux]

/-- **C70** The mirror image of a Riemann problem has the mirror image of the flux, if the normal field
is the same on both sides or gas flows through the face. Missing for the full claim: the remaining case,
where it is false (`C70_mirror_fails`). -/
theorem C70_mirror_partial (P : Params) (d : Fin 3) (l r : Prim ℝ)
    (h : l.mag d = r.mag d ∨ (fluxDir5 P d l r).rho ≠ 0) :
    fluxDir5 P d (r.mirror d) (l.mirror d) = (fluxDir5 P d l r).mirrorFlux d := by
  have h' : (swapPrim d l).bx = (swapPrim d r).bx ∨ (fiveWaves P (swapPrim d l) (swapPrim d r)).rho ≠ 0 := by
    rcases h with h | h
    · left; fin_cases d <;> exact h
    · right; intro h0; apply h; unfold fluxDir5; fin_cases d <;> exact h0
  unfold fluxDir5
  rw [swap_mirror, swap_mirror, mirror_x P _ _ h', swap_mirrorFlux]

/-- Without flow through the face, the normal field of the right side (in the order of the arguments)
decides: the flux of the tangential field is not symmetric. -/
theorem C70_mirror_fails :
    ∃ (P : Params) (l r : Prim ℝ), 1 < P.gamma ∧ Gas l ∧ Gas r ∧
      fluxDir5 P 0 (r.mirror 0) (l.mirror 0) ≠ (fluxDir5 P 0 l r).mirrorFlux 0 := by
  refine ⟨⟨2, 0, false⟩, ⟨1, 1, 0, 1, 0, 1, 0, 0⟩, ⟨1, 5 / 2, 0, 1, 0, 2, 0, 0⟩, ?_, ?_, ?_, ?_⟩
  · norm_num
  · unfold Gas; norm_num
  · unfold Gas; norm_num
  intro h
  have hl : Gas ⟨1, 1, 0, 1, 0, 1, 0, 0⟩ := by unfold Gas; norm_num
  have hr : Gas ⟨1, 5 / 2, 0, 1, 0, 2, 0, 0⟩ := by unfold Gas; norm_num
  have hb := congrArg Cons.by' h
  have hs := fun i => speeds_pos (P := ⟨2, 0, false⟩) (by norm_num) hl hr i
  have a0 : uStar ⟨2, 0, false⟩ ⟨1, 1, 0, 1, 0, 1, 0, 0⟩ ⟨1, 5 / 2, 0, 1, 0, 2, 0, 0⟩ 0 = 0 := by
    unfold uStar
    simp only [velocity, stress, emag]
    norm_num
  have a1 : uStar ⟨2, 0, false⟩ ⟨1, 1, 0, 1, 0, 1, 0, 0⟩ ⟨1, 5 / 2, 0, 1, 0, 2, 0, 0⟩ 1 = 1 := by
    have := hs 1
    unfold uStar
    simp only [velocity, stress]
    have h0 := add_pos this.1 this.2
    rw [one_div, show ∀ a b : ℝ, a * 1 + b * 1 + -1 * 0 - -2 * 0 = a + b by intro a b; ring]
    exact inv_mul_cancel₀ h0.ne'
  have b0 := mx_uStar ⟨2, 0, false⟩ ⟨1, 1, 0, 1, 0, 1, 0, 0⟩ ⟨1, 5 / 2, 0, 1, 0, 2, 0, 0⟩ 0
  have b1 := mx_uStar ⟨2, 0, false⟩ ⟨1, 1, 0, 1, 0, 1, 0, 0⟩ ⟨1, 5 / 2, 0, 1, 0, 2, 0, 0⟩ 1
  rw [a0, mul_zero] at b0
  rw [a1] at b1
  have s1 : sgn 1 = 1 := rfl
  rw [s1] at b1
  simp only [fluxDir5, swapCons, swapPrim, fiveWaves, b0, b1, a0, a1, Cons.mirrorFlux, lt_irrefl, if_false,
    zero_mul] at hb
  simp [Prim.mirror] at hb

/-- States for which the hypothesis holds. -/
example : (⟨1, 2, 3, 4, 5, 6, 7, 8⟩ : Prim ℝ).mag 1 = (⟨2, 1, -3, 4, 0, 5, 7, 9⟩ : Prim ℝ).mag 1 := rfl

end Verif.Mhd
