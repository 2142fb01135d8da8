import Verif.Mhd.HlldMirror
import Mathlib.Analysis.Calculus.Deriv.Mul
import Mathlib.Analysis.Calculus.Deriv.Add

/-!
# C73: the half step of the Hancock schemes

Models of `compute_source` for hydrodynamics and magnetohydrodynamics
(`core/src/hydro/HydroUpdate_utils.h` L186-236, L255-340) over the real numbers. It evolves the primitive
variables of a cell by half a time step, given their slopes.
-/

namespace Verif.Mhd

/-! ### Model -/

/-- L188-236. `sx`, `sy`, `sz` are differences across the cell, `tx`, `ty`, `tz` are `dtdx`, `dtdy`, `dtdz`. -/
def hydroSource {K : Type} [Field K] (ndim : ℕ) (q sx sy sz : Hydro.Prim K) (tx ty tz gamma : K) : Hydro.Prim K :=
  let r := q.rho
  let p := q.p
  let u := q.u
  let v := q.v
  let w := q.w
  let drx := sx.rho * (1 / 2)
  let dpx := sx.p * (1 / 2)
  let dux := sx.u * (1 / 2)
  let dvx := sx.v * (1 / 2)
  let dwx := sx.w * (1 / 2)
  let dry := sy.rho * (1 / 2)
  let dpy := sy.p * (1 / 2)
  let duy := sy.u * (1 / 2)
  let dvy := sy.v * (1 / 2)
  let dwy := sy.w * (1 / 2)
  let drz := sz.rho * (1 / 2)
  let dpz := sz.p * (1 / 2)
  let duz := sz.u * (1 / 2)
  let dvz := sz.v * (1 / 2)
  let dwz := sz.w * (1 / 2)
  if ndim = 3 then
    { rho := r + (-u * drx - dux * r) * tx + (-v * dry - dvy * r) * ty + (-w * drz - dwz * r) * tz
      u := u + (-u * dux - dpx / r) * tx + (-v * duy) * ty + (-w * duz) * tz
      v := v + (-u * dvx) * tx + (-v * dvy - dpy / r) * ty + (-w * dvz) * tz
      w := w + (-u * dwx) * tx + (-v * dwy) * ty + (-w * dwz - dpz / r) * tz
      p := p + (-u * dpx - dux * gamma * p) * tx + (-v * dpy - dvy * gamma * p) * ty +
        (-w * dpz - dwz * gamma * p) * tz }
  else
    { rho := r + (-u * drx - dux * r) * tx + (-v * dry - dvy * r) * ty
      u := u + (-u * dux - dpx / r) * tx + (-v * duy) * ty
      v := v + (-u * dvx) * tx + (-v * dvy - dpy / r) * ty
      w := 0
      p := p + (-u * dpx - dux * gamma * p) * tx + (-v * dpy - dvy * gamma * p) * ty }

/-- L257-340. -/
noncomputable def source (ndim : ℕ) (q sx sy sz : Prim ℝ) (tx ty tz gamma : ℝ) : Prim ℝ :=
  let r := q.rho
  let p := q.p
  let u := q.u
  let v := q.v
  let w := q.w
  let Bx := q.bx
  let By := q.by'
  let Bz := q.bz
  let drx := sx.rho * (1 / 2)
  let dpx := sx.p * (1 / 2)
  let dux := sx.u * (1 / 2)
  let dvx := sx.v * (1 / 2)
  let dwx := sx.w * (1 / 2)
  let dBxx := sx.bx * (1 / 2)
  let dByx := sx.by' * (1 / 2)
  let dBzx := sx.bz * (1 / 2)
  let dry := sy.rho * (1 / 2)
  let dpy := sy.p * (1 / 2)
  let duy := sy.u * (1 / 2)
  let dvy := sy.v * (1 / 2)
  let dwy := sy.w * (1 / 2)
  let dBxy := sy.bx * (1 / 2)
  let dByy := sy.by' * (1 / 2)
  let dBzy := sy.bz * (1 / 2)
  let drz := sz.rho * (1 / 2)
  let dpz := sz.p * (1 / 2)
  let duz := sz.u * (1 / 2)
  let dvz := sz.v * (1 / 2)
  let dwz := sz.w * (1 / 2)
  let dBxz := sz.bx * (1 / 2)
  let dByz := sz.by' * (1 / 2)
  let dBzz := sz.bz * (1 / 2)
  if ndim = 3 then
    { rho := r + (-u * drx - dux * r) * tx + (-v * dry - dvy * r) * ty + (-w * drz - dwz * r) * tz
      u := u + tx * (-u * dux - (dpx + By * dByx + Bz * dBzx) / r) + ty * (-v * duy + By * dBxy / r) +
        tz * (-w * duz + Bz * dBxz / r)
      v := v + tx * (-u * dvx + Bx * dByx / r) + ty * (-v * dvy - (dpy + Bx * dBxy + Bz * dBzy) / r) +
        tz * (-w * dvz + Bz * dByz / r)
      w := w + tx * (-u * dwx + Bx * dBzx / r) + ty * (-v * dwy + By * dBzy / r) +
        tz * (-w * dwz - (dpz + Bx * dBxz + By * dByz) / r)
      p := p + (-u * dpx - dux * gamma * p) * tx + (-v * dpy - dvy * gamma * p) * ty +
        (-w * dpz - dwz * gamma * p) * tz
      bx := Bx + ty * (u * dByy + duy * By - v * dBxy - dvy * Bx) +
        tz * (u * dBzz + duz * Bz - w * dBxz - dwz * Bx)
      by' := By + tx * (v * dBxx + dvx * Bx - u * dByx - dux * By) +
        tz * (v * dBzz + dvz * Bz - w * dByz - dwz * By)
      bz := Bz + tx * (w * dBxx + dwx * Bx - u * dBzx - dux * Bz) +
        ty * (w * dByy + dwy * By - v * dBzy - dvy * Bz) }
  else
    { rho := r + (-u * drx - dux * r) * tx + (-v * dry - dvy * r) * ty
      u := u + tx * (-u * dux - (dpx + By * dByx + Bz * dBzx) / r) + ty * (-v * duy + By * dBxy / r)
      v := v + tx * (-u * dvx + Bx * dByx / r) + ty * (-v * dvy - (dpy + Bx * dBxy + Bz * dBzy) / r)
      w := 0
      p := p + (-u * dpx - dux * gamma * p) * tx + (-v * dpy - dvy * gamma * p) * ty
      bx := Bx + ty * (u * dByy + duy * By - v * dBxy - dvy * Bx)
      by' := By + tx * (v * dBxx + dvx * Bx - u * dByx - dux * By)
      bz := Bz + tx * (-u * dBzx - dux * Bz) + ty * (-v * dBzy - dvy * Bz) }

/-! ### Specification -/

/-- The state at `t` on the line through `q` with direction `s`. -/
def Prim.line (q s : Prim ℝ) (t : ℝ) : Prim ℝ :=
  ⟨q.rho + t * s.rho, q.p + t * s.p, q.u + t * s.u, q.v + t * s.v, q.w + t * s.w, q.bx + t * s.bx,
    q.by' + t * s.by', q.bz + t * s.bz⟩

/-- The difference of two states. -/
def Prim.diff (x y : Prim ℝ) : Prim ℝ :=
  ⟨x.rho - y.rho, x.p - y.p, x.u - y.u, x.v - y.v, x.w - y.w, x.bx - y.bx, x.by' - y.by', x.bz - y.bz⟩

/-- The conserved variables of a gas. -/
noncomputable def consOf (gamma : ℝ) (q : Prim ℝ) : Cons ℝ :=
  Cons.of q.rho (energy gamma q) (fun i => q.rho * q.vel i) q.mag

/-- Derivative at 0 of a function with eight components. -/
structure Deriv (f : ℝ → Cons ℝ) (g : Cons ℝ) : Prop where
  rho : HasDerivAt (fun t => (f t).rho) g.rho 0
  e : HasDerivAt (fun t => (f t).e) g.e 0
  ru : HasDerivAt (fun t => (f t).ru) g.ru 0
  rv : HasDerivAt (fun t => (f t).rv) g.rv 0
  rw : HasDerivAt (fun t => (f t).rw) g.rw 0
  bx : HasDerivAt (fun t => (f t).bx) g.bx 0
  by' : HasDerivAt (fun t => (f t).by') g.by' 0
  bz : HasDerivAt (fun t => (f t).bz) g.bz 0

/-- `- (a F + b G + c H)`. -/
def Cons.minus (a b c : ℝ) (F G H : Cons ℝ) : Cons ℝ :=
  ⟨-(a * F.rho + b * G.rho + c * H.rho), -(a * F.e + b * G.e + c * H.e),
    -(a * F.ru + b * G.ru + c * H.ru), -(a * F.rv + b * G.rv + c * H.rv),
    -(a * F.rw + b * G.rw + c * H.rw), -(a * F.bx + b * G.bx + c * H.bx),
    -(a * F.by' + b * G.by' + c * H.by'), -(a * F.bz + b * G.bz + c * H.bz)⟩

/-! ### Derivatives of fluxes and conserved variables -/

theorem line_deriv (a b : ℝ) : HasDerivAt (fun t => a + t * b) b 0 := by
  have h := ((hasDerivAt_id (0 : ℝ)).mul_const b).const_add a
  rw [one_mul] at h
  exact h

/-- Derivative of the conserved variables. -/
noncomputable def linCons (gamma : ℝ) (q s : Prim ℝ) : Cons ℝ :=
  Cons.of s.rho
    (s.p / (gamma - 1) + (s.rho * dot q.vel q.vel + q.rho * (2 * dot q.vel s.vel)) / 2 + dot q.mag s.mag)
    (fun i => s.rho * q.vel i + q.rho * s.vel i) s.mag

/-- Derivative of the flux. -/
noncomputable def linFlux (gamma : ℝ) (d : Fin 3) (q s : Prim ℝ) : Cons ℝ :=
  Cons.of (s.rho * q.vel d + q.rho * s.vel d)
    (((linCons gamma q s).e + s.p + dot q.mag s.mag) * q.vel d +
      (energy gamma q + q.p + dot q.mag q.mag / 2) * s.vel d -
      (s.mag d * dot q.vel q.mag + q.mag d * (dot s.vel q.mag + dot q.vel s.mag)))
    (fun i => (s.rho * q.vel i + q.rho * s.vel i) * q.vel d + q.rho * q.vel i * s.vel d +
      (if i = d then s.p + dot q.mag s.mag else 0) - (s.mag d * q.mag i + q.mag d * s.mag i))
    (fun i => s.mag i * q.vel d + q.mag i * s.vel d - (s.mag d * q.vel i + q.mag d * s.vel i))

section

variable (gamma : ℝ) (q s : Prim ℝ)

theorem vel_deriv (i : Fin 3) : HasDerivAt (fun t => (q.line s t).vel i) (s.vel i) 0 := by
  fin_cases i <;> exact line_deriv _ _

theorem mag_deriv (i : Fin 3) : HasDerivAt (fun t => (q.line s t).mag i) (s.mag i) 0 := by
  fin_cases i <;> exact line_deriv _ _

theorem line_zero : q.line s 0 = q := by
  unfold Prim.line
  simp

theorem dot_deriv {f g : ℝ → Fin 3 → ℝ} {f' g' : Fin 3 → ℝ} (hf : ∀ i, HasDerivAt (fun t => f t i) (f' i) 0)
    (hg : ∀ i, HasDerivAt (fun t => g t i) (g' i) 0) :
    HasDerivAt (fun t => dot (f t) (g t)) (dot f' (g 0) + dot (f 0) g') 0 := by
  have h := (((hf 0).mul (hg 0)).add ((hf 1).mul (hg 1))).add ((hf 2).mul (hg 2))
  refine HasDerivAt.congr_deriv h ?_
  unfold dot
  ring

theorem energy_deriv :
    HasDerivAt (fun t => energy gamma (q.line s t)) (linCons gamma q s).e 0 := by
  have hr : HasDerivAt (fun t => (q.line s t).rho) s.rho 0 := line_deriv _ _
  have hp : HasDerivAt (fun t => (q.line s t).p) s.p 0 := line_deriv _ _
  have hvv := dot_deriv (vel_deriv q s) (vel_deriv q s)
  have hbb := dot_deriv (mag_deriv q s) (mag_deriv q s)
  have h := ((hp.div_const (gamma - 1)).add ((hr.mul hvv).div_const 2)).add (hbb.div_const 2)
  refine HasDerivAt.congr_deriv h ?_
  rw [line_zero]
  unfold linCons Cons.of dot
  ring

theorem cons_deriv : Deriv (fun t => consOf gamma (q.line s t)) (linCons gamma q s) := by
  have hr : HasDerivAt (fun t => (q.line s t).rho) s.rho 0 := line_deriv _ _
  have hm : ∀ i, HasDerivAt (fun t => (q.line s t).rho * (q.line s t).vel i)
      (s.rho * q.vel i + q.rho * s.vel i) 0 := by
    intro i
    refine HasDerivAt.congr_deriv (hr.mul (vel_deriv q s i)) ?_
    rw [line_zero]
  exact ⟨hr, energy_deriv gamma q s, hm 0, hm 1, hm 2, mag_deriv q s 0, mag_deriv q s 1, mag_deriv q s 2⟩

theorem flux_deriv (d : Fin 3) : Deriv (fun t => mhdFlux gamma d (q.line s t)) (linFlux gamma d q s) := by
  have hr : HasDerivAt (fun t => (q.line s t).rho) s.rho 0 := line_deriv _ _
  have hp : HasDerivAt (fun t => (q.line s t).p) s.p 0 := line_deriv _ _
  have hv := vel_deriv q s
  have hb := mag_deriv q s
  have hbb := dot_deriv hb hb
  have hvb := dot_deriv hv hb
  have he := energy_deriv gamma q s
  have hpt := hp.add (hbb.div_const 2)
  have hm : ∀ i, HasDerivAt (fun t => (q.line s t).rho * (q.line s t).vel i * (q.line s t).vel d +
      (if i = d then (q.line s t).p + dot (q.line s t).mag (q.line s t).mag / 2 else 0) -
      (q.line s t).mag d * (q.line s t).mag i)
      ((s.rho * q.vel i + q.rho * s.vel i) * q.vel d + q.rho * q.vel i * s.vel d +
        (if i = d then s.p + dot q.mag s.mag else 0) - (s.mag d * q.mag i + q.mag d * s.mag i)) 0 := by
    intro i
    by_cases h : i = d
    · simp only [if_pos h]
      refine HasDerivAt.congr_deriv ((((hr.mul (hv i)).mul (hv d)).add hpt).sub ((hb d).mul (hb i))) ?_
      simp only [Pi.mul_apply, line_zero]
      unfold dot
      ring
    · simp only [if_neg h]
      refine HasDerivAt.congr_deriv ((((hr.mul (hv i)).mul (hv d)).add_const 0).sub ((hb d).mul (hb i))) ?_
      simp only [Pi.mul_apply, line_zero]
      ring
  have hB : ∀ i, HasDerivAt (fun t => (q.line s t).mag i * (q.line s t).vel d -
      (q.line s t).mag d * (q.line s t).vel i)
      (s.mag i * q.vel d + q.mag i * s.vel d - (s.mag d * q.vel i + q.mag d * s.vel i)) 0 := by
    intro i
    refine HasDerivAt.congr_deriv (((hb i).mul (hv d)).sub ((hb d).mul (hv i))) ?_
    simp only [line_zero]
  refine ⟨?_, ?_, hm 0, hm 1, hm 2, hB 0, hB 1, hB 2⟩
  · refine HasDerivAt.congr_deriv (hr.mul (hv d)) ?_
    rw [line_zero]
    rfl
  · refine HasDerivAt.congr_deriv (((he.add hpt).mul (hv d)).sub ((hb d).mul hvb)) ?_
    simp only [Pi.add_apply, line_zero]
    unfold linFlux Cons.of dot
    ring

end

/-! ### The half step -/

/-- **C73** The change of the conserved variables in the half step of a cell is, to first order, that of
the conservation laws of ideal magnetohydrodynamics for the given slopes, if these have no divergence. -/
theorem C73_mhd {gamma : ℝ} (hg : gamma ≠ 1) {q : Prim ℝ} (hq : q.rho ≠ 0) (s : Fin 3 → Prim ℝ)
    (tx ty tz : ℝ) (hdiv : tx * (s 0).bx + ty * (s 1).by' + tz * (s 2).bz = 0) :
    ∃ F : Fin 3 → Cons ℝ, (∀ d, Deriv (fun t => mhdFlux gamma d (q.line (s d) t)) (F d)) ∧
      Deriv (fun t => consOf gamma (q.line ((source 3 q (s 0) (s 1) (s 2) tx ty tz gamma).diff q) t))
        (Cons.minus (tx / 2) (ty / 2) (tz / 2) (F 0) (F 1) (F 2)) := by
  refine ⟨fun d => linFlux gamma d q (s d), fun d => flux_deriv gamma q (s d) d, ?_⟩
  have hg' : gamma - 1 ≠ 0 := sub_ne_zero.2 hg
  have h : linCons gamma q ((source 3 q (s 0) (s 1) (s 2) tx ty tz gamma).diff q) =
      Cons.minus (tx / 2) (ty / 2) (tz / 2) (linFlux gamma 0 q (s 0)) (linFlux gamma 1 q (s 1))
        (linFlux gamma 2 q (s 2)) := by
    unfold linCons linFlux Cons.minus source Prim.diff linCons energy
    simp only [Cons.of, dot, Prim.vel, Prim.mag, if_true, Cons.mk.injEq, reduceIte, Fin.isValue,
      Fin.reduceEq]
    refine ⟨?_, ?_, ?_, ?_, ?_, ?_, ?_, ?_⟩
    · ring
    · field_simp
      ring
    · field_simp
      linear_combination (-q.bx) * hdiv
    · field_simp
      linear_combination (-q.by') * hdiv
    · field_simp
      linear_combination (-q.bz) * hdiv
    · ring
    · ring
    · ring
  rw [← h]
  exact cons_deriv gamma q _

/-- **C73** The same in 2D, except for the third momentum. Missing for the full claim: the third momentum,
which changes if the third component of the field does (`C73_2d_fails`). -/
theorem C73_2d_partial {gamma : ℝ} (hg : gamma ≠ 1) {q : Prim ℝ} (hq : q.rho ≠ 0) (s : Fin 3 → Prim ℝ)
    (tx ty tz : ℝ) (hdiv : tx * (s 0).bx + ty * (s 1).by' = 0) (hw : q.w = 0) (hs : ∀ d, (s d).w = 0) :
    ∃ (F : Fin 3 → Cons ℝ) (g : Cons ℝ), (∀ d, Deriv (fun t => mhdFlux gamma d (q.line (s d) t)) (F d)) ∧
      Deriv (fun t => consOf gamma (q.line ((source 2 q (s 0) (s 1) (s 2) tx ty tz gamma).diff q) t)) g ∧
      { g with rw := 0 } = { Cons.minus (tx / 2) (ty / 2) 0 (F 0) (F 1) (F 2) with rw := 0 } := by
  refine ⟨fun d => linFlux gamma d q (s d), _, fun d => flux_deriv gamma q (s d) d, cons_deriv gamma q _, ?_⟩
  have hg' : gamma - 1 ≠ 0 := sub_ne_zero.2 hg
  have h0 := hs 0
  have h1 := hs 1
  unfold linCons linFlux Cons.minus source Prim.diff linCons energy
  rw [if_neg (by norm_num)]
  simp only [Cons.of, dot, Prim.vel, Prim.mag, if_true, Cons.mk.injEq, reduceIte, Fin.isValue,
    Fin.reduceEq, hw, h0, h1]
  refine ⟨?_, ?_, ?_, ?_, trivial, ?_, ?_, ?_⟩
  · ring
  · field_simp
    ring
  · field_simp
    linear_combination (-q.bx) * hdiv
  · field_simp
    linear_combination (-q.by') * hdiv
  · ring
  · ring
  · ring

theorem Deriv.unique {f : ℝ → Cons ℝ} {g g' : Cons ℝ} (h : Deriv f g) (h' : Deriv f g') : g = g' := by
  obtain ⟨_, _, _, _, _, _, _, _⟩ := g
  obtain ⟨_, _, _, _, _, _, _, _⟩ := g'
  simp only [Cons.mk.injEq]
  exact ⟨h.rho.unique h'.rho, h.e.unique h'.e, h.ru.unique h'.ru, h.rv.unique h'.rv, h.rw.unique h'.rw,
    h.bx.unique h'.bx, h.by'.unique h'.by', h.bz.unique h'.bz⟩

/-- **C73** In 2D a gas at rest in a field inclined to the plane, with a gradient of the third component
along the first direction, ought to get a third momentum, but does not. -/
theorem C73_2d_fails : ∃ (gamma : ℝ) (q : Prim ℝ) (s : Fin 3 → Prim ℝ) (tx ty : ℝ), 1 < gamma ∧ Gas q ∧
    tx * (s 0).bx + ty * (s 1).by' = 0 ∧ (∀ d, (s d).w = 0) ∧ (∀ i, q.vel i = 0) ∧
    ∀ (F : Fin 3 → Cons ℝ) (g : Cons ℝ), (∀ d, Deriv (fun t => mhdFlux gamma d (q.line (s d) t)) (F d)) →
      Deriv (fun t => consOf gamma (q.line ((source 2 q (s 0) (s 1) (s 2) tx ty 0 gamma).diff q) t)) g →
      g.rw ≠ (Cons.minus (tx / 2) (ty / 2) 0 (F 0) (F 1) (F 2)).rw := by
  refine ⟨2, ⟨1, 1, 0, 0, 0, 1, 0, 0⟩, fun d => if d = 0 then ⟨0, 0, 0, 0, 0, 0, 0, 1⟩ else
    ⟨0, 0, 0, 0, 0, 0, 0, 0⟩, 1, 1, by norm_num, ⟨by norm_num, by norm_num⟩, by simp, ?_, ?_, ?_⟩
  · intro d
    fin_cases d <;> rfl
  · intro i
    fin_cases i <;> rfl
  · intro F g hF hgd
    rw [hgd.unique (cons_deriv _ _ _), fun d => (hF d).unique (flux_deriv _ _ _ d),
      (hF 1).unique (flux_deriv _ _ _ 1)]
    norm_num [linCons, linFlux, Cons.minus, source, Prim.diff, Cons.of, dot, Prim.vel, Prim.mag]

/-- The slopes of a gas without field. -/
theorem hydro_source (ndim : ℕ) (q sx sy sz : Hydro.Prim ℝ) (tx ty tz gamma : ℝ) :
    source ndim (.ofHydro q) (.ofHydro sx) (.ofHydro sy) (.ofHydro sz) tx ty tz gamma =
      .ofHydro (hydroSource ndim q sx sy sz tx ty tz gamma) := by
  unfold source hydroSource
  split <;> simp only [Prim.ofHydro, Prim.mk.injEq] <;> refine ⟨?_, ?_, ?_, ?_, ?_, ?_, ?_, ?_⟩ <;>
    first | trivial | ring

/-- The state at `t` on the line through `q` with direction `s`. -/
def hline (q s : Hydro.Prim ℝ) (t : ℝ) : Hydro.Prim ℝ :=
  ⟨q.rho + t * s.rho, q.p + t * s.p, q.u + t * s.u, q.v + t * s.v, q.w + t * s.w⟩

def hdiff (x y : Hydro.Prim ℝ) : Hydro.Prim ℝ := ⟨x.rho - y.rho, x.p - y.p, x.u - y.u, x.v - y.v, x.w - y.w⟩

/-- The conserved variables of a gas without field. -/
noncomputable def hconsOf (gamma : ℝ) (q : Hydro.Prim ℝ) : Hydro.Cons ℝ :=
  ⟨q.rho, q.p / (gamma - 1) + q.rho * (q.u ^ 2 + q.v ^ 2 + q.w ^ 2) / 2, q.rho * q.u, q.rho * q.v, q.rho * q.w⟩

/-- Derivative at 0 of a function with five components. -/
structure HDeriv (f : ℝ → Hydro.Cons ℝ) (g : Hydro.Cons ℝ) : Prop where
  rho : HasDerivAt (fun t => (f t).rho) g.rho 0
  e : HasDerivAt (fun t => (f t).e) g.e 0
  ru : HasDerivAt (fun t => (f t).ru) g.ru 0
  rv : HasDerivAt (fun t => (f t).rv) g.rv 0
  rw : HasDerivAt (fun t => (f t).rw) g.rw 0

def hminus (a b c : ℝ) (F G H : Hydro.Cons ℝ) : Hydro.Cons ℝ :=
  ⟨-(a * F.rho + b * G.rho + c * H.rho), -(a * F.e + b * G.e + c * H.e),
    -(a * F.ru + b * G.ru + c * H.ru), -(a * F.rv + b * G.rv + c * H.rv),
    -(a * F.rw + b * G.rw + c * H.rw)⟩

/-- The hydrodynamic part of a state. -/
def Cons.hydro (c : Cons ℝ) : Hydro.Cons ℝ := ⟨c.rho, c.e, c.ru, c.rv, c.rw⟩

theorem Deriv.hydro {f : ℝ → Cons ℝ} {g : Cons ℝ} (h : Deriv f g) : HDeriv (fun t => (f t).hydro) g.hydro :=
  ⟨h.rho, h.e, h.ru, h.rv, h.rw⟩

theorem flux_hydro (gamma : ℝ) (d : Fin 3) (q : Hydro.Prim ℝ) :
    (mhdFlux gamma d (.ofHydro q)).hydro = Hydro.eulerFlux gamma d q := by
  unfold mhdFlux Cons.hydro Hydro.eulerFlux energy
  fin_cases d <;>
    simp only [Cons.of, dot, Prim.vel, Prim.mag, Prim.ofHydro, Hydro.Prim.vel, Hydro.Cons.mk.injEq, reduceIte,
      Fin.reduceEq, Fin.isValue, Fin.zero_eta, Fin.mk_one, Fin.reduceFinMk] <;>
    refine ⟨?_, ?_, ?_, ?_, ?_⟩ <;> first | trivial | ring

theorem cons_hydro (gamma : ℝ) (q : Hydro.Prim ℝ) : (consOf gamma (.ofHydro q)).hydro = hconsOf gamma q := by
  unfold consOf hconsOf Cons.hydro energy
  simp only [Cons.of, dot, Prim.vel, Prim.mag, Prim.ofHydro, Hydro.Cons.mk.injEq, true_and, and_true]
  ring

theorem line_hydro (q s : Hydro.Prim ℝ) (t : ℝ) : (Prim.ofHydro q).line (.ofHydro s) t = .ofHydro (hline q s t) := by
  unfold Prim.line Prim.ofHydro hline
  simp

theorem diff_hydro (x y : Hydro.Prim ℝ) : (Prim.ofHydro x).diff (.ofHydro y) = .ofHydro (hdiff x y) := by
  unfold Prim.diff Prim.ofHydro hdiff
  simp

/-- **C73** Without field: the half step is, to first order, that of the Euler equations. -/
theorem C73_hydro {gamma : ℝ} (hg : gamma ≠ 1) {q : Hydro.Prim ℝ} (hq : q.rho ≠ 0) (s : Fin 3 → Hydro.Prim ℝ)
    (tx ty tz : ℝ) {ndim : ℕ} (hdim : ndim = 3 ∨ ndim = 2 ∧ tz = 0 ∧ q.w = 0 ∧ ∀ d, (s d).w = 0) :
    ∃ F : Fin 3 → Hydro.Cons ℝ, (∀ d, HDeriv (fun t => Hydro.eulerFlux gamma d (hline q (s d) t)) (F d)) ∧
      HDeriv (fun t => hconsOf gamma (hline q (hdiff (hydroSource ndim q (s 0) (s 1) (s 2) tx ty tz gamma) q) t))
        (hminus (tx / 2) (ty / 2) (tz / 2) (F 0) (F 1) (F 2)) := by
  rcases hdim with rfl | ⟨rfl, rfl, hw, hs⟩
  · obtain ⟨F, h1, h2⟩ := C73_mhd hg (q := .ofHydro q) hq (fun d => .ofHydro (s d)) tx ty tz
      (by simp [Prim.ofHydro])
    refine ⟨fun d => (F d).hydro, fun d => ?_, ?_⟩
    · have := (h1 d).hydro
      simp only [line_hydro, flux_hydro] at this
      exact this
    · have := h2.hydro
      simp only [hydro_source, diff_hydro, line_hydro, cons_hydro] at this
      exact this
  · obtain ⟨F, g, h1, h2, h3⟩ := C73_2d_partial hg (q := .ofHydro q) hq (fun d => .ofHydro (s d)) tx ty 0
      (by simp [Prim.ofHydro]) hw hs
    refine ⟨fun d => (F d).hydro, fun d => ?_, ?_⟩
    · have := (h1 d).hydro
      simp only [line_hydro, flux_hydro] at this
      exact this
    · have := h2.hydro
      simp only [hydro_source, diff_hydro, line_hydro, cons_hydro] at this
      have e : g.hydro = hminus (tx / 2) (ty / 2) (0 / 2) (F 0).hydro (F 1).hydro (F 2).hydro := by
        have hw' : (Prim.ofHydro q).w = 0 := hw
        have hs' : ∀ d, (Prim.ofHydro (s d)).w = 0 := hs
        have hz : ∀ x, (Prim.ofHydro x).bz = 0 := fun _ => rfl
        have hrw : g.rw = 0 := by
          rw [h2.unique (cons_deriv _ _ _)]
          show _ * (Prim.ofHydro q).w + _ * (0 - (Prim.ofHydro q).w) = 0
          rw [hw']
          ring
        have hF0 : (F 0).rw = 0 := by
          rw [(h1 0).unique (flux_deriv _ _ _ 0)]
          simp only [linFlux, Cons.of, Prim.vel, Prim.mag, hw', hs', hz, Fin.reduceEq, if_false, Fin.isValue]
          ring
        have hF1 : (F 1).rw = 0 := by
          rw [(h1 1).unique (flux_deriv _ _ _ 1)]
          simp only [linFlux, Cons.of, Prim.vel, Prim.mag, hw', hs', hz, Fin.reduceEq, if_false, Fin.isValue]
          ring
        simp only [Cons.minus, Cons.mk.injEq, true_and] at h3
        simp only [Cons.hydro, hminus, hrw, hF0, hF1, h3, zero_div, zero_mul, mul_zero, add_zero, neg_zero]
      rw [← e]
      exact this

/-- Slopes without divergence, of everything. -/
example : ∃ (q : Prim ℝ) (s : Fin 3 → Prim ℝ), q.rho ≠ 0 ∧ (s 0).bx ≠ 0 ∧ (s 2).u ≠ 0 ∧
    (1 : ℝ) * (s 0).bx + 1 * (s 1).by' + 1 * (s 2).bz = 0 :=
  ⟨⟨1, 1, 1, 2, 3, 1, 2, 3⟩, ![⟨1, 1, 1, 1, 1, 3, 1, 1⟩, ⟨2, 1, 1, 1, 1, 3, -1, 1⟩, ⟨1, 1, 1, 1, 1, 3, 1, -2⟩],
    by norm_num, by simp, by simp, by norm_num [Matrix.cons_val_two, Matrix.tail_cons]⟩

/-- The same in 2D, without third velocity. -/
example : ∃ (q : Prim ℝ) (s : Fin 3 → Prim ℝ), q.rho ≠ 0 ∧ q.w = 0 ∧ (∀ d, (s d).w = 0) ∧ (s 0).bx ≠ 0 ∧
    (1 : ℝ) * (s 0).bx + 1 * (s 1).by' = 0 :=
  ⟨⟨1, 1, 1, 2, 0, 1, 2, 3⟩, fun d => ⟨1, 1, 1, 1, 0, 3, -3, d.val⟩, by norm_num, rfl, fun _ => rfl, by simp,
    by norm_num⟩

end Verif.Mhd
