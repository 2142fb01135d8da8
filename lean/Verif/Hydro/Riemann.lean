import Verif.Hydro.State
import Mathlib.Analysis.Real.Sqrt
import Mathlib.Data.Fintype.Basic
import Mathlib.Tactic.FinCases

/-!
# C44 and C47 (flux): the HLLC Riemann solver

Model of `riemann_hllc` (`core/src/RiemannSolvers.h` L106-205) over the real numbers; `fmax` and `fmin`
are the maximum and minimum (no NaN). The overloads `riemann_hydro` L549-597 for hydro states only call
it (they also cover the choice `approx`, which the code maps to the same function).
-/

namespace Verif.Hydro

/-! ### Model -/

/-- `RiemannParams` L21-97, the members read by `riemann_hllc`. -/
structure Params where
  gamma : ℝ
  smallr : ℝ
  smallp : ℝ
  smallc : ℝ

/-- L118-140: density, pressure and total energy of one side. -/
noncomputable def sideR (P : Params) (q : Prim ℝ) : ℝ := max q.rho P.smallr
noncomputable def sideP (P : Params) (q : Prim ℝ) : ℝ := max q.p (sideR P q * P.smallp)
noncomputable def sideE (P : Params) (q : Prim ℝ) : ℝ :=
  sideP P q * (1 / (P.gamma - 1)) + 1 / 2 * sideR P q * (q.u * q.u + q.v * q.v + q.w * q.w)

/-- L143-144. -/
noncomputable def cfast (P : Params) (q : Prim ℝ) : ℝ :=
  √(max (P.gamma * sideP P q / sideR P q) (P.smallc * P.smallc))

/-- L147-148. -/
noncomputable def waveL (P : Params) (l r : Prim ℝ) : ℝ := min l.u r.u - max (cfast P l) (cfast P r)
noncomputable def waveR (P : Params) (l r : Prim ℝ) : ℝ := max l.u r.u + max (cfast P l) (cfast P r)

/-- L151-152. -/
noncomputable def rcl (P : Params) (l r : Prim ℝ) : ℝ := sideR P l * (l.u - waveL P l r)
noncomputable def rcr (P : Params) (l r : Prim ℝ) : ℝ := sideR P r * (waveR P l r - r.u)

/-- L155-156. -/
noncomputable def ustar (P : Params) (l r : Prim ℝ) : ℝ :=
  (rcr P l r * r.u + rcl P l r * l.u + (sideP P l - sideP P r)) / (rcr P l r + rcl P l r)
noncomputable def pstar (P : Params) (l r : Prim ℝ) : ℝ :=
  (rcr P l r * sideP P l + rcl P l r * sideP P r + rcl P l r * rcr P l r * (l.u - r.u)) /
    (rcr P l r + rcl P l r)

/-- L159-164: density and energy of the star region next to the side `q` with wave speed `S`. -/
noncomputable def rstar (P : Params) (l r q : Prim ℝ) (S : ℝ) : ℝ :=
  sideR P q * (S - q.u) / (S - ustar P l r)
noncomputable def estar (P : Params) (l r q : Prim ℝ) (S : ℝ) : ℝ :=
  ((S - q.u) * sideE P q - sideP P q * q.u + pstar P l r * ustar P l r) / (S - ustar P l r)

/-- What is sampled at the interface: `ro`, `uo`, `ptoto`, `etoto`. -/
structure Sample where
  ro : ℝ
  uo : ℝ
  pt : ℝ
  et : ℝ

/-- L167-192. -/
noncomputable def sample (P : Params) (l r : Prim ℝ) : Sample :=
  if 0 < waveL P l r then ⟨sideR P l, l.u, sideP P l, sideE P l⟩
  else if 0 < ustar P l r then
    ⟨rstar P l r l (waveL P l r), ustar P l r, pstar P l r, estar P l r l (waveL P l r)⟩
  else if 0 < waveR P l r then
    ⟨rstar P l r r (waveR P l r), ustar P l r, pstar P l r, estar P l r r (waveR P l r)⟩
  else ⟨sideR P r, r.u, sideP P r, sideE P r⟩

/-- L195-204. -/
noncomputable def godunov (l r : Prim ℝ) (s : Sample) : Cons ℝ :=
  let frho := s.ro * s.uo
  ⟨frho, (s.et + s.pt) * s.uo, s.ro * s.uo * s.uo + s.pt,
    if 0 < frho then frho * l.v else frho * r.v, if 0 < frho then frho * l.w else frho * r.w⟩

/-- `riemann_hllc` L106-205, without `p_out` (which is `ptoto`). -/
noncomputable def hllc (P : Params) (l r : Prim ℝ) : Cons ℝ := godunov l r (sample P l r)

/-- `HydroUpdate_utils.h` L158-166, `HydroUpdate_hancock.cpp` L150-163,
`HydroUpdate_hancock_oneneighbor.cpp` L205-215: flux along direction `dir`. -/
noncomputable def fluxDir (P : Params) (dir : Fin 3) (l r : Prim ℝ) : Cons ℝ :=
  swapCons dir (hllc P (swapPrim dir l) (swapPrim dir r))

/-! ### Specification -/

/-- Valid parameters. -/
structure Params.Ok (P : Params) : Prop where
  gamma : 1 < P.gamma
  smallr : 0 < P.smallr
  smallp : 0 < P.smallp

/-- States on which the floors of the solver have no effect. -/
def Admissible (P : Params) (q : Prim ℝ) : Prop := P.smallr ≤ q.rho ∧ q.rho * P.smallp ≤ q.p

/-- Velocity component along `dir`. -/
def Prim.vel {K : Type} (q : Prim K) : Fin 3 → K
  | 0 => q.u
  | 1 => q.v
  | 2 => q.w

def Cons.mom {K : Type} (q : Cons K) : Fin 3 → K
  | 0 => q.ru
  | 1 => q.rv
  | 2 => q.rw

/-- The Euler flux of an ideal gas along direction `d`. -/
noncomputable def eulerFlux (gamma : ℝ) (d : Fin 3) (q : Prim ℝ) : Cons ℝ :=
  let E := q.p / (gamma - 1) + q.rho * (q.u ^ 2 + q.v ^ 2 + q.w ^ 2) / 2
  let vn := q.vel d
  ⟨q.rho * vn, (E + q.p) * vn, q.rho * q.u * vn + (if d = 0 then q.p else 0),
    q.rho * q.v * vn + (if d = 1 then q.p else 0), q.rho * q.w * vn + (if d = 2 then q.p else 0)⟩

/-- Mirror image at a wall normal to `d`. -/
def Prim.mirror {K : Type} [Neg K] (d : Fin 3) (q : Prim K) : Prim K :=
  ⟨q.rho, q.p, if d = 0 then -q.u else q.u, if d = 1 then -q.v else q.v, if d = 2 then -q.w else q.w⟩

/-- What the mirror image of a flux through a wall normal to `d` is: the normal direction is reversed,
so all components change sign, but normal momentum changes sign twice. -/
def Cons.mirrorFlux {K : Type} [Neg K] (d : Fin 3) (f : Cons K) : Cons K :=
  ⟨-f.rho, -f.e, if d = 0 then f.ru else -f.ru, if d = 1 then f.rv else -f.rv,
    if d = 2 then f.rw else -f.rw⟩

/-! ### Facts about the wave speeds -/

section

variable {P : Params} (hP : P.Ok)

include hP

theorem sideR_pos (q : Prim ℝ) : 0 < sideR P q := lt_max_of_lt_right hP.smallr

theorem sideP_pos (q : Prim ℝ) : 0 < sideP P q :=
  lt_max_of_lt_right (mul_pos (sideR_pos hP q) hP.smallp)

theorem cfast_sq (q : Prim ℝ) : P.gamma * sideP P q ≤ sideR P q * cfast P q ^ 2 := by
  have hr := sideR_pos hP q
  have h0 : 0 ≤ max (P.gamma * sideP P q / sideR P q) (P.smallc * P.smallc) :=
    le_max_of_le_right (mul_self_nonneg _)
  have h1 : P.gamma * sideP P q / sideR P q ≤ cfast P q ^ 2 := by
    unfold cfast
    rw [Real.sq_sqrt h0]
    exact le_max_left _ _
  rw [div_le_iff₀ hr] at h1
  linarith

theorem cfast_pos (q : Prim ℝ) : 0 < cfast P q := by
  unfold cfast
  apply Real.sqrt_pos.2
  apply lt_max_of_lt_left
  exact div_pos (mul_pos (lt_trans zero_lt_one hP.gamma) (sideP_pos hP q)) (sideR_pos hP q)

/-- Everything needed of the wave speeds: the fluxes of the two sides relative to the waves. -/
theorem waves (l r : Prim ℝ) :
    0 < l.u - waveL P l r ∧ 0 < waveR P l r - r.u ∧ 0 < rcl P l r ∧ 0 < rcr P l r ∧
      waveL P l r < ustar P l r ∧ ustar P l r < waveR P l r := by
  have hrl := sideR_pos hP l
  have hrr := sideR_pos hP r
  have hpl := sideP_pos hP l
  have hpr := sideP_pos hP r
  have hcl := cfast_pos hP l
  have hcr := cfast_pos hP r
  have hsl := cfast_sq hP l
  have hsr := cfast_sq hP r
  have hg := hP.gamma
  have a1 : cfast P l ≤ l.u - waveL P l r := by
    unfold waveL
    have := min_le_left l.u r.u
    have := le_max_left (cfast P l) (cfast P r)
    linarith
  have a2 : cfast P r ≤ r.u - waveL P l r := by
    unfold waveL
    have := min_le_right l.u r.u
    have := le_max_right (cfast P l) (cfast P r)
    linarith
  have a3 : cfast P l ≤ waveR P l r - l.u := by
    unfold waveR
    have := le_max_left l.u r.u
    have := le_max_left (cfast P l) (cfast P r)
    linarith
  have a4 : cfast P r ≤ waveR P l r - r.u := by
    unfold waveR
    have := le_max_right l.u r.u
    have := le_max_right (cfast P l) (cfast P r)
    linarith
  have p1 : 0 < l.u - waveL P l r := lt_of_lt_of_le hcl a1
  have p4 : 0 < waveR P l r - r.u := lt_of_lt_of_le hcr a4
  have hL : 0 < rcl P l r := mul_pos hrl p1
  have hR : 0 < rcr P l r := mul_pos hrr p4
  have hD : 0 < rcr P l r + rcl P l r := add_pos hR hL
  refine ⟨p1, p4, hL, hR, ?_, ?_⟩
  · unfold ustar
    rw [lt_div_iff₀ hD]
    have e1 : sideR P r * cfast P r ^ 2 ≤ rcr P l r * (r.u - waveL P l r) := by
      unfold rcr
      rw [mul_assoc, pow_two]
      exact mul_le_mul_of_nonneg_left (mul_le_mul a4 a2 hcr.le (le_trans hcr.le a4)) hrr.le
    have e2 : 0 < rcl P l r * (l.u - waveL P l r) := mul_pos hL p1
    have e3 : sideP P r < P.gamma * sideP P r := by nlinarith
    nlinarith
  · unfold ustar
    rw [div_lt_iff₀ hD]
    have e1 : sideR P l * cfast P l ^ 2 ≤ rcl P l r * (waveR P l r - l.u) := by
      unfold rcl
      rw [mul_assoc, pow_two]
      exact mul_le_mul_of_nonneg_left (mul_le_mul a1 a3 hcl.le (le_trans hcl.le a1)) hrl.le
    have e2 : 0 < rcr P l r * (waveR P l r - r.u) := mul_pos hR p4
    have e3 : sideP P l < P.gamma * sideP P l := by nlinarith
    nlinarith

/-- Pressure behind the left and the right wave. -/
theorem pstar_left (l r : Prim ℝ) :
    pstar P l r = sideP P l + rcl P l r * (l.u - ustar P l r) := by
  obtain ⟨-, -, hL, hR, -, -⟩ := waves hP l r
  have hD : rcr P l r + rcl P l r ≠ 0 := (add_pos hR hL).ne'
  unfold pstar ustar
  field_simp
  ring

theorem pstar_right (l r : Prim ℝ) :
    pstar P l r = sideP P r + rcr P l r * (ustar P l r - r.u) := by
  obtain ⟨-, -, hL, hR, -, -⟩ := waves hP l r
  have hD : rcr P l r + rcl P l r ≠ 0 := (add_pos hR hL).ne'
  unfold pstar ustar
  field_simp
  ring

end

/-! ### Mirror symmetry -/

/-- The flux without transverse momentum. -/
def Sample.main (s : Sample) : ℝ × ℝ × ℝ := (s.ro * s.uo, (s.et + s.pt) * s.uo, s.ro * s.uo * s.uo + s.pt)

section

variable {P : Params}

local notation "mx" => Prim.mirror (0 : Fin 3)

theorem mx_u (q : Prim ℝ) : (mx q).u = -q.u := rfl
theorem mx_R (q : Prim ℝ) : sideR P (mx q) = sideR P q := rfl
theorem mx_P (q : Prim ℝ) : sideP P (mx q) = sideP P q := rfl
theorem mx_E (q : Prim ℝ) : sideE P (mx q) = sideE P q := by
  unfold sideE
  rw [mx_R, mx_P, mx_u, neg_mul_neg]
  rfl
theorem mx_c (q : Prim ℝ) : cfast P (mx q) = cfast P q := rfl

theorem mx_waveL (l r : Prim ℝ) : waveL P (mx r) (mx l) = -waveR P l r := by
  unfold waveL waveR
  rw [mx_u, mx_u, mx_c, mx_c, min_neg_neg, max_comm (cfast P r), max_comm r.u]
  ring

theorem mx_waveR (l r : Prim ℝ) : waveR P (mx r) (mx l) = -waveL P l r := by
  unfold waveL waveR
  rw [mx_u, mx_u, mx_c, mx_c, max_neg_neg, max_comm (cfast P r), min_comm r.u]
  ring

theorem mx_rcl (l r : Prim ℝ) : rcl P (mx r) (mx l) = rcr P l r := by
  unfold rcl rcr
  rw [mx_waveL, mx_R, mx_u]
  ring

theorem mx_rcr (l r : Prim ℝ) : rcr P (mx r) (mx l) = rcl P l r := by
  unfold rcl rcr
  rw [mx_waveR, mx_R, mx_u]
  ring

theorem mx_ustar (l r : Prim ℝ) : ustar P (mx r) (mx l) = -ustar P l r := by
  unfold ustar
  rw [mx_rcl, mx_rcr, mx_u, mx_u, mx_P, mx_P, ← neg_div, add_comm (rcl P l r) (rcr P l r)]
  congr 1
  ring

theorem mx_pstar (l r : Prim ℝ) : pstar P (mx r) (mx l) = pstar P l r := by
  unfold pstar
  rw [mx_rcl, mx_rcr, mx_u, mx_u, mx_P, mx_P, add_comm (rcl P l r) (rcr P l r)]
  congr 1
  ring

theorem mx_rstar (l r q : Prim ℝ) (S : ℝ) : rstar P (mx r) (mx l) (mx q) (-S) = rstar P l r q S := by
  unfold rstar
  rw [mx_ustar, mx_R, mx_u, show -S - -q.u = -(S - q.u) by ring,
    show -S - -ustar P l r = -(S - ustar P l r) by ring, mul_neg, neg_div_neg_eq]

theorem mx_estar (l r q : Prim ℝ) (S : ℝ) : estar P (mx r) (mx l) (mx q) (-S) = estar P l r q S := by
  unfold estar
  rw [mx_ustar, mx_pstar, mx_E, mx_P, mx_u, show -S - -q.u = -(S - q.u) by ring,
    show -S - -ustar P l r = -(S - ustar P l r) by ring, ← neg_div_neg_eq]
  congr 1
  · ring
  · ring

variable (hP : P.Ok)
include hP

/-- The flux behind a wave that does not move is that in front of it. -/
theorem main_left (l r : Prim ℝ) (h : waveL P l r = 0) :
    Sample.main ⟨rstar P l r l (waveL P l r), ustar P l r, pstar P l r, estar P l r l (waveL P l r)⟩ =
      Sample.main ⟨sideR P l, l.u, sideP P l, sideE P l⟩ := by
  obtain ⟨-, -, -, -, hlt, -⟩ := waves hP l r
  have hp := pstar_left hP l r
  unfold rcl at hp
  rw [h] at hlt hp
  have hu : ustar P l r ≠ 0 := hlt.ne'
  have hu' : 0 - ustar P l r ≠ 0 := by rw [zero_sub]; exact neg_ne_zero.2 hu
  have h1 : rstar P l r l 0 * ustar P l r = sideR P l * l.u := by
    unfold rstar
    field_simp
    ring
  have h2 : estar P l r l 0 * ustar P l r =
      sideE P l * l.u + sideP P l * l.u - pstar P l r * ustar P l r := by
    unfold estar
    field_simp
    ring
  unfold Sample.main
  rw [h]
  simp only [Prod.mk.injEq]
  refine ⟨h1, ?_, ?_⟩
  · rw [add_mul, h2]; ring
  · rw [h1, hp]; ring

theorem main_right (l r : Prim ℝ) (h : waveR P l r = 0) :
    Sample.main ⟨rstar P l r r (waveR P l r), ustar P l r, pstar P l r, estar P l r r (waveR P l r)⟩ =
      Sample.main ⟨sideR P r, r.u, sideP P r, sideE P r⟩ := by
  obtain ⟨-, -, -, -, -, hlt⟩ := waves hP l r
  have hp := pstar_right hP l r
  unfold rcr at hp
  rw [h] at hlt hp
  have hu : ustar P l r ≠ 0 := hlt.ne
  have hu' : 0 - ustar P l r ≠ 0 := by rw [zero_sub]; exact neg_ne_zero.2 hu
  have h1 : rstar P l r r 0 * ustar P l r = sideR P r * r.u := by
    unfold rstar
    field_simp
    ring
  have h2 : estar P l r r 0 * ustar P l r =
      sideE P r * r.u + sideP P r * r.u - pstar P l r * ustar P l r := by
    unfold estar
    field_simp
    ring
  unfold Sample.main
  rw [h]
  simp only [Prod.mk.injEq]
  refine ⟨h1, ?_, ?_⟩
  · rw [add_mul, h2]; ring
  · rw [h1, hp]; ring

theorem sample_mirror (l r : Prim ℝ) :
    (sample P (mx r) (mx l)).main =
      (-(sample P l r).main.1, -(sample P l r).main.2.1, (sample P l r).main.2.2) := by
  obtain ⟨-, -, -, -, h1, h2⟩ := waves hP l r
  have neg : ∀ a b c d : ℝ, Sample.main ⟨a, -b, c, d⟩ =
      (-(Sample.main ⟨a, b, c, d⟩).1, -(Sample.main ⟨a, b, c, d⟩).2.1,
        (Sample.main ⟨a, b, c, d⟩).2.2) := by
    intro a b c d
    simp [Sample.main]
  have nl : ∀ x : ℝ, 0 < -x ↔ x < 0 := fun x => neg_pos
  unfold sample
  rw [mx_waveL, mx_waveR, mx_ustar, mx_pstar, mx_rstar, mx_rstar, mx_estar, mx_estar]
  simp only [mx_R, mx_P, mx_E, mx_u, nl]
  generalize hSL : waveL P l r = SL at *
  generalize hSR : waveR P l r = SR at *
  rcases lt_trichotomy 0 SL with h | h | h
  · rw [if_pos h, if_neg (by linarith), if_neg (by linarith), if_neg (by linarith)]
    exact neg _ _ _ _
  · subst h
    rw [if_neg (lt_irrefl _), if_pos h1, if_neg (by linarith), if_neg (by linarith),
      if_neg (lt_irrefl _), neg]
    have := main_left hP l r hSL
    rw [hSL] at this
    rw [this]
  · rw [if_neg (not_lt.2 h.le)]
    rcases lt_trichotomy 0 (ustar P l r) with k | k | k
    · rw [if_pos k, if_neg (by linarith), if_neg (by linarith), if_pos h]
      exact neg _ _ _ _
    · rw [← k] at h2
      have k1 : ¬ 0 < ustar P l r := by rw [← k]; exact lt_irrefl _
      have k2 : ¬ ustar P l r < 0 := by rw [← k]; exact lt_irrefl _
      rw [if_neg k1, if_pos h2, if_neg (not_lt.2 h2.le), if_neg k2, if_pos h, ← k]
      simp [Sample.main]
    · rw [if_neg (not_lt.2 k.le)]
      rcases lt_trichotomy 0 SR with m | m | m
      · rw [if_pos m, if_neg (by linarith), if_pos k]
        exact neg _ _ _ _
      · subst m
        rw [if_neg (lt_irrefl _), if_neg (lt_irrefl _), if_pos k, neg]
        have := main_right hP l r hSR
        rw [hSR] at this
        rw [this]
      · rw [if_neg (not_lt.2 m.le), if_pos m]
        exact neg _ _ _ _

/-- Mirror symmetry of the one-dimensional solver. -/
theorem hllc_mirror (l r : Prim ℝ) :
    hllc P (mx r) (mx l) = (hllc P l r).mirrorFlux 0 := by
  have h := sample_mirror hP l r
  unfold hllc
  generalize sample P (mx r) (mx l) = s' at h
  generalize sample P l r = s at h
  simp only [Sample.main, Prod.mk.injEq] at h
  obtain ⟨a, b, c⟩ := h
  unfold godunov Cons.mirrorFlux
  simp only [a, b, Cons.mk.injEq, true_and]
  rw [a] at c
  have hv : ∀ x y : ℝ, (if 0 < -(s.ro * s.uo) then -(s.ro * s.uo) * y else -(s.ro * s.uo) * x) =
      -(if 0 < s.ro * s.uo then s.ro * s.uo * x else s.ro * s.uo * y) := by
    intro x y
    rcases lt_trichotomy 0 (s.ro * s.uo) with h | h | h
    · rw [if_pos h, if_neg (by linarith)]; ring
    · rw [← h]; simp
    · rw [if_neg (not_lt.2 h.le), if_pos (by linarith)]; ring
  refine ⟨?_, ?_, ?_⟩
  · rw [if_pos trivial, ← c]
  · have := hv l.v r.v
    simpa [Prim.mirror] using this
  · have := hv l.w r.w
    simpa [Prim.mirror] using this

/-- Consistency of the one-dimensional solver. -/
theorem hllc_consistent (q : Prim ℝ) (hq : Admissible P q) : hllc P q q = eulerFlux P.gamma 0 q := by
  have hR : sideR P q = q.rho := max_eq_left hq.1
  have hPp : sideP P q = q.p := by unfold sideP; rw [hR]; exact max_eq_left hq.2
  obtain ⟨w1, w2, hL, hR', h1, h2⟩ := waves hP q q
  have hD : rcr P q q + rcl P q q ≠ 0 := (add_pos hR' hL).ne'
  have hu : ustar P q q = q.u := by
    unfold ustar
    field_simp
    ring
  have hp : pstar P q q = q.p := by
    rw [pstar_left hP, hu, hPp]; ring
  have hr : ∀ S : ℝ, S - q.u ≠ 0 → rstar P q q q S = q.rho := by
    intro S hS
    unfold rstar
    rw [hu, hR]
    field_simp
  have he : ∀ S : ℝ, S - q.u ≠ 0 → estar P q q q S = sideE P q := by
    intro S hS
    unfold estar
    rw [hu, hp, hPp]
    field_simp
    ring
  have hs : sample P q q = ⟨q.rho, q.u, q.p, sideE P q⟩ := by
    unfold sample
    rw [hu, hr _ (by linarith), hr _ (by linarith), he _ (by linarith), he _ (by linarith), hp, hR, hPp]
    split
    · rfl
    · split
      · rfl
      · split <;> rfl
  have hE : sideE P q = q.p / (P.gamma - 1) + q.rho * (q.u ^ 2 + q.v ^ 2 + q.w ^ 2) / 2 := by
    unfold sideE
    rw [hR, hPp]
    ring
  unfold hllc
  rw [hs]
  unfold godunov eulerFlux
  simp only [ite_self, hE, Prim.vel, Cons.mk.injEq, true_and, if_true]
  refine ⟨?_, ?_⟩
  · rw [if_neg (by decide)]; ring
  · rw [if_neg (by decide)]; ring

/-! ### Theorems -/

/-- **C44** For equal states the solver returns the physical flux, in every direction. -/
theorem C44_consistent (d : Fin 3) (q : Prim ℝ) (hq : Admissible P q) :
    fluxDir P d q q = eulerFlux P.gamma d q := by
  unfold fluxDir
  have ha : Admissible P (swapPrim d q) := by
    fin_cases d <;> exact hq
  rw [hllc_consistent hP _ ha]
  fin_cases d
  · rfl
  · simp [eulerFlux, swapPrim, swapCons, Prim.vel]
    left; left; ring
  · simp [eulerFlux, swapPrim, swapCons, Prim.vel]
    left; left; ring

omit hP in
theorem swap_mirror (d : Fin 3) (q : Prim ℝ) : swapPrim d (q.mirror d) = mx (swapPrim d q) := by
  fin_cases d <;> simp [swapPrim, Prim.mirror]

omit hP in
theorem swap_mirrorFlux (d : Fin 3) (f : Cons ℝ) :
    swapCons d (f.mirrorFlux 0) = (swapCons d f).mirrorFlux d := by
  fin_cases d <;> simp [swapCons, Cons.mirrorFlux]

/-- **C44** Exchanging and reflecting the two states reflects the flux, in every direction, for all
states. -/
theorem C44_mirror (d : Fin 3) (l r : Prim ℝ) :
    fluxDir P d (r.mirror d) (l.mirror d) = (fluxDir P d l r).mirrorFlux d := by
  unfold fluxDir
  rw [swap_mirror, swap_mirror, hllc_mirror hP, swap_mirrorFlux]

/-- **C47** Between a state and its mirror image the flux of mass, energy and tangential momentum is
zero: only pressure acts on a wall. -/
theorem C47_wall_flux (d : Fin 3) (q : Prim ℝ) :
    (fluxDir P d q (q.mirror d)).rho = 0 ∧ (fluxDir P d q (q.mirror d)).e = 0 ∧
      ∀ k, k ≠ d → (fluxDir P d q (q.mirror d)).mom k = 0 := by
  have hmm : (q.mirror d).mirror d = q := by
    obtain ⟨a, b, u, v, w⟩ := q
    fin_cases d <;> simp [Prim.mirror]
  have h := C44_mirror hP d q (q.mirror d)
  rw [hmm] at h
  generalize fluxDir P d q (q.mirror d) = f at h
  obtain ⟨a, b, x, y, z⟩ := f
  simp only [Cons.mirrorFlux, Cons.mk.injEq] at h
  obtain ⟨h1, h2, h3, h4, h5⟩ := h
  refine ⟨by simp only; linarith, by simp only; linarith, ?_⟩
  intro k hk
  fin_cases d <;> fin_cases k <;> simp [Cons.mom] at * <;> linarith

/-- The same with the image on the left, as on a lower boundary. -/
theorem C47_wall_flux_left (d : Fin 3) (q : Prim ℝ) :
    (fluxDir P d (q.mirror d) q).rho = 0 ∧ (fluxDir P d (q.mirror d) q).e = 0 ∧
      ∀ k, k ≠ d → (fluxDir P d (q.mirror d) q).mom k = 0 := by
  have hmm : (q.mirror d).mirror d = q := by
    obtain ⟨a, b, u, v, w⟩ := q
    fin_cases d <;> simp [Prim.mirror]
  have h := C47_wall_flux hP d (q.mirror d)
  rw [hmm] at h
  exact h

end

/-! ### Examples -/

/-- Parameters and states meeting the hypotheses; the flux is not zero. -/
example : Params.Ok ⟨7 / 5, 1 / 1000, 1 / 1000, 1 / 1000⟩ := ⟨by norm_num, by norm_num, by norm_num⟩

example : Admissible ⟨7 / 5, 1 / 1000, 1 / 1000, 1 / 1000⟩ ⟨1, 1, 3, -2, 1⟩ := by
  constructor <;> norm_num

example : eulerFlux 2 1 ⟨1, 1, 3, -2, 1⟩ = ⟨-2, -18, -6, 5, -2⟩ := by
  simp [eulerFlux, Prim.vel]; norm_num

end Verif.Hydro
