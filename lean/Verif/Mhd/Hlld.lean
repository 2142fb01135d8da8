import Verif.Mhd.FiveWaves

/-!
# C71: the HLLD Riemann solver

Model of `riemann_hlld` (`core/src/RiemannSolvers.h` L305-542) over the real numbers. `bx` is the normal
field at the face, an argument of the function. Where the code has the same formulas for left and right,
the model has one definition with the state `q` and the wave speed `S` of the side as arguments.
-/

namespace Verif.Mhd

/-! ### Model -/

/-- L325. -/
noncomputable def bsgn (bx : ℝ) : ℝ := if bx < 0 then -1 else 1

/-- L335-337, L346-348. -/
noncomputable def sideB2 (bx : ℝ) (q : Prim ℝ) : ℝ := bx * bx + q.by' * q.by' + q.bz * q.bz
noncomputable def sidePT (bx : ℝ) (q : Prim ℝ) : ℝ := q.p + 1 / 2 * sideB2 bx q
noncomputable def sideE (P : Params) (bx : ℝ) (q : Prim ℝ) : ℝ :=
  q.p / (P.gamma - 1) + 1 / 2 * q.rho * (q.u * q.u + q.v * q.v + q.w * q.w) + 1 / 2 * sideB2 bx q

/-- L356-361. -/
noncomputable def fastH (P : Params) (bx : ℝ) (q : Prim ℝ) : ℝ :=
  let gp := P.gamma * q.p
  let B2 := bx * bx + q.by' * q.by' + q.bz * q.bz
  √(1 / 2 * (gp + B2 + √((gp + B2) * (gp + B2) - 4 * gp * bx * bx)) / q.rho)

/-- L367-368. -/
noncomputable def hSL (P : Params) (bx : ℝ) (l r : Prim ℝ) : ℝ :=
  min l.u r.u - max (fastH P bx l) (fastH P bx r)
noncomputable def hSR (P : Params) (bx : ℝ) (l r : Prim ℝ) : ℝ :=
  max l.u r.u + max (fastH P bx l) (fastH P bx r)

/-- L371-372. -/
noncomputable def hCL (P : Params) (bx : ℝ) (l r : Prim ℝ) : ℝ := l.rho * (l.u - hSL P bx l r)
noncomputable def hCR (P : Params) (bx : ℝ) (l r : Prim ℝ) : ℝ := r.rho * (hSR P bx l r - r.u)

/-- L375. -/
noncomputable def hU (P : Params) (bx : ℝ) (l r : Prim ℝ) : ℝ :=
  (hCR P bx l r * r.u + hCL P bx l r * l.u - sidePT bx r + sidePT bx l) / (hCR P bx l r + hCL P bx l r)

/-- L378. -/
noncomputable def hP (P : Params) (bx : ℝ) (l r : Prim ℝ) : ℝ :=
  (hCR P bx l r * sidePT bx l + hCL P bx l r * sidePT bx r - hCR P bx l r * hCL P bx l r * (r.u - l.u)) /
    (hCR P bx l r + hCL P bx l r)

/-- A state between the waves: `q.p` is the total pressure, as in the code (L470-539). -/
structure Full where
  q : Prim ℝ
  e : ℝ

section

variable (P : Params) (bx s pt : ℝ) (q : Prim ℝ) (S rc : ℝ)

/-- L381-382; `s` is the velocity of the middle wave. -/
noncomputable def starR : ℝ := q.rho * (S - q.u) / (S - s)

/-- L385-386. -/
noncomputable def econv : ℝ := q.rho * (S - q.u) * (S - s) - bx * bx

/-- L388-391; `rc` is `rCL` or `rCR`. -/
noncomputable def uconv : ℝ := (s - q.u) / econv bx s q S
noncomputable def bconv : ℝ := (rc * rc / q.rho - bx * bx) / econv bx s q S

/-- L396, L410. -/
def Switch : Prop := |econv bx s q S| < P.smalle * bx * bx

open Classical in
/-- L396-421: tangential velocity and field. -/
noncomputable def starV : ℝ := if Switch P bx s q S then q.v else q.v - bx * q.by' * uconv bx s q S
open Classical in
noncomputable def starW : ℝ := if Switch P bx s q S then q.w else q.w - bx * q.bz * uconv bx s q S
open Classical in
noncomputable def starBy : ℝ := if Switch P bx s q S then q.by' else q.by' * bconv bx s q S rc
open Classical in
noncomputable def starBz : ℝ := if Switch P bx s q S then q.bz else q.bz * bconv bx s q S rc

/-- L424-427. -/
noncomputable def udotB : ℝ := q.u * bx + q.v * q.by' + q.w * q.bz
noncomputable def udotBS : ℝ :=
  s * bx + starV P bx s q S * starBy P bx s q S rc + starW P bx s q S * starBz P bx s q S rc

/-- L429-430. -/
noncomputable def starE : ℝ :=
  ((S - q.u) * sideE P bx q - sidePT bx q * q.u + pt * s + bx * (udotB bx q - udotBS P bx s q S rc)) /
    (S - s)

/-- L477-490, L519-532: the state behind an outer wave. -/
noncomputable def starState : Full :=
  ⟨⟨starR s q S, pt, s, starV P bx s q S, starW P bx s q S, bx, starBy P bx s q S rc,
    starBz P bx s q S rc⟩, starE P bx s pt q S rc⟩

end

section

variable (bx : ℝ) (a d : Full)

/-- L439: `a` and `d` are the states behind the outer waves. -/
noncomputable def denFac : ℝ := 1 / (√a.q.rho + √d.q.rho)

/-- L440-443. -/
noncomputable def ssV : ℝ :=
  (√a.q.rho * a.q.v + √d.q.rho * d.q.v + (d.q.by' - a.q.by') * bsgn bx) * denFac a d
noncomputable def ssW : ℝ :=
  (√a.q.rho * a.q.w + √d.q.rho * d.q.w + (d.q.bz - a.q.bz) * bsgn bx) * denFac a d
noncomputable def ssBy : ℝ :=
  (√a.q.rho * d.q.by' + √d.q.rho * a.q.by' + √a.q.rho * √d.q.rho * (d.q.v - a.q.v) * bsgn bx) *
    denFac a d
noncomputable def ssBz : ℝ :=
  (√a.q.rho * d.q.bz + √d.q.rho * a.q.bz + √a.q.rho * √d.q.rho * (d.q.w - a.q.w) * bsgn bx) *
    denFac a d

/-- L445; the velocity of the middle wave is that of `a`. -/
noncomputable def ssUB : ℝ := a.q.u * bx + ssV bx a d * ssBy bx a d + ssW bx a d * ssBz bx a d

/-- L426-427, again. -/
noncomputable def fullUB (x : Full) : ℝ := x.q.u * bx + x.q.v * x.q.by' + x.q.w * x.q.bz

/-- L447-448. -/
noncomputable def ssEL : ℝ := a.e - √a.q.rho * (fullUB bx a - ssUB bx a d) * bsgn bx
noncomputable def ssER : ℝ := d.e + √d.q.rho * (fullUB bx d - ssUB bx a d) * bsgn bx

/-- L491-504, L505-518: the states next to the middle wave. -/
noncomputable def ssL : Full :=
  ⟨⟨a.q.rho, a.q.p, a.q.u, ssV bx a d, ssW bx a d, bx, ssBy bx a d, ssBz bx a d⟩, ssEL bx a d⟩
noncomputable def ssR : Full :=
  ⟨⟨d.q.rho, d.q.p, d.q.u, ssV bx a d, ssW bx a d, bx, ssBy bx a d, ssBz bx a d⟩, ssER bx a d⟩

end

/-- L451-464. -/
def computeFlux (x : Full) : Cons ℝ :=
  let q := x.q
  ⟨q.rho * q.u, (x.e + q.p) * q.u - q.bx * (q.bx * q.u + q.by' * q.v + q.bz * q.w),
    q.rho * q.u * q.u + q.p - q.bx * q.bx, q.rho * q.u * q.v - q.bx * q.by',
    q.rho * q.u * q.w - q.bx * q.bz, 0, q.by' * q.u - q.bx * q.v, q.bz * q.u - q.bx * q.w⟩

section

variable (P : Params) (bx : ℝ) (l r : Prim ℝ)

noncomputable def hA : Full :=
  starState P bx (hU P bx l r) (hP P bx l r) l (hSL P bx l r) (hCL P bx l r)
noncomputable def hD : Full :=
  starState P bx (hU P bx l r) (hP P bx l r) r (hSR P bx l r) (hCR P bx l r)

/-- L433-436. -/
noncomputable def hSLs : ℝ := hU P bx l r - |bx| / √(hA P bx l r).q.rho
noncomputable def hSRs : ℝ := hU P bx l r + |bx| / √(hD P bx l r).q.rho

/-- L470-476, L533-539: an outer state. Its normal field is that of the state, not that of the face. -/
noncomputable def outerState (q : Prim ℝ) : Full := ⟨{ q with p := sidePT bx q }, sideE P bx q⟩

/-- L468-539: the state at the face and `p_out`. -/
noncomputable def hSample : Full × ℝ :=
  if 0 < hSL P bx l r then (outerState P bx l, l.p)
  else if 0 < hSLs P bx l r then (hA P bx l r, l.p)
  else if 0 < hU P bx l r then (ssL bx (hA P bx l r) (hD P bx l r), l.p)
  else if 0 < hSRs P bx l r then (ssR bx (hA P bx l r) (hD P bx l r), r.p)
  else if 0 < hSR P bx l r then (hD P bx l r, r.p)
  else (outerState P bx r, r.p)

/-- `riemann_hlld` L317-542. -/
noncomputable def hlld : Cons ℝ := computeFlux (hSample P bx l r).1
noncomputable def hlldPOut : ℝ := (hSample P bx l r).2

end

/-! ### Specification -/

/-- Conserved variables of a state with given total energy. -/
def Full.cons (x : Full) : Cons ℝ :=
  Cons.of x.q.rho x.e (fun i => x.q.rho * x.q.vel i) x.q.mag

/-- Flux along the first direction of a state with given total pressure `x.q.p` and total energy. -/
noncomputable def Full.flux (x : Full) : Cons ℝ :=
  Cons.of (x.q.rho * x.q.vel 0) ((x.e + x.q.p) * x.q.vel 0 - x.q.mag 0 * dot x.q.vel x.q.mag)
    (fun i => x.q.rho * x.q.vel i * x.q.vel 0 + (if i = 0 then x.q.p else 0) - x.q.mag 0 * x.q.mag i)
    (fun i => x.q.mag i * x.q.vel 0 - x.q.mag 0 * x.q.vel i)

/-- A gas as a state with total pressure and total energy. -/
noncomputable def Full.ofGas (gamma : ℝ) (q : Prim ℝ) : Full :=
  ⟨{ q with p := q.p + dot q.mag q.mag / 2 }, energy gamma q⟩

/-- The jump condition at a wave of speed `S`. -/
def Jump (S : ℝ) (x y : Full) : Prop :=
  (y.flux).rho - (x.flux).rho = S * (y.cons.rho - x.cons.rho) ∧
  (y.flux).e - (x.flux).e = S * (y.cons.e - x.cons.e) ∧
  (y.flux).ru - (x.flux).ru = S * (y.cons.ru - x.cons.ru) ∧
  (y.flux).rv - (x.flux).rv = S * (y.cons.rv - x.cons.rv) ∧
  (y.flux).rw - (x.flux).rw = S * (y.cons.rw - x.cons.rw) ∧
  (y.flux).bx - (x.flux).bx = S * (y.cons.bx - x.cons.bx) ∧
  (y.flux).by' - (x.flux).by' = S * (y.cons.by' - x.cons.by') ∧
  (y.flux).bz - (x.flux).bz = S * (y.cons.bz - x.cons.bz)

/-- The fast speed of a gas along the first direction. -/
noncomputable def fastSpeed (gamma : ℝ) (q : Prim ℝ) : ℝ :=
  let a2 := gamma * q.p / q.rho
  let b2 := dot q.mag q.mag / q.rho
  √((a2 + b2 + √((a2 + b2) ^ 2 - 4 * a2 * (q.bx ^ 2 / q.rho))) / 2)

/-! ### Wave speeds -/

/-- `γ p + B²` and the fast speed. -/
theorem fastH_sq {P : Params} (hg : 0 < P.gamma) (bx : ℝ) {q : Prim ℝ} (hq : Gas q) :
    0 < fastH P bx q ∧ P.gamma * q.p + (q.by' ^ 2 + q.bz ^ 2) / 2 ≤ q.rho * fastH P bx q ^ 2 ∧
      bx ^ 2 ≤ q.rho * fastH P bx q ^ 2 ∧
      (q.rho * fastH P bx q ^ 2 - (P.gamma * q.p + q.by' ^ 2 + q.bz ^ 2)) *
        (q.rho * fastH P bx q ^ 2 - bx ^ 2) = bx ^ 2 * (q.by' ^ 2 + q.bz ^ 2) := by
  have hr := hq.1
  have hgp : 0 < P.gamma * q.p := mul_pos hg hq.2
  obtain ⟨D, hD⟩ : ∃ D, D = (P.gamma * q.p + (bx * bx + q.by' * q.by' + q.bz * q.bz)) *
      (P.gamma * q.p + (bx * bx + q.by' * q.by' + q.bz * q.bz)) - 4 * (P.gamma * q.p) * bx * bx := ⟨_, rfl⟩
  have hD' : D = (P.gamma * q.p + q.by' ^ 2 + q.bz ^ 2 - bx ^ 2) ^ 2 +
      4 * bx ^ 2 * (q.by' ^ 2 + q.bz ^ 2) := by rw [hD]; ring
  have hD0 : 0 ≤ D := by rw [hD']; positivity
  obtain ⟨s, hs⟩ : ∃ s, s = √D := ⟨_, rfl⟩
  have hs0 : 0 ≤ s := by rw [hs]; positivity
  have hs2 : s ^ 2 = (P.gamma * q.p + q.by' ^ 2 + q.bz ^ 2 - bx ^ 2) ^ 2 +
      4 * bx ^ 2 * (q.by' ^ 2 + q.bz ^ 2) := by rw [hs, Real.sq_sqrt hD0, hD']
  have hpos : 0 < 1 / 2 * (P.gamma * q.p + (bx * bx + q.by' * q.by' + q.bz * q.bz) + s) / q.rho := by
    have h1 := mul_self_nonneg bx
    have h2 := mul_self_nonneg q.by'
    have h3 := mul_self_nonneg q.bz
    have : 0 < P.gamma * q.p + (bx * bx + q.by' * q.by' + q.bz * q.bz) + s := by linarith
    positivity
  have hf : fastH P bx q =
      √(1 / 2 * (P.gamma * q.p + (bx * bx + q.by' * q.by' + q.bz * q.bz) + s) / q.rho) := by
    unfold fastH; simp only; rw [← hD, ← hs]
  have hX : q.rho * fastH P bx q ^ 2 =
      1 / 2 * (P.gamma * q.p + (bx ^ 2 + q.by' ^ 2 + q.bz ^ 2) + s) := by
    rw [hf, Real.sq_sqrt hpos.le]
    field_simp
  have key : |P.gamma * q.p + q.by' ^ 2 + q.bz ^ 2 - bx ^ 2| ≤ s := by
    apply abs_le_of_sq_le_sq _ hs0
    rw [hs2]
    have : 0 ≤ 4 * bx ^ 2 * (q.by' ^ 2 + q.bz ^ 2) := by positivity
    linarith
  have k1 := le_trans (le_abs_self _) key
  have k3 := neg_le_of_abs_le key
  have t : 0 ≤ q.by' ^ 2 + q.bz ^ 2 := by positivity
  refine ⟨?_, ?_, ?_, ?_⟩
  · rw [hf]; exact Real.sqrt_pos.2 hpos
  · rw [hX]; linarith
  · rw [hX]; linarith
  · rw [hX]; linear_combination 1 / 4 * hs2

/-- Everything needed of the wave speeds. -/
theorem hwaves {P : Params} (hg : 1 < P.gamma) (bx : ℝ) {l r : Prim ℝ} (hl : Gas l) (hr : Gas r) :
    0 < l.u - hSL P bx l r ∧ 0 < hSR P bx l r - r.u ∧ 0 < hCL P bx l r ∧ 0 < hCR P bx l r ∧
      hSL P bx l r < hU P bx l r ∧ hU P bx l r < hSR P bx l r := by
  have hg0 : 0 < P.gamma := by linarith
  obtain ⟨cl, sl, -, -⟩ := fastH_sq hg0 bx hl
  obtain ⟨cr, sr, -, -⟩ := fastH_sq hg0 bx hr
  have a1 : fastH P bx l ≤ l.u - hSL P bx l r := by
    unfold hSL
    have := min_le_left l.u r.u
    have := le_max_left (fastH P bx l) (fastH P bx r)
    linarith
  have a2 : fastH P bx r ≤ r.u - hSL P bx l r := by
    unfold hSL
    have := min_le_right l.u r.u
    have := le_max_right (fastH P bx l) (fastH P bx r)
    linarith
  have a3 : fastH P bx l ≤ hSR P bx l r - l.u := by
    unfold hSR
    have := le_max_left l.u r.u
    have := le_max_left (fastH P bx l) (fastH P bx r)
    linarith
  have a4 : fastH P bx r ≤ hSR P bx l r - r.u := by
    unfold hSR
    have := le_max_right l.u r.u
    have := le_max_right (fastH P bx l) (fastH P bx r)
    linarith
  have p1 : 0 < l.u - hSL P bx l r := lt_of_lt_of_le cl a1
  have p4 : 0 < hSR P bx l r - r.u := lt_of_lt_of_le cr a4
  have hL : 0 < hCL P bx l r := mul_pos hl.1 p1
  have hR : 0 < hCR P bx l r := mul_pos hr.1 p4
  have hD : 0 < hCR P bx l r + hCL P bx l r := add_pos hR hL
  have pos : ∀ q : Prim ℝ, Gas q → q.p < P.gamma * q.p := by
    intro q hq
    have := hq.2
    nlinarith
  refine ⟨p1, p4, hL, hR, ?_, ?_⟩
  · unfold hU
    rw [lt_div_iff₀ hD]
    have e1 : r.rho * fastH P bx r ^ 2 ≤ hCR P bx l r * (r.u - hSL P bx l r) := by
      unfold hCR
      rw [mul_assoc, pow_two]
      exact mul_le_mul_of_nonneg_left (mul_le_mul a4 a2 cr.le (le_trans cr.le a4)) hr.1.le
    have e2 : 0 < hCL P bx l r * (l.u - hSL P bx l r) := mul_pos hL p1
    have e3 := pos r hr
    have e4 : sidePT bx r - sidePT bx l ≤ r.p + (r.by' ^ 2 + r.bz ^ 2) / 2 := by
      unfold sidePT sideB2
      have := hl.2
      nlinarith [mul_self_nonneg l.by', mul_self_nonneg l.bz]
    nlinarith
  · unfold hU
    rw [div_lt_iff₀ hD]
    have e1 : l.rho * fastH P bx l ^ 2 ≤ hCL P bx l r * (hSR P bx l r - l.u) := by
      unfold hCL
      rw [mul_assoc, pow_two]
      exact mul_le_mul_of_nonneg_left (mul_le_mul a1 a3 cl.le (le_trans cl.le a1)) hl.1.le
    have e2 : 0 < hCR P bx l r * (hSR P bx l r - r.u) := mul_pos hR p4
    have e3 := pos l hl
    have e4 : sidePT bx l - sidePT bx r ≤ l.p + (l.by' ^ 2 + l.bz ^ 2) / 2 := by
      unfold sidePT sideB2
      have := hr.2
      nlinarith [mul_self_nonneg r.by', mul_self_nonneg r.bz]
    nlinarith

theorem hP_left {P : Params} (hg : 1 < P.gamma) (bx : ℝ) {l r : Prim ℝ} (hl : Gas l) (hr : Gas r) :
    hP P bx l r = sidePT bx l + l.rho * (hSL P bx l r - l.u) * (hU P bx l r - l.u) := by
  obtain ⟨-, -, hL, hR, -, -⟩ := hwaves hg bx hl hr
  have hD : hCR P bx l r + hCL P bx l r ≠ 0 := (add_pos hR hL).ne'
  rw [show l.rho * (hSL P bx l r - l.u) = -hCL P bx l r by unfold hCL; ring]
  unfold hP hU
  field_simp
  ring

theorem hP_right {P : Params} (hg : 1 < P.gamma) (bx : ℝ) {l r : Prim ℝ} (hl : Gas l) (hr : Gas r) :
    hP P bx l r = sidePT bx r + r.rho * (hSR P bx l r - r.u) * (hU P bx l r - r.u) := by
  obtain ⟨-, -, hL, hR, -, -⟩ := hwaves hg bx hl hr
  have hD : hCR P bx l r + hCL P bx l r ≠ 0 := (add_pos hR hL).ne'
  rw [show r.rho * (hSR P bx l r - r.u) = hCR P bx l r by unfold hCR; ring]
  unfold hP hU
  field_simp
  ring

theorem starR_pos {P : Params} (hg : 1 < P.gamma) (bx : ℝ) {l r : Prim ℝ} (hl : Gas l) (hr : Gas r) :
    0 < (hA P bx l r).q.rho ∧ 0 < (hD P bx l r).q.rho := by
  obtain ⟨h1, h2, -, -, h3, h4⟩ := hwaves hg bx hl hr
  constructor
  · show 0 < starR _ _ _
    unfold starR
    exact div_pos_of_neg_of_neg (mul_neg_of_pos_of_neg hl.1 (by linarith)) (by linarith)
  · show 0 < starR _ _ _
    unfold starR
    exact div_pos (mul_pos hr.1 (by linarith)) (by linarith)

/-! ### Jump conditions -/

theorem flux_eq (x : Full) : computeFlux x = x.flux := by
  unfold computeFlux Full.flux Cons.of dot
  simp only [Prim.vel, Prim.mag, if_true, if_neg (show ¬ ((1 : Fin 3) = 0) by decide),
    if_neg (show ¬ ((2 : Fin 3) = 0) by decide), Cons.mk.injEq]
  refine ⟨trivial, by ring, trivial, by ring, by ring, by ring, trivial, trivial⟩

theorem outer_eq (P : Params) {bx : ℝ} {q : Prim ℝ} (h : q.bx = bx) :
    outerState P bx q = Full.ofGas P.gamma q := by
  unfold outerState Full.ofGas sidePT sideE sideB2 energy dot
  simp only [Prim.vel, Prim.mag, ← h, Full.mk.injEq, Prim.mk.injEq, true_and, and_true]
  refine ⟨by ring, by ring⟩

/-- The condition under which the tangential components behind an outer wave satisfy the jump
conditions: the formula for them is used, or there is no tangential field. -/
def Resolved (P : Params) (bx s : ℝ) (q : Prim ℝ) (S : ℝ) : Prop :=
  P.smalle * bx ^ 2 ≤ |econv bx s q S| ∨ q.by' = 0 ∧ q.bz = 0

theorem tangential (P : Params) (hse : 0 < P.smalle) {bx s S rc : ℝ} {q : Prim ℝ} (hq : q.rho ≠ 0)
    (hrc : rc ^ 2 = (q.rho * (S - q.u)) ^ 2) (h0 : q.rho * (S - q.u) * (S - s) ≠ 0)
    (h : Resolved P bx s q S) :
    (q.rho * (S - q.u) * (starV P bx s q S - q.v) + bx * (starBy P bx s q S rc - q.by') = 0 ∧
      starBy P bx s q S rc * (S - s) = q.by' * (S - q.u) - bx * (starV P bx s q S - q.v)) ∧
    (q.rho * (S - q.u) * (starW P bx s q S - q.w) + bx * (starBz P bx s q S rc - q.bz) = 0 ∧
      starBz P bx s q S rc * (S - s) = q.bz * (S - q.u) - bx * (starW P bx s q S - q.w)) := by
  by_cases hs : Switch P bx s q S
  · rcases h with h | ⟨h1, h2⟩
    · unfold Switch at hs
      rw [mul_assoc, ← pow_two] at hs
      exact absurd hs (not_lt.2 h)
    · unfold starV starW starBy starBz
      simp only [if_pos hs, h1, h2]
      refine ⟨⟨by ring, by ring⟩, by ring, by ring⟩
  · have hne : econv bx s q S ≠ 0 := by
      intro hz
      unfold Switch at hs
      rw [hz, abs_zero, not_lt] at hs
      have : bx = 0 := by
        by_contra hb
        have : 0 < P.smalle * bx * bx := by
          rw [mul_assoc]
          exact mul_pos hse (mul_self_pos.2 hb)
        linarith
      unfold econv at hz
      rw [this] at hz
      apply h0
      linarith
    have hb : rc * rc / q.rho = q.rho * (S - q.u) ^ 2 := by
      rw [← pow_two, hrc]; field_simp
    unfold starV starW starBy starBz bconv uconv
    simp only [if_neg hs, hb]
    have he : econv bx s q S = q.rho * (S - q.u) * (S - s) - bx * bx := rfl
    have tan : ∀ v b : ℝ,
        q.rho * (S - q.u) * (v - bx * b * ((s - q.u) / econv bx s q S) - v) +
            bx * (b * ((q.rho * (S - q.u) ^ 2 - bx * bx) / econv bx s q S) - b) = 0 ∧
          b * ((q.rho * (S - q.u) ^ 2 - bx * bx) / econv bx s q S) * (S - s) =
            b * (S - q.u) - bx * (v - bx * b * ((s - q.u) / econv bx s q S) - v) := by
      intro v b
      generalize econv bx s q S = E at *
      constructor
      · field_simp
        rw [he]; ring
      · field_simp
        rw [he]; ring
    exact ⟨tan _ _, tan _ _⟩

/-- The jump condition at an outer wave. -/
theorem outer_jump (P : Params) (hse : 0 < P.smalle) {bx s pt S rc : ℝ} {q : Prim ℝ} (hq : q.rho ≠ 0)
    (hb : q.bx = bx) (hS : S - s ≠ 0) (hu : S - q.u ≠ 0)
    (hpt : pt = sidePT bx q + q.rho * (S - q.u) * (s - q.u))
    (hrc : rc ^ 2 = (q.rho * (S - q.u)) ^ 2) (h : Resolved P bx s q S) :
    Jump S (outerState P bx q) (starState P bx s pt q S rc) := by
  obtain ⟨⟨y1, y2⟩, z1, z2⟩ :=
    tangential P hse hq hrc (mul_ne_zero (mul_ne_zero hq hu) hS) h
  have hR : starR s q S * (S - s) = q.rho * (S - q.u) := by
    unfold starR; field_simp
  have hE : starE P bx s pt q S rc * (S - s) = (S - q.u) * sideE P bx q - sidePT bx q * q.u + pt * s +
      bx * (udotB bx q - udotBS P bx s q S rc) := by
    unfold starE; field_simp
  unfold udotB udotBS at hE
  unfold Jump outerState starState Full.flux Full.cons Cons.of dot
  simp only [Prim.vel, Prim.mag, if_true, if_neg (show ¬ ((1 : Fin 3) = 0) by decide),
    if_neg (show ¬ ((2 : Fin 3) = 0) by decide), hb]
  generalize starR s q S = R at *
  generalize starE P bx s pt q S rc = E at *
  generalize starV P bx s q S = V at *
  generalize starW P bx s q S = W at *
  generalize starBy P bx s q S rc = Y at *
  generalize starBz P bx s q S rc = Z at *
  generalize sideE P bx q = e at *
  generalize sidePT bx q = p at *
  refine ⟨?_, ?_, ?_, ?_, ?_, ?_, ?_, ?_⟩
  · linear_combination -hR
  · linear_combination -hE
  · rw [hpt]; linear_combination -s * hR
  · linear_combination -V * hR - y1
  · linear_combination -W * hR - z1
  · ring
  · linear_combination -y2
  · linear_combination -z2

theorem bsgn_sq (bx : ℝ) : bsgn bx * bsgn bx = 1 := by
  unfold bsgn; split <;> norm_num

theorem abs_bsgn (bx : ℝ) : |bx| = bx * bsgn bx := by
  unfold bsgn
  split
  · rename_i h; rw [abs_of_neg h]; ring
  · rename_i h; rw [abs_of_nonneg (not_lt.1 h)]; ring

/-- Relations across the rotational waves. -/
theorem rotation {bx : ℝ} {a d : Full} (ha : 0 < a.q.rho) (hd : 0 < d.q.rho) :
    (ssBy bx a d - a.q.by' = bsgn bx * √a.q.rho * (ssV bx a d - a.q.v) ∧
      ssBz bx a d - a.q.bz = bsgn bx * √a.q.rho * (ssW bx a d - a.q.w)) ∧
    (ssBy bx a d - d.q.by' = -(bsgn bx * √d.q.rho * (ssV bx a d - d.q.v)) ∧
      ssBz bx a d - d.q.bz = -(bsgn bx * √d.q.rho * (ssW bx a d - d.q.w))) := by
  have h1 := Real.sqrt_pos.2 ha
  have h2 := Real.sqrt_pos.2 hd
  have hs := bsgn_sq bx
  unfold ssBy ssBz ssV ssW denFac
  generalize √a.q.rho = x at *
  generalize √d.q.rho = y at *
  generalize bsgn bx = g at *
  have hxy : x + y ≠ 0 := by linarith
  have key : ∀ B C v w : ℝ,
      (x * C + y * B + x * y * (w - v) * g) * (1 / (x + y)) - B =
        g * x * ((x * v + y * w + (C - B) * g) * (1 / (x + y)) - v) ∧
      (x * C + y * B + x * y * (w - v) * g) * (1 / (x + y)) - C =
        -(g * y * ((x * v + y * w + (C - B) * g) * (1 / (x + y)) - w)) := by
    intro B C v w
    constructor
    · field_simp
      linear_combination (x * B - x * C) * hs
    · field_simp
      linear_combination (y * C - y * B) * hs
  exact ⟨⟨(key _ _ _ _).1, (key _ _ _ _).1⟩, (key _ _ _ _).2, (key _ _ _ _).2⟩

/-- The jump condition at the left rotational wave. -/
theorem alfven_left {bx : ℝ} {a d : Full} (ha : 0 < a.q.rho) (hd : 0 < d.q.rho) (hb : a.q.bx = bx) :
    Jump (a.q.u - |bx| / √a.q.rho) a (ssL bx a d) := by
  obtain ⟨⟨h1, h2⟩, -⟩ := rotation (bx := bx) ha hd
  have hx := Real.sqrt_pos.2 ha
  have hx2 : √a.q.rho * √a.q.rho = a.q.rho := Real.mul_self_sqrt ha.le
  have hs := bsgn_sq bx
  rw [abs_bsgn]
  have hE : ssEL bx a d = a.e - √a.q.rho * (fullUB bx a - ssUB bx a d) * bsgn bx := rfl
  unfold ssUB fullUB at hE
  unfold Jump ssL Full.flux Full.cons Cons.of dot
  simp only [Prim.vel, Prim.mag, if_true, if_neg (show ¬ ((1 : Fin 3) = 0) by decide),
    if_neg (show ¬ ((2 : Fin 3) = 0) by decide), hb]
  generalize ssEL bx a d = E at *
  generalize ssV bx a d = V at *
  generalize ssW bx a d = W at *
  generalize ssBy bx a d = Y at *
  generalize ssBz bx a d = Z at *
  generalize bsgn bx = g at *
  generalize √a.q.rho = x at *
  obtain ⟨k, hk⟩ : ∃ k, k = bx * g / x := ⟨_, rfl⟩
  have hk' : k * x = bx * g := by rw [hk]; field_simp
  rw [← hk, ← hx2]
  refine ⟨by ring, ?_, by ring, ?_, ?_, by ring, ?_, ?_⟩
  · rw [hE]
    linear_combination (g * (V * Y + W * Z - a.q.v * a.q.by' - a.q.w * a.q.bz)) * hk' +
      (bx * (V * Y + W * Z - a.q.v * a.q.by' - a.q.w * a.q.bz)) * hs
  · linear_combination (-bx) * h1 + x * (V - a.q.v) * hk'
  · linear_combination (-bx) * h2 + x * (W - a.q.w) * hk'
  · linear_combination k * h1 + g * (V - a.q.v) * hk' + bx * (V - a.q.v) * hs
  · linear_combination k * h2 + g * (W - a.q.w) * hk' + bx * (W - a.q.w) * hs

/-- The jump condition at the right rotational wave. -/
theorem alfven_right {bx : ℝ} {a d : Full} (ha : 0 < a.q.rho) (hd : 0 < d.q.rho) (hb : d.q.bx = bx)
    (hu : d.q.u = a.q.u) :
    Jump (a.q.u + |bx| / √d.q.rho) (ssR bx a d) d := by
  obtain ⟨-, h1, h2⟩ := rotation (bx := bx) ha hd
  have hx := Real.sqrt_pos.2 hd
  have hx2 : √d.q.rho * √d.q.rho = d.q.rho := Real.mul_self_sqrt hd.le
  have hs := bsgn_sq bx
  rw [abs_bsgn]
  have hE : ssER bx a d = d.e + √d.q.rho * (fullUB bx d - ssUB bx a d) * bsgn bx := rfl
  unfold ssUB fullUB at hE
  unfold Jump ssR Full.flux Full.cons Cons.of dot
  simp only [Prim.vel, Prim.mag, if_true, if_neg (show ¬ ((1 : Fin 3) = 0) by decide),
    if_neg (show ¬ ((2 : Fin 3) = 0) by decide), hb]
  rw [hu] at hE ⊢
  generalize ssER bx a d = E at *
  generalize ssV bx a d = V at *
  generalize ssW bx a d = W at *
  generalize ssBy bx a d = Y at *
  generalize ssBz bx a d = Z at *
  generalize bsgn bx = g at *
  generalize √d.q.rho = x at *
  obtain ⟨k, hk⟩ : ∃ k, k = bx * g / x := ⟨_, rfl⟩
  have hk' : k * x = bx * g := by rw [hk]; field_simp
  rw [← hk, ← hx2]
  refine ⟨by ring, ?_, by ring, ?_, ?_, by ring, ?_, ?_⟩
  · rw [hE]
    linear_combination (-g * (V * Y + W * Z - d.q.v * d.q.by' - d.q.w * d.q.bz)) * hk' -
      (bx * (V * Y + W * Z - d.q.v * d.q.by' - d.q.w * d.q.bz)) * hs
  · linear_combination bx * h1 + x * (V - d.q.v) * hk'
  · linear_combination bx * h2 + x * (W - d.q.w) * hk'
  · linear_combination k * h1 - g * (V - d.q.v) * hk' - bx * (V - d.q.v) * hs
  · linear_combination k * h2 - g * (W - d.q.w) * hk' - bx * (W - d.q.w) * hs

end Verif.Mhd
