import Verif.Mhd.Glm

/-!
# C74: boundaries in magnetohydrodynamics

`getBoundaryValue` (`core/src/boundary_conditions/BoundaryConditions.h` L50-128) for `MHDState` and
`GLMMHDState`, in the first ghost cell behind a side of the domain, and the flux through that side
(`core/src/hydro/HydroUpdate_hancock_oneneighbor.cpp` L286-302 and `core/src/hydro/HydroUpdate_utils.h` L135-166).
Which condition is used on which side is the subject of C47; here both sides have the same one.
-/

namespace Verif.Mhd

/-! ### Model -/

/-- `BoundaryConditions.h` L82-125 for a reflecting boundary in direction `k`: only the momentum changes.
`ref` is the cell next to the boundary. -/
def reflectCons (k : Fin 3) (ref : Cons ℝ) : Cons ℝ :=
  match k with
  | 0 => { ref with ru := -ref.ru }
  | 1 => { ref with rv := -ref.rv }
  | 2 => { ref with rw := -ref.rw }

/-- The same for `GLMMHDState`. -/
def reflectGCons (k : Fin 3) (ref : GCons ℝ) : GCons ℝ :=
  match k with
  | 0 => { ref with ru := -ref.ru }
  | 1 => { ref with rv := -ref.rv }
  | 2 => { ref with rw := -ref.rw }

/-- `HydroUpdate_hancock_oneneighbor.cpp` L286-291 for `MHDState`: flux through the side of the domain above
(`up`) or below a cell with conserved variables `u`; `ghost` is the value behind the boundary. -/
noncomputable def sideFlux (P : Params) (ndim : ℕ) (k : Fin 3) (up : Bool) (u ghost : Cons ℝ) : Cons ℝ :=
  let qc := consToPrim ndim P.gamma (getCons ndim u)
  let qn := consToPrim ndim P.gamma ghost
  if up then fluxDir5 P k qc qn else fluxDir5 P k qn qc

/-- The same for `GLMMHDState`. -/
noncomputable def sideFluxG (G : GlmParams) (dt : ℝ) (ndebug : Bool) (ndim : ℕ) (k : Fin 3) (up : Bool)
    (u ghost : GCons ℝ) : Option (GCons ℝ) :=
  let qc := gswapPrim k (gconsToPrim ndim G.base.gamma (getGCons ndim u))
  let qn := gswapPrim k (gconsToPrim ndim G.base.gamma ghost)
  (if up then glmFlux G dt qc qn ndebug else glmFlux G dt qn qc ndebug).map (gswapCons k)

/-! ### Specification -/

/-- The work done on the gas behind a wall normal to `k` by the magnetic tension, per area and time. -/
def tension (k : Fin 3) (q : Prim ℝ) : ℝ := q.mag k * (dot q.vel q.mag - q.vel k * q.mag k)

/-! ### Proofs: the five waves solver -/

/-- Opposite normal velocity. -/
def flip (q : Prim ℝ) : Prim ℝ := { q with u := -q.u }

theorem flip_flip (q : Prim ℝ) : flip (flip q) = q := by simp [flip]

theorem speeds_flip (P : Params) (l r q : Prim ℝ) (i : Fin 3) : speeds P l r (flip q) i = speeds P l r q i := by
  fin_cases i <;> rfl

theorem stress_flip (q : Prim ℝ) (i : Fin 3) : stress (flip q) i = stress q i := by
  fin_cases i <;> rfl

theorem five_flip {P : Params} (hg : 0 < P.gamma) {q : Prim ℝ} (hq : Gas q) :
    (fiveWaves P q (flip q)).rho = 0 ∧
      (fiveWaves P q (flip q)).e = -(q.bx * (q.v * q.by' + q.w * q.bz)) ∧
      (fiveWaves P q (flip q)).bx = 0 ∧ (fiveWaves P q (flip q)).rv = -(q.bx * q.by') ∧
      (fiveWaves P q (flip q)).rw = -(q.bx * q.bz) := by
  have hpos : ∀ i, 0 < speeds P q (flip q) q i := fun i =>
    (speeds_pos hg (l := q) (r := flip q) hq hq i).1
  have u0 : uStar P q (flip q) 0 = 0 := by
    unfold uStar
    rw [speeds_flip, stress_flip]
    show _ * (speeds P q (flip q) q 0 * q.u + speeds P q (flip q) q 0 * -q.u + stress q 0 - stress q 0) = 0
    ring
  have ut : ∀ i, i ≠ 0 → uStar P q (flip q) i = velocity q i ∧ pStar P q (flip q) i = stress q i := by
    intro i hi
    have hv : velocity (flip q) i = velocity q i := by
      fin_cases i
      · exact absurd rfl hi
      · rfl
      · rfl
    have := hpos i
    unfold uStar pStar
    rw [speeds_flip, stress_flip, hv]
    constructor
    · field_simp; ring
    · field_simp; ring
  obtain ⟨a1, a2⟩ := ut 1 (by decide)
  obtain ⟨b1, b2⟩ := ut 2 (by decide)
  unfold fiveWaves
  simp only [u0, a1, a2, b1, b2, zero_mul, mul_zero, zero_add, lt_irrefl, if_false, velocity, stress]
  refine ⟨trivial, by ring, by ring, by ring, by ring⟩

/-! ### Proofs: HLLD -/

section

variable {P : Params} (hg : 1 < P.gamma) {q : Prim ℝ} (hq : Gas q)

theorem fastH_flip (P : Params) (bx : ℝ) (q : Prim ℝ) : fastH P bx (flip q) = fastH P bx q := rfl

theorem hSL_flip (bx : ℝ) : hSL P bx q (flip q) = -hSR P bx q (flip q) := by
  unfold hSL hSR
  rw [fastH_flip, max_self]
  show min q.u (-q.u) - _ = -(max q.u (-q.u) + _)
  rw [neg_add, ← min_neg_neg, neg_neg, min_comm]
  ring

theorem hC_flip (bx : ℝ) : hCL P bx q (flip q) = hCR P bx q (flip q) := by
  unfold hCL hCR
  rw [hSL_flip]
  show q.rho * (q.u - -hSR P bx q (flip q)) = q.rho * (hSR P bx q (flip q) - -q.u)
  ring

theorem hU_flip (bx : ℝ) : hU P bx q (flip q) = 0 := by
  unfold hU
  rw [hC_flip]
  show (hCR P bx q (flip q) * -q.u + hCR P bx q (flip q) * q.u - sidePT bx q + sidePT bx q) / _ = 0
  rw [show hCR P bx q (flip q) * -q.u + hCR P bx q (flip q) * q.u - sidePT bx q + sidePT bx q = 0 by ring, zero_div]

theorem econv_flip (bx : ℝ) :
    econv bx 0 q (hSL P bx q (flip q)) = econv bx 0 (flip q) (hSR P bx q (flip q)) := by
  unfold econv
  rw [hSL_flip]
  show q.rho * (-hSR P bx q (flip q) - q.u) * (-hSR P bx q (flip q) - 0) - bx * bx =
    q.rho * (hSR P bx q (flip q) - -q.u) * (hSR P bx q (flip q) - 0) - bx * bx
  ring

include hg hq in
theorem rho_flip (bx : ℝ) : (hA P bx q (flip q)).q.rho = (hD P bx q (flip q)).q.rho := by
  obtain ⟨-, -, -, -, h3, h4⟩ := hwaves hg bx (l := q) (r := flip q) hq hq
  rw [hU_flip] at h3 h4
  show starR _ _ _ = starR _ _ _
  unfold starR
  rw [hU_flip, hSL_flip]
  show q.rho * (-hSR P bx q (flip q) - q.u) / (-hSR P bx q (flip q) - 0) =
    q.rho * (hSR P bx q (flip q) - -q.u) / (hSR P bx q (flip q) - 0)
  rw [sub_zero, sub_zero]
  field_simp
  ring

/-- The tangential velocities behind the outer waves, and the tangential fields. -/
theorem tangent_flip (bx : ℝ) :
    (hA P bx q (flip q)).q.v + (hD P bx q (flip q)).q.v = 2 * q.v ∧
    (hA P bx q (flip q)).q.w + (hD P bx q (flip q)).q.w = 2 * q.w ∧
    ∃ f g : ℝ, (hA P bx q (flip q)).q.by' = q.by' * f ∧ (hD P bx q (flip q)).q.by' = q.by' * f ∧
      (hA P bx q (flip q)).q.bz = q.bz * f ∧ (hD P bx q (flip q)).q.bz = q.bz * f ∧
      (hD P bx q (flip q)).q.v - (hA P bx q (flip q)).q.v = q.by' * g ∧
      (hD P bx q (flip q)).q.w - (hA P bx q (flip q)).q.w = q.bz * g := by
  have he := econv_flip (P := P) (q := q) bx
  have hu := hU_flip (P := P) (q := q) bx
  have hc := hC_flip (P := P) (q := q) bx
  have hs : Switch P bx 0 (flip q) (hSR P bx q (flip q)) ↔ Switch P bx 0 q (hSL P bx q (flip q)) := by
    unfold Switch; rw [he]
  have fv : (flip q).v = q.v := rfl
  have fw : (flip q).w = q.w := rfl
  have fy : (flip q).by' = q.by' := rfl
  have fz : (flip q).bz = q.bz := rfl
  have fr : (flip q).rho = q.rho := rfl
  have fu : (flip q).u = -q.u := rfl
  simp only [hA, hD, starState]
  rw [hu]
  by_cases h : Switch P bx 0 q (hSL P bx q (flip q))
  · have h' := hs.2 h
    simp only [starV, starW, starBy, starBz, if_pos h, if_pos h']
    refine ⟨?_, ?_, 1, 0, ?_, ?_, ?_, ?_, ?_, ?_⟩ <;> (try simp only [fv, fw, fy, fz]) <;> ring
  · have h' := fun x => h (hs.1 x)
    simp only [starV, starW, starBy, starBz, if_neg h, if_neg h', uconv, bconv, hc, he]
    refine ⟨?_, ?_, (hCR P bx q (flip q) * hCR P bx q (flip q) / q.rho - bx * bx) /
      econv bx 0 (flip q) (hSR P bx q (flip q)), -(2 * bx * (q.u / econv bx 0 (flip q) (hSR P bx q (flip q)))),
      ?_, ?_, ?_, ?_, ?_, ?_⟩ <;> (try simp only [fv, fw, fy, fz, fr, fu]) <;> ring

include hg hq in
theorem hlld_flip (bx : ℝ) : (hlld P bx q (flip q)).rho = 0 ∧ (hlld P bx q (flip q)).bx = 0 ∧
    ∃ f, (hlld P bx q (flip q)).e = -(bx * f * (q.v * q.by' + q.w * q.bz)) := by
  obtain ⟨-, -, -, -, h3, h4⟩ := hwaves hg bx (l := q) (r := flip q) hq hq
  obtain ⟨pa, pd⟩ := starR_pos hg bx (l := q) (r := flip q) hq hq
  have hr := rho_flip hg hq bx
  have hu := hU_flip (P := P) (q := q) bx
  obtain ⟨tv, tw, f, g, a1, a2, a3, a4, a5, a6⟩ := tangent_flip (P := P) (q := q) bx
  have n1 : ¬ 0 < hSL P bx q (flip q) := by rw [hu] at h3; exact h3.le.not_gt
  have n2 : ¬ 0 < hSLs P bx q (flip q) := by
    unfold hSLs
    rw [hu]
    have : 0 ≤ |bx| / √(hA P bx q (flip q)).q.rho := by positivity
    linarith
  have n3 : ¬ 0 < hU P bx q (flip q) := by rw [hu]; exact lt_irrefl 0
  have ud : (hD P bx q (flip q)).q.u = 0 := hu
  unfold hlld hSample
  simp only [if_neg n1, if_neg n2, if_neg n3]
  by_cases hb : bx = 0
  · have n4 : ¬ 0 < hSRs P bx q (flip q) := by
      unfold hSRs
      rw [hu, hb]
      simp
    have n5 : 0 < hSR P bx q (flip q) := by rw [hu] at h4; exact h4
    simp only [if_neg n4, if_pos n5]
    have bd : (hD P bx q (flip q)).q.bx = 0 := hb
    unfold computeFlux
    simp only [ud, bd]
    refine ⟨by ring, trivial, 0, by ring⟩
  · have n4 : 0 < hSRs P bx q (flip q) := by
      unfold hSRs
      rw [hu]
      have := abs_pos.2 hb
      have := Real.sqrt_pos.2 pd
      positivity
    simp only [if_pos n4]
    have hs : 0 < √(hD P bx q (flip q)).q.rho := Real.sqrt_pos.2 pd
    generalize hS : √(hD P bx q (flip q)).q.rho = S at hs
    have dv : ssV bx (hA P bx q (flip q)) (hD P bx q (flip q)) = q.v := by
      unfold ssV denFac
      rw [hr, hS, a1, a2]
      field_simp
      linear_combination S * tv
    have dw : ssW bx (hA P bx q (flip q)) (hD P bx q (flip q)) = q.w := by
      unfold ssW denFac
      rw [hr, hS, a3, a4]
      field_simp
      linear_combination S * tw
    have dy : ssBy bx (hA P bx q (flip q)) (hD P bx q (flip q)) = q.by' * (f + S / 2 * g * bsgn bx) := by
      unfold ssBy denFac
      rw [hr, hS, a1, a2, a5]
      field_simp
      ring
    have dz : ssBz bx (hA P bx q (flip q)) (hD P bx q (flip q)) = q.bz * (f + S / 2 * g * bsgn bx) := by
      unfold ssBz denFac
      rw [hr, hS, a3, a4, a6]
      field_simp
      ring
    unfold computeFlux ssR
    simp only [ud, dv, dw, dy, dz]
    refine ⟨by ring, trivial, f + S / 2 * g * bsgn bx, by ring⟩

end

/-! ### C74 -/

theorem prim_reflect (ndim : ℕ) (gamma : ℝ) (k : Fin 3) (u : Cons ℝ) :
    swapPrim k (consToPrim ndim gamma (reflectCons k u)) = flip (swapPrim k (consToPrim ndim gamma u)) := by
  fin_cases k <;> by_cases h : ndim = 3 <;> simp [swapPrim, consToPrim, reflectCons, flip, h, neg_div]

theorem gprim_reflect (ndim : ℕ) (gamma : ℝ) (k : Fin 3) (u : GCons ℝ) :
    gswapPrim k (gconsToPrim ndim gamma (reflectGCons k u)) =
      { gswapPrim k (gconsToPrim ndim gamma u) with u := -(gswapPrim k (gconsToPrim ndim gamma u)).u } := by
  fin_cases k <;> by_cases h : ndim = 3 <;> simp [gswapPrim, gconsToPrim, reflectGCons, h, neg_div]

theorem tension_swap (k : Fin 3) (q : Prim ℝ) :
    (swapPrim k q).bx * ((swapPrim k q).v * (swapPrim k q).by' + (swapPrim k q).w * (swapPrim k q).bz) =
      tension k q := by
  fin_cases k <;> simp only [swapPrim, tension, dot, Prim.vel, Prim.mag] <;> ring

theorem swapCons_mag (k : Fin 3) (f : Cons ℝ) : (swapCons k f).mag k = f.bx := by
  fin_cases k <;> rfl

theorem swapCons_scalar (k : Fin 3) (f : Cons ℝ) : (swapCons k f).rho = f.rho ∧ (swapCons k f).e = f.e := by
  fin_cases k <;> exact ⟨rfl, rfl⟩

/-- **C74** Plain MHD: no mass and no normal field goes through a reflecting boundary; energy does, by as much as the
magnetic tension does work. -/
theorem C74_wall_partial {P : Params} (hg : 0 < P.gamma) (ndim : ℕ) (k : Fin 3) (up : Bool) (u : Cons ℝ)
    (hq : Gas (consToPrim ndim P.gamma (getCons ndim u))) :
    (sideFlux P ndim k up u (reflectCons k (getCons ndim u))).rho = 0 ∧
      (sideFlux P ndim k up u (reflectCons k (getCons ndim u))).mag k = 0 ∧
      (sideFlux P ndim k up u (reflectCons k (getCons ndim u))).e =
        -tension k (consToPrim ndim P.gamma (getCons ndim u)) := by
  generalize hr : getCons ndim u = r at *
  have hs := gas_swap k hq
  unfold sideFlux fluxDir5
  simp only
  rw [hr, prim_reflect, ← tension_swap]
  generalize swapPrim k (consToPrim ndim P.gamma r) = q at *
  cases up
  · simp only [Bool.false_eq_true, if_false, swapCons_mag, (swapCons_scalar k _).1, (swapCons_scalar k _).2]
    obtain ⟨h1, h2, h3, -, -⟩ := five_flip hg (q := flip q) hs
    rw [flip_flip] at h1 h2 h3
    exact ⟨h1, h3, h2⟩
  · simp only [if_true, swapCons_mag, (swapCons_scalar k _).1, (swapCons_scalar k _).2]
    obtain ⟨h1, h2, h3, -, -⟩ := five_flip hg (q := q) hs
    exact ⟨h1, h3, h2⟩

/-- **C74** Plain MHD: through a boundary with a copy of the state behind it goes the physical flux. -/
theorem C74_outflow {P : Params} (hg : 0 < P.gamma) (ndim : ℕ) (k : Fin 3) (up : Bool) (u : Cons ℝ)
    (hq : Gas (consToPrim ndim P.gamma (getCons ndim u))) :
    sideFlux P ndim k up u (getCons ndim u) = mhdFlux P.gamma k (consToPrim ndim P.gamma (getCons ndim u)) := by
  unfold sideFlux
  cases up
  · exact C70_consistent hg k hq
  · exact C70_consistent hg k hq

theorem gswap_mhd (k : Fin 3) (q : GPrim ℝ) : glmToMhd (gswapPrim k q) = swapPrim k (glmToMhd q) := by
  fin_cases k <;> rfl

theorem gswapCons_scalar (k : Fin 3) (f : GCons ℝ) :
    (gswapCons k f).rho = f.rho ∧ (gswapCons k f).e = f.e ∧ (gswapCons k f).mhd = swapCons k f.mhd := by
  fin_cases k <;> exact ⟨rfl, rfl, rfl⟩

/-- **C74** MHD with divergence cleaning, both solvers: no mass goes through a reflecting boundary, and no energy if the
magnetic tension does no work there. -/
theorem C74_glm_wall_partial {G : GlmParams} (hg : 1 < G.base.gamma) (hs : G.solver = .fiveWaves ∨ G.solver = .hlld)
    (dt : ℝ) (ndebug : Bool) (ndim : ℕ) (k : Fin 3) (up : Bool) (u : GCons ℝ)
    (hq : Gas (glmToMhd (gconsToPrim ndim G.base.gamma (getGCons ndim u)))) :
    ∃ f, sideFluxG G dt ndebug ndim k up u (reflectGCons k (getGCons ndim u)) = some f ∧ f.rho = 0 ∧
      (tension k (glmToMhd (gconsToPrim ndim G.base.gamma (getGCons ndim u))) = 0 → f.e = 0) := by
  generalize hr : getGCons ndim u = r at *
  have hsw := gas_swap k hq
  rw [← tension_swap, ← gswap_mhd]
  rw [← gswap_mhd] at hsw
  unfold sideFluxG
  simp only
  rw [hr, gprim_reflect]
  generalize gswapPrim k (gconsToPrim ndim G.base.gamma r) = q at *
  have hfl : ∀ x : GPrim ℝ, glmToMhd { x with u := -x.u } = flip (glmToMhd x) := fun _ => rfl
  have key : ∀ x : GPrim ℝ, Gas (glmToMhd x) →
      ∃ f, glmFlux G dt x { x with u := -x.u } ndebug = some f ∧ f.rho = 0 ∧
        (x.bx * (x.v * x.by' + x.w * x.bz) = 0 → f.e = 0) := by
    intro x hx
    have hbx : glmBx G dt x { x with u := -x.u } = x.bx := by unfold glmBx; ring
    unfold glmFlux glmMhd
    rcases hs with h | h
    · rw [h]
      obtain ⟨h1, h2, -, -, -⟩ := five_flip (P := G.base) (by linarith) hx
      refine ⟨_, rfl, h1, fun h0 => ?_⟩
      show (fiveWaves G.base (glmToMhd x) (flip (glmToMhd x))).e = 0
      rw [h2]
      exact neg_eq_zero.2 h0
    · rw [h]
      simp only [hbx]
      obtain ⟨h1, -, f, h2⟩ := hlld_flip (P := G.base) hg hx x.bx
      refine ⟨_, rfl, h1, fun h0 => ?_⟩
      show (hlld G.base x.bx (glmToMhd x) (flip (glmToMhd x))).e = 0
      rw [h2]
      show -(x.bx * f * (x.v * x.by' + x.w * x.bz)) = 0
      linear_combination -f * h0
  cases up
  · obtain ⟨f, h1, h2, h3⟩ := key { q with u := -q.u } hsw
    simp only [neg_neg] at h1
    refine ⟨gswapCons k f, ?_, (gswapCons_scalar k f).1.trans h2, fun h => (gswapCons_scalar k f).2.1.trans (h3 h)⟩
    simp only [Bool.false_eq_true, if_false, h1, Option.map_some]
  · obtain ⟨f, h1, h2, h3⟩ := key q hsw
    refine ⟨gswapCons k f, ?_, (gswapCons_scalar k f).1.trans h2, fun h => (gswapCons_scalar k f).2.1.trans (h3 h)⟩
    simp only [if_true, h1, Option.map_some]

/-- **C74** With divergence cleaning: outflow of the physical flux, where the potential vanishes. -/
theorem C74_glm_outflow {G : GlmParams} (hg : 1 < G.base.gamma) (hse : 0 < G.base.smalle)
    (hs : G.solver = .fiveWaves ∨ G.solver = .hlld) (dt : ℝ) (ndebug : Bool) (ndim : ℕ) (k : Fin 3) (up : Bool)
    (u : GCons ℝ) (hpsi : u.psi = 0) (hq : Gas (glmToMhd (gconsToPrim ndim G.base.gamma (getGCons ndim u)))) :
    ∃ f, sideFluxG G dt ndebug ndim k up u (getGCons ndim u) = some f ∧
      f.mhd = mhdFlux G.base.gamma k (glmToMhd (gconsToPrim ndim G.base.gamma (getGCons ndim u))) := by
  have hp : (gswapPrim k (gconsToPrim ndim G.base.gamma (getGCons ndim u))).psi = 0 := by
    fin_cases k <;> exact hpsi
  have hsw := gas_swap k hq
  rw [← gswap_mhd] at hsw
  obtain ⟨f, h1, h2, -⟩ := C72_consistent (dt := dt) hg hse hs hsw hp ndebug
  refine ⟨gswapCons k f, ?_, ?_⟩
  · unfold sideFluxG
    cases up <;> simp [h1]
  · rw [(gswapCons_scalar k f).2.2, h2, gswap_mhd, mhdFlux_swap]

/-- A gas that moves along the wall, with an oblique field. -/
def slidingGas : GCons ℝ := ⟨1, 10, 0, 1, 0, 1, 1, 0, 0⟩

/-- **C74** A reflecting boundary lets energy through, for plain MHD and with cleaning, whatever solver. -/
theorem C74_energy_fails {G : GlmParams} (hg : 1 < G.base.gamma) (hse : 0 < G.base.smalle)
    (hs : G.solver = .fiveWaves ∨ G.solver = .hlld) (dt : ℝ) (ndebug up : Bool) :
    Gas (consToPrim 3 G.base.gamma slidingGas.mhd) ∧
      (sideFlux G.base 3 0 up slidingGas.mhd (reflectCons 0 (getCons 3 slidingGas.mhd))).e ≠ 0 ∧
      ∃ f, sideFluxG G dt ndebug 3 0 up slidingGas (reflectGCons 0 (getGCons 3 slidingGas)) = some f ∧ f.e ≠ 0 := by
  have hgas : Gas (consToPrim 3 G.base.gamma slidingGas.mhd) := by
    constructor
    · norm_num [consToPrim, slidingGas, GCons.mhd]
    · simp only [consToPrim, slidingGas, GCons.mhd]
      norm_num
      linarith
  have ht : tension 0 (consToPrim 3 G.base.gamma slidingGas.mhd) = 1 := by
    norm_num [tension, consToPrim, slidingGas, GCons.mhd, dot, Prim.vel, Prim.mag]
  refine ⟨hgas, ?_, ?_⟩
  · have := (C74_wall_partial (P := G.base) (by linarith) 3 0 up slidingGas.mhd hgas).2.2
    rw [this]
    show -tension 0 (consToPrim 3 G.base.gamma slidingGas.mhd) ≠ 0
    rw [ht]
    norm_num
  · have hrefl : reflectGCons 0 (getGCons 3 slidingGas) = getGCons 3 slidingGas := by
      simp [reflectGCons, getGCons, slidingGas]
    rw [hrefl]
    obtain ⟨f, h1, h2⟩ := C74_glm_outflow hg hse hs dt ndebug 3 0 up slidingGas rfl hgas
    refine ⟨f, h1, ?_⟩
    have : f.e = f.mhd.e := rfl
    rw [this, h2]
    norm_num [mhdFlux, Cons.of, glmToMhd, gconsToPrim, getGCons, slidingGas, Prim.vel, Prim.mag, dot]

/-- States to which the theorems apply: a gas that hits the wall, with a field along it. -/
example : Gas (consToPrim 3 (5 / 3) (getCons 3 ⟨1, 10, 1, 1, 1, 0, 1, 1⟩)) ∧
    tension 0 (consToPrim 3 (5 / 3) (getCons 3 ⟨1, 10, 1, 1, 1, 0, 1, 1⟩)) = 0 := by
  norm_num [Gas, tension, consToPrim, getCons, dot, Prim.vel, Prim.mag]

end Verif.Mhd
