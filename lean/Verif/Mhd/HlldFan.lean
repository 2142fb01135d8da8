import Verif.Mhd.Hlld
import Verif.Hydro.Riemann

/-!
# C71: properties of the HLLD Riemann solver
-/

namespace Verif.Mhd

/-! ### The wave fan -/

theorem jump_symm {S : ℝ} {x y : Full} (h : Jump S x y) : Jump S y x := by
  obtain ⟨h1, h2, h3, h4, h5, h6, h7, h8⟩ := h
  refine ⟨?_, ?_, ?_, ?_, ?_, ?_, ?_, ?_⟩
  · linear_combination -h1
  · linear_combination -h2
  · linear_combination -h3
  · linear_combination -h4
  · linear_combination -h5
  · linear_combination -h6
  · linear_combination -h7
  · linear_combination -h8

/-- Through a wave that does not move, the flux is the same on both sides. -/
theorem jump_zero {x y : Full} (h : Jump 0 x y) : x.flux = y.flux := by
  obtain ⟨h1, h2, h3, h4, h5, h6, h7, h8⟩ := h
  simp only [zero_mul, sub_eq_zero] at *
  generalize x.flux = f at *
  generalize y.flux = g at *
  obtain ⟨_, _, _, _, _, _, _, _⟩ := f
  obtain ⟨_, _, _, _, _, _, _, _⟩ := g
  simp only at *
  subst h1 h2 h3 h4 h5 h6 h7 h8
  rfl

theorem ofGas_flux (gamma : ℝ) (q : Prim ℝ) : (Full.ofGas gamma q).flux = mhdFlux gamma 0 q := by
  unfold Full.ofGas Full.flux mhdFlux
  rfl

theorem fast_eq {P : Params} {q : Prim ℝ} (hq : Gas q) :
    fastSpeed P.gamma q = fastH P q.bx q := by
  have hr := hq.1
  unfold fastSpeed fastH dot
  simp only [Prim.mag]
  have e : √((P.gamma * q.p / q.rho + (q.bx * q.bx + q.by' * q.by' + q.bz * q.bz) / q.rho) ^ 2 -
      4 * (P.gamma * q.p / q.rho) * (q.bx ^ 2 / q.rho)) =
      √((P.gamma * q.p + (q.bx * q.bx + q.by' * q.by' + q.bz * q.bz)) *
        (P.gamma * q.p + (q.bx * q.bx + q.by' * q.by' + q.bz * q.bz)) -
          4 * (P.gamma * q.p) * q.bx * q.bx) / q.rho := by
    rw [show (P.gamma * q.p / q.rho + (q.bx * q.bx + q.by' * q.by' + q.bz * q.bz) / q.rho) ^ 2 -
      4 * (P.gamma * q.p / q.rho) * (q.bx ^ 2 / q.rho) =
      ((P.gamma * q.p + (q.bx * q.bx + q.by' * q.by' + q.bz * q.bz)) *
        (P.gamma * q.p + (q.bx * q.bx + q.by' * q.by' + q.bz * q.bz)) -
          4 * (P.gamma * q.p) * q.bx * q.bx) / q.rho ^ 2 by field_simp]
    rw [Real.sqrt_div', Real.sqrt_sq hr.le]
    positivity
  rw [e]
  congr 1
  field_simp

/-- The middle wave. -/
theorem contact_jump (bx : ℝ) (a d : Full) (hu : d.q.u = a.q.u) (hp : d.q.p = a.q.p) :
    Jump a.q.u (ssL bx a d) (ssR bx a d) := by
  unfold Jump ssL ssR Full.flux Full.cons Cons.of dot
  simp only [Prim.vel, Prim.mag, hu, hp]
  refine ⟨by ring, by ring, by ring, by ring, by ring, by ring, by ring, by ring⟩

section

variable {P : Params} (hg : 1 < P.gamma) (hse : 0 < P.smalle) {bx : ℝ} {l r : Prim ℝ} (hl : Gas l)
  (hr : Gas r)
include hg hse hl hr

theorem jumpL (hb : l.bx = bx) (h : Resolved P bx (hU P bx l r) l (hSL P bx l r)) :
    Jump (hSL P bx l r) (outerState P bx l) (hA P bx l r) := by
  obtain ⟨h1, -, -, -, h3, -⟩ := hwaves hg bx hl hr
  exact outer_jump P hse hl.1.ne' hb (by linarith) (by linarith) (hP_left hg bx hl hr)
    (by unfold hCL; ring) h

theorem jumpR (hb : r.bx = bx) (h : Resolved P bx (hU P bx l r) r (hSR P bx l r)) :
    Jump (hSR P bx l r) (outerState P bx r) (hD P bx l r) := by
  obtain ⟨-, h2, -, -, -, h4⟩ := hwaves hg bx hl hr
  exact outer_jump P hse hr.1.ne' hb (by linarith) (by linarith) (hP_right hg bx hl hr)
    (by unfold hCR; ring) h

omit hse in
theorem jumpA : Jump (hSLs P bx l r) (hA P bx l r) (ssL bx (hA P bx l r) (hD P bx l r)) := by
  obtain ⟨h1, h2⟩ := starR_pos hg bx hl hr
  exact alfven_left h1 h2 rfl

omit hse in
theorem jumpB : Jump (hSRs P bx l r) (ssR bx (hA P bx l r) (hD P bx l r)) (hD P bx l r) := by
  obtain ⟨h1, h2⟩ := starR_pos hg bx hl hr
  exact alfven_right h1 h2 rfl rfl

omit hg hse hl hr in
theorem jumpC : Jump (hU P bx l r) (ssL bx (hA P bx l r) (hD P bx l r))
    (ssR bx (hA P bx l r) (hD P bx l r)) :=
  contact_jump bx _ _ rfl rfl

/-- **C71** The solver is the HLLD solver: between the outer waves, which enclose all characteristic
speeds, there are four states with positive densities, the velocity of the middle wave and a common
total pressure; all five waves satisfy the jump conditions of ideal MHD; no tangential component jumps
at the middle wave; the flux is that of the state at the face. Hypotheses: the normal field is the same
on both sides and at the face, and the switch that avoids a small denominator is not used where there
is a tangential field. Missing for the full claim: other normal fields (`C71_supersonic_fails`) and
that the rotational waves are inside the outer ones (`C71_order_fails`). -/
theorem C71_fan_partial (hbl : l.bx = bx) (hbr : r.bx = bx)
    (resL : Resolved P bx (hU P bx l r) l (hSL P bx l r))
    (resR : Resolved P bx (hU P bx l r) r (hSR P bx l r)) :
    ∃ (SL SA s SB SR : ℝ) (a b c d : Full),
      (∀ q ∈ [l, r], SL ≤ q.u - fastSpeed P.gamma q ∧ q.u + fastSpeed P.gamma q ≤ SR) ∧
      SL < s ∧ s < SR ∧ SA ≤ s ∧ s ≤ SB ∧
      (∀ x ∈ [a, b, c, d], 0 < x.q.rho ∧ x.q.u = s ∧ x.q.bx = bx ∧ x.q.p = a.q.p) ∧
      (b.q.v = c.q.v ∧ b.q.w = c.q.w ∧ b.q.by' = c.q.by' ∧ b.q.bz = c.q.bz) ∧
      Jump SL (Full.ofGas P.gamma l) a ∧ Jump SA a b ∧ Jump s b c ∧ Jump SB c d ∧
      Jump SR d (Full.ofGas P.gamma r) ∧
      hlld P bx l r = if 0 < SL then mhdFlux P.gamma 0 l else if 0 < SA then a.flux
        else if 0 < s then b.flux else if 0 < SB then c.flux else if 0 < SR then d.flux
        else mhdFlux P.gamma 0 r := by
  obtain ⟨h1, h2, -, -, h3, h4⟩ := hwaves hg bx hl hr
  obtain ⟨r1, r2⟩ := starR_pos hg bx hl hr
  have j1 := jumpL hg hse hl hr hbl resL
  have j5 := jump_symm (jumpR hg hse hl hr hbr resR)
  rw [outer_eq P hbl] at j1
  rw [outer_eq P hbr] at j5
  refine ⟨hSL P bx l r, hSLs P bx l r, hU P bx l r, hSRs P bx l r, hSR P bx l r, hA P bx l r,
    ssL bx (hA P bx l r) (hD P bx l r), ssR bx (hA P bx l r) (hD P bx l r), hD P bx l r,
    ?_, h3, h4, ?_, ?_, ?_, ⟨rfl, rfl, rfl, rfl⟩, j1, jumpA hg hl hr, jumpC, jumpB hg hl hr, j5, ?_⟩
  · intro q hq
    have : q.u - fastH P bx q ≥ hSL P bx l r ∧ q.u + fastH P bx q ≤ hSR P bx l r := by
      unfold hSL hSR
      rcases List.mem_pair.1 hq with rfl | rfl
      · exact ⟨sub_le_sub (min_le_left _ _) (le_max_left _ _), add_le_add (le_max_left _ _) (le_max_left _ _)⟩
      · exact ⟨sub_le_sub (min_le_right _ _) (le_max_right _ _),
          add_le_add (le_max_right _ _) (le_max_right _ _)⟩
    have hqb : q.bx = bx ∧ Gas q := by
      rcases List.mem_pair.1 hq with rfl | rfl
      · exact ⟨hbl, hl⟩
      · exact ⟨hbr, hr⟩
    rw [fast_eq hqb.2, hqb.1]
    exact this
  · unfold hSLs
    have : 0 ≤ |bx| / √(hA P bx l r).q.rho := by positivity
    linarith
  · unfold hSRs
    have : 0 ≤ |bx| / √(hD P bx l r).q.rho := by positivity
    linarith
  · intro x hx
    simp only [List.mem_cons, List.not_mem_nil, or_false] at hx
    rcases hx with rfl | rfl | rfl | rfl
    · exact ⟨r1, rfl, rfl, rfl⟩
    · exact ⟨r1, rfl, rfl, rfl⟩
    · exact ⟨r2, rfl, rfl, rfl⟩
    · exact ⟨r2, rfl, rfl, rfl⟩
  · unfold hlld hSample
    rw [flux_eq]
    split
    · rw [outer_eq P hbl, ofGas_flux]
    · split
      · rfl
      · split
        · rfl
        · split
          · rfl
          · split
            · rfl
            · rw [outer_eq P hbr, ofGas_flux]

end

/-! ### Contacts and consistency -/

/-- Where nothing but the density jumps, nothing happens at the outer waves. -/
theorem star_same {P : Params} (hse : 0 < P.smalle) {bx S rc : ℝ} {q : Prim ℝ} (hq : q.rho ≠ 0)
    (hb : q.bx = bx) (hS : S - q.u ≠ 0) (hrc : rc ^ 2 = (q.rho * (S - q.u)) ^ 2) :
    starState P bx q.u (sidePT bx q) q S rc = outerState P bx q := by
  have hR : starR q.u q S = q.rho := by unfold starR; field_simp
  have tan : starV P bx q.u q S = q.v ∧ starW P bx q.u q S = q.w ∧ starBy P bx q.u q S rc = q.by' ∧
      starBz P bx q.u q S rc = q.bz := by
    unfold starV starW starBy starBz
    by_cases hs : Switch P bx q.u q S
    · simp only [if_pos hs, and_self]
    · have hne : econv bx q.u q S ≠ 0 := by
        intro hz
        unfold Switch at hs
        rw [hz, abs_zero, not_lt] at hs
        have : bx = 0 := by
          by_contra hb
          have : 0 < P.smalle * bx * bx := by
            rw [mul_assoc]
            exact mul_pos hse (mul_self_pos.2 hb)
          linarith
        unfold econv at hz
        rw [this] at hz
        apply mul_ne_zero (mul_ne_zero hq hS) hS
        linarith
      have hbc : bconv bx q.u q S rc = 1 := by
        unfold bconv
        rw [div_eq_one_iff_eq hne, ← pow_two rc, hrc]
        unfold econv
        field_simp
      simp only [if_neg hs, uconv, sub_self, zero_div, mul_zero, sub_zero, hbc, mul_one, and_self]
  obtain ⟨t1, t2, t3, t4⟩ := tan
  have hE : starE P bx q.u (sidePT bx q) q S rc = sideE P bx q := by
    unfold starE udotB udotBS
    rw [t1, t2, t3, t4]
    field_simp
    ring
  unfold starState outerState
  rw [hR, t1, t2, t3, t4, hE]
  obtain ⟨_, _, _, _, _, _, _, _⟩ := q
  simp only at hb
  subst hb
  rfl

/-- **C71** A contact discontinuity (a jump of the density only) is resolved exactly. -/
theorem C71_contact {P : Params} (hg : 1 < P.gamma) (hse : 0 < P.smalle) {l r : Prim ℝ} (hl : Gas l)
    (hr : Gas r) (hp : l.p = r.p) (hv : l.vel = r.vel) (hb : l.mag = r.mag) :
    hlld P l.bx l r = if 0 < l.u then mhdFlux P.gamma 0 l else mhdFlux P.gamma 0 r := by
  obtain ⟨bx, hbx⟩ : ∃ bx, bx = l.bx := ⟨_, rfl⟩
  rw [← hbx]
  have b0 : l.bx = r.bx := congrFun hb 0
  have b1 : l.by' = r.by' := congrFun hb 1
  have b2 : l.bz = r.bz := congrFun hb 2
  have v0 : l.u = r.u := congrFun hv 0
  have v1 : l.v = r.v := congrFun hv 1
  have v2 : l.w = r.w := congrFun hv 2
  obtain ⟨h1, h2, h3, h4, h5, h6⟩ := hwaves hg bx hl hr
  have hpt : sidePT bx r = sidePT bx l := by unfold sidePT sideB2; rw [hp, b1, b2]
  have hu : hU P bx l r = l.u := by
    unfold hU
    rw [hpt, ← v0]
    have : hCR P bx l r + hCL P bx l r ≠ 0 := by linarith
    field_simp
    ring
  have hpp : hP P bx l r = sidePT bx l := by
    rw [hP_left hg bx hl hr, hu]
    ring
  have eA : hA P bx l r = outerState P bx l := by
    unfold hA
    rw [hu, hpp]
    exact star_same hse hl.1.ne' hbx.symm (by linarith) (by unfold hCL; ring)
  have eD : hD P bx l r = outerState P bx r := by
    unfold hD
    rw [hu, hpp, v0, ← hpt]
    exact star_same hse hr.1.ne' (hbx ▸ b0.symm) (by linarith) (by unfold hCR; ring)
  have hx := Real.sqrt_pos.2 hl.1
  have hy := Real.sqrt_pos.2 hr.1
  -- nothing happens at the rotational waves either
  have ss : ssV bx (outerState P bx l) (outerState P bx r) = l.v ∧
      ssW bx (outerState P bx l) (outerState P bx r) = l.w ∧
      ssBy bx (outerState P bx l) (outerState P bx r) = l.by' ∧
      ssBz bx (outerState P bx l) (outerState P bx r) = l.bz := by
    have : √l.rho + √r.rho ≠ 0 := by linarith
    unfold ssV ssW ssBy ssBz denFac outerState
    simp only [← b1, ← b2, ← v1, ← v2]
    refine ⟨?_, ?_, ?_, ?_⟩ <;> field_simp <;> ring
  obtain ⟨s1, s2, s3, s4⟩ := ss
  have ub : ssUB bx (outerState P bx l) (outerState P bx r) = fullUB bx (outerState P bx l) := by
    unfold ssUB fullUB
    rw [s1, s2, s3, s4]
    rfl
  have ub' : ssUB bx (outerState P bx l) (outerState P bx r) = fullUB bx (outerState P bx r) := by
    rw [ub]
    unfold fullUB outerState
    simp only [b1, b2, v0, v1, v2]
  have eL : ssL bx (outerState P bx l) (outerState P bx r) = outerState P bx l := by
    unfold ssL ssEL
    rw [ub, s1, s2, s3, s4]
    unfold outerState
    simp only [Full.mk.injEq, true_and, hbx]
    ring
  have eR : ssR bx (outerState P bx l) (outerState P bx r) = outerState P bx r := by
    unfold ssR ssER
    rw [ub', s1, s2, s3, s4]
    unfold outerState
    simp only [Full.mk.injEq, true_and, hbx, b0, b1, b2, v1, v2]
    ring
  have fl : computeFlux (outerState P bx l) = mhdFlux P.gamma 0 l := by
    rw [flux_eq, outer_eq P hbx.symm, ofGas_flux]
  have fr : computeFlux (outerState P bx r) = mhdFlux P.gamma 0 r := by
    rw [flux_eq, outer_eq P (hbx ▸ b0.symm), ofGas_flux]
  have hs1 : hSLs P bx l r ≤ l.u := by
    unfold hSLs
    rw [hu]
    have : 0 ≤ |bx| / √(hA P bx l r).q.rho := by positivity
    linarith
  have hs2 : l.u ≤ hSRs P bx l r := by
    unfold hSRs
    rw [hu]
    have : 0 ≤ |bx| / √(hD P bx l r).q.rho := by positivity
    linarith
  unfold hlld hSample
  rw [eA, eD, eL, eR, hu]
  rw [hu] at h5 h6
  by_cases hpos : 0 < l.u
  · simp only [if_pos hpos]
    split
    · exact fl
    · split
      · exact fl
      · exact fl
  · simp only [if_neg hpos]
    rw [if_neg (by linarith), if_neg (by linarith)]
    split
    · exact fr
    · split
      · exact fr
      · exact fr

/-- **C71** The flux between two equal states is the physical flux. -/
theorem C71_consistent {P : Params} (hg : 1 < P.gamma) (hse : 0 < P.smalle) {q : Prim ℝ} (hq : Gas q) :
    hlld P q.bx q q = mhdFlux P.gamma 0 q := by
  rw [C71_contact hg hse hq hq rfl rfl rfl]
  split <;> rfl

end Verif.Mhd
