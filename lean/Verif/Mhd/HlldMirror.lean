import Verif.Mhd.HlldFan

/-!
# C71: mirror symmetry of the HLLD solver, where it fails, and the limit without field
-/

namespace Verif.Mhd

local notation "mx" => Prim.mirror (0 : Fin 3)

/-! ### Mirror images of the parts -/

theorem ite_iff {α : Type} {c d : Prop} {_ : Decidable c} {_ : Decidable d} (h : c ↔ d) (x y : α) :
    (if c then x else y) = if d then x else y := by
  by_cases hc : c
  · rw [if_pos hc, if_pos (h.1 hc)]
  · rw [if_neg hc, if_neg (fun k => hc (h.2 k))]

theorem dead {α : Type} {a c : Prop} [Decidable a] [Decidable c] {w x y y' u u' z : α} :
    (if a then w else if c then x else if c then y else if c then y' else z) =
      if a then w else if c then x else if c then u else if c then u' else z := by
  split_ifs <;> rfl

/-- Walking along ordered waves from the left and from the right ends at the same value. -/
theorem walk {α : Type} {w1 w2 w3 w4 w5 : ℝ} (h1 : w1 ≤ w2) (h2 : w2 ≤ w3) (h3 : w3 ≤ w4) (h4 : w4 ≤ w5)
    {x0 x1 x2 x3 x4 x5 : α} (t1 : w1 = 0 → x0 = x1) (t2 : w2 = 0 → x1 = x2) (t3 : w3 = 0 → x2 = x3)
    (t4 : w4 = 0 → x3 = x4) (t5 : w5 = 0 → x4 = x5) :
    (if 0 < -w5 then x5 else if 0 < -w4 then x4 else if 0 < -w3 then x3 else if 0 < -w2 then x2 else
      if 0 < -w1 then x1 else x0) =
    (if 0 < w1 then x0 else if 0 < w2 then x1 else if 0 < w3 then x2 else if 0 < w4 then x3 else
      if 0 < w5 then x4 else x5) := by
  split_ifs <;> first
    | rfl
    | (exfalso; linarith)
    | ((try have e1 := t1 (by linarith)); (try have e2 := t2 (by linarith));
       (try have e3 := t3 (by linarith)); (try have e4 := t4 (by linarith));
       (try have e5 := t5 (by linarith)); simp only [*])

section

variable (P : Params) (bx : ℝ) (l r q : Prim ℝ)

theorem mh_rho : (mx q).rho = q.rho := rfl
theorem mh_p : (mx q).p = q.p := rfl
theorem mh_u : (mx q).u = -q.u := rfl
theorem mh_v : (mx q).v = q.v := rfl
theorem mh_w : (mx q).w = q.w := rfl
theorem mh_bx : (mx q).bx = -q.bx := rfl
theorem mh_by : (mx q).by' = q.by' := rfl
theorem mh_bz : (mx q).bz = q.bz := rfl

theorem mh_B2 : sideB2 (-bx) (mx q) = sideB2 bx q := by
  unfold sideB2; rw [mh_by, mh_bz]; ring

theorem mh_PT : sidePT (-bx) (mx q) = sidePT bx q := by
  unfold sidePT; rw [mh_B2]; rfl

theorem mh_E : sideE P (-bx) (mx q) = sideE P bx q := by
  unfold sideE; rw [mh_B2, mh_rho, mh_p, mh_u, mh_v, mh_w]; ring

theorem mh_fast : fastH P (-bx) (mx q) = fastH P bx q := by
  unfold fastH
  simp only [mh_rho, mh_p, mh_by, mh_bz, mul_neg, neg_mul, neg_neg]

theorem mh_SL : hSL P (-bx) (mx r) (mx l) = -hSR P bx l r := by
  unfold hSL hSR
  rw [mh_u, mh_u, mh_fast, mh_fast, min_neg_neg, max_comm (fastH P bx r), max_comm r.u]
  ring

theorem mh_SR : hSR P (-bx) (mx r) (mx l) = -hSL P bx l r := by
  unfold hSL hSR
  rw [mh_u, mh_u, mh_fast, mh_fast, max_neg_neg, max_comm (fastH P bx r), min_comm r.u]
  ring

theorem mh_CL : hCL P (-bx) (mx r) (mx l) = hCR P bx l r := by
  unfold hCL hCR; rw [mh_SL, mh_rho, mh_u]; ring

theorem mh_CR : hCR P (-bx) (mx r) (mx l) = hCL P bx l r := by
  unfold hCL hCR; rw [mh_SR, mh_rho, mh_u]; ring

theorem mh_U : hU P (-bx) (mx r) (mx l) = -hU P bx l r := by
  unfold hU
  rw [mh_CL, mh_CR, mh_PT, mh_PT, mh_u, mh_u, add_comm (hCL P bx l r) (hCR P bx l r), ← neg_div]
  congr 1
  ring

theorem mh_P : hP P (-bx) (mx r) (mx l) = hP P bx l r := by
  unfold hP
  rw [mh_CL, mh_CR, mh_PT, mh_PT, mh_u, mh_u, add_comm (hCL P bx l r) (hCR P bx l r)]
  congr 1
  ring

variable (s pt S rc : ℝ)

/-- Mirror image of a state between the waves. -/
def Full.mirror (x : Full) : Full := ⟨mx x.q, x.e⟩

theorem mh_econv : econv (-bx) (-s) (mx q) (-S) = econv bx s q S := by
  unfold econv; rw [mh_rho, mh_u]; ring

theorem mh_uconv : uconv (-bx) (-s) (mx q) (-S) = -uconv bx s q S := by
  unfold uconv; rw [mh_econv, mh_u, ← neg_div]; congr 1; ring

theorem mh_bconv : bconv (-bx) (-s) (mx q) (-S) rc = bconv bx s q S rc := by
  unfold bconv; rw [mh_econv, mh_rho, neg_mul_neg]

theorem mh_switch : Switch P (-bx) (-s) (mx q) (-S) ↔ Switch P bx s q S := by
  unfold Switch; rw [mh_econv, show P.smalle * -bx * -bx = P.smalle * bx * bx by ring]

theorem mh_V : starV P (-bx) (-s) (mx q) (-S) = starV P bx s q S := by
  unfold starV
  rw [mh_uconv, mh_v, mh_by]
  simp only [neg_mul, mul_neg, neg_neg]
  exact ite_iff (mh_switch ..) _ _

theorem mh_W : starW P (-bx) (-s) (mx q) (-S) = starW P bx s q S := by
  unfold starW
  rw [mh_uconv, mh_w, mh_bz]
  simp only [neg_mul, mul_neg, neg_neg]
  exact ite_iff (mh_switch ..) _ _

theorem mh_By : starBy P (-bx) (-s) (mx q) (-S) rc = starBy P bx s q S rc := by
  unfold starBy
  rw [mh_bconv, mh_by]
  exact ite_iff (mh_switch ..) _ _

theorem mh_Bz : starBz P (-bx) (-s) (mx q) (-S) rc = starBz P bx s q S rc := by
  unfold starBz
  rw [mh_bconv, mh_bz]
  exact ite_iff (mh_switch ..) _ _

theorem mh_star : starState P (-bx) (-s) pt (mx q) (-S) rc = (starState P bx s pt q S rc).mirror := by
  have hR : starR (-s) (mx q) (-S) = starR s q S := by
    unfold starR
    rw [mh_rho, mh_u, show -S - -q.u = -(S - q.u) by ring, show -S - -s = -(S - s) by ring, mul_neg,
      neg_div_neg_eq]
  have hE : starE P (-bx) (-s) pt (mx q) (-S) rc = starE P bx s pt q S rc := by
    unfold starE udotB udotBS
    rw [mh_V, mh_W, mh_By, mh_Bz, mh_E, mh_PT, mh_u, mh_v, mh_w, mh_by, mh_bz,
      show -S - -s = -(S - s) by ring, ← neg_div_neg_eq]
    congr 1
    · ring
    · ring
  unfold starState Full.mirror
  rw [mh_V, mh_W, mh_By, mh_Bz, hR, hE]
  simp [Prim.mirror]

theorem mh_A : hA P (-bx) (mx r) (mx l) = (hD P bx l r).mirror := by
  unfold hA hD
  rw [mh_U, mh_P, mh_SL, mh_CL, mh_star]

theorem mh_D : hD P (-bx) (mx r) (mx l) = (hA P bx l r).mirror := by
  unfold hA hD
  rw [mh_U, mh_P, mh_SR, mh_CR, mh_star]

theorem mh_SLs : hSLs P (-bx) (mx r) (mx l) = -hSRs P bx l r := by
  unfold hSLs hSRs
  rw [mh_A, mh_U, abs_neg]
  show _ - |bx| / √(hD P bx l r).q.rho = _
  ring

theorem mh_SRs : hSRs P (-bx) (mx r) (mx l) = -hSLs P bx l r := by
  unfold hSLs hSRs
  rw [mh_D, mh_U, abs_neg]
  show _ + |bx| / √(hA P bx l r).q.rho = _
  ring

theorem mh_outer : outerState P (-bx) (mx q) = (outerState P bx q).mirror := by
  unfold outerState Full.mirror
  rw [mh_PT, mh_E]
  rfl

theorem mh_flux (x : Full) : computeFlux x.mirror = (computeFlux x).mirrorFlux 0 := by
  unfold computeFlux Full.mirror
  simp only [mh_rho, mh_p, mh_u, mh_v, mh_w, mh_bx, mh_by, mh_bz]
  simp only [Cons.mirrorFlux, if_true, if_neg (show ¬ ((0 : Fin 3) = 1) by decide),
    if_neg (show ¬ ((0 : Fin 3) = 2) by decide), Cons.mk.injEq]
  refine ⟨by ring, by ring, by ring, by ring, by ring, trivial, by ring, by ring⟩

end

theorem bsgn_neg {bx : ℝ} (h : bx ≠ 0) : bsgn (-bx) = -bsgn bx := by
  unfold bsgn
  rcases lt_or_gt_of_ne h with h | h
  · rw [if_neg (by linarith), if_pos h]; ring
  · rw [if_pos (by linarith), if_neg (by linarith)]

theorem mh_ss {bx : ℝ} (h : bx ≠ 0) (a d : Full) (hu : d.q.u = a.q.u) :
    ssL (-bx) d.mirror a.mirror = (ssR bx a d).mirror ∧ ssR (-bx) d.mirror a.mirror = (ssL bx a d).mirror := by
  have r : ∀ x : Full, x.mirror.q.rho = x.q.rho ∧ x.mirror.q.v = x.q.v ∧ x.mirror.q.w = x.q.w ∧
      x.mirror.q.by' = x.q.by' ∧ x.mirror.q.bz = x.q.bz ∧ x.mirror.q.u = -x.q.u ∧ x.mirror.e = x.e :=
    fun x => ⟨rfl, rfl, rfl, rfl, rfl, rfl, rfl⟩
  have hd : denFac d.mirror a.mirror = denFac a d := by
    unfold denFac; rw [(r a).1, (r d).1, add_comm]
  have e1 : ssV (-bx) d.mirror a.mirror = ssV bx a d := by
    unfold ssV; rw [hd, bsgn_neg h]; simp only [r]; ring
  have e2 : ssW (-bx) d.mirror a.mirror = ssW bx a d := by
    unfold ssW; rw [hd, bsgn_neg h]; simp only [r]; ring
  have e3 : ssBy (-bx) d.mirror a.mirror = ssBy bx a d := by
    unfold ssBy; rw [hd, bsgn_neg h]; simp only [r]; ring
  have e4 : ssBz (-bx) d.mirror a.mirror = ssBz bx a d := by
    unfold ssBz; rw [hd, bsgn_neg h]; simp only [r]; ring
  have e5 : ssUB (-bx) d.mirror a.mirror = ssUB bx a d := by
    unfold ssUB; rw [e1, e2, e3, e4]; simp only [r, hu]; ring
  have e6 : ∀ x : Full, fullUB (-bx) x.mirror = fullUB bx x := by
    intro x; unfold fullUB; simp only [r]; ring
  have e7 : ssEL (-bx) d.mirror a.mirror = ssER bx a d := by
    unfold ssEL ssER; rw [e5, e6, bsgn_neg h]; simp only [r]; ring
  have e8 : ssER (-bx) d.mirror a.mirror = ssEL bx a d := by
    unfold ssEL ssER; rw [e5, e6, bsgn_neg h]; simp only [r]; ring
  constructor
  · unfold ssL ssR
    rw [e1, e2, e3, e4, e7]
    simp [Full.mirror, Prim.mirror]
  · unfold ssL ssR
    rw [e1, e2, e3, e4, e8]
    simp [Full.mirror, Prim.mirror]

/-- **C71** The mirror image of a Riemann problem has the mirror image of the flux, if the rotational
waves are inside the outer ones; the hypotheses of `C71_fan_partial` are needed only where an outer wave
is at rest. Missing for the full claim: the case where the waves are not ordered, where it is false
(`C71_mirror_fails`). -/
theorem C71_mirror_partial {P : Params} (hg : 1 < P.gamma) (hse : 0 < P.smalle) {bx : ℝ} {l r : Prim ℝ}
    (hl : Gas l) (hr : Gas r)
    (resL : hSL P bx l r ≠ 0 ∨ l.bx = bx ∧ Resolved P bx (hU P bx l r) l (hSL P bx l r))
    (resR : hSR P bx l r ≠ 0 ∨ r.bx = bx ∧ Resolved P bx (hU P bx l r) r (hSR P bx l r))
    (ordL : hSL P bx l r ≤ hSLs P bx l r) (ordR : hSRs P bx l r ≤ hSR P bx l r) :
    hlld P (-bx) (r.mirror 0) (l.mirror 0) = (hlld P bx l r).mirrorFlux 0 := by
  obtain ⟨-, -, -, -, h5, h6⟩ := hwaves hg bx hl hr
  have j2 := jumpA (bx := bx) hg hl hr
  have j4 := jumpB (bx := bx) hg hl hr
  have j3 := jumpC (P := P) (bx := bx) (l := l) (r := r)
  have o1 : hSLs P bx l r ≤ hU P bx l r := by
    unfold hSLs
    have : 0 ≤ |bx| / √(hA P bx l r).q.rho := by positivity
    linarith
  have o2 : hU P bx l r ≤ hSRs P bx l r := by
    unfold hSRs
    have : 0 ≤ |bx| / √(hD P bx l r).q.rho := by positivity
    linarith
  have hzero : bx = 0 → hSLs P bx l r = hU P bx l r ∧ hSRs P bx l r = hU P bx l r := by
    intro h
    unfold hSLs hSRs
    rw [h, abs_zero, zero_div, zero_div]
    constructor <;> ring
  unfold hlld
  rw [← mh_flux]
  unfold hSample
  rw [mh_SL, mh_SR, mh_SLs, mh_SRs, mh_U, mh_A, mh_D, mh_outer, mh_outer]
  have f := fun x => flux_eq x
  -- fluxes on both sides of a wave that does not move
  have t1 : hSL P bx l r = 0 → computeFlux (outerState P bx l) = computeFlux (hA P bx l r) := by
    intro h
    obtain ⟨hb, res⟩ := resL.resolve_left (fun k => k h)
    have j1 := jumpL hg hse hl hr hb res
    rw [f, f]
    exact jump_zero (h ▸ j1)
  have t5 : hSR P bx l r = 0 → computeFlux (outerState P bx r) = computeFlux (hD P bx l r) := by
    intro h
    obtain ⟨hb, res⟩ := resR.resolve_left (fun k => k h)
    have j5 := jumpR hg hse hl hr hb res
    rw [f, f]
    exact jump_zero (h ▸ j5)
  have t2 : hSLs P bx l r = 0 →
      computeFlux (hA P bx l r) = computeFlux (ssL bx (hA P bx l r) (hD P bx l r)) := by
    intro h; rw [f, f]; exact jump_zero (h ▸ j2)
  have t4 : hSRs P bx l r = 0 →
      computeFlux (ssR bx (hA P bx l r) (hD P bx l r)) = computeFlux (hD P bx l r) := by
    intro h; rw [f, f]; exact jump_zero (h ▸ j4)
  have t3 : hU P bx l r = 0 → computeFlux (ssL bx (hA P bx l r) (hD P bx l r)) =
      computeFlux (ssR bx (hA P bx l r) (hD P bx l r)) := by
    intro h; rw [f, f]; exact jump_zero (h ▸ j3)
  have ss : bx ≠ 0 → _ := fun h => mh_ss h (hA P bx l r) (hD P bx l r) rfl
  generalize hSL P bx l r = SL at *
  generalize hSLs P bx l r = SA at *
  generalize hU P bx l r = s at *
  generalize hSRs P bx l r = SB at *
  generalize hSR P bx l r = SR at *
  have push : ∀ (c : Prop) [Decidable c] (x y : Full × ℝ),
      computeFlux (if c then x else y).1 = if c then computeFlux x.1 else computeFlux y.1 := by
    intro c _ x y; split <;> rfl
  have push' : ∀ (c : Prop) [Decidable c] (x y : Full × ℝ),
      computeFlux (Full.mirror (if c then x else y).1) =
        if c then computeFlux x.1.mirror else computeFlux y.1.mirror := by
    intro c _ x y; split <;> rfl
  simp only [push, push']
  by_cases h0 : bx = 0
  · obtain ⟨e1, e2⟩ := hzero h0
    subst e1
    subst e2
    refine Eq.trans (dead (u := computeFlux (ssR bx (hA P bx l r) (hD P bx l r)).mirror)
      (u' := computeFlux (ssL bx (hA P bx l r) (hD P bx l r)).mirror)) ?_
    simp only [mh_flux]
    refine walk ordL o1 o2 ordR ?_ ?_ ?_ ?_ ?_ <;> intro h
    · rw [t1 h]
    · rw [t2 h]
    · rw [t3 h]
    · rw [t4 h]
    · rw [t5 h]
  · rw [(ss h0).1, (ss h0).2]
    simp only [mh_flux]
    refine walk ordL o1 o2 ordR ?_ ?_ ?_ ?_ ?_ <;> intro h
    · rw [t1 h]
    · rw [t2 h]
    · rw [t3 h]
    · rw [t4 h]
    · rw [t5 h]

/-! ### Where it fails -/

/-- Two gases at rest in a field normal to the face, seen from a frame that moves with velocity `-v`. -/
noncomputable def wl (v : ℝ) : Prim ℝ := ⟨1, 1 / 100, v, 0, 0, 1, 0, 0⟩
noncomputable def wr (v : ℝ) : Prim ℝ := ⟨100, 50, v, 0, 0, 1, 0, 0⟩
noncomputable def wP : Params := ⟨2, 1 / 10 ^ 8, false⟩

theorem w_fast (v : ℝ) : fastH wP 1 (wl v) = 1 ∧ fastH wP 1 (wr v) = 1 := by
  unfold fastH wP wl wr
  simp only
  constructor
  · rw [show ((2 : ℝ) * (1 / 100) + (1 * 1 + 0 * 0 + 0 * 0)) * (2 * (1 / 100) + (1 * 1 + 0 * 0 + 0 * 0)) -
      4 * (2 * (1 / 100)) * 1 * 1 = (98 / 100) ^ 2 by norm_num, Real.sqrt_sq (by norm_num)]
    rw [show (1 : ℝ) / 2 * (2 * (1 / 100) + (1 * 1 + 0 * 0 + 0 * 0) + 98 / 100) / 1 = 1 by norm_num]
    exact Real.sqrt_one
  · rw [show ((2 : ℝ) * 50 + (1 * 1 + 0 * 0 + 0 * 0)) * (2 * 50 + (1 * 1 + 0 * 0 + 0 * 0)) -
      4 * (2 * 50) * 1 * 1 = 99 ^ 2 by norm_num, Real.sqrt_sq (by norm_num)]
    rw [show (1 : ℝ) / 2 * (2 * 50 + (1 * 1 + 0 * 0 + 0 * 0) + 99) / 100 = 1 by norm_num]
    exact Real.sqrt_one

theorem w_SL (v : ℝ) : hSL wP 1 (wl v) (wr v) = v - 1 := by
  unfold hSL; rw [(w_fast v).1, (w_fast v).2]; simp [wl, wr]

theorem w_SR (v : ℝ) : hSR wP 1 (wl v) (wr v) = v + 1 := by
  unfold hSR; rw [(w_fast v).1, (w_fast v).2]; simp [wl, wr]

theorem w_U (v : ℝ) : hU wP 1 (wl v) (wr v) = v - 4999 / 10100 := by
  unfold hU hCL hCR
  rw [w_SL, w_SR]
  simp only [sidePT, sideB2, wl, wr]
  ring

theorem w_rho (v : ℝ) : (hA wP 1 (wl v) (wr v)).q.rho = 10100 / 5101 := by
  show starR _ _ _ = _
  unfold starR
  rw [w_U, w_SL]
  simp only [wl]
  rw [show v - 1 - (v - 4999 / 10100) = -(5101 / 10100) by ring]
  norm_num

/-- The left rotational wave is faster than the outer one. -/
theorem w_SLs (v : ℝ) : hSLs wP 1 (wl v) (wr v) < v - 6 / 5 := by
  unfold hSLs
  rw [w_U, w_rho, abs_one]
  have h : √(10100 / 5101 : ℝ) < 1 / (7051 / 10000) := by
    rw [Real.sqrt_lt' (by norm_num)]
    norm_num
  have h0 : 0 < √(10100 / 5101 : ℝ) := Real.sqrt_pos.2 (by norm_num)
  have := one_div_lt_one_div_of_lt h0 h
  rw [one_div_one_div] at this
  linarith

/-- **C71** The waves of the solver need not be ordered. -/
theorem C71_order_fails : ∃ (P : Params) (l r : Prim ℝ), 1 < P.gamma ∧ 0 < P.smalle ∧ Gas l ∧ Gas r ∧
    l.bx = r.bx ∧ hSLs P l.bx l r < hSL P l.bx l r := by
  refine ⟨wP, wl 0, wr 0, by norm_num [wP], by norm_num [wP], ⟨by norm_num [wl], by norm_num [wl]⟩,
    ⟨by norm_num [wr], by norm_num [wr]⟩, rfl, ?_⟩
  show hSLs wP 1 _ _ < hSL wP 1 _ _
  rw [w_SL]
  have := w_SLs 0
  linarith

/-- **C71** The mirror image of the flux is not the flux of the mirror image where the waves are not
ordered, even if the normal field has no jump. -/
theorem C71_mirror_fails : ∃ (P : Params) (l r : Prim ℝ), 1 < P.gamma ∧ 0 < P.smalle ∧ Gas l ∧ Gas r ∧
    l.bx = r.bx ∧ hlld P (-l.bx) (r.mirror 0) (l.mirror 0) ≠ (hlld P l.bx l r).mirrorFlux 0 := by
  refine ⟨wP, wl (11 / 10), wr (11 / 10), by norm_num [wP], by norm_num [wP],
    ⟨by norm_num [wl], by norm_num [wl]⟩, ⟨by norm_num [wr], by norm_num [wr]⟩, rfl, ?_⟩
  show hlld wP (-1) _ _ ≠ (hlld wP 1 _ _).mirrorFlux 0
  intro h
  have h := congrArg Cons.rho h
  have hs := w_SLs (11 / 10)
  have r2 : hU wP 1 (wl (11 / 10)) (wr (11 / 10)) ≤ hSRs wP 1 (wl (11 / 10)) (wr (11 / 10)) := by
    unfold hSRs
    have : 0 ≤ |(1 : ℝ)| / √(hD wP 1 (wl (11 / 10)) (wr (11 / 10))).q.rho := by positivity
    linarith
  rw [w_U] at r2
  have lhs : (hlld wP (-1) ((wr (11 / 10)).mirror 0) ((wl (11 / 10)).mirror 0)).rho =
      10100 / 5101 * -(11 / 10 - 4999 / 10100) := by
    unfold hlld hSample
    rw [mh_SL, mh_SR, mh_SLs, mh_SRs, mh_U, mh_A, mh_D, w_SR, w_U]
    rw [if_neg (by norm_num), if_neg (by linarith), if_neg (by norm_num), if_pos (by linarith)]
    rw [(mh_ss one_ne_zero (hA wP 1 (wl (11 / 10)) (wr (11 / 10)))
      (hD wP 1 (wl (11 / 10)) (wr (11 / 10))) rfl).2]
    show (hA wP 1 (wl (11 / 10)) (wr (11 / 10))).q.rho *
      -(hU wP 1 (wl (11 / 10)) (wr (11 / 10))) = _
    rw [w_rho, w_U]
  have rhs : ((hlld wP 1 (wl (11 / 10)) (wr (11 / 10))).mirrorFlux 0).rho = -(11 / 10) := by
    unfold hlld hSample
    rw [w_SL, if_pos (by norm_num)]
    show -((wl (11 / 10)).rho * (wl (11 / 10)).u) = _
    norm_num [wl]
  rw [lhs, rhs] at h
  norm_num at h

/-- **C71** In a supersonic flow, with a normal field at the face that differs from that of the states
(the call of `riemann_hydro` for GLM-MHD states L664), the flux is neither that of the left state nor
that of the left state with the field of the face. -/
theorem C71_supersonic_fails : ∃ (P : Params) (bx : ℝ) (q : Prim ℝ), 1 < P.gamma ∧ 0 < P.smalle ∧ Gas q ∧
    0 < hSL P bx q q ∧ hlld P bx q q ≠ mhdFlux P.gamma 0 q ∧
    hlld P bx q q ≠ mhdFlux P.gamma 0 { q with bx := bx } := by
  have hf : fastH wP 0 ⟨1, 1, 10, 0, 0, 1, 0, 0⟩ < 10 := by
    unfold fastH wP
    simp only
    rw [show ((2 : ℝ) * 1 + (0 * 0 + 0 * 0 + 0 * 0)) * (2 * 1 + (0 * 0 + 0 * 0 + 0 * 0)) -
      4 * (2 * 1) * 0 * 0 = 2 ^ 2 by norm_num, Real.sqrt_sq (by norm_num), Real.sqrt_lt' (by norm_num)]
    norm_num
  have hS : 0 < hSL wP 0 ⟨1, 1, 10, 0, 0, 1, 0, 0⟩ ⟨1, 1, 10, 0, 0, 1, 0, 0⟩ := by
    unfold hSL
    rw [max_self, min_self]
    simp only
    linarith
  have hm : (hlld wP 0 ⟨1, 1, 10, 0, 0, 1, 0, 0⟩ ⟨1, 1, 10, 0, 0, 1, 0, 0⟩).ru = 100 := by
    unfold hlld hSample
    rw [if_pos hS]
    norm_num [computeFlux, outerState, sidePT, sideB2]
  refine ⟨wP, 0, ⟨1, 1, 10, 0, 0, 1, 0, 0⟩, by norm_num [wP], by norm_num [wP],
    ⟨by norm_num, by norm_num⟩, hS, ?_, ?_⟩
  · intro h
    have h := congrArg Cons.ru h
    rw [hm] at h
    norm_num [mhdFlux, Cons.of, dot, Prim.vel, Prim.mag] at h
  · intro h
    have h := congrArg Cons.ru h
    rw [hm] at h
    norm_num [mhdFlux, Cons.of, dot, Prim.vel, Prim.mag] at h

/-! ### Without a field -/

/-- A gas without field. -/
def Prim.ofHydro (q : Hydro.Prim ℝ) : Prim ℝ := ⟨q.rho, q.p, q.u, q.v, q.w, 0, 0, 0⟩
def Cons.ofHydro (q : Hydro.Cons ℝ) : Cons ℝ := ⟨q.rho, q.e, q.ru, q.rv, q.rw, 0, 0, 0⟩

/-- **C71** Without a field the solver is the HLLC solver of hydrodynamics (C44), where the floors of the
latter have no effect. -/
theorem C71_hydro {H : Hydro.Params} (hH : H.Ok) (P : Params) (hg : P.gamma = H.gamma) {l r : Hydro.Prim ℝ}
    (hl : Hydro.Admissible H l) (hr : Hydro.Admissible H r)
    (cl : H.smallc * H.smallc ≤ H.gamma * l.p / l.rho) (cr : H.smallc * H.smallc ≤ H.gamma * r.p / r.rho) :
    hlld P 0 (.ofHydro l) (.ofHydro r) = .ofHydro (Hydro.hllc H l r) := by
  have R : ∀ q, Hydro.Admissible H q → Hydro.sideR H q = q.rho := fun q hq => max_eq_left hq.1
  have Pr : ∀ q, Hydro.Admissible H q → Hydro.sideP H q = q.p := by
    intro q hq; unfold Hydro.sideP; rw [R q hq]; exact max_eq_left hq.2
  have pos : ∀ q, Hydro.Admissible H q → 0 < q.rho ∧ 0 < q.p := by
    intro q hq
    exact ⟨R q hq ▸ Hydro.sideR_pos hH q, Pr q hq ▸ Hydro.sideP_pos hH q⟩
  have E : ∀ q, Hydro.Admissible H q → Hydro.sideE H q = sideE P 0 (.ofHydro q) := by
    intro q hq
    unfold Hydro.sideE sideE sideB2
    rw [Pr q hq, R q hq, hg]
    simp only [Prim.ofHydro]
    ring
  have PT : ∀ q, sidePT 0 (.ofHydro q) = q.p := by
    intro q; unfold sidePT sideB2; simp [Prim.ofHydro]
  have C : ∀ q, Hydro.Admissible H q → H.smallc * H.smallc ≤ H.gamma * q.p / q.rho →
      Hydro.cfast H q = fastH P 0 (.ofHydro q) := by
    intro q hq hc
    unfold Hydro.cfast fastH
    rw [Pr q hq, R q hq, max_eq_left hc, hg]
    have := (pos q hq).2
    have hg0 : 0 < H.gamma := by linarith [hH.gamma]
    simp only [Prim.ofHydro]
    rw [show (H.gamma * q.p + (0 * 0 + 0 * 0 + 0 * 0)) * (H.gamma * q.p + (0 * 0 + 0 * 0 + 0 * 0)) -
      4 * (H.gamma * q.p) * 0 * 0 = (H.gamma * q.p) ^ 2 by ring, Real.sqrt_sq (by positivity)]
    congr 1
    ring
  have SL : Hydro.waveL H l r = hSL P 0 (.ofHydro l) (.ofHydro r) := by
    unfold Hydro.waveL hSL; rw [C l hl cl, C r hr cr]; rfl
  have SR : Hydro.waveR H l r = hSR P 0 (.ofHydro l) (.ofHydro r) := by
    unfold Hydro.waveR hSR; rw [C l hl cl, C r hr cr]; rfl
  have CL : Hydro.rcl H l r = hCL P 0 (.ofHydro l) (.ofHydro r) := by
    unfold Hydro.rcl hCL; rw [R l hl, SL]; rfl
  have CR : Hydro.rcr H l r = hCR P 0 (.ofHydro l) (.ofHydro r) := by
    unfold Hydro.rcr hCR; rw [R r hr, SR]; rfl
  have U : Hydro.ustar H l r = hU P 0 (.ofHydro l) (.ofHydro r) := by
    unfold Hydro.ustar hU
    rw [CL, CR, PT, PT, Pr l hl, Pr r hr]
    congr 1
    simp only [Prim.ofHydro]
    ring
  have PS : Hydro.pstar H l r = hP P 0 (.ofHydro l) (.ofHydro r) := by
    unfold Hydro.pstar hP
    rw [CL, CR, PT, PT, Pr l hl, Pr r hr]
    congr 1
    simp only [Prim.ofHydro]
    ring
  have star : ∀ q, Hydro.Admissible H q → ∀ S rc,
      starState P 0 (hU P 0 (.ofHydro l) (.ofHydro r)) (hP P 0 (.ofHydro l) (.ofHydro r)) (.ofHydro q) S rc =
      ⟨⟨Hydro.rstar H l r q S, Hydro.pstar H l r, Hydro.ustar H l r, q.v, q.w, 0, 0, 0⟩,
        Hydro.estar H l r q S⟩ := by
    intro q hq S rc
    have hs : ¬ Switch P 0 (hU P 0 (.ofHydro l) (.ofHydro r)) (.ofHydro q) S := by
      unfold Switch
      rw [mul_zero, not_lt]
      exact abs_nonneg _
    unfold starState starE udotB udotBS starV starW starBy starBz Hydro.rstar Hydro.estar starR
    simp only [if_neg hs, R q hq, E q hq, Pr q hq, U, PS, PT]
    simp only [Prim.ofHydro]
    congr 2 <;> ring
  obtain ⟨-, -, w1, w2, w3, w4⟩ := hwaves (P := P) (hg ▸ hH.gamma) 0 (l := .ofHydro l) (r := .ofHydro r)
    (pos l hl) (pos r hr)
  obtain ⟨p1, p2⟩ := starR_pos (P := P) (hg ▸ hH.gamma) 0 (l := .ofHydro l) (r := .ofHydro r)
    (pos l hl) (pos r hr)
  have eA : hA P 0 (.ofHydro l) (.ofHydro r) = _ := star l hl _ _
  have eD : hD P 0 (.ofHydro l) (.ofHydro r) = _ := star r hr _ _
  have s1 : hSLs P 0 (.ofHydro l) (.ofHydro r) = hU P 0 (.ofHydro l) (.ofHydro r) := by
    unfold hSLs; rw [abs_zero, zero_div, sub_zero]
  have s2 : hSRs P 0 (.ofHydro l) (.ofHydro r) = hU P 0 (.ofHydro l) (.ofHydro r) := by
    unfold hSRs; rw [abs_zero, zero_div, add_zero]
  rw [eA] at p1
  rw [eD] at p2
  simp only at p1 p2
  rw [← SL] at p1 w3
  rw [← SR] at p2 w4
  rw [← U] at w3 w4
  have hposL : 0 < Hydro.waveL H l r → 0 < l.u := by
    intro h
    have : Hydro.waveL H l r ≤ l.u := by
      unfold Hydro.waveL
      have := min_le_left l.u r.u
      have := le_max_of_le_left (b := Hydro.cfast H l) (c := Hydro.cfast H r) (Hydro.cfast_pos hH l).le
      linarith
    linarith
  have hposR : Hydro.waveR H l r ≤ 0 → r.u ≤ 0 := by
    intro h
    have : r.u ≤ Hydro.waveR H l r := by
      unfold Hydro.waveR
      have := le_max_right l.u r.u
      have := le_max_of_le_left (b := Hydro.cfast H l) (c := Hydro.cfast H r) (Hydro.cfast_pos hH l).le
      linarith
    linarith
  unfold hlld hSample Hydro.hllc Hydro.sample
  rw [s1, s2, eA, eD, ← SL, ← SR, ← U]
  by_cases c1 : 0 < Hydro.waveL H l r
  · have hm := mul_pos (pos l hl).1 (hposL c1)
    simp only [if_pos c1, outerState, computeFlux, Hydro.godunov, R l hl, Pr l hl, E l hl, PT, if_pos hm]
    simp only [Prim.ofHydro, Cons.ofHydro, Cons.mk.injEq]
    refine ⟨trivial, ?_, ?_, ?_, ?_, trivial, ?_, ?_⟩ <;> ring
  by_cases c2 : 0 < Hydro.ustar H l r
  · have hm := mul_pos p1 c2
    simp only [if_neg c1, if_pos c2, computeFlux, Hydro.godunov, if_pos hm, Cons.ofHydro, Cons.mk.injEq]
    refine ⟨trivial, ?_, ?_, ?_, ?_, trivial, ?_, ?_⟩ <;> ring
  by_cases c3 : 0 < Hydro.waveR H l r
  · have hm : ¬ 0 < Hydro.rstar H l r r (Hydro.waveR H l r) * Hydro.ustar H l r :=
      not_lt.2 (mul_nonpos_of_nonneg_of_nonpos p2.le (not_lt.1 c2))
    simp only [if_neg c1, if_neg c2, if_pos c3, computeFlux, Hydro.godunov, if_neg hm, Cons.ofHydro,
      Cons.mk.injEq]
    refine ⟨trivial, ?_, ?_, ?_, ?_, trivial, ?_, ?_⟩ <;> ring
  · have hm : ¬ 0 < r.rho * r.u :=
      not_lt.2 (mul_nonpos_of_nonneg_of_nonpos (pos r hr).1.le (hposR (not_lt.1 c3)))
    simp only [if_neg c1, if_neg c2, if_neg c3, outerState, computeFlux, Hydro.godunov, R r hr, Pr r hr,
      E r hr, PT, if_neg hm]
    simp only [Prim.ofHydro, Cons.ofHydro, Cons.mk.injEq]
    refine ⟨trivial, ?_, ?_, ?_, ?_, trivial, ?_, ?_⟩ <;> ring

/-! ### The hypotheses can be met -/

/-- Floors without effect, and a jump of density, pressure and velocity without a field. -/
example : ∃ (H : Hydro.Params) (l r : Hydro.Prim ℝ), H.Ok ∧ l ≠ r ∧ Hydro.Admissible H l ∧
    Hydro.Admissible H r ∧ H.smallc * H.smallc ≤ H.gamma * l.p / l.rho ∧
    H.smallc * H.smallc ≤ H.gamma * r.p / r.rho := by
  refine ⟨⟨5 / 3, 1 / 100, 1 / 100, 1 / 100⟩, ⟨1, 1, 0, 0, 0⟩, ⟨1 / 8, 1 / 10, 1, 2, 3⟩,
    ⟨by norm_num, by norm_num, by norm_num⟩, ?_, ⟨?_, ?_⟩, ⟨?_, ?_⟩, ?_, ?_⟩ <;> norm_num

/-- Two gases that differ in everything but the normal field, which vanishes: no threshold is met and
the rotational waves are inside the outer ones. -/
example : ∃ (P : Params) (l r : Prim ℝ), 1 < P.gamma ∧ 0 < P.smalle ∧ Gas l ∧ Gas r ∧ l.bx = 0 ∧
    r.bx = 0 ∧ l.by' ≠ r.by' ∧ Resolved P 0 (hU P 0 l r) l (hSL P 0 l r) ∧
    Resolved P 0 (hU P 0 l r) r (hSR P 0 l r) ∧ hSL P 0 l r ≤ hSLs P 0 l r ∧
    hSRs P 0 l r ≤ hSR P 0 l r := by
  have hl : Gas (⟨1, 1, 1, 0, 2, 0, 1, 0⟩ : Prim ℝ) := ⟨by norm_num, by norm_num⟩
  have hr : Gas (⟨2, 3, 0, 1, 0, 0, 2, 1⟩ : Prim ℝ) := ⟨by norm_num, by norm_num⟩
  obtain ⟨-, -, -, -, h1, h2⟩ := hwaves (P := wP) (by norm_num [wP]) 0 hl hr
  refine ⟨wP, _, _, by norm_num [wP], by norm_num [wP], hl, hr, rfl, rfl, by norm_num, ?_, ?_, ?_, ?_⟩
  · left
    rw [zero_pow two_ne_zero, mul_zero]
    exact abs_nonneg _
  · left
    rw [zero_pow two_ne_zero, mul_zero]
    exact abs_nonneg _
  · unfold hSLs
    rw [abs_zero, zero_div, sub_zero]
    exact h1.le
  · unfold hSRs
    rw [abs_zero, zero_div, add_zero]
    exact h2.le

/-- An inclined field: the two rotational waves and the middle one are distinct. -/
example : ∃ (P : Params) (q : Prim ℝ), 1 < P.gamma ∧ 0 < P.smalle ∧ Gas q ∧ q.bx = 1 ∧ q.by' = 1 ∧
    Resolved P 1 (hU P 1 q q) q (hSL P 1 q q) ∧ Resolved P 1 (hU P 1 q q) q (hSR P 1 q q) ∧
    hSL P 1 q q < hSLs P 1 q q ∧ hSLs P 1 q q < hSRs P 1 q q ∧ hSRs P 1 q q < hSR P 1 q q := by
  obtain ⟨P, hP⟩ : ∃ P : Params, P = ⟨3 / 2, 1 / 10, false⟩ := ⟨_, rfl⟩
  obtain ⟨q, hq⟩ : ∃ q : Prim ℝ, q = ⟨1, 1, 0, 0, 0, 1, 1, 0⟩ := ⟨_, rfl⟩
  have hf : fastH P 1 q = √3 := by
    unfold fastH
    rw [hP, hq]
    simp only
    rw [show ((3 : ℝ) / 2 * 1 + (1 * 1 + 1 * 1 + 0 * 0)) * (3 / 2 * 1 + (1 * 1 + 1 * 1 + 0 * 0)) -
      4 * (3 / 2 * 1) * 1 * 1 = (5 / 2) ^ 2 by norm_num, Real.sqrt_sq (by norm_num)]
    norm_num
  have h3 : √3 ^ 2 = (3 : ℝ) := Real.sq_sqrt (by norm_num)
  have h31 : 1 < √(3 : ℝ) := by
    rw [Real.lt_sqrt zero_le_one]; norm_num
  have hSL' : hSL P 1 q q = -√3 := by unfold hSL; rw [hf, hq]; simp
  have hSR' : hSR P 1 q q = √3 := by unfold hSR; rw [hf, hq]; simp
  have hU' : hU P 1 q q = 0 := by
    unfold hU; rw [hq]; simp
  have e1 : econv 1 0 q (-√3) = 2 := by
    unfold econv; rw [hq]; linear_combination h3
  have e2 : econv 1 0 q √3 = 2 := by
    unfold econv; rw [hq]; linear_combination h3
  have s3 : √(3 : ℝ) ≠ 0 := by linarith
  have rA : (hA P 1 q q).q.rho = 1 := by
    show starR _ _ _ = _
    unfold starR
    rw [hU', hSL', hq]
    simp [s3]
  have rD : (hD P 1 q q).q.rho = 1 := by
    show starR _ _ _ = _
    unfold starR
    rw [hU', hSR', hq]
    simp [s3]
  have a1 : hSLs P 1 q q = -1 := by
    unfold hSLs; rw [hU', rA, abs_one, Real.sqrt_one]; norm_num
  have a2 : hSRs P 1 q q = 1 := by
    unfold hSRs; rw [hU', rD, abs_one, Real.sqrt_one]; norm_num
  refine ⟨P, q, by norm_num [hP], by norm_num [hP], by rw [hq]; exact ⟨one_pos, one_pos⟩, by rw [hq],
    by rw [hq], Or.inl ?_, Or.inl ?_, ?_, ?_, ?_⟩
  · rw [hU', hSL', e1, hP]; norm_num
  · rw [hU', hSR', e2, hP]; norm_num
  · rw [hSL', a1]; linarith
  · rw [a1, a2]; norm_num
  · rw [a2, hSR']; exact h31

end Verif.Mhd
