import Verif.Hydro.Jump
import Verif.Hydro.Slope

/-!
# C86: the mass that the Riemann solver moves

Bounds on the mass flux of `riemann_hllc` and on reconstructed states.
-/

namespace Verif.Hydro

variable {P : Params}

/-- The middle wave is not faster than both sides, up to what the pressure difference adds. -/
theorem ustar_le (hP : P.Ok) (l r : Prim ℝ) :
    ustar P l r ≤ max l.u r.u + max (sideP P l - sideP P r) 0 / rcl P l r := by
  obtain ⟨w1, w2, a1, a2, -, -⟩ := waves hP l r
  have hsum : 0 < rcr P l r + rcl P l r := by linarith
  unfold ustar
  rw [div_le_iff₀ hsum, add_mul]
  have h1 : rcr P l r * r.u + rcl P l r * l.u ≤ max l.u r.u * (rcr P l r + rcl P l r) := by
    have := mul_le_mul_of_nonneg_left (le_max_right l.u r.u) a2.le
    have := mul_le_mul_of_nonneg_left (le_max_left l.u r.u) a1.le
    linarith
  have h2 : sideP P l - sideP P r ≤
      max (sideP P l - sideP P r) 0 / rcl P l r * (rcr P l r + rcl P l r) := by
    have h0 : 0 ≤ max (sideP P l - sideP P r) 0 := le_max_right _ _
    have : max (sideP P l - sideP P r) 0 / rcl P l r * rcl P l r = max (sideP P l - sideP P r) 0 := by
      field_simp
    have h3 : 0 ≤ max (sideP P l - sideP P r) 0 / rcl P l r * rcr P l r :=
      mul_nonneg (div_nonneg h0 a1.le) a2.le
    rw [mul_add, this]
    linarith [le_max_left (sideP P l - sideP P r) 0]
  linarith

/-- Mass leaves the left side at most at the speed of the faster side, increased by what the pressure
difference adds. -/
theorem mass_le (hP : P.Ok) (l r : Prim ℝ) :
    (hllc P l r).rho ≤ sideR P l * max (max l.u r.u) 0 + max (sideP P l - sideP P r) 0 / cfast P l := by
  obtain ⟨w1, w2, a1, a2, s1, s2⟩ := waves hP l r
  have hl := sideR_pos hP l
  have hr := sideR_pos hP r
  have hc := cfast_pos hP l
  have hq : 0 ≤ max (sideP P l - sideP P r) 0 / cfast P l := div_nonneg (le_max_right _ _) hc.le
  have hm : 0 ≤ sideR P l * max (max l.u r.u) 0 := mul_nonneg hl.le (le_max_right _ _)
  have hul : l.u ≤ max (max l.u r.u) 0 := (le_max_left _ _).trans (le_max_left _ _)
  unfold hllc godunov sample
  split
  · simp only
    linarith [mul_le_mul_of_nonneg_left hul hl.le]
  rename_i h1
  split
  · rename_i h2
    simp only
    -- the flux is at most the density times the faster of the side and the middle wave
    have e1 : rstar P l r l (waveL P l r) * ustar P l r ≤ sideR P l * max l.u (ustar P l r) := by
      unfold rstar
      have hne : 0 < ustar P l r - waveL P l r := by linarith
      rw [show sideR P l * (waveL P l r - l.u) / (waveL P l r - ustar P l r) * ustar P l r =
        sideR P l * ((l.u - waveL P l r) * ustar P l r / (ustar P l r - waveL P l r)) by
          rw [← neg_sub l.u, ← neg_sub (ustar P l r) (waveL P l r), mul_neg, neg_div_neg_eq]; ring]
      refine mul_le_mul_of_nonneg_left ?_ hl.le
      rw [div_le_iff₀ hne]
      rcases le_total l.u (ustar P l r) with h | h
      · rw [max_eq_right h]
        nlinarith
      · rw [max_eq_left h]
        nlinarith [mul_nonneg (sub_nonneg.2 h) (sub_nonneg.2 (not_lt.1 h1))]
    have e2 := ustar_le hP l r
    have e3 : sideR P l * (max (sideP P l - sideP P r) 0 / rcl P l r) ≤
        max (sideP P l - sideP P r) 0 / cfast P l := by
      unfold rcl
      have h0 : 0 ≤ max (sideP P l - sideP P r) 0 := le_max_right _ _
      have hw : cfast P l ≤ l.u - waveL P l r := by
        unfold waveL
        have := min_le_left l.u r.u
        have := le_max_left (cfast P l) (cfast P r)
        linarith
      rw [show sideR P l * (max (sideP P l - sideP P r) 0 / (sideR P l * (l.u - waveL P l r))) =
        max (sideP P l - sideP P r) 0 / (l.u - waveL P l r) by field_simp]
      exact div_le_div_of_nonneg_left h0 hc hw
    have h0 : 0 ≤ max (sideP P l - sideP P r) 0 / rcl P l r := div_nonneg (le_max_right _ _) a1.le
    have e4 : max l.u (ustar P l r) ≤ max (max l.u r.u) 0 + max (sideP P l - sideP P r) 0 / rcl P l r :=
      max_le (by linarith) (by linarith [le_max_left (max l.u r.u) 0])
    have e5 := mul_le_mul_of_nonneg_left e4 hl.le
    rw [mul_add] at e5
    linarith
  rename_i h2
  split
  · simp only
    have hpos : 0 < rstar P l r r (waveR P l r) := by
      unfold rstar
      exact div_pos (mul_pos hr w2) (by linarith)
    have := mul_nonpos_of_nonneg_of_nonpos hpos.le (not_lt.1 h2)
    linarith
  · rename_i h3
    simp only
    have : sideR P r * r.u ≤ 0 := mul_nonpos_of_nonneg_of_nonpos hr.le (by linarith)
    linarith

/-- The same for the right side. -/
theorem neg_mass_le (hP : P.Ok) (l r : Prim ℝ) :
    -(hllc P l r).rho ≤
      sideR P r * max (max (-r.u) (-l.u)) 0 + max (sideP P r - sideP P l) 0 / cfast P r := by
  have h := mass_le hP (r.mirror 0) (l.mirror 0)
  rw [hllc_mirror hP] at h
  exact h

/-! ### Reconstructed values -/

/-- What a reconstructed value `v` at a face at `1/2` is: `q` is the value of the cell, `qn` that of the
neighbour at the distance `h`, and `w` that on the other side. -/
structure AtFace (q qn w h v : ℝ) : Prop where
  between : Between q qn v
  up : q ≤ qn → v ≤ q + (qn - q) / (2 * h)
  down : qn ≤ q → q + (qn - q) / (2 * h) ≤ v
  bound : 0 ≤ w → 0 ≤ q → v ≤ 3 / 2 * q

theorem atFace_right {q qn w h : ℝ} (hh : 1 / 2 ≤ h) :
    AtFace q qn w h (reconstructLin q (computeSlope w q qn 1 h) 1 (1 / 2)) := by
  have h0 : 0 < h := by linarith
  obtain ⟨⟨h1, h2⟩, h3, h4⟩ := computeSlope_spec w q qn 1 h
  refine ⟨((C46_between one_pos h0 (by norm_num)).1 hh), ?_, ?_, ?_⟩
  all_goals
    unfold reconstructLin
    generalize computeSlope w q qn 1 h = m at *
    rw [div_one] at h3 h4
  · intro hq
    have hg : 0 ≤ (qn - q) / h := div_nonneg (by linarith) h0.le
    rw [abs_of_nonneg hg] at h2
    have : (qn - q) / (2 * h) = (qn - q) / h / 2 := by field_simp
    rw [this]
    linarith [le_abs_self m]
  · intro hq
    have hg : (qn - q) / h ≤ 0 := div_nonpos_of_nonpos_of_nonneg (by linarith) h0.le
    rw [abs_of_nonpos hg] at h2
    have : (qn - q) / (2 * h) = (qn - q) / h / 2 := by field_simp
    rw [this]
    linarith [neg_abs_le m]
  · intro hw hq
    rcases le_or_gt m 0 with hm | hm
    · linarith
    · have : 0 ≤ q - w := by
        by_contra hc
        have := mul_neg_of_pos_of_neg hm (not_le.1 hc)
        linarith
      rw [abs_of_pos hm, abs_of_nonneg this] at h4
      linarith

theorem atFace_left {q qn w h : ℝ} (hh : 1 / 2 ≤ h) :
    AtFace q qn w h (reconstructLin q (computeSlope qn q w h 1) (-1) (1 / 2)) := by
  have h0 : 0 < h := by linarith
  obtain ⟨⟨h1, h2⟩, h3, h4⟩ := computeSlope_spec qn q w h 1
  refine ⟨((C46_between h0 one_pos (by norm_num)).2 hh), ?_, ?_, ?_⟩
  all_goals
    unfold reconstructLin
    generalize computeSlope qn q w h 1 = m at *
    rw [div_one] at h1 h2
  · intro hq
    have hg : (q - qn) / h ≤ 0 := div_nonpos_of_nonpos_of_nonneg (by linarith) h0.le
    rw [abs_of_nonpos hg] at h4
    have : (qn - q) / (2 * h) = -((q - qn) / h) / 2 := by field_simp; ring
    rw [this]
    linarith [neg_abs_le m]
  · intro hq
    have hg : 0 ≤ (q - qn) / h := div_nonneg (by linarith) h0.le
    rw [abs_of_nonneg hg] at h4
    have : (qn - q) / (2 * h) = -((q - qn) / h) / 2 := by field_simp; ring
    rw [this]
    linarith [le_abs_self m]
  · intro hw hq
    rcases le_or_gt 0 m with hm | hm
    · linarith
    · have : w - q ≤ 0 := by
        by_contra hc
        have := mul_neg_of_neg_of_pos hm (not_le.1 hc)
        linarith
      rw [abs_of_neg hm, abs_of_nonpos this] at h2
      linarith

/-- The two values at a face are in the order of the values of the two cells. -/
theorem AtFace.order {q qn w w' h h' v v' : ℝ} (hs : 1 / (2 * h) + 1 / (2 * h') = 1)
    (a : AtFace q qn w h v) (a' : AtFace qn q w' h' v') (hlt : v' < v) : v ≤ q := by
  rcases le_total q qn with hq | hq
  · have e1 := a.up hq
    have e2 := a'.down hq
    rw [div_eq_mul_one_div] at e1 e2
    have : q + (qn - q) * (1 / (2 * h)) = qn + (q - qn) * (1 / (2 * h')) := by
      rw [show 1 / (2 * h') = 1 - 1 / (2 * h) by linarith]; ring
    linarith
  · rcases a.between with ⟨b1, b2⟩ | ⟨b1, b2⟩ <;> linarith

theorem AtFace.abs_le {q qn w h v : ℝ} (a : AtFace q qn w h v) : |v| ≤ max |q| |qn| := by
  rw [abs_le']
  have := le_abs_self q
  have := le_abs_self qn
  have := neg_abs_le q
  have := neg_abs_le qn
  have := le_max_left |q| |qn|
  have := le_max_right |q| |qn|
  rcases a.between with ⟨b1, b2⟩ | ⟨b1, b2⟩ <;> constructor <;> linarith

/-! ### One face -/

/-- A state that the floors of the solver do not change, with the speed of sound that the time step uses. -/
theorem pressure_part (hP : P.Ok) {ρ p : ℝ} (hρ : P.smallr ≤ ρ) (hp : ρ * P.smallp ≤ p) (q : Prim ℝ)
    (hR : sideR P q ≤ 3 / 2 * ρ) (hX : sideP P q ≤ 3 / 2 * p) :
    sideP P q / cfast P q ≤ 3 / 2 * ρ * √(P.gamma * p / ρ) := by
  have hR0 := sideR_pos hP q
  have hX0 := sideP_pos hP q
  have hρ0 : 0 < ρ := hP.smallr.trans_le hρ
  have hp0 : 0 < p := (mul_pos hρ0 hP.smallp).trans_le hp
  have hg := hP.gamma
  have hs : √(P.gamma * sideP P q / sideR P q) ≤ cfast P q := Real.sqrt_le_sqrt (le_max_left _ _)
  have hs0 : 0 < √(P.gamma * sideP P q / sideR P q) :=
    Real.sqrt_pos.2 (div_pos (mul_pos (by linarith) hX0) hR0)
  refine (div_le_div_of_nonneg_left hX0.le hs0 hs).trans ?_
  rw [div_le_iff₀ hs0, mul_assoc, ← Real.sqrt_mul (div_nonneg (mul_nonneg (by linarith) hp0.le) hρ0.le)]
  generalize sideP P q = X at *
  generalize sideR P q = R at *
  have h1 : X / (3 / 2 * ρ) ≤ √(P.gamma * p / ρ * (P.gamma * X / R)) := by
    refine Real.le_sqrt_of_sq_le ?_
    rw [div_pow, div_mul_div_comm, div_le_div_iff₀ (by positivity) (by positivity)]
    have h2 : X * R ≤ 9 / 4 * (p * ρ) := by nlinarith
    have h3 : X * R ≤ 9 / 4 * (p * ρ) * P.gamma ^ 2 := by
      have h0 : 0 ≤ 9 / 4 * (p * ρ) := by positivity
      exact h2.trans (le_mul_of_one_le_right h0 (one_le_pow₀ hg.le))
    nlinarith [mul_le_mul_of_nonneg_left h3 (mul_nonneg hX0.le hρ0.le)]
  rwa [div_le_iff₀ (by positivity), mul_comm] at h1

end Verif.Hydro
