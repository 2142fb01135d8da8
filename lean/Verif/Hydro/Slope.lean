import Mathlib.Algebra.Order.Field.Basic
import Mathlib.Algebra.Order.Ring.Rat
import Mathlib.Algebra.Order.AbsoluteValue.Basic
import Mathlib.Tactic.FieldSimp
import Mathlib.Tactic.Linarith
import Mathlib.Tactic.NormNum
import Mathlib.Tactic.Positivity
import Mathlib.Tactic.Ring

/-!
# C46: slope limiting

Models of `compute_slope` and `reconstruct_lin_state` (`core/src/hydro/HydroUpdate_utils.h`) and of
`compute_limited_slopes` (`core/src/hydro/HydroUpdate_hancock_oneneighbor.cpp`) for one variable.
Arithmetic is exact.
-/

namespace Verif.Hydro

variable {K : Type} [Field K] [LinearOrder K]

/-! ### Model -/

/-- `HydroUpdate_utils.h` L67-86 for one variable. -/
def computeSlope (qMinus q qPlus dL dR : K) : K :=
  let dvp := (qPlus - q) / dR
  let dvm := (q - qMinus) / dL
  if dvp * dvm ≤ 0 then 0 else if |dvm| < |dvp| then dvm else dvp

/-- L99-108 for a variable other than the density. -/
def reconstructLin (q slope sign size : K) : K := q + sign * size * slope

/-- L99-108 for the density. -/
def reconstructRho (smallr q slope sign size : K) : K := max (reconstructLin q slope sign size) smallr

/-- The factors `ds_factors` L466 and `df_factors` L467, selected by the level difference of the
neighbour (-1: smaller). -/
def dsFactors (ldiff : ℤ) : K × K :=
  if ldiff < 0 then (1 / 2, 3 / 4) else if ldiff = 0 then (1, 1) else (2, 3 / 2)

def dfFactors (ldiff : ℤ) : K × K :=
  if ldiff < 0 then (1 / 4, 1 / 2) else if ldiff = 0 then (1 / 2, 1 / 2) else (1, 1 / 2)

/-- `HydroUpdate_hancock_oneneighbor.cpp` L86-116, `update_minmod` for one variable. -/
def updateMinmod (big old new : K) : K :=
  if old = big then new else if old * new < 0 then 0 else if |new| < |old| then new else old

/-- L69-163 for one variable and one direction: `nbrs` are the values in the neighbours and their
signed distances (`delta_x`), in the order in which they are visited. -/
def limitedSlope (big q : K) (nbrs : List (K × K)) : K :=
  nbrs.foldl (fun old n => updateMinmod big old ((n.1 - q) / n.2)) big

/-! ### Specification -/

/-- `x` is one of `a` and `b` or between them. -/
def Between (a b x : K) : Prop := (a ≤ x ∧ x ≤ b) ∨ (b ≤ x ∧ x ≤ a)

/-! ### Proofs -/

variable [IsStrictOrderedRing K]

/-- Going at most the distance to a neighbour, with a slope towards it that is not steeper. -/
theorem between_of_slope {q v δ t m : K} (hδ : δ ≠ 0) (ht : 0 ≤ t * δ) (htδ : |t| ≤ |δ|)
    (hm : 0 ≤ m * ((v - q) / δ)) (hle : |m| ≤ |(v - q) / δ|) : Between q v (q + t * m) := by
  have e : v - q = δ * ((v - q) / δ) := by field_simp
  generalize (v - q) / δ = g at *
  have hv : v = q + δ * g := by linarith
  subst hv
  unfold Between
  have h1 : |t * m| ≤ |δ * g| := by
    rw [abs_mul, abs_mul]
    exact mul_le_mul htδ hle (abs_nonneg _) (abs_nonneg _)
  have h2 : 0 ≤ (t * m) * (δ * g) := by
    have : (t * m) * (δ * g) = (t * δ) * (m * g) := by ring
    rw [this]
    exact mul_nonneg ht hm
  rcases lt_trichotomy 0 (δ * g) with h | h | h
  · left
    have : 0 ≤ t * m := by
      by_contra hc
      push Not at hc
      have := mul_neg_of_neg_of_pos hc h
      linarith
    rw [abs_of_nonneg this, abs_of_pos h] at h1
    constructor <;> linarith
  · left
    rw [← h, abs_zero] at h1
    have : t * m = 0 := abs_eq_zero.1 (le_antisymm h1 (abs_nonneg _))
    rw [this, ← h]
    constructor <;> linarith
  · right
    have : t * m ≤ 0 := by
      by_contra hc
      push Not at hc
      have := mul_neg_of_pos_of_neg hc h
      linarith
    rw [abs_of_nonpos this, abs_of_neg h] at h1
    constructor <;> linarith

omit [IsStrictOrderedRing K] in
/-- The slope has the sign of both differences and is not steeper. -/
theorem computeSlope_spec [IsStrictOrderedRing K] (qm q qp dL dR : K) :
    let m := computeSlope qm q qp dL dR
    (0 ≤ m * ((qp - q) / dR) ∧ |m| ≤ |(qp - q) / dR|) ∧
      (0 ≤ m * ((q - qm) / dL) ∧ |m| ≤ |(q - qm) / dL|) := by
  intro m
  unfold m computeSlope
  simp only
  generalize (qp - q) / dR = a
  generalize (q - qm) / dL = c
  split
  · simp
  · rename_i h
    push Not at h
    split
    · rename_i h'
      exact ⟨⟨by rw [mul_comm]; exact h.le, h'.le⟩, mul_self_nonneg _, le_refl _⟩
    · rename_i h'
      exact ⟨⟨mul_self_nonneg _, le_refl _⟩, h.le, not_lt.1 h'⟩

/-- **C46** The limited slope is zero at an extremum. -/
theorem C46_zero_at_extremum {qm q qp dL dR : K} (hL : 0 < dL) (hR : 0 < dR)
    (h : (qm ≤ q ∧ qp ≤ q) ∨ (q ≤ qm ∧ q ≤ qp)) : computeSlope qm q qp dL dR = 0 := by
  unfold computeSlope
  simp only
  rw [if_pos]
  rcases h with ⟨h1, h2⟩ | ⟨h1, h2⟩
  · exact mul_nonpos_of_nonpos_of_nonneg (div_nonpos_of_nonpos_of_nonneg (by linarith) hR.le)
      (div_nonneg (by linarith) hL.le)
  · exact mul_nonpos_of_nonneg_of_nonpos (div_nonneg (by linarith) hR.le)
      (div_nonpos_of_nonpos_of_nonneg (by linarith) hL.le)

/-- **C46** Values reconstructed on either side lie between the value of the cell and that of the
neighbour on that side, for distances up to that of the neighbour. -/
theorem C46_between {qm q qp dL dR : K} (hL : 0 < dL) (hR : 0 < dR) {t : K} (ht : 0 ≤ t) :
    (t ≤ dR → Between q qp (reconstructLin q (computeSlope qm q qp dL dR) 1 t)) ∧
      (t ≤ dL → Between q qm (reconstructLin q (computeSlope qm q qp dL dR) (-1) t)) := by
  obtain ⟨⟨h1, h2⟩, h3, h4⟩ := computeSlope_spec qm q qp dL dR
  constructor
  · intro h
    unfold reconstructLin
    rw [one_mul]
    exact between_of_slope hR.ne' (mul_nonneg ht hR.le) (by rw [abs_of_nonneg ht, abs_of_pos hR]; exact h)
      h1 h2
  · intro h
    unfold reconstructLin
    rw [show (-1 : K) * t = -t by ring]
    have e : (qm - q) / -dL = (q - qm) / dL := by rw [← neg_div_neg_eq]; ring_nf
    refine between_of_slope (δ := -dL) (neg_ne_zero.2 hL.ne')
      (by rw [neg_mul_neg]; exact mul_nonneg ht hL.le) ?_ (by rw [e]; exact h3) (by rw [e]; exact h4)
    rw [abs_neg, abs_neg, abs_of_nonneg ht, abs_of_pos hL]
    exact h

/-- The distances in the code: the face is never further than the neighbour. -/
theorem factors_le (ldiff : ℤ) : (0 : K) < (dsFactors ldiff).1 ∧ (0 : K) < (dsFactors ldiff).2 ∧
    0 ≤ (dfFactors ldiff : K × K).1 ∧ 0 ≤ (dfFactors ldiff : K × K).2 ∧
    (dfFactors ldiff : K × K).1 ≤ (dsFactors ldiff).2 ∧
    (dfFactors ldiff : K × K).2 ≤ (dsFactors ldiff).2 := by
  unfold dsFactors dfFactors
  split
  · norm_num
  · split <;> norm_num

/-- **C46** Face values of `euler_update` for every kind of neighbour on either side: with `ldiff` the
level difference of the neighbour `qp`, both the value of the cell and the value of the neighbour at
their common face are between the values of the two cells. `dOther` and `far` belong to the other
sides. -/
theorem C46_euler_faces (ldiff : ℤ) {qm q qp far dOther : K} (hO : 0 < dOther) :
    Between q qp (reconstructLin q (computeSlope qm q qp dOther (dsFactors ldiff).2) 1
        (dfFactors ldiff : K × K).2) ∧
      Between q qp (reconstructLin qp (computeSlope q qp far (dsFactors ldiff).2 (dsFactors ldiff).1) (-1)
        (dfFactors ldiff : K × K).1) ∧
      Between q qp (reconstructLin q (computeSlope qp q qm (dsFactors ldiff).2 dOther) (-1)
        (dfFactors ldiff : K × K).2) ∧
      Between q qp (reconstructLin qp (computeSlope far qp q (dsFactors ldiff).1 (dsFactors ldiff).2) 1
        (dfFactors ldiff : K × K).1) := by
  obtain ⟨h1, h2, h3, h4, h5, h6⟩ := factors_le (K := K) ldiff
  refine ⟨(C46_between hO h2 h4).1 h6, ?_, (C46_between h2 hO h4).2 h6, ?_⟩
  · exact ((C46_between (qm := q) (q := qp) (qp := far) h2 h1 h3).2 h5).symm
  · exact ((C46_between (qm := far) (q := qp) (qp := q) h1 h2 h3).1 h5).symm

omit [IsStrictOrderedRing K] in
/-- **C46** The floor on the density does not change a value between two densities above it. -/
theorem C46_density_floor {smallr q v slope sign size : K} (hq : smallr ≤ q) (hv : smallr ≤ v)
    (h : Between q v (reconstructLin q slope sign size)) :
    reconstructRho smallr q slope sign size = reconstructLin q slope sign size := by
  unfold reconstructRho
  apply max_eq_left
  rcases h with h | h
  · exact hq.trans h.1
  · exact hv.trans h.1

/-! ### Scaling and mirror images -/

/-- Halving the distances doubles the slope. -/
theorem computeSlope_scale {qm q qp dL dR a : K} (ha : 0 < a) :
    computeSlope qm q qp (a * dL) (a * dR) = computeSlope qm q qp dL dR / a := by
  have e1 : (qp - q) / (a * dR) = (qp - q) / dR / a := by rw [div_div, mul_comm]
  have e2 : (q - qm) / (a * dL) = (q - qm) / dL / a := by rw [div_div, mul_comm]
  unfold computeSlope
  simp only
  rw [e1, e2]
  generalize (qp - q) / dR = x
  generalize (q - qm) / dL = y
  have h1 : x / a * (y / a) ≤ 0 ↔ x * y ≤ 0 := by
    rw [show x / a * (y / a) = x * y / (a * a) by field_simp]
    rw [div_nonpos_iff]
    have : 0 < a * a := mul_pos ha ha
    constructor
    · rintro (⟨_, h⟩ | ⟨h, _⟩)
      · exact absurd h (not_le.2 this)
      · exact h
    · exact fun h => Or.inr ⟨h, this.le⟩
  have h2 : |y / a| < |x / a| ↔ |y| < |x| := by
    rw [abs_div, abs_div, abs_of_pos ha, div_lt_div_iff_of_pos_right ha]
  simp only [h1, h2]
  split
  · simp
  · split <;> rfl

omit [IsStrictOrderedRing K] in
/-- Going the other way changes the sign. -/
theorem computeSlope_reverse [IsStrictOrderedRing K] (qm q qp dL dR : K) :
    computeSlope qp q qm dR dL = -computeSlope qm q qp dL dR := by
  unfold computeSlope
  simp only
  have e1 : (qm - q) / dL = -((q - qm) / dL) := by rw [← neg_div]; ring_nf
  have e2 : (q - qp) / dR = -((qp - q) / dR) := by rw [← neg_div]; ring_nf
  rw [e1, e2, neg_mul_neg, abs_neg, abs_neg, mul_comm]
  generalize (qp - q) / dR = x
  generalize (q - qm) / dL = y
  split
  · simp
  · rename_i h
    push Not at h
    rcases lt_trichotomy |x| |y| with k | k | k
    · rw [if_pos k, if_neg (by exact not_lt.2 k.le)]
    · rw [if_neg (by rw [k]; exact lt_irrefl _), if_neg (by rw [k]; exact lt_irrefl _)]
      rcases abs_eq_abs.1 k with h' | h'
      · rw [h']
      · subst h'
        have : (-y * y : K) ≤ 0 := by nlinarith [mul_self_nonneg y]
        linarith
    · rw [if_neg (not_lt.2 k.le), if_pos k]

omit [IsStrictOrderedRing K] in
theorem computeSlope_neg [IsStrictOrderedRing K] (qm q qp dL dR : K) :
    computeSlope (-qm) (-q) (-qp) dL dR = -computeSlope qm q qp dL dR := by
  unfold computeSlope
  simp only
  have e1 : (-qp - -q) / dR = -((qp - q) / dR) := by rw [← neg_div]; ring_nf
  have e2 : (-q - -qm) / dL = -((q - qm) / dL) := by rw [← neg_div]; ring_nf
  rw [e1, e2, neg_mul_neg, abs_neg, abs_neg]
  split
  · simp
  · split <;> rfl

/-! ### The one-neighbour scheme -/

/-- Facts about a slope limited by `gs`. -/
structure Limited (m : K) (gs : List K) : Prop where
  sign : ∀ g ∈ gs, 0 ≤ m * g
  le : ∀ g ∈ gs, |m| ≤ |g|
  mem : m = 0 ∨ m ∈ gs

theorem limited_step {big m g : K} {gs : List K} (hb : m ≠ big) (h : Limited m gs) :
    Limited (updateMinmod big m g) (gs ++ [g]) := by
  unfold updateMinmod
  rw [if_neg hb]
  split
  · exact ⟨by simp, by simp, Or.inl rfl⟩
  · rename_i h1
    push Not at h1
    split
    · rename_i h2
      refine ⟨?_, ?_, Or.inr (by simp)⟩
      · intro x hx
        rcases List.mem_append.1 hx with hx | hx
        · have s := h.sign x hx
          have l := h.le x hx
          by_contra hc
          push Not at hc
          rcases eq_or_ne m 0 with rfl | hm
          · rw [abs_zero] at h2
            exact absurd h2 (not_lt.2 (abs_nonneg _))
          · have : 0 < m * m := mul_self_pos.2 hm
            have e : (g * x) * (m * m) = (m * g) * (m * x) := by ring
            have := mul_neg_of_neg_of_pos hc this
            have := mul_nonneg h1 s
            linarith
        · rw [List.mem_singleton.1 hx]; exact mul_self_nonneg _
      · intro x hx
        rcases List.mem_append.1 hx with hx | hx
        · exact h2.le.trans (h.le x hx)
        · rw [List.mem_singleton.1 hx]
    · rename_i h2
      push Not at h2
      refine ⟨?_, ?_, h.mem.imp id fun h => by simp [h]⟩
      · intro x hx
        rcases List.mem_append.1 hx with hx | hx
        · exact h.sign x hx
        · rw [List.mem_singleton.1 hx]; exact h1
      · intro x hx
        rcases List.mem_append.1 hx with hx | hx
        · exact h.le x hx
        · rw [List.mem_singleton.1 hx]; exact h2

theorem limited_foldl {big : K} (hb : big ≠ 0) (l gs : List K) (m : K) (hm : Limited m gs)
    (hg : ∀ g ∈ gs ++ l, g ≠ big) : Limited (l.foldl (updateMinmod big) m) (gs ++ l) := by
  induction l generalizing gs m with
  | nil => simpa using hm
  | cons g l ih =>
    rw [List.foldl_cons, show gs ++ g :: l = (gs ++ [g]) ++ l by simp]
    refine ih _ _ (limited_step ?_ hm) (by simpa using hg)
    rcases hm.mem with h | h
    · rw [h]; exact hb.symm
    · exact hg m (by simp [h])

theorem limitedSlope_spec {big q : K} (hb : big ≠ 0) {nbrs : List (K × K)} (hne : nbrs ≠ [])
    (hg : ∀ n ∈ nbrs, (n.1 - q) / n.2 ≠ big) :
    Limited (limitedSlope big q nbrs) (nbrs.map fun n => (n.1 - q) / n.2) := by
  obtain ⟨n, l, rfl⟩ := List.exists_cons_of_ne_nil hne
  unfold limitedSlope
  rw [List.foldl_cons, show updateMinmod big big ((n.1 - q) / n.2) = (n.1 - q) / n.2 by
    unfold updateMinmod; rw [if_pos rfl]]
  have := limited_foldl hb (l.map fun n => (n.1 - q) / n.2) [(n.1 - q) / n.2] ((n.1 - q) / n.2)
    ⟨by simp [mul_self_nonneg], by simp, by simp⟩ (by
      intro g hgm
      obtain ⟨n', hn', rfl⟩ := List.mem_map.1 (show g ∈ (n :: l).map fun n => (n.1 - q) / n.2 from hgm)
      exact hg n' hn')
  rw [List.foldl_map] at this
  exact this

/-- **C46** In the one-neighbour scheme the slope is zero if neighbours on two sides are both not
greater, or both not smaller. -/
theorem C46_oneneighbor_extremum {big q : K} (hb : big ≠ 0) {nbrs : List (K × K)}
    (hg : ∀ n ∈ nbrs, (n.1 - q) / n.2 ≠ big) {a c : K × K} (ha : a ∈ nbrs) (hc : c ∈ nbrs)
    (hda : 0 < a.2) (hdc : c.2 < 0) (h : (a.1 ≤ q ∧ c.1 ≤ q) ∨ (q ≤ a.1 ∧ q ≤ c.1)) :
    limitedSlope big q nbrs = 0 := by
  have hl := limitedSlope_spec hb (List.ne_nil_of_mem ha) hg
  have sa := hl.sign _ (List.mem_map.2 ⟨a, ha, rfl⟩)
  have sc := hl.sign _ (List.mem_map.2 ⟨c, hc, rfl⟩)
  have la := hl.le _ (List.mem_map.2 ⟨a, ha, rfl⟩)
  have lc := hl.le _ (List.mem_map.2 ⟨c, hc, rfl⟩)
  generalize limitedSlope big q nbrs = m at *
  by_contra hm
  have hma : (a.1 - q) / a.2 ≠ 0 := fun h => by
    rw [h, abs_zero] at la
    exact hm (abs_eq_zero.1 (le_antisymm la (abs_nonneg _)))
  have hmc : (c.1 - q) / c.2 ≠ 0 := fun h => by
    rw [h, abs_zero] at lc
    exact hm (abs_eq_zero.1 (le_antisymm lc (abs_nonneg _)))
  have hopp : (a.1 - q) / a.2 * ((c.1 - q) / c.2) ≤ 0 := by
    rcases h with ⟨h1, h2⟩ | ⟨h1, h2⟩
    · exact mul_nonpos_of_nonpos_of_nonneg (div_nonpos_of_nonpos_of_nonneg (by linarith) hda.le)
        (div_nonneg_of_nonpos (by linarith) hdc.le)
    · exact mul_nonpos_of_nonneg_of_nonpos (div_nonneg (by linarith) hda.le)
        (div_nonpos_of_nonneg_of_nonpos (by linarith) hdc.le)
  generalize (a.1 - q) / a.2 = x at *
  generalize (c.1 - q) / c.2 = y at *
  have h1 : 0 < m * x := lt_of_le_of_ne sa (mul_ne_zero hm hma).symm
  have h2 : 0 < m * y := lt_of_le_of_ne sc (mul_ne_zero hm hmc).symm
  have h3 := mul_pos h1 h2
  have h4 : m * x * (m * y) = m * m * (x * y) := by ring
  have h5 : m * m * (x * y) ≤ 0 := mul_nonpos_of_nonneg_of_nonpos (mul_self_nonneg _) hopp
  linarith

/-- **C46** In the one-neighbour scheme, going from the middle of the cell towards any neighbour, at
most as far as its middle, gives values between those of the cell and of that neighbour. -/
theorem C46_oneneighbor_between {big q : K} (hb : big ≠ 0) {nbrs : List (K × K)}
    (hg : ∀ n ∈ nbrs, (n.1 - q) / n.2 ≠ big) {a : K × K} (ha : a ∈ nbrs) (hd : a.2 ≠ 0) {t : K}
    (ht : 0 ≤ t * a.2) (hta : |t| ≤ |a.2|) : Between q a.1 (q + t * limitedSlope big q nbrs) := by
  have hl := limitedSlope_spec hb (List.ne_nil_of_mem ha) hg
  exact between_of_slope hd ht hta (hl.sign _ (List.mem_map.2 ⟨a, ha, rfl⟩))
    (hl.le _ (List.mem_map.2 ⟨a, ha, rfl⟩))

omit [IsStrictOrderedRing K] in
/-- **C46**, disagreement: in a direction in which both sides of a cell are boundaries of the domain (a
domain one cell wide) the slope keeps its initial value, 1e99. -/
theorem C46_no_neighbour_fails (big q : K) : limitedSlope big q [] = big := rfl

/-! ### Examples -/

example : computeSlope (1 : ℚ) 2 6 1 (3 / 4) = 1 := by decide +kernel

example : computeSlope (1 : ℚ) 2 (3 / 2) 1 1 = 0 := by decide +kernel

/-- A cell with value 2 between a bigger neighbour (value 1) and two smaller ones (values 3 and 5). -/
example : limitedSlope (10 ^ 99 : ℚ) 2 [(3, 3 / 4), (5, 3 / 4), (1, -3 / 2)] = 2 / 3 := by decide +kernel

example : ∀ n ∈ [((3 : ℚ), (3 / 4 : ℚ)), (5, 3 / 4), (1, -3 / 2)], (n.1 - 2) / n.2 ≠ 10 ^ 99 := by
  decide +kernel

end Verif.Hydro
