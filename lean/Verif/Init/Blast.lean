import Mathlib.Algebra.Order.Archimedean.Basic
import Mathlib.Algebra.Order.Floor.Ring
import Mathlib.Algebra.BigOperators.Fin
import Mathlib.Data.Fintype.Basic
import Mathlib.Data.Rat.Floor
import Mathlib.Tactic.FinCases
import Verif.Hydro.State

/-!
# C77: blasts

Model of `core/src/init/InitialConditions_blast.cpp`, whose geometry `core/src/init/InitialConditions_MHD_blast.cpp` repeats. Arithmetic is
exact, coordinates are rational numbers.
-/

namespace Verif.Init

open Verif.Hydro

/-! ### Model -/

/-- Settings (`InitialConditions_blast.cpp` L9-25). `center`, `dmin` and `dmax` are read from the configuration and not used. -/
structure Blast where
  ndim : ℕ
  radius : ℚ
  center : Fin 3 → ℚ
  rhoIn : ℚ
  rhoOut : ℚ
  pIn : ℚ
  pOut : ℚ
  n : Fin 3 → ℤ
  dmin : Fin 3 → ℚ
  dmax : Fin 3 → ℚ
  gamma : ℚ

/-- The conversion `(int)` of L112-114: towards 0, and undefined for numbers that are no `int`. -/
def toInt (q : ℚ) : Option ℤ :=
  let t := if 0 ≤ q then ⌊q⌋ else ⌈q⌉
  if -2 ^ 31 ≤ t ∧ t < 2 ^ 31 then some t else none

/-- L106-108, the size of a quadrant. -/
def Blast.qs (F : Blast) : Fin 3 → ℚ := ![1 / F.n 0, 1 / F.n 1, if F.ndim = 3 then 1 / F.n 2 else 1]

/-- L102-125: whether the cell at `x` belongs to a blast. `none` if the behaviour is undefined. -/
def Blast.inside (F : Blast) (x : Fin 3 → ℚ) : Option Bool :=
  let qs := F.qs
  let radius := F.radius * min (qs 0) (min (qs 1) (qs 2))
  (toInt (x 0 / qs 0)).bind fun qix => (toInt (x 1 / qs 1)).bind fun qiy => (toInt (x 2 / qs 2)).bind fun qiz =>
    let qcx := (qix + 1 / 2) * qs 0
    let qcy := (qiy + 1 / 2) * qs 1
    let qcz := (qiz + 1 / 2) * qs 2
    let r2 := (x 0 - qcx) * (x 0 - qcx) + (x 1 - qcy) * (x 1 - qcy)
    let r2 := if F.ndim = 3 then r2 + (x 2 - qcz) * (x 2 - qcz) else r2
    some (decide (r2 < radius * radius))

/-- `InitialConditions_blast.cpp` L102-134. -/
def Blast.value (F : Blast) (x : Fin 3 → ℚ) : Option (Cons ℚ) :=
  (F.inside x).map fun b =>
    if b then ⟨F.rhoIn, F.pIn / (F.gamma - 1), 0, 0, 0⟩ else ⟨F.rhoOut, F.pOut / (F.gamma - 1), 0, 0, 0⟩

/-! ### Specification -/

/-- Width of a quadrant along an axis of the domain. -/
def Blast.width (F : Blast) (k : Fin 3) : ℚ := (F.dmax k - F.dmin k) / F.n k

/-- The directions of the domain. -/
def Blast.dims (F : Blast) : Finset (Fin 3) := Finset.univ.filter fun k => k.val < F.ndim

/-- The point is in the blast of the quadrant `q`: its distance to the centre that the settings give, as a fraction of the quadrant, is
less than `R`. -/
def Blast.InBlastOf (F : Blast) (R : ℚ) (q : Fin 3 → ℤ) (x : Fin 3 → ℚ) : Prop :=
  ∑ k ∈ F.dims, (x k - (F.dmin k + (q k + F.center k) * F.width k)) ^ 2 < R ^ 2

/-- The quadrants: as many as the settings say in each direction of the domain. -/
def Blast.Quadrant (F : Blast) (q : Fin 3 → ℤ) : Prop := ∀ k ∈ F.dims, 0 ≤ q k ∧ q k < F.n k

/-- `R` is the radius of the settings times the smallest width of a quadrant. -/
def Blast.Radius (F : Blast) (R : ℚ) : Prop :=
  (∀ k ∈ F.dims, R ≤ F.radius * F.width k) ∧ ∃ k ∈ F.dims, R = F.radius * F.width k

/-- The point is in the domain. -/
def Blast.InDomain (F : Blast) (x : Fin 3 → ℚ) : Prop := ∀ k ∈ F.dims, F.dmin k ≤ x k ∧ x k < F.dmax k

/-- The density and the pressure are those of the inside in one blast per quadrant, and those of the outside elsewhere; the gas is at rest. -/
def Blast.Correct (F : Blast) (x : Fin 3 → ℚ) : Prop :=
  ∃ U R, F.value x = some U ∧ F.Radius R ∧ U.ru = 0 ∧ U.rv = 0 ∧ U.rw = 0 ∧
    ((∃ q, F.Quadrant q ∧ F.InBlastOf R q x) → U.rho = F.rhoIn ∧ pressure F.ndim F.gamma U = F.pIn) ∧
    ((¬ ∃ q, F.Quadrant q ∧ F.InBlastOf R q x) → U.rho = F.rhoOut ∧ pressure F.ndim F.gamma U = F.pOut)

/-- What the settings must satisfy: two or three dimensions, some quadrants in each direction, a domain that is not empty, and blasts that
fit into their quadrants. -/
structure Blast.Ok (F : Blast) : Prop where
  ndim : F.ndim = 2 ∨ F.ndim = 3
  n : ∀ k, 1 ≤ F.n k ∧ F.n k < 2 ^ 31
  dom : ∀ k, F.dmin k < F.dmax k
  radius : 0 ≤ F.radius
  fits : ∀ k ∈ F.dims, F.radius ≤ F.center k ∧ F.center k ≤ 1 - F.radius
  gamma : F.gamma ≠ 1

/-! ### Proofs -/

theorem toInt_spec {q : ℚ} {n : ℤ} (h0 : 0 ≤ q) (h1 : q < n) (hn : n < 2 ^ 31) :
    ∃ t : ℤ, toInt q = some t ∧ (t : ℚ) ≤ q ∧ q < t + 1 ∧ 0 ≤ t ∧ t < n := by
  have a := Int.floor_nonneg.2 h0
  have b : ⌊q⌋ < n := Int.floor_lt.2 h1
  refine ⟨⌊q⌋, ?_, Int.floor_le q, Int.lt_floor_add_one q, a, b⟩
  unfold toInt
  simp only [if_pos h0]
  rw [if_pos ⟨by omega, by omega⟩]

/-- Blasts that fit into their quadrants do not reach a neighbour. -/
theorem quadrant_unique {x w R c : ℚ} {t q : ℤ} (hw : 0 < w) (h1 : (t : ℚ) * w ≤ x) (h2 : x < (t + 1) * w)
    (hR0 : 0 ≤ R) (hc1 : R ≤ c * w) (hc2 : R ≤ (1 - c) * w) (h : (x - (q + c) * w) ^ 2 < R ^ 2) : q = t := by
  have := abs_lt_of_sq_lt_sq h hR0
  obtain ⟨a, b⟩ := abs_lt.1 this
  have e1 : (q : ℚ) * w < (t + 1) * w := by nlinarith
  have e2 : (t : ℚ) * w < (q + 1) * w := by nlinarith
  have e1 := lt_of_mul_lt_mul_right e1 hw.le
  have e2 := lt_of_mul_lt_mul_right e2 hw.le
  have e1 : q < t + 1 := by exact_mod_cast e1
  have e2 : t < q + 1 := by exact_mod_cast e2
  omega

theorem pressure_still {ndim : ℕ} {gamma : ℚ} (h : gamma ≠ 1) (rho p : ℚ) :
    pressure ndim gamma ⟨rho, p / (gamma - 1), 0, 0, 0⟩ = p := by
  have : gamma - 1 ≠ 0 := sub_ne_zero.2 h
  simp only [pressure, kinetic]
  field_simp
  simp

/-- The geometry of the code, for blasts in the middle of quadrants of a unit domain. -/
theorem inside_spec {F : Blast} (hF : F.Ok) (hc : ∀ k, F.center k = 1 / 2) (h0 : ∀ k, F.dmin k = 0) (h1 : ∀ k, F.dmax k = 1)
    {x : Fin 3 → ℚ} (hx : F.InDomain x) (hz : F.ndim = 2 → x 2 = 0) :
    ∃ b R, F.inside x = some b ∧ F.Radius R ∧ (b = true ↔ ∃ q, F.Quadrant q ∧ F.InBlastOf R q x) := by
  have hn : ∀ k, (1 : ℚ) ≤ F.n k := fun k => by exact_mod_cast (hF.n k).1
  have hpos : ∀ k, (0 : ℚ) < F.n k := fun k => by have := hn k; linarith
  have hw : ∀ k, F.width k = 1 / F.n k := fun k => by rw [Blast.width, h0, h1, sub_zero]
  have hw0 : ∀ k, 0 < F.width k := fun k => by rw [hw]; exact one_div_pos.2 (hpos k)
  have hw1 : ∀ k, F.width k ≤ 1 := fun k => by rw [hw]; exact (div_le_one (hpos k)).2 (hn k)
  -- the quadrant of one direction
  have dir : ∀ k ∈ F.dims, ∃ t : ℤ, toInt (x k / F.width k) = some t ∧ (t : ℚ) * F.width k ≤ x k ∧ x k < (t + 1) * F.width k ∧
      0 ≤ t ∧ t < F.n k := by
    intro k hk
    obtain ⟨a, b⟩ := hx k hk
    rw [h0] at a
    rw [h1] at b
    obtain ⟨t, e, c1, c2, c3, c4⟩ := toInt_spec (q := x k / F.width k) (n := F.n k) (div_nonneg a (hw0 k).le)
      (by rw [hw, div_div_eq_mul_div, div_one]; have := hpos k; nlinarith) (hF.n k).2
    exact ⟨t, e, (le_div_iff₀ (hw0 k)).1 c1, (div_lt_iff₀ (hw0 k)).1 c2, c3, c4⟩
  have fits : ∀ k ∈ F.dims, F.radius ≤ 1 / 2 := fun k hk => by
    have := (hF.fits k hk).1; rw [hc] at this; exact this
  rcases hF.ndim with h2 | h3
  · -- two dimensions
    have hd : F.dims = {0, 1} := by
      ext k; fin_cases k <;> simp [Blast.dims, h2]
    have q0 : F.qs 0 = F.width 0 := by rw [hw]; rfl
    have q1 : F.qs 1 = F.width 1 := by rw [hw]; rfl
    have q2 : F.qs 2 = 1 := by
      show (if F.ndim = 3 then _ else _) = _
      rw [if_neg (by omega)]
    obtain ⟨t0, a1, a2, a3, a4, a5⟩ := dir 0 (by simp [hd])
    obtain ⟨t1, b1, b2, b3, b4, b5⟩ := dir 1 (by simp [hd])
    have c1 : toInt (x 2 / F.qs 2) = some 0 := by rw [hz h2, zero_div]; rfl
    have hmin : min (F.qs 0) (min (F.qs 1) (F.qs 2)) = min (F.width 0) (F.width 1) := by
      rw [q0, q1, q2, min_eq_left (hw1 1)]
    have h2' : ¬ F.ndim = 3 := by omega
    refine ⟨decide ((x 0 - (t0 + 1 / 2) * F.width 0) * (x 0 - (t0 + 1 / 2) * F.width 0) +
      (x 1 - (t1 + 1 / 2) * F.width 1) * (x 1 - (t1 + 1 / 2) * F.width 1) <
      F.radius * min (F.width 0) (F.width 1) * (F.radius * min (F.width 0) (F.width 1))),
      F.radius * min (F.width 0) (F.width 1), ?_, ⟨?_, ?_⟩, ?_⟩
    · unfold Blast.inside
      simp only [hmin, c1]
      simp only [q0, q1, a1, b1, Option.bind_some, if_neg h2']
    · intro k hk
      rw [hd] at hk
      rcases Finset.mem_insert.1 hk with e | e
      · rw [e]; exact mul_le_mul_of_nonneg_left (min_le_left _ _) hF.radius
      · rw [Finset.mem_singleton.1 e]; exact mul_le_mul_of_nonneg_left (min_le_right _ _) hF.radius
    · rcases min_choice (F.width 0) (F.width 1) with e | e
      · exact ⟨0, by simp [hd], by rw [e]⟩
      · exact ⟨1, by simp [hd], by rw [e]⟩
    · rw [decide_eq_true_iff]
      have hR0 : 0 ≤ F.radius * min (F.width 0) (F.width 1) := mul_nonneg hF.radius (le_min (hw0 0).le (hw0 1).le)
      have hR : ∀ k ∈ F.dims, F.radius * min (F.width 0) (F.width 1) ≤ 1 / 2 * F.width k := by
        intro k hk
        refine mul_le_mul (fits k hk) ?_ (le_min (hw0 0).le (hw0 1).le) (by norm_num)
        rw [hd] at hk
        rcases Finset.mem_insert.1 hk with e | e
        · rw [e]; exact min_le_left _ _
        · rw [Finset.mem_singleton.1 e]; exact min_le_right _ _
      have hB : ∀ q, F.InBlastOf (F.radius * min (F.width 0) (F.width 1)) q x ↔
          (x 0 - (q 0 + 1 / 2) * F.width 0) ^ 2 + (x 1 - (q 1 + 1 / 2) * F.width 1) ^ 2 <
            (F.radius * min (F.width 0) (F.width 1)) ^ 2 := by
        intro q
        rw [Blast.InBlastOf, hd, Finset.sum_pair (by decide), h0, h0, hc, hc, zero_add, zero_add]
      constructor
      · intro h
        refine ⟨![t0, t1, 0], fun k hk => ?_, (hB _).2 ?_⟩
        · rw [hd] at hk
          rcases Finset.mem_insert.1 hk with e | e
          · rw [e]; exact ⟨a4, a5⟩
          · rw [Finset.mem_singleton.1 e]; exact ⟨b4, b5⟩
        · have e0 : (![t0, t1, 0] : Fin 3 → ℤ) 0 = t0 := rfl
          have e1 : (![t0, t1, 0] : Fin 3 → ℤ) 1 = t1 := rfl
          rw [e0, e1]
          nlinarith [h]
      · rintro ⟨q, -, h⟩
        rw [hB] at h
        have e0 : q 0 = t0 := quadrant_unique (hw0 0) a2 a3 hR0 (hR 0 (by simp [hd])) (by have := hR 0 (by simp [hd]); linarith)
          (by have := sq_nonneg (x 1 - (q 1 + 1 / 2) * F.width 1); linarith)
        have e1 : q 1 = t1 := quadrant_unique (hw0 1) b2 b3 hR0 (hR 1 (by simp [hd])) (by have := hR 1 (by simp [hd]); linarith)
          (by have := sq_nonneg (x 0 - (q 0 + 1 / 2) * F.width 0); linarith)
        rw [e0, e1] at h
        nlinarith [h]
  · -- three dimensions
    have hd : F.dims = Finset.univ := by
      ext k; simp [Blast.dims, h3]
    have hm : ∀ k, k ∈ F.dims := fun k => by rw [hd]; exact Finset.mem_univ k
    have q0 : F.qs 0 = F.width 0 := by rw [hw]; rfl
    have q1 : F.qs 1 = F.width 1 := by rw [hw]; rfl
    have q2 : F.qs 2 = F.width 2 := by
      rw [hw]
      show (if F.ndim = 3 then _ else _) = _
      rw [if_pos h3]
    obtain ⟨t0, a1, a2, a3, a4, a5⟩ := dir 0 (hm 0)
    obtain ⟨t1, b1, b2, b3, b4, b5⟩ := dir 1 (hm 1)
    obtain ⟨t2, c1, c2, c3, c4, c5⟩ := dir 2 (hm 2)
    have hminle : ∀ k, min (F.width 0) (min (F.width 1) (F.width 2)) ≤ F.width k := by
      intro k
      fin_cases k
      · exact min_le_left _ _
      · exact (min_le_right _ _).trans (min_le_left _ _)
      · exact (min_le_right _ _).trans (min_le_right _ _)
    have hmin0 : 0 ≤ min (F.width 0) (min (F.width 1) (F.width 2)) := le_min (hw0 0).le (le_min (hw0 1).le (hw0 2).le)
    refine ⟨decide ((x 0 - (t0 + 1 / 2) * F.width 0) * (x 0 - (t0 + 1 / 2) * F.width 0) +
      (x 1 - (t1 + 1 / 2) * F.width 1) * (x 1 - (t1 + 1 / 2) * F.width 1) +
      (x 2 - (t2 + 1 / 2) * F.width 2) * (x 2 - (t2 + 1 / 2) * F.width 2) <
      F.radius * min (F.width 0) (min (F.width 1) (F.width 2)) * (F.radius * min (F.width 0) (min (F.width 1) (F.width 2)))),
      F.radius * min (F.width 0) (min (F.width 1) (F.width 2)), ?_, ⟨?_, ?_⟩, ?_⟩
    · unfold Blast.inside
      simp only [q0, q1, q2, a1, b1, c1, Option.bind_some, if_pos h3]
    · intro k _
      exact mul_le_mul_of_nonneg_left (hminle k) hF.radius
    · rcases min_choice (F.width 0) (min (F.width 1) (F.width 2)) with e | e
      · exact ⟨0, hm 0, by rw [e]⟩
      · rcases min_choice (F.width 1) (F.width 2) with e' | e'
        · exact ⟨1, hm 1, by rw [e, e']⟩
        · exact ⟨2, hm 2, by rw [e, e']⟩
    · rw [decide_eq_true_iff]
      have hR0 : 0 ≤ F.radius * min (F.width 0) (min (F.width 1) (F.width 2)) := mul_nonneg hF.radius hmin0
      have hR : ∀ k, F.radius * min (F.width 0) (min (F.width 1) (F.width 2)) ≤ 1 / 2 * F.width k := fun k =>
        mul_le_mul (fits k (hm k)) (hminle k) hmin0 (by norm_num)
      have hR' : ∀ k, F.radius * min (F.width 0) (min (F.width 1) (F.width 2)) ≤ (1 - 1 / 2) * F.width k := fun k => by
        have := hR k; linarith
      have hB : ∀ q, F.InBlastOf (F.radius * min (F.width 0) (min (F.width 1) (F.width 2))) q x ↔
          (x 0 - (q 0 + 1 / 2) * F.width 0) ^ 2 + (x 1 - (q 1 + 1 / 2) * F.width 1) ^ 2 + (x 2 - (q 2 + 1 / 2) * F.width 2) ^ 2 <
            (F.radius * min (F.width 0) (min (F.width 1) (F.width 2))) ^ 2 := by
        intro q
        rw [Blast.InBlastOf, hd, Fin.sum_univ_three, h0, h0, h0, hc, hc, hc, zero_add, zero_add, zero_add]
      constructor
      · intro h
        refine ⟨![t0, t1, t2], fun k _ => ?_, (hB _).2 ?_⟩
        · fin_cases k
          · exact ⟨a4, a5⟩
          · exact ⟨b4, b5⟩
          · exact ⟨c4, c5⟩
        · have e0 : (![t0, t1, t2] : Fin 3 → ℤ) 0 = t0 := rfl
          have e1 : (![t0, t1, t2] : Fin 3 → ℤ) 1 = t1 := rfl
          have e2 : (![t0, t1, t2] : Fin 3 → ℤ) 2 = t2 := rfl
          rw [e0, e1, e2]
          nlinarith [h]
      · rintro ⟨q, -, h⟩
        rw [hB] at h
        have s0 := sq_nonneg (x 0 - (q 0 + 1 / 2) * F.width 0)
        have s1 := sq_nonneg (x 1 - (q 1 + 1 / 2) * F.width 1)
        have s2 := sq_nonneg (x 2 - (q 2 + 1 / 2) * F.width 2)
        have e0 : q 0 = t0 := quadrant_unique (hw0 0) a2 a3 hR0 (hR 0) (hR' 0) (by linarith)
        have e1 : q 1 = t1 := quadrant_unique (hw0 1) b2 b3 hR0 (hR 1) (hR' 1) (by linarith)
        have e2 : q 2 = t2 := quadrant_unique (hw0 2) c2 c3 hR0 (hR 2) (hR' 2) (by linarith)
        rw [e0, e1, e2] at h
        nlinarith [h]

/-- **C77** If the settings put the blasts in the middle of their quadrants and the domain is the unit cube (or square), every cell gets the
state of the inside exactly in one blast per quadrant. Missing: other centres (`C77_center_fails`) and other domains
(`C77_domain_fails`). In two dimensions the third coordinate of a cell is 0 (`AMRBlockForeachCell.h` L78). -/
theorem C77_partial {F : Blast} (hF : F.Ok) (hc : ∀ k, F.center k = 1 / 2) (h0 : ∀ k, F.dmin k = 0) (h1 : ∀ k, F.dmax k = 1)
    {x : Fin 3 → ℚ} (hx : F.InDomain x) (hz : F.ndim = 2 → x 2 = 0) : F.Correct x := by
  obtain ⟨b, R, e1, e2, e3⟩ := inside_spec hF hc h0 h1 hx hz
  unfold Blast.Correct Blast.value
  rw [e1, Option.map_some]
  refine ⟨_, R, rfl, e2, ?_⟩
  cases b
  · simp only [Bool.false_eq_true, if_false]
    exact ⟨trivial, trivial, trivial, fun h => absurd (e3.2 h) (by simp), fun _ => ⟨trivial, pressure_still hF.gamma _ _⟩⟩
  · simp only [if_true]
    exact ⟨trivial, trivial, trivial, fun _ => ⟨trivial, pressure_still hF.gamma _ _⟩, fun h => absurd (e3.1 rfl) h⟩

/-- The settings of the examples below: a square with one blast. -/
def oneBlast (center dmin dmax : Fin 3 → ℚ) : Blast :=
  ⟨2, 1 / 10, center, 1, 6 / 5, 10, 1 / 10, fun _ => 1, dmin, dmax, 7 / 5⟩

theorem oneBlast_radius {center dmin dmax : Fin 3 → ℚ} {R : ℚ} (h : (oneBlast center dmin dmax).Radius R)
    (hd : ∀ k, dmax k - dmin k = 1) : R = 1 / 10 := by
  obtain ⟨k, -, e⟩ := h.2
  rw [e, Blast.width]
  simp [oneBlast, hd]

theorem oneBlast_dims (center dmin dmax : Fin 3 → ℚ) : (oneBlast center dmin dmax).dims = {0, 1} := by
  ext k; fin_cases k <;> simp [Blast.dims, oneBlast]

/-- **C77** does not hold for another centre: the settings are not used. A blast that is to be centred at 1/4 is not there. -/
theorem C77_center_fails : ∃ F : Blast, F.Ok ∧ (∀ k, F.dmin k = 0 ∧ F.dmax k = 1) ∧ ∃ x, F.InDomain x ∧ x 2 = 0 ∧ ¬ F.Correct x := by
  refine ⟨oneBlast (fun _ => 1 / 4) (fun _ => 0) (fun _ => 1), ⟨Or.inl rfl, fun _ => by simp [oneBlast], fun _ => by simp [oneBlast],
    by norm_num [oneBlast], fun _ _ => by norm_num [oneBlast], by norm_num [oneBlast]⟩, fun _ => ⟨rfl, rfl⟩, ![1 / 4, 1 / 4, 0], ?_, rfl, ?_⟩
  · intro k hk
    rw [oneBlast_dims] at hk
    rcases Finset.mem_insert.1 hk with e | e
    · rw [e]; norm_num [oneBlast]
    · rw [Finset.mem_singleton.1 e]; norm_num [oneBlast]
  · rintro ⟨U, R, hU, hR, -, -, -, h, -⟩
    have hR := oneBlast_radius hR (fun _ => by norm_num)
    have hv : (oneBlast (fun _ => 1 / 4) (fun _ => 0) (fun _ => 1)).value ![1 / 4, 1 / 4, 0] = some ⟨6 / 5, 1 / 4, 0, 0, 0⟩ := by
      decide +kernel
    rw [hv] at hU
    cases hU
    have := (h ⟨fun _ => 0, fun k _ => by simp [oneBlast], by
      rw [Blast.InBlastOf, oneBlast_dims, Finset.sum_pair (by decide), hR]; norm_num [oneBlast, Blast.width]⟩).1
    norm_num [oneBlast] at this

/-- **C77** does not hold for another domain: in the square from -1/2 to 1/2 the blast is centred in the corner. -/
theorem C77_domain_fails : ∃ F : Blast, F.Ok ∧ (∀ k, F.center k = 1 / 2) ∧ ∃ x, F.InDomain x ∧ x 2 = 0 ∧ ¬ F.Correct x := by
  refine ⟨oneBlast (fun _ => 1 / 2) (fun _ => -1 / 2) (fun _ => 1 / 2), ⟨Or.inl rfl, fun _ => by simp [oneBlast],
    fun _ => by norm_num [oneBlast], by norm_num [oneBlast], fun _ _ => by norm_num [oneBlast], by norm_num [oneBlast]⟩, fun _ => rfl,
    ![0, 0, 0], ?_, rfl, ?_⟩
  · intro k hk
    rw [oneBlast_dims] at hk
    rcases Finset.mem_insert.1 hk with e | e
    · rw [e]; norm_num [oneBlast]
    · rw [Finset.mem_singleton.1 e]; norm_num [oneBlast]
  · rintro ⟨U, R, hU, hR, -, -, -, h, -⟩
    have hR := oneBlast_radius hR (fun _ => by norm_num)
    have hv : (oneBlast (fun _ => 1 / 2) (fun _ => -1 / 2) (fun _ => 1 / 2)).value ![0, 0, 0] = some ⟨6 / 5, 1 / 4, 0, 0, 0⟩ := by
      decide +kernel
    rw [hv] at hU
    cases hU
    have := (h ⟨fun _ => 0, fun k _ => by simp [oneBlast], by
      rw [Blast.InBlastOf, oneBlast_dims, Finset.sum_pair (by decide), hR]; norm_num [oneBlast, Blast.width]⟩).1
    norm_num [oneBlast] at this

/-! ### Examples -/

/-- Two blasts next to each other in a square, the second with the default settings of the states. -/
def twoBlasts : Blast :=
  ⟨2, 2 / 5, fun _ => 1 / 2, 1, 6 / 5, 10, 1 / 10, ![2, 1, 1], fun _ => 0, fun _ => 1, 7 / 5⟩

theorem twoBlasts_ok : twoBlasts.Ok :=
  ⟨Or.inl rfl, fun k => by fin_cases k <;> simp [twoBlasts], fun _ => by simp [twoBlasts], by norm_num [twoBlasts],
    fun _ _ => by norm_num [twoBlasts], by norm_num [twoBlasts]⟩

example : twoBlasts.value ![3 / 4, 1 / 2, 0] = some ⟨1, 25, 0, 0, 0⟩ ∧ twoBlasts.value ![1 / 2, 1 / 2, 0] = some ⟨6 / 5, 1 / 4, 0, 0, 0⟩ ∧
    twoBlasts.value ![3 / 4, 1 / 5, 0] = some ⟨6 / 5, 1 / 4, 0, 0, 0⟩ := by
  decide +kernel

example : twoBlasts.Correct ![3 / 4, 1 / 2, 0] := by
  refine C77_partial twoBlasts_ok (fun _ => rfl) (fun _ => rfl) (fun _ => rfl) (fun k hk => ?_) fun _ => rfl
  have hk : k.val < 2 := (Finset.mem_filter.1 hk).2
  fin_cases k
  · norm_num [twoBlasts]
  · norm_num [twoBlasts]
  · exact absurd hk (by norm_num)

end Verif.Init
