import Verif.Hydro.Riemann
import Mathlib.Tactic.LinearCombination

/-!
# C44: the Riemann solver is the HLLC solver

The flux is that of the left or right state, or of one of two intermediate states that are related to
them by the jump conditions at the outer waves and have the velocity of the middle wave and a common
pressure.
-/

namespace Verif.Hydro

/-! ### Specification -/

/-- Conserved variables of a primitive state. -/
noncomputable def consOf (gamma : ℝ) (q : Prim ℝ) : Cons ℝ :=
  ⟨q.rho, q.p / (gamma - 1) + q.rho * (q.u ^ 2 + q.v ^ 2 + q.w ^ 2) / 2, q.rho * q.u, q.rho * q.v,
    q.rho * q.w⟩

/-- The flux of conserved variables `U` moving along the first direction with velocity `s` under the
pressure `p`. -/
noncomputable def transport (U : Cons ℝ) (s p : ℝ) : Cons ℝ :=
  ⟨U.rho * s, (U.e + p) * s, U.ru * s + p, U.rv * s, U.rw * s⟩

/-- The jump condition at a wave of speed `S` between the states `U` and `V` with fluxes `F` and `H`. -/
def Jump (S : ℝ) (U V F H : Cons ℝ) : Prop :=
  H.rho - F.rho = S * (V.rho - U.rho) ∧ H.e - F.e = S * (V.e - U.e) ∧ H.ru - F.ru = S * (V.ru - U.ru) ∧
    H.rv - F.rv = S * (V.rv - U.rv) ∧ H.rw - F.rw = S * (V.rw - U.rw)

/-! ### Proof -/

variable {P : Params} (hP : P.Ok)
include hP

theorem star_left (l r : Prim ℝ) (hl : Admissible P l) :
    let U : Cons ℝ := ⟨rstar P l r l (waveL P l r), estar P l r l (waveL P l r),
      rstar P l r l (waveL P l r) * ustar P l r, rstar P l r l (waveL P l r) * l.v,
      rstar P l r l (waveL P l r) * l.w⟩
    0 < U.rho ∧ Jump (waveL P l r) (consOf P.gamma l) U (eulerFlux P.gamma 0 l)
      (transport U (ustar P l r) (pstar P l r)) := by
  obtain ⟨w1, -, -, -, h1, -⟩ := waves hP l r
  have hR : sideR P l = l.rho := max_eq_left hl.1
  have hPp : sideP P l = l.p := by unfold sideP; rw [hR]; exact max_eq_left hl.2
  have hp := pstar_left hP l r
  rw [hPp] at hp
  have hrho : 0 < l.rho := by rw [← hR]; exact sideR_pos hP l
  have hne : waveL P l r - ustar P l r ≠ 0 := by linarith
  have hrs : rstar P l r l (waveL P l r) * (waveL P l r - ustar P l r) =
      l.rho * (waveL P l r - l.u) := by
    unfold rstar
    rw [hR]
    field_simp
  have hE : sideE P l = l.p / (P.gamma - 1) + l.rho * (l.u ^ 2 + l.v ^ 2 + l.w ^ 2) / 2 := by
    unfold sideE
    rw [hR, hPp]
    ring
  have hes : estar P l r l (waveL P l r) * (waveL P l r - ustar P l r) =
      (waveL P l r - l.u) * (l.p / (P.gamma - 1) + l.rho * (l.u ^ 2 + l.v ^ 2 + l.w ^ 2) / 2) -
        l.p * l.u + pstar P l r * ustar P l r := by
    unfold estar
    rw [hE, hPp]
    field_simp
  have hpos : 0 < rstar P l r l (waveL P l r) := by
    unfold rstar
    rw [hR]
    exact div_pos_of_neg_of_neg (mul_neg_of_pos_of_neg hrho (by linarith)) (by linarith)
  unfold rcl at hp
  rw [hR] at hp
  refine ⟨hpos, ?_⟩
  unfold Jump transport consOf eulerFlux
  simp only [Prim.vel, if_true, if_neg (show ¬ ((0 : Fin 3) = 1) by decide),
    if_neg (show ¬ ((0 : Fin 3) = 2) by decide)]
  generalize rstar P l r l (waveL P l r) = R at *
  generalize estar P l r l (waveL P l r) = E at *
  generalize waveL P l r = S at *
  generalize ustar P l r = s at *
  generalize pstar P l r = p at *
  generalize l.p / (P.gamma - 1) + l.rho * (l.u ^ 2 + l.v ^ 2 + l.w ^ 2) / 2 = El at *
  refine ⟨by linear_combination -hrs, by linear_combination -hes, ?_, by linear_combination -l.v * hrs,
    by linear_combination -l.w * hrs⟩
  rw [hp]
  linear_combination -s * hrs

theorem star_right (l r : Prim ℝ) (hr : Admissible P r) :
    let U : Cons ℝ := ⟨rstar P l r r (waveR P l r), estar P l r r (waveR P l r),
      rstar P l r r (waveR P l r) * ustar P l r, rstar P l r r (waveR P l r) * r.v,
      rstar P l r r (waveR P l r) * r.w⟩
    0 < U.rho ∧ Jump (waveR P l r) (consOf P.gamma r) U (eulerFlux P.gamma 0 r)
      (transport U (ustar P l r) (pstar P l r)) := by
  obtain ⟨-, w2, -, -, -, h2⟩ := waves hP l r
  have hR : sideR P r = r.rho := max_eq_left hr.1
  have hPp : sideP P r = r.p := by unfold sideP; rw [hR]; exact max_eq_left hr.2
  have hp := pstar_right hP l r
  rw [hPp] at hp
  have hrho : 0 < r.rho := by rw [← hR]; exact sideR_pos hP r
  have hne : waveR P l r - ustar P l r ≠ 0 := by linarith
  have hrs : rstar P l r r (waveR P l r) * (waveR P l r - ustar P l r) =
      r.rho * (waveR P l r - r.u) := by
    unfold rstar
    rw [hR]
    field_simp
  have hE : sideE P r = r.p / (P.gamma - 1) + r.rho * (r.u ^ 2 + r.v ^ 2 + r.w ^ 2) / 2 := by
    unfold sideE
    rw [hR, hPp]
    ring
  have hes : estar P l r r (waveR P l r) * (waveR P l r - ustar P l r) =
      (waveR P l r - r.u) * (r.p / (P.gamma - 1) + r.rho * (r.u ^ 2 + r.v ^ 2 + r.w ^ 2) / 2) -
        r.p * r.u + pstar P l r * ustar P l r := by
    unfold estar
    rw [hE, hPp]
    field_simp
  have hpos : 0 < rstar P l r r (waveR P l r) := by
    unfold rstar
    rw [hR]
    exact div_pos (mul_pos hrho (by linarith)) (by linarith)
  unfold rcr at hp
  rw [hR] at hp
  refine ⟨hpos, ?_⟩
  unfold Jump transport consOf eulerFlux
  simp only [Prim.vel, if_true, if_neg (show ¬ ((0 : Fin 3) = 1) by decide),
    if_neg (show ¬ ((0 : Fin 3) = 2) by decide)]
  generalize rstar P l r r (waveR P l r) = R at *
  generalize estar P l r r (waveR P l r) = E at *
  generalize waveR P l r = S at *
  generalize ustar P l r = s at *
  generalize pstar P l r = p at *
  generalize r.p / (P.gamma - 1) + r.rho * (r.u ^ 2 + r.v ^ 2 + r.w ^ 2) / 2 = Er at *
  refine ⟨by linear_combination -hrs, by linear_combination -hes, ?_, by linear_combination -r.v * hrs,
    by linear_combination -r.w * hrs⟩
  rw [hp]
  linear_combination -s * hrs

/-- **C44** The solver has the structure of the HLLC solver: there are two intermediate states, with
positive density, a common pressure and the velocity of the middle wave, related to the outer states by
the jump conditions at the outer waves, which enclose all characteristic speeds. The flux is that of
the state at the interface. -/
theorem C44_hllc (l r : Prim ℝ) (hl : Admissible P l) (hr : Admissible P r) :
    ∃ (SL s SR p : ℝ) (UL UR : Cons ℝ),
      (∀ q ∈ [l, r], SL ≤ q.u - √(P.gamma * q.p / q.rho) ∧ q.u + √(P.gamma * q.p / q.rho) ≤ SR) ∧
      SL < s ∧ s < SR ∧ 0 < UL.rho ∧ 0 < UR.rho ∧ UL.ru = UL.rho * s ∧ UR.ru = UR.rho * s ∧
      Jump SL (consOf P.gamma l) UL (eulerFlux P.gamma 0 l) (transport UL s p) ∧
      Jump SR (consOf P.gamma r) UR (eulerFlux P.gamma 0 r) (transport UR s p) ∧
      hllc P l r = if 0 < SL then eulerFlux P.gamma 0 l else if 0 < s then transport UL s p
        else if 0 < SR then transport UR s p else eulerFlux P.gamma 0 r := by
  obtain ⟨w1, w2, -, -, h1, h2⟩ := waves hP l r
  obtain ⟨a1, a2⟩ := star_left hP l r hl
  obtain ⟨b1, b2⟩ := star_right hP l r hr
  have hc : ∀ q : Prim ℝ, Admissible P q → √(P.gamma * q.p / q.rho) ≤ cfast P q := by
    intro q hq
    have hR : sideR P q = q.rho := max_eq_left hq.1
    have hPp : sideP P q = q.p := by unfold sideP; rw [hR]; exact max_eq_left hq.2
    unfold cfast
    rw [hR, hPp]
    exact Real.sqrt_le_sqrt (le_max_left _ _)
  have flux : ∀ q : Prim ℝ, Admissible P q →
      (⟨sideR P q * q.u, (sideE P q + sideP P q) * q.u, sideR P q * q.u * q.u + sideP P q,
        sideR P q * q.u * q.v, sideR P q * q.u * q.w⟩ : Cons ℝ) = eulerFlux P.gamma 0 q := by
    intro q hq
    have hR : sideR P q = q.rho := max_eq_left hq.1
    have hPp : sideP P q = q.p := by unfold sideP; rw [hR]; exact max_eq_left hq.2
    unfold eulerFlux sideE
    simp only [Prim.vel, if_true, if_neg (show ¬ ((0 : Fin 3) = 1) by decide),
      if_neg (show ¬ ((0 : Fin 3) = 2) by decide), hR, hPp, Cons.mk.injEq, true_and]
    refine ⟨?_, ?_, ?_⟩ <;> ring
  have hrl := sideR_pos hP l
  have hrr := sideR_pos hP r
  refine ⟨waveL P l r, ustar P l r, waveR P l r, pstar P l r, _, _, ?_, h1, h2, a1, b1, rfl, rfl, a2, b2,
    ?_⟩
  · intro q hq
    have e1 : q.u - cfast P q ≥ waveL P l r ∧ q.u + cfast P q ≤ waveR P l r := by
      unfold waveL waveR
      rcases List.mem_pair.1 hq with rfl | rfl
      · exact ⟨sub_le_sub (min_le_left _ _) (le_max_left _ _), add_le_add (le_max_left _ _) (le_max_left _ _)⟩
      · exact ⟨sub_le_sub (min_le_right _ _) (le_max_right _ _),
          add_le_add (le_max_right _ _) (le_max_right _ _)⟩
    have hq' : Admissible P q := by
      rcases List.mem_pair.1 hq with rfl | rfl
      · exact hl
      · exact hr
    have := hc q hq'
    constructor <;> linarith [e1.1, e1.2]
  · unfold hllc sample
    split
    · rename_i h
      rw [← flux l hl]
      unfold godunov
      simp only
      have : 0 < sideR P l * l.u := mul_pos hrl (by linarith)
      rw [if_pos this, if_pos this]
    · split
      · rename_i h
        unfold godunov transport
        simp only
        have : 0 < rstar P l r l (waveL P l r) * ustar P l r := mul_pos a1 h
        rw [if_pos this, if_pos this, Cons.mk.injEq]
        refine ⟨rfl, rfl, rfl, by ring, by ring⟩
      · rename_i h
        split
        · unfold godunov transport
          simp only
          have : ¬ 0 < rstar P l r r (waveR P l r) * ustar P l r :=
            not_lt.2 (mul_nonpos_of_nonneg_of_nonpos b1.le (not_lt.1 h))
          rw [if_neg this, if_neg this, Cons.mk.injEq]
          refine ⟨rfl, rfl, rfl, by ring, by ring⟩
        · rename_i h'
          rw [← flux r hr]
          unfold godunov
          simp only
          have : ¬ 0 < sideR P r * r.u :=
            not_lt.2 (mul_nonpos_of_nonneg_of_nonpos hrr.le (by linarith))
          rw [if_neg this, if_neg this]

omit hP in
/-- Two admissible states; the middle wave moves to the right. -/
example : Params.Ok ⟨7 / 5, 1 / 1000, 1 / 1000, 1 / 1000⟩ ∧
    Admissible ⟨7 / 5, 1 / 1000, 1 / 1000, 1 / 1000⟩ ⟨1, 1, 0, 2, 0⟩ ∧
    Admissible ⟨7 / 5, 1 / 1000, 1 / 1000, 1 / 1000⟩ ⟨1 / 8, 1 / 10, 0, -1, 3⟩ := by
  refine ⟨⟨?_, ?_, ?_⟩, ⟨?_, ?_⟩, ?_, ?_⟩ <;> norm_num

end Verif.Hydro
