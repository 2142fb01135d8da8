import Verif.Hydro.Slope
import Verif.Legacy.Uniform
import Verif.Octree.Check

/-!
# C84: the block-based update
-/

namespace Verif.Legacy

open Verif.Octree Verif.Cells Verif.Legacy.Spec

noncomputable section

variable {d : ℕ}

/-! ### Conservation -/

theorem dtdx_level {P : Par d} {UP : UPar d} {dt : ℝ} {o o' : Oct d} (h : o.level = o'.level) :
    dtdx P UP dt o = dtdx P UP dt o' := by
  funext k
  unfold dtdx getSize
  rw [h]

/-- One step on a mesh with octants of one level, without gravity. -/
theorem step_uniform {P : Par d} {UP : UPar d} {M : Finset (Oct d)} {l : ℕ} (hG : P.G.Pos)
    (hM : Tiling P.G M) (hl : ∀ o ∈ M, o.level = l)
    (hb : ∀ i, 0 < P.b i) (hev : ∀ i, 2 ∣ P.b i) (hw : ∀ i, P.w ≤ P.b i) (hw2 : 2 ≤ P.w)
    (hper : PeriodicOk P) (hu : ∀ i, P.bcMin i ≠ .user ∧ P.bcMax i ≠ .user)
    (hg : UP.gravity = .none) (himp : UP.conservative = true ∨ d = 2)
    (RS : State d → State d → State d) (dt : ℝ) (U : Mesh d) (B : Block d) {o : Oct d} (ho : o ∈ M)
    {x : Fin d → ℕ} (hx : ∀ i, x i < P.b i) :
    step RS P UP dt M U B o x = some fun v =>
      ext P U l (fun i => ((o.pos i * P.b i + x i : ℕ) : ℤ)) v -
        ∑ k, dtdx P UP dt ⟨l, 0⟩ k *
          (faceFlux RS UP (dtdx P UP dt ⟨l, 0⟩) (ext P U l) k
              ((fun i => ((o.pos i * P.b i + x i : ℕ) : ℤ)) + Pi.single k 1) v -
            faceFlux RS UP (dtdx P UP dt ⟨l, 0⟩) (ext P U l) k
              (fun i => ((o.pos i * P.b i + x i : ℕ) : ℤ)) v) := by
  obtain ⟨B', h1, h2⟩ := fillGhosts_uniform hG hM hl ho hb hev hw hper hu U B
  unfold step
  rw [h1, Option.bind_some]
  unfold updateCell
  rw [if_neg (by rcases himp with h | h <;> simp [h])]
  unfold correct
  simp only [hg, if_true]
  congr 1
  funext v
  rw [allFaces_eq h2 hw2 hg RS dt _ (fun i => ⟨by omega, by exact_mod_cast hx i⟩) v,
    dtdx_level (o' := ⟨l, 0⟩) (hl o ho)]
  push_cast
  rfl

/-- The core of the conservation theorems: it is enough that the fluxes at both ends agree. -/
theorem conserved_core {P : Par d} {UP : UPar d} {M : Finset (Oct d)} {l : ℕ} (hG : P.G.Pos)
    (hM : Tiling P.G M) (hl : ∀ o ∈ M, o.level = l)
    (hb : ∀ i, 0 < P.b i) (hev : ∀ i, 2 ∣ P.b i) (hw : ∀ i, P.w ≤ P.b i) (hw2 : 2 ≤ P.w)
    (hper : PeriodicOk P) (hu : ∀ i, P.bcMin i ≠ .user ∧ P.bcMax i ≠ .user)
    (hg : UP.gravity = .none) (himp : UP.conservative = true ∨ d = 2)
    (RS : State d → State d → State d) (dt : ℝ) (U : Mesh d) (B : Oct d → Block d) (v : HV d)
    (hends : ∀ k, ∀ X ∈ box (cells P l), X k + 1 = cells P l k →
      faceFlux RS UP (dtdx P UP dt ⟨l, 0⟩) (ext P U l) k ((fun i => (X i : ℤ)) + Pi.single k 1) v =
      faceFlux RS UP (dtdx P UP dt ⟨l, 0⟩) (ext P U l) k
        (fun i => ((Function.update X k 0) i : ℤ)) v) :
    ∃ U2 : Oct d → (Fin d → ℕ) → State d,
      (∀ o ∈ M, ∀ x : Fin d → ℕ, (∀ i, x i < P.b i) →
        step RS P UP dt M U (B o) o x = some (U2 o x)) ∧
      ∑ o ∈ M, ∑ x ∈ box P.b, U2 o x v = ∑ o ∈ M, ∑ x ∈ box P.b, U o x v.var := by
  set r := dtdx P UP dt ⟨l, 0⟩ with hr
  refine ⟨fun o x v => ext P U l (fun i => ((o.pos i * P.b i + x i : ℕ) : ℤ)) v -
        ∑ k, r k * (faceFlux RS UP r (ext P U l) k
              ((fun i => ((o.pos i * P.b i + x i : ℕ) : ℤ)) + Pi.single k 1) v -
            faceFlux RS UP r (ext P U l) k
              (fun i => ((o.pos i * P.b i + x i : ℕ) : ℤ)) v),
    fun o ho x hx => step_uniform hG hM hl hb hev hw hw2 hper hu hg himp RS dt U (B o) ho hx, ?_⟩
  have e1 := sum_cells hM hl hb (fun X => ext P U l (fun i => (X i : ℤ)) v -
        ∑ k, r k * (faceFlux RS UP r (ext P U l) k ((fun i => (X i : ℤ)) + Pi.single k 1) v -
            faceFlux RS UP r (ext P U l) k (fun i => (X i : ℤ)) v))
  have e2 := sum_cells hM hl hb (fun X => ext P U l (fun i => (X i : ℤ)) v)
  have e3 : ∑ o ∈ M, ∑ x ∈ box P.b, U o x v.var =
      ∑ o ∈ M, ∑ x ∈ box P.b, ext P U l (fun i => ((o.pos i * P.b i + x i : ℕ) : ℤ)) v := by
    refine Finset.sum_congr rfl fun o ho => Finset.sum_congr rfl fun x hx => ?_
    rw [mem_box] at hx
    rw [ext_inside]
    · obtain ⟨m, a⟩ := o
      have hm : m = l := hl _ ho
      subst hm
      congr 2
      · congr 1
        funext i
        rw [Nat.mul_comm, Nat.mul_add_div (hb i), Nat.div_eq_of_lt (hx i), Nat.add_zero]
      · funext i
        rw [Nat.mul_comm, Nat.mul_add_mod, Nat.mod_eq_of_lt (hx i)]
    · intro i
      have h3 := (hM.valid o ho).2 i
      rw [hl o ho] at h3
      have h4 := hx i
      unfold cells
      rw [cellGrid_count]
      calc o.pos i * P.b i + x i < o.pos i * P.b i + P.b i := by omega
        _ = (o.pos i + 1) * P.b i := by ring
        _ ≤ P.G.count i l * P.b i := Nat.mul_le_mul_right _ h3
  rw [e3, e2]
  refine e1.trans ?_
  rw [Finset.sum_sub_distrib, Finset.sum_comm]
  have e4 : ∑ k, ∑ X ∈ box (fun i => (cellGrid P.G P.b).count i l),
      r k * (faceFlux RS UP r (ext P U l) k ((fun i => (X i : ℤ)) + Pi.single k 1) v -
            faceFlux RS UP r (ext P U l) k (fun i => (X i : ℤ)) v) = 0 := by
    refine Finset.sum_eq_zero fun k _ => ?_
    rw [← Finset.mul_sum, Finset.sum_sub_distrib,
      show (box fun i => (cellGrid P.G P.b).count i l) = box (cells P l) from rfl,
      sum_box_shift k (fun X => faceFlux RS UP r (ext P U l) k X v) (hends k), sub_self, mul_zero]
  rw [e4, sub_zero]

theorem last_eq {N : Fin d → ℕ} {X : Fin d → ℕ} {k : Fin d} (h : X k + 1 = N k) :
    (fun i => (X i : ℤ)) + Pi.single k 1 =
      (fun i => ((Function.update X k 0) i : ℤ)) + Pi.single k (N k : ℤ) := by
  funext i
  by_cases hi : i = k
  · subst hi
    simp only [Pi.add_apply, Pi.single_eq_same, Function.update_self]
    push_cast [← h]
    ring
  · simp only [Pi.add_apply, Pi.single_eq_of_ne hi, Function.update_of_ne hi]

/-- C84, partial (octants of one level only): in a periodic domain, without gravity, the update leaves
the sums of mass, energy and momentum over all cells as they were, for any Riemann solver, time step,
limiter and data. Missing: meshes with octants of different levels, where it does not hold
(`C84_not_conservative_over_level_jumps`). -/
theorem C84_conserved_partial {P : Par d} {UP : UPar d} {M : Finset (Oct d)} {l : ℕ} (hG : P.G.Pos)
    (hM : Tiling P.G M) (hl : ∀ o ∈ M, o.level = l)
    (hb : ∀ i, 0 < P.b i) (hev : ∀ i, 2 ∣ P.b i) (hw : ∀ i, P.w ≤ P.b i) (hw2 : 2 ≤ P.w)
    (hper : PeriodicOk P) (hbc : ∀ i, P.bcMin i = .periodic)
    (hg : UP.gravity = .none) (himp : UP.conservative = true ∨ d = 2)
    (RS : State d → State d → State d) (dt : ℝ) (U : Mesh d) (B : Oct d → Block d) :
    ∃ U2 : Oct d → (Fin d → ℕ) → State d,
      (∀ o ∈ M, ∀ x : Fin d → ℕ, (∀ i, x i < P.b i) →
        step RS P UP dt M U (B o) o x = some (U2 o x)) ∧
      ∀ v, ∑ o ∈ M, ∑ x ∈ Fintype.piFinset (fun i => Finset.range (P.b i)), U2 o x v =
        ∑ o ∈ M, ∑ x ∈ Fintype.piFinset (fun i => Finset.range (P.b i)), U o x v.var := by
  have hbc2 : ∀ i, P.bcMax i = .periodic := fun i => (hper i).2.2 ((hper i).1.1 (hbc i))
  have hu : ∀ i, P.bcMin i ≠ .user ∧ P.bcMax i ≠ .user := fun i => by
    rw [hbc, hbc2]
    decide
  have core := fun v => conserved_core hG hM hl hb hev hw hw2 hper hu hg himp RS dt U B v
    (fun k X _ hX => by
      rw [last_eq hX, faceFlux_periodic fun Y => ext_periodic (hbc k) (hbc2 k) Y])
  obtain ⟨U2, h1, -⟩ := core .rho
  refine ⟨U2, h1, fun v => ?_⟩
  obtain ⟨U3, h3, h4⟩ := core v
  refine Eq.trans ?_ h4
  refine Finset.sum_congr rfl fun o ho => Finset.sum_congr rfl fun x hx => ?_
  have hx' := mem_box.1 hx
  have := (h1 o ho x hx').symm.trans (h3 o ho x hx')
  rw [Option.some.inj this]

/-- C84, partial (octants of one level only): in a box whose directions are periodic or have
reflecting walls on both sides, without gravity, the update with its HLLC solver leaves the sums of
mass and energy and of momentum along periodic directions as they were. -/
theorem C84_closed_box_partial {P : Par d} {UP : UPar d} {M : Finset (Oct d)} {l : ℕ} (hG : P.G.Pos)
    (hM : Tiling P.G M) (hl : ∀ o ∈ M, o.level = l)
    (hb : ∀ i, 0 < P.b i) (hev : ∀ i, 2 ∣ P.b i) (hw : ∀ i, P.w ≤ P.b i) (hw2 : 2 ≤ P.w)
    (hper : PeriodicOk P)
    (hbc : ∀ i, P.bcMin i = .periodic ∨ P.bcMin i = .reflecting ∧ P.bcMax i = .reflecting)
    (hg : UP.gravity = .none) (himp : UP.conservative = true ∨ d = 2) (hrp : UP.rp.Ok)
    (dt : ℝ) (U : Mesh d) (B : Oct d → Block d) :
    ∃ U2 : Oct d → (Fin d → ℕ) → State d,
      (∀ o ∈ M, ∀ x : Fin d → ℕ, (∀ i, x i < P.b i) →
        step (riemannHydro UP.rp) P UP dt M U (B o) o x = some (U2 o x)) ∧
      ∀ v, (∀ k, v = .mom k → P.bcMin k = .periodic) →
        ∑ o ∈ M, ∑ x ∈ Fintype.piFinset (fun i => Finset.range (P.b i)), U2 o x v =
        ∑ o ∈ M, ∑ x ∈ Fintype.piFinset (fun i => Finset.range (P.b i)), U o x v.var := by
  have hu : ∀ i, P.bcMin i ≠ .user ∧ P.bcMax i ≠ .user := fun i => by
    rcases hbc i with h | ⟨h1, h2⟩
    · rw [h, (hper i).2.2 ((hper i).1.1 h)]
      decide
    · rw [h1, h2]
      decide
  have core := fun v (hv : ∀ k, v = .mom k → P.bcMin k = .periodic) =>
    conserved_core hG hM hl hb hev hw hw2 hper hu hg himp (riemannHydro UP.rp) dt U B v
    (fun k X hX0 hX => by
      rcases hbc k with h | ⟨h1, h2⟩
      · rw [last_eq hX, faceFlux_periodic fun Y => ext_periodic h
          ((hper k).2.2 ((hper k).1.1 h)) Y]
      · have hst : StaysAt k v := by
          cases v with
          | mom j =>
            rintro rfl
            rw [hv j rfl] at h1
            exact absurd h1 (by decide)
          | _ => trivial
        have hN : 2 ≤ cells P l k := by
          unfold cells
          rw [cellGrid_count]
          have c1 : 2 ≤ P.b k := le_trans hw2 (hw k)
          have c2 : 0 < P.G.count k l := count_pos hG k l
          calc 2 ≤ 1 * P.b k := by omega
            _ ≤ P.G.count k l * P.b k := Nat.mul_le_mul_right _ c2
        unfold faceFlux
        rw [faceState_mirror (ext_mirror_upper h2 hN), faceState_mirror (ext_mirror_lower h1 hN),
          wall_flux hrp k _ hst, wall_flux hrp k _ hst]
        · simp
        · simp only [Pi.add_apply, Pi.single_eq_same]
          push_cast [← hX]
          rfl)
  obtain ⟨U2, h1, -⟩ := core .rho (fun k h => by cases h)
  refine ⟨U2, h1, fun v hv => ?_⟩
  obtain ⟨U3, h3, h4⟩ := core v hv
  refine Eq.trans ?_ h4
  refine Finset.sum_congr rfl fun o ho => Finset.sum_congr rfl fun x hx => ?_
  have hx' := mem_box.1 hx
  have := (h1 o ho x hx').symm.trans (h3 o ho x hx')
  rw [Option.some.inj this]

/-- A mesh of two octants, periodic in x, walls in y. -/
def twoPar : Par 2 :=
  ⟨⟨1, ![2, 1], ![true, false]⟩, fun _ => 4, 2, ![.periodic, .reflecting], ![.periodic, .reflecting],
    false⟩

def twoMesh : List (Oct 2) := [⟨1, ![0, 0]⟩, ⟨1, ![1, 0]⟩]

theorem twoMesh_tiling : Tiling twoPar.G twoMesh.toFinset :=
  tiling_of_check ⟨⟨by decide⟩, by decide⟩ twoMesh 1 (by decide)

/-- The hypotheses on mesh and parameters can be met. -/
example : ∃ UP : UPar 2, twoPar.G.Pos ∧ Tiling twoPar.G twoMesh.toFinset ∧
    (∀ o ∈ twoMesh.toFinset, o.level = 1) ∧ (∀ i, 0 < twoPar.b i) ∧ (∀ i, 2 ∣ twoPar.b i) ∧
    (∀ i, twoPar.w ≤ twoPar.b i) ∧ 2 ≤ twoPar.w ∧ PeriodicOk twoPar ∧
    (∀ i, twoPar.bcMin i = .periodic ∨ twoPar.bcMin i = .reflecting ∧ twoPar.bcMax i = .reflecting) ∧
    UP.gravity = .none ∧ UP.conservative = true ∧ UP.rp.Ok :=
  ⟨⟨⟨7 / 5, 1 / 1000, 1 / 1000, 1 / 1000⟩, .none, 0, 2, fun _ => 1, true⟩, ⟨by decide⟩, twoMesh_tiling,
    by decide, by decide, by decide, by decide, by decide, by unfold PeriodicOk; decide, by decide, rfl,
    rfl, ⟨by norm_num, by norm_num, by norm_num⟩⟩

/-! ### Uniform flow -/

/-- C84: a uniform state (at rest in directions with a reflecting wall) is a fixed point of the update
on every balanced mesh with level jumps, for any Riemann solver, without gravity. -/
theorem C84_uniform_flow {P : Par d} {UP : UPar d} {M : Finset (Oct d)} {o : Oct d} (hG : P.G.Pos)
    (hM : Tiling P.G M) (hB : Balanced P.G M) (ho : o ∈ M)
    (hb : ∀ i, 0 < P.b i) (hev : ∀ i, 2 ∣ P.b i) (hw : ∀ i, P.w ≤ P.b i) (hw2 : 2 ≤ P.w)
    (hsm : ∀ n ∈ M, Touch P.G o n → o.level < n.level → ∀ i, 2 * P.w ≤ P.b i)
    (hper : PeriodicOk P) (hu : ∀ i, P.bcMin i ≠ .user ∧ P.bcMax i ≠ .user)
    (hg : UP.gravity = .none) (himp : UP.conservative = true ∨ d = 2)
    (RS : State d → State d → State d) (dt : ℝ) (U : Mesh d) (B : Block d) (c : State d)
    (hU : ∀ n ∈ M, ∀ x : Fin d → ℕ, (∀ i, x i < P.b i) → ∀ v : HV d, U n x v.var = c v)
    (hc : ∀ k, P.bcMin k = .reflecting ∨ P.bcMax k = .reflecting → c (.mom k) = 0)
    {x : Fin d → ℕ} (hx : ∀ i, x i < P.b i) :
    step RS P UP dt M U B o x = some c := by
  obtain ⟨B', h1, h2, -⟩ := C83_ghost_values_partial hG hM hB ho hb hev hw hsm hper hu U B
  have hold : Holds P B' (fun _ => c) (fun _ => 0) := by
    intro q hq
    obtain ⟨W, -, hm⟩ := h2 q hq
    funext v
    have hv : Copied P v.var := by cases v <;> trivial
    obtain ⟨cc, hcc, e⟩ := hm v.var hv
    rw [Finset.sum_congr rfl fun s _ => hU _ (hcc s).1 _ (hcc s).2.1 v] at e
    simp only [Finset.sum_const, Finset.card_univ, Fintype.card_pi, Fintype.card_fin,
      Finset.prod_const, nsmul_eq_mul] at e
    push_cast at e
    rw [mul_div_cancel_left₀ _ (by positivity : (2 : ℝ) ^ d ≠ 0)] at e
    unfold getCons
    cases v with
    | rho => simpa [varSign, HV.var] using e
    | e => simpa [varSign, HV.var] using e
    | mom k =>
      simp only [varSign, HV.var] at e ⊢
      unfold imageSign at e
      split at e
      · rename_i h
        have hk : c (.mom k) = 0 := by
          apply hc
          rcases h with ⟨-, h⟩ | ⟨-, h⟩
          · left
            revert h
            cases P.bcMin k <;> simp [wall]
          · right
            revert h
            cases P.bcMax k <;> simp [wall]
        rw [hk] at e ⊢
        linarith
      · linarith
  unfold step
  rw [h1, Option.bind_some]
  unfold updateCell
  rw [if_neg (by rcases himp with h | h <;> simp [h])]
  unfold correct
  simp only [hg, if_true]
  congr 1
  funext v
  rw [allFaces_eq hold hw2 hg RS dt _ (fun i => ⟨by omega, by exact_mod_cast hx i⟩) v]
  have : ∀ (k : Fin d) (X Y : Fin d → ℤ),
      faceFlux RS UP (dtdx P UP dt o) (fun _ => c) k X v =
      faceFlux RS UP (dtdx P UP dt o) (fun _ => c) k Y v := fun k X Y => rfl
  rw [Finset.sum_eq_zero, sub_zero]
  intro k _
  rw [this k _ (fun _ => 0), this k (fun i => 0 + _) (fun _ => 0), sub_self, mul_zero]

/-! ### Slopes -/

/-- C84: the limited slope makes no new extrema: half a cell away the reconstructed value lies between
the cell and its neighbour on that side. It is zero at extrema, and exact for linear data. -/
theorem C84_slopes (t : ℤ) (q qPlus qMinus : ℝ) :
    Hydro.Between q qPlus (q + slopeScalar t q qPlus qMinus / 2) ∧
    Hydro.Between q qMinus (q - slopeScalar t q qPlus qMinus / 2) ∧
    ((q - qMinus) * (qPlus - q) ≤ 0 → slopeScalar t q qPlus qMinus = 0) ∧
    (t = 1 ∨ t = 2 → ∀ h, slopeScalar t q (q + h) (q - h) = h) := by
  have triv : ∀ a b : ℝ, Hydro.Between a b (a + 0 / 2) ∧ Hydro.Between a b (a - 0 / 2) := by
    intro a b
    simp only [zero_div, add_zero, sub_zero, Hydro.Between, le_refl, true_and, and_true, and_self]
    exact le_total a b
  by_cases ht : t = 1 ∨ t = 2
  · have ht1 : (1 : ℝ) ≤ t ∧ (t : ℝ) ≤ 2 := by rcases ht with rfl | rfl <;> norm_num
    have hz : (q - qMinus) * (qPlus - q) ≤ 0 → slopeScalar t q qPlus qMinus = 0 := by
      intro h
      have h2 : dlim (t * (q - qMinus)) (t * (qPlus - q)) = 0 := by
        unfold dlim
        rw [if_pos]
        have : (t : ℝ) * (q - qMinus) * (t * (qPlus - q)) = t ^ 2 * ((q - qMinus) * (qPlus - q)) := by
          ring
        rw [this]
        exact mul_nonpos_of_nonneg_of_nonpos (sq_nonneg _) h
      rw [slopeScalar_eq, if_pos ht, h2, min_eq_left (abs_nonneg _), mul_zero]
    have hlin : t = 1 ∨ t = 2 → ∀ h, slopeScalar t q (q + h) (q - h) = h := by
      intro _ h
      have hsq : h ≠ 0 → 0 < (t : ℝ) * h * (t * h) := fun h0 =>
        mul_self_pos.mpr (mul_ne_zero (by linarith [ht1.1]) h0)
      rw [slopeScalar_eq, if_pos ht]
      unfold dlim
      rw [show q - (q - h) = h by ring, show q + h - q = h by ring,
        show 1 / 2 * (q + h - (q - h)) = h by ring, min_self]
      rcases lt_trichotomy h 0 with h0 | h0 | h0
      · rw [if_neg (by linarith), if_neg (not_le.mpr (hsq h0.ne)), abs_mul,
          abs_of_neg h0, abs_of_pos (by linarith), min_eq_right (by nlinarith)]
        ring
      · subst h0
        simp
      · rw [if_pos h0.le, if_neg (not_le.mpr (hsq h0.ne')), abs_mul,
          abs_of_pos h0, abs_of_pos (by linarith), min_eq_right (by nlinarith)]
        ring
    by_cases hp : (q - qMinus) * (qPlus - q) ≤ 0
    · refine ⟨?_, ?_, hz, hlin⟩
      · rw [hz hp]; exact (triv _ _).1
      · rw [hz hp]; exact (triv _ _).2
    · push Not at hp
      have key : ∀ a b : ℝ, 0 < a → 0 < b → 0 ≤ min (dlim (t * a) (t * b)) |1 / 2 * (a + b)| ∧
          min (dlim (t * a) (t * b)) |1 / 2 * (a + b)| ≤ 2 * a ∧
          min (dlim (t * a) (t * b)) |1 / 2 * (a + b)| ≤ 2 * b := by
        intro a b ha hb
        have h1 : 0 < (t : ℝ) * a := by nlinarith
        have h2 : 0 < (t : ℝ) * b := by nlinarith
        refine ⟨le_min (dlim_nonneg _ _) (abs_nonneg _), ?_, ?_⟩
        · refine (min_le_left _ _).trans ?_
          unfold dlim
          rw [if_neg (by nlinarith [mul_pos h1 h2]), abs_of_pos h1]
          exact (min_le_left _ _).trans (by nlinarith)
        · refine (min_le_left _ _).trans ?_
          unfold dlim
          rw [if_neg (by nlinarith [mul_pos h1 h2]), abs_of_pos h2]
          exact (min_le_right _ _).trans (by nlinarith)
      rcases pos_and_pos_or_neg_and_neg_of_mul_pos hp with ⟨h1, h2⟩ | ⟨h1, h2⟩
      · obtain ⟨k1, k2, k3⟩ := key _ _ h1 h2
        have e : slopeScalar t q qPlus qMinus = min (dlim (t * (q - qMinus)) (t * (qPlus - q)))
            |1 / 2 * (q - qMinus + (qPlus - q))| := by
          rw [slopeScalar_eq, if_pos ht, if_pos (by linarith), one_mul]
          congr 3
          ring
        rw [← e] at k1 k2 k3
        exact ⟨Or.inl ⟨by linarith, by linarith⟩, Or.inr ⟨by linarith, by linarith⟩, hz, hlin⟩
      · obtain ⟨k1, k2, k3⟩ := key (-(q - qMinus)) (-(qPlus - q)) (by linarith) (by linarith)
        have e : slopeScalar t q qPlus qMinus = -min (dlim (t * -(q - qMinus)) (t * -(qPlus - q)))
            |1 / 2 * (-(q - qMinus) + -(qPlus - q))| := by
          rw [slopeScalar_eq, if_pos ht, if_neg (by linarith), mul_neg, mul_neg, dlim_neg,
            show 1 / 2 * (-(q - qMinus) + -(qPlus - q)) = -(1 / 2 * (qPlus - qMinus)) by ring, abs_neg]
          ring
        have e' : min (dlim (t * -(q - qMinus)) (t * -(qPlus - q)))
            |1 / 2 * (-(q - qMinus) + -(qPlus - q))| = -slopeScalar t q qPlus qMinus := by
          rw [e, neg_neg]
        rw [e'] at k1 k2 k3
        exact ⟨Or.inr ⟨by linarith, by linarith⟩, Or.inl ⟨by linarith, by linarith⟩, hz, hlin⟩
  · have h0 : ∀ a b c : ℝ, slopeScalar t a b c = 0 := fun a b c => by
      rw [slopeScalar_eq, if_neg ht]
    rw [h0]
    exact ⟨(triv _ _).1, (triv _ _).2, fun _ => rfl, fun h => absurd h ht⟩

/-- Slopes that are neither zero nor the largest allowed. -/
example : slopeScalar 2 1 3 0 = 3 / 2 ∧ slopeScalar 1 1 3 0 = 1 := by
  constructor <;> norm_num [slopeScalar, min_def]

/-! ### Gravity -/

/-- C84: what gravity does to a cell, in 2D with constant acceleration and in 3D with a field: density
is unchanged, momentum grows by the mean of the old and new densities times acceleration and time
step, and internal energy is unchanged. -/
theorem C84_gravity_partial {P : Par d} {UP : UPar d} {dt : ℝ} {B : Block d} {x : Fin d → ℕ}
    {u : State d} (hd : (d = 2 ∧ UP.gravity = .cstScalar ∧ UP.rp.smallr ≤ u .rho) ∨
      (d = 3 ∧ UP.gravity.hasField = true)) :
    ∃ u', correct P UP dt B x u = some u' ∧ u' .rho = u .rho ∧
      (∀ k, u' (.mom k) = u (.mom k) + dt * ((B (fun i => x i) .rho + u .rho) / 2) *
        (if d = 2 then UP.g k else B (fun i => x i) (.grav k))) ∧
      u' .e - (∑ k, u' (.mom k) ^ 2) / (2 * u' .rho) =
        u .e - (∑ k, u (.mom k) ^ 2) / (2 * u .rho) := by
  have hacc : ∀ (g : Fin d → ℝ) (r0 : ℝ), accelerate dt r0 (u .rho) g u .e -
      (∑ k, accelerate dt r0 (u .rho) g u (.mom k) ^ 2) / (2 * accelerate dt r0 (u .rho) g u .rho) =
        u .e - (∑ k, u (.mom k) ^ 2) / (2 * u .rho) := by
    intro g r0
    simp only [accelerate, pow_two]
    rw [mul_comm (2 : ℝ) (u .rho), ← div_div, ← div_div]
    ring
  rcases hd with ⟨h2, hg, hs⟩ | ⟨h3, hg⟩
  · refine ⟨accelerate dt (B (fun i => x i) .rho) (u .rho) UP.g u, ?_, rfl, fun k => ?_, hacc _ _⟩
    · unfold correct
      rw [if_neg (by rw [hg]; decide), if_pos h2, hg]
      simp only [Gravity.hasField, Bool.false_eq_true, if_false, max_eq_right hs]
    · rw [if_pos h2]
      simp only [accelerate]
      ring
  · refine ⟨accelerate dt (B (fun i => x i) .rho) (u .rho) (fun k => B (fun i => x i) (.grav k)) u, ?_,
      rfl, fun k => ?_, hacc _ _⟩
    · unfold correct
      rw [if_neg (by intro h; rw [h] at hg; exact absurd hg (by decide)),
        if_neg (by omega), if_pos hg]
    · rw [if_neg (by omega)]
      simp only [accelerate]
      ring

/-- A case with a changed momentum. -/
example : ∃ u', correct (⟨⟨1, ![2, 1], fun _ => true⟩, fun _ => 4, 2, fun _ => .periodic,
    fun _ => .periodic, false⟩ : Par 2)
    ⟨⟨2, 1 / 1000, 1 / 1000, 1 / 1000⟩, .cstScalar, fun _ => -1, 1, fun _ => 1, true⟩ 2
    (fun _ _ => 1) (fun _ => 0) (fun _ => 1) = some u' ∧ u' (.mom 0) = -1 := by
  obtain ⟨u', h1, -, h2, -⟩ := C84_gravity_partial (P := (⟨⟨1, ![2, 1], fun _ => true⟩, fun _ => 4, 2,
      fun _ => .periodic, fun _ => .periodic, false⟩ : Par 2))
    (UP := ⟨⟨2, 1 / 1000, 1 / 1000, 1 / 1000⟩, .cstScalar, fun _ => -1, 1, fun _ => 1, true⟩) (dt := 2)
    (B := fun _ _ => 1) (x := fun _ => 0) (u := fun _ => 1) (Or.inl ⟨rfl, rfl, by norm_num⟩)
  refine ⟨u', h1, ?_⟩
  rw [h2]
  norm_num

theorem cellOfIndex_ne {P : Par 2} (hw : 0 < P.w) (x : Fin 2 → ℕ) :
    cellOfIndex P (flatIndex P.b x) ≠ fun i => (x i : ℤ) := by
  intro h
  have h0 := congrFun h 0
  have h1 := congrFun h 1
  have e : flatIndex P.b x = x 0 + x 1 * P.b 0 := by
    simp [flatIndex, Fin.sum_univ_two]
  rw [e] at h0 h1
  simp only [cellOfIndex, indexToCoord, sub_eq_iff_eq_add] at h0 h1
  norm_cast at h0 h1
  have c0 : ((x 0 + x 1 * P.b 0) % (P.b 0 + 2 * P.w) : ℕ) = x 0 + P.w := by
    simpa using h0
  have c1 : ((x 0 + x 1 * P.b 0) / (P.b 0 + 2 * P.w) % (P.b 1 + 2 * P.w) : ℕ) = x 1 + P.w := by
    simpa using h1
  have c2 : x 1 + P.w ≤ (x 0 + x 1 * P.b 0) / (P.b 0 + 2 * P.w) := by
    rw [← c1]
    exact Nat.mod_le _ _
  have c3 := Nat.div_add_mod (x 0 + x 1 * P.b 0) (P.b 0 + 2 * P.w)
  rw [c0] at c3
  have c4 : (P.b 0 + 2 * P.w) * (x 1 + P.w) ≤
      (P.b 0 + 2 * P.w) * ((x 0 + x 1 * P.b 0) / (P.b 0 + 2 * P.w)) := Nat.mul_le_mul_left _ c2
  have c5 : x 1 * P.b 0 ≤ (P.b 0 + 2 * P.w) * (x 1 + P.w) := by
    calc x 1 * P.b 0 ≤ x 1 * P.b 0 + (P.b 0 * P.w + 2 * P.w * (x 1 + P.w)) := Nat.le_add_right _ _
      _ = (P.b 0 + 2 * P.w) * (x 1 + P.w) := by ring
  omega

/-- C84: in 2D a gravity field is read in the wrong cell, whatever the cell is: with the same field in
the cell itself (zero) the cell can be accelerated or not. -/
theorem C84_gravity_field_of_another_cell {P : Par 2} {UP : UPar 2} (hw : 0 < P.w)
    (hg : UP.gravity.hasField = true) (hs : 0 < UP.rp.smallr) {dt : ℝ} (hdt : dt ≠ 0)
    (x : Fin 2 → ℕ) :
    ∃ (B : Block 2) (u u' : State 2), (∀ k, B (fun i => x i) (.grav k) = 0) ∧ u (.mom 0) = 0 ∧
      correct P UP dt B x u = some u' ∧ u' (.mom 0) ≠ 0 := by
  classical
  set B : Block 2 := fun p v => if p = (fun i => (x i : ℤ)) then 0 else
    match v with
    | .grav _ => 1
    | _ => 0 with hB
  refine ⟨B, fun _ => 0, accelerate dt (B (fun i => x i) .rho) (max UP.rp.smallr 0)
    (fun k => B (cellOfIndex P (flatIndex P.b x)) (.grav k)) fun _ => 0, fun k => ?_, rfl, ?_, ?_⟩
  · simp [hB]
  · unfold correct
    rw [if_neg (by intro h; rw [h] at hg; exact absurd hg (by decide)), if_pos rfl]
    simp only [hg, if_true]
  · have h1 : B (fun i => x i) .rho = 0 := by simp [hB]
    have h2 : B (cellOfIndex P (flatIndex P.b x)) (.grav 0) = 1 := by
      simp only [hB]
      rw [if_neg (cellOfIndex_ne hw x)]
    simp only [accelerate, h1, h2, max_eq_left hs.le]
    have : UP.rp.smallr ≠ 0 := hs.ne'
    simp [hdt, this]

/-- C84: in 3D with constant acceleration the correction reads fields that do not exist. -/
theorem C84_constant_gravity_3d_fails {P : Par 3} {UP : UPar 3} (hg : UP.gravity = .cstScalar)
    (RS : State 3 → State 3 → State 3) (dt : ℝ) (o : Oct 3) (B : Block 3) (x : Fin 3 → ℕ) :
    updateCell RS P UP dt o B x = none := by
  unfold updateCell correct
  split
  · rfl
  · rw [hg]
    rfl

/-- C84: in the prediction of the states at faces a gravity field is used only if gravity is both
constant and a field; with a field alone there is no prediction. -/
theorem C84_field_alone_not_predicted (UP : UPar 2) (hc : UP.conservative = true) (dt : ℝ)
    (q : State 2) (B : Block 2) (p : Fin 2 → ℤ) (k : Fin 2) :
    (UP.gravity = .field → predict UP dt q (getGravity UP B p) = q) ∧
    (UP.gravity = .cstField →
      predict UP dt q (getGravity UP B p) (.mom k) = q (.mom k) + dt / 2 * B p (.grav k)) := by
  constructor
  · intro h
    funext v
    cases v <;> simp [predict, getGravity, h]
  · intro h
    simp only [predict, getGravity, h, hc]
    rw [if_pos ⟨trivial, trivial, by decide⟩]
    ring

/-! ### The update that is not conservative -/

/-- C84: in 3D any other value of `updateType` than `conservative_sum` computes nothing. -/
theorem C84_other_update_missing_3d {P : Par 3} {UP : UPar 3} (hc : UP.conservative = false)
    (RS : State 3 → State 3 → State 3) (dt : ℝ) (M : Finset (Oct 3)) (U : Mesh 3) (B : Block 3)
    (o : Oct 3) (x : Fin 3 → ℕ) : step RS P UP dt M U B o x = none := by
  unfold step
  cases fillGhosts P M U o B with
  | none => rfl
  | some B' => exact if_pos ⟨hc, by decide⟩

/-- C84: with another value of `updateType` the size of the domain is left out of the cell size: in a
domain of size `ℓ` it is the conservative update with a time step multiplied by `ℓ`. -/
theorem C84_other_update_ignores_domain_size {P : Par 2} {UP : UPar 2} {ℓ : ℝ}
    (hL : UP.L = fun _ => ℓ) (hℓ : ℓ ≠ 0) (hg : UP.gravity = .none) (hc : UP.conservative = false)
    (RS : State 2 → State 2 → State 2) (dt : ℝ) (o : Oct 2) (B : Block 2) (x : Fin 2 → ℕ) :
    updateCell RS P UP dt o B x =
      updateCell RS P { UP with conservative := true } (dt * ℓ) o B x := by
  have hr : dtdx P UP dt o = dtdx P { UP with conservative := true } (dt * ℓ) o := by
    funext k
    unfold dtdx
    simp only [hc, hL, Bool.false_eq_true, if_false, if_true, mul_one]
    rw [mul_div_right_comm (_ : ℝ) ℓ (P.b k : ℝ), mul_div_mul_right _ _ hℓ]
  have hp : ∀ k left, processAxis RS P UP dt (dtdx P UP dt o) B (fun i => x i) k left =
      processAxis RS P { UP with conservative := true } (dt * ℓ)
        (dtdx P { UP with conservative := true } (dt * ℓ) o) B (fun i => x i) k left := by
    intro k left
    rw [← hr]
    unfold processAxis
    simp only [predict_none hg, predict_none (UP := { UP with conservative := true }) hg]
    rfl
  have ha : allFaces RS P UP dt (dtdx P UP dt o) B (fun i => x i) =
      allFaces RS P { UP with conservative := true } (dt * ℓ)
        (dtdx P { UP with conservative := true } (dt * ℓ) o) B (fun i => x i) := by
    unfold allFaces
    simp only [hp]
  unfold updateCell
  rw [if_neg (by simp), if_neg (by simp), ha]
  unfold correct
  simp only [hg, if_true]

end

end Verif.Legacy
