import Mathlib.Algebra.BigOperators.Intervals
import Mathlib.Algebra.Order.Field.Basic
import Mathlib.Tactic.FieldSimp
import Mathlib.Tactic.Linarith
import Verif.Legacy.UpdateModel
import Verif.Legacy.Fill

/-!
# The update on one lattice

Proofs for C84: what the update of one cell is as a function of a field on a lattice, and sums over
the cells of a mesh whose octants all have the same level.
-/

namespace Verif.Legacy

open Verif.Octree Verif.Cells Verif.Legacy.Spec

noncomputable section

variable {d : ℕ}

/-! ### Fluxes of a field on a lattice -/

/-- Slopes of a field. -/
def fieldSlope (UP : UPar d) (f : (Fin d → ℤ) → State d) (j : Fin d) (X : Fin d → ℤ) : State d :=
  fun v => slopeScalar UP.slopeType (toPrim UP.rp (f X) v)
    (toPrim UP.rp (f (X + Pi.single j 1)) v) (toPrim UP.rp (f (X - Pi.single j 1)) v)

/-- The state of the cell at `X` at its face in direction `k`, on the side `s`. -/
def faceState (UP : UPar d) (r : Fin d → ℝ) (f : (Fin d → ℤ) → State d) (k : Fin d) (s : ℝ)
    (X : Fin d → ℤ) : State d :=
  reconstruct UP.rp r (toPrim UP.rp (f X)) (fun j => fieldSlope UP f j X) (Pi.single k s)

/-- The flux through the lower face of the cell at `X` in direction `k`. -/
def faceFlux (RS : State d → State d → State d) (UP : UPar d) (r : Fin d → ℝ)
    (f : (Fin d → ℤ) → State d) (k : Fin d) (X : Fin d → ℤ) : State d :=
  swapDir k (RS (swapDir k (faceState UP r f k 1 (X - Pi.single k 1)))
    (swapDir k (faceState UP r f k (-1) X)))

/-- The block contains the field `f` around the lattice position `c`. -/
def Holds (P : Par d) (B : Block d) (f : (Fin d → ℤ) → State d) (c : Fin d → ℤ) : Prop :=
  ∀ q : Fin d → ℤ, (∀ i, -(P.w : ℤ) ≤ q i ∧ q i < P.b i + P.w) → getCons B q = f (fun i => c i + q i)

theorem getPrim_eq {P : Par d} {UP : UPar d} {B : Block d} {f : (Fin d → ℤ) → State d}
    {c : Fin d → ℤ} (hB : Holds P B f c) {q : Fin d → ℤ}
    (hq : ∀ i, -(P.w : ℤ) ≤ q i ∧ q i < P.b i + P.w) :
    getPrim UP B q = toPrim UP.rp (f (fun i => c i + q i)) := by
  unfold getPrim
  rw [hB q hq]

theorem slopes_eq {P : Par d} {UP : UPar d} {B : Block d} {f : (Fin d → ℤ) → State d}
    {c : Fin d → ℤ} (hB : Holds P B f c) (j : Fin d) {q : Fin d → ℤ}
    (hq : ∀ i, -(P.w : ℤ) + 1 ≤ q i ∧ q i < P.b i + P.w - 1) :
    slopes P UP B j q = fieldSlope UP f j (fun i => c i + q i) := by
  funext v
  unfold slopes fieldSlope
  rw [if_pos hq, getPrim_eq hB, getPrim_eq hB, getPrim_eq hB]
  · congr 3
    · funext i
      simp only [Pi.add_apply]
      ring
    · funext i
      simp only [Pi.sub_apply]
      ring
  · intro i
    have := hq i
    by_cases h : i = j
    · subst h
      simp only [Pi.sub_apply, Pi.single_eq_same]
      omega
    · simp only [Pi.sub_apply, Pi.single_eq_of_ne h]
      omega
  · intro i
    have := hq i
    by_cases h : i = j
    · subst h
      simp only [Pi.add_apply, Pi.single_eq_same]
      omega
    · simp only [Pi.add_apply, Pi.single_eq_of_ne h]
      omega
  · intro i
    have := hq i
    omega

theorem predict_none {UP : UPar d} (hg : UP.gravity = .none) (dt : ℝ) (q : State d) (g : Fin d → ℝ) :
    predict UP dt q g = q := by
  funext v
  cases v <;> simp [predict, hg]

theorem sum_single_mul (k : Fin d) (s : ℝ) (r : Fin d → ℝ) :
    ∑ j, (Pi.single k s : Fin d → ℝ) j * r j = s * r k := by
  rw [Finset.sum_eq_single k]
  · simp
  · intro j _ h
    simp [Pi.single_eq_of_ne h]
  · simp

theorem neg_single' (k : Fin d) (s : ℝ) :
    (-(Pi.single k s) : Fin d → ℝ) = Pi.single k (-s) := by
  rw [Pi.single_neg]

/-- The update of one cell, without gravity: differences of the fluxes of the field. -/
theorem allFaces_eq {P : Par d} {UP : UPar d} {B : Block d} {f : (Fin d → ℤ) → State d}
    {c : Fin d → ℤ} (hB : Holds P B f c) (hw : 2 ≤ P.w) (hg : UP.gravity = .none)
    (RS : State d → State d → State d) (dt : ℝ) (r : Fin d → ℝ) {p : Fin d → ℤ}
    (hp : ∀ i, 0 ≤ p i ∧ p i < P.b i) (v : HV d) :
    allFaces RS P UP dt r B p v = f (fun i => c i + p i) v -
      ∑ k, r k * (faceFlux RS UP r f k ((fun i => c i + p i) + Pi.single k 1) v -
        faceFlux RS UP r f k (fun i => c i + p i) v) := by
  have hin : ∀ i, -(P.w : ℤ) + 1 ≤ p i ∧ p i < P.b i + P.w - 1 := fun i => by
    have := hp i
    omega
  have key : ∀ k, processAxis RS P UP dt r B p k true v + processAxis RS P UP dt r B p k false v =
      -(r k * (faceFlux RS UP r f k ((fun i => c i + p i) + Pi.single k 1) v -
        faceFlux RS UP r f k (fun i => c i + p i) v)) := by
    intro k
    have n1 : ∀ i, -(P.w : ℤ) + 1 ≤ (p + Pi.single k (-1 : ℤ) : Fin d → ℤ) i ∧
        (p + Pi.single k (-1 : ℤ) : Fin d → ℤ) i < P.b i + P.w - 1 := by
      intro i
      have := hp i
      by_cases h : i = k
      · subst h
        simp only [Pi.add_apply, Pi.single_eq_same]
        omega
      · simp only [Pi.add_apply, Pi.single_eq_of_ne h]
        omega
    have n2 : ∀ i, -(P.w : ℤ) + 1 ≤ (p + Pi.single k (1 : ℤ) : Fin d → ℤ) i ∧
        (p + Pi.single k (1 : ℤ) : Fin d → ℤ) i < P.b i + P.w - 1 := by
      intro i
      have := hp i
      by_cases h : i = k
      · subst h
        simp only [Pi.add_apply, Pi.single_eq_same]
        omega
      · simp only [Pi.add_apply, Pi.single_eq_of_ne h]
        omega
    have e1 : (fun i => c i + (p + Pi.single k (-1 : ℤ) : Fin d → ℤ) i) =
        (fun i => c i + p i) - Pi.single k 1 := by
      funext i
      by_cases h : i = k
      · subst h
        simp only [Pi.add_apply, Pi.sub_apply, Pi.single_eq_same]
        ring
      · simp only [Pi.add_apply, Pi.sub_apply, Pi.single_eq_of_ne h]
        ring
    have e2 : (fun i => c i + (p + Pi.single k (1 : ℤ) : Fin d → ℤ) i) =
        (fun i => c i + p i) + Pi.single k 1 := by
      funext i
      simp only [Pi.add_apply]
      ring
    have e3 : (fun i => c i + p i) + Pi.single k (1 : ℤ) - Pi.single k (1 : ℤ) = fun i => c i + p i := by
      funext i
      simp only [Pi.add_apply, Pi.sub_apply]
      ring
    have w0 : ∀ q : Fin d → ℤ, (∀ i, -(P.w : ℤ) + 1 ≤ q i ∧ q i < P.b i + P.w - 1) →
        ∀ i, -(P.w : ℤ) ≤ q i ∧ q i < P.b i + P.w := fun q h i => by
      have := h i
      omega
    have l : processAxis RS P UP dt r B p k true v =
        r k * faceFlux RS UP r f k (fun i => c i + p i) v := by
      unfold processAxis faceFlux faceState
      simp only [if_true, predict_none hg]
      rw [getPrim_eq hB (w0 _ n1), getPrim_eq hB (w0 _ hin)]
      simp only [slopes_eq hB _ n1, slopes_eq hB _ hin, e1, neg_single', neg_neg,
        Int.cast_one, sum_single_mul]
      ring
    have rr : processAxis RS P UP dt r B p k false v =
        -(r k * faceFlux RS UP r f k ((fun i => c i + p i) + Pi.single k 1) v) := by
      unfold processAxis faceFlux faceState
      simp only [Bool.false_eq_true, if_false, predict_none hg]
      rw [getPrim_eq hB (w0 _ n2), getPrim_eq hB (w0 _ hin)]
      simp only [slopes_eq hB _ n2, slopes_eq hB _ hin, e2, e3, neg_single', neg_neg,
        Int.cast_one, Int.cast_neg, sum_single_mul]
      ring
    rw [l, rr]
    ring
  unfold allFaces
  simp only [Pi.add_apply, Finset.sum_apply]
  rw [Finset.sum_congr rfl fun k _ => key k, Finset.sum_neg_distrib,
    hB p fun i => by have := hp i; omega]
  ring

/-! ### Sums over boxes -/

/-- Cells of a box. -/
def box (N : Fin d → ℕ) : Finset (Fin d → ℕ) := Fintype.piFinset fun k => Finset.range (N k)

theorem mem_box {N : Fin d → ℕ} {X : Fin d → ℕ} : X ∈ box N ↔ ∀ i, X i < N i := by
  simp [box]

/-- Values on lower faces and on upper faces have the same sum if the values at both ends agree. -/
theorem sum_box_shift {N : Fin d → ℕ} (k : Fin d) (Φ : (Fin d → ℤ) → ℝ)
    (h : ∀ X ∈ box N, X k + 1 = N k → Φ ((fun i => (X i : ℤ)) + Pi.single k 1) =
      Φ (fun i => ((Function.update X k 0) i : ℤ))) :
    ∑ X ∈ box N, Φ ((fun i => (X i : ℤ)) + Pi.single k 1) = ∑ X ∈ box N, Φ (fun i => (X i : ℤ)) := by
  refine Finset.sum_bij' (fun X _ => Function.update X k ((X k + 1) % N k))
    (fun X _ => Function.update X k ((X k + (N k - 1)) % N k)) ?_ ?_ ?_ ?_ ?_
  · intro X hX
    rw [mem_box] at hX ⊢
    intro i
    by_cases hi : i = k
    · subst hi
      simp only [Function.update_self]
      exact Nat.mod_lt _ (by have := hX i; omega)
    · simp only [Function.update_of_ne hi]
      exact hX i
  · intro X hX
    rw [mem_box] at hX ⊢
    intro i
    by_cases hi : i = k
    · subst hi
      simp only [Function.update_self]
      exact Nat.mod_lt _ (by have := hX i; omega)
    · simp only [Function.update_of_ne hi]
      exact hX i
  · intro X hX
    rw [mem_box] at hX
    have hk := hX k
    simp only [Function.update_self, Function.update_idem]
    convert Function.update_eq_self k X using 2
    by_cases h1 : X k + 1 = N k
    · rw [h1, Nat.mod_self, Nat.zero_add, Nat.mod_eq_of_lt (by omega)]
      omega
    · rw [Nat.mod_eq_of_lt (a := X k + 1) (by omega),
        show X k + 1 + (N k - 1) = X k + N k by omega, Nat.add_mod_right, Nat.mod_eq_of_lt hk]
  · intro X hX
    rw [mem_box] at hX
    have hk := hX k
    simp only [Function.update_self, Function.update_idem]
    convert Function.update_eq_self k X using 2
    by_cases h1 : X k = 0
    · rw [h1, Nat.zero_add, Nat.mod_eq_of_lt (a := N k - 1) (by omega), show N k - 1 + 1 = N k by omega,
        Nat.mod_self]
    · rw [show X k + (N k - 1) = X k - 1 + N k by omega, Nat.add_mod_right,
        Nat.mod_eq_of_lt (a := X k - 1) (by omega), show X k - 1 + 1 = X k by omega,
        Nat.mod_eq_of_lt hk]
  · intro X hX
    have hX' := hX
    rw [mem_box] at hX'
    have hk := hX' k
    by_cases h1 : X k + 1 = N k
    · rw [h X hX h1, h1, Nat.mod_self]
    · rw [Nat.mod_eq_of_lt (by omega)]
      congr 1
      funext i
      by_cases hi : i = k
      · subst hi
        simp
      · simp [Function.update_of_ne hi, Pi.single_eq_of_ne hi]

/-! ### Meshes with octants of one level -/

/-- Every position of the level is that of a leaf. -/
theorem mem_of_uniform {G : Grid d} {M : Finset (Oct d)} (hM : Tiling G M) {l : ℕ}
    (hl : ∀ o ∈ M, o.level = l) {a : Fin d → ℕ} (ha : ∀ i, a i < G.count i l) : (⟨l, a⟩ : Oct d) ∈ M := by
  obtain ⟨o, ⟨ho, hc⟩, -⟩ := hM.cover (fun i => (a i : ℚ) / G.count i l) (fun i => by
    have h0 : (0 : ℚ) < G.count i l := by
      have := ha i
      exact_mod_cast (by omega : 0 < G.count i l)
    constructor
    · positivity
    · rw [div_lt_one h0]
      exact_mod_cast ha i)
  have e : o = ⟨l, a⟩ := by
    obtain ⟨m, b⟩ := o
    have : m = l := hl _ ho
    subst this
    congr 1
    funext i
    have h0 : (0 : ℚ) < G.count i m := by
      have := ha i
      exact_mod_cast (by omega : 0 < G.count i m)
    obtain ⟨h1, h2⟩ := hc i
    simp only [lo, hi] at h1 h2
    rw [div_le_div_iff_of_pos_right h0] at h1
    rw [div_lt_div_iff_of_pos_right h0] at h2
    have h1' : b i ≤ a i := by exact_mod_cast h1
    have h2' : a i < b i + 1 := by exact_mod_cast h2
    omega
  rw [← e]
  exact ho

theorem cellGrid_count {G : Grid d} {b : Fin d → ℕ} (i : Fin d) (l : ℕ) :
    (cellGrid G b).count i l = G.count i l * b i := by
  simp only [Grid.count, cellGrid]
  ring

/-- Sums over the cells of a mesh with octants of one level are sums over a box. -/
theorem sum_cells {G : Grid d} {M : Finset (Oct d)} (hM : Tiling G M) {l : ℕ}
    (hl : ∀ o ∈ M, o.level = l) {b : Fin d → ℕ} (hb : ∀ i, 0 < b i) (g : (Fin d → ℕ) → ℝ) :
    ∑ o ∈ M, ∑ x ∈ box b, g (fun i => o.pos i * b i + x i) =
      ∑ X ∈ box (fun i => (cellGrid G b).count i l), g X := by
  rw [← Finset.sum_product']
  refine Finset.sum_bij' (fun q _ => fun i => q.1.pos i * b i + q.2 i)
    (fun X _ => (⟨l, fun i => X i / b i⟩, fun i => X i % b i)) ?_ ?_ ?_ ?_ ?_
  · rintro ⟨o, x⟩ h
    rw [Finset.mem_product, mem_box] at h
    obtain ⟨h1, h2⟩ := h
    rw [mem_box]
    intro i
    rw [cellGrid_count]
    have h3 := (hM.valid o h1).2 i
    rw [hl o h1] at h3
    have h4 := h2 i
    simp only at h4 ⊢
    calc o.pos i * b i + x i < o.pos i * b i + b i := by omega
      _ = (o.pos i + 1) * b i := by ring
      _ ≤ G.count i l * b i := Nat.mul_le_mul_right _ h3
  · intro X hX
    rw [mem_box] at hX
    rw [Finset.mem_product, mem_box]
    refine ⟨mem_of_uniform hM hl fun i => ?_, fun i => Nat.mod_lt _ (hb i)⟩
    have := hX i
    rw [cellGrid_count] at this
    exact Nat.div_lt_of_lt_mul (by rw [Nat.mul_comm]; exact this)
  · rintro ⟨o, x⟩ h
    rw [Finset.mem_product, mem_box] at h
    obtain ⟨h1, h2⟩ := h
    obtain ⟨m, a⟩ := o
    have hm : m = l := hl _ h1
    subst hm
    simp only [Prod.mk.injEq, Oct.mk.injEq, true_and]
    constructor
    · funext i
      rw [Nat.mul_comm, Nat.mul_add_div (hb i), Nat.div_eq_of_lt (h2 i), Nat.add_zero]
    · funext i
      rw [Nat.mul_comm, Nat.mul_add_mod, Nat.mod_eq_of_lt (h2 i)]
  · intro X hX
    funext i
    simp only
    rw [Nat.mul_comm]
    exact Nat.div_add_mod _ _
  · intro q _
    rfl

end

end Verif.Legacy
