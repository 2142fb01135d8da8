import Verif.Gravity.Force
import Verif.Gravity.Example

/-!
# C88: theorems on the force of `GravitySolver_cg`
-/

namespace Verif.Gravity

open Verif.Octree Verif.Cells Verif.Flux Verif.Hydro

variable {d : ℕ} {F : Type} [Field F] [LinearOrder F] [IsStrictOrderedRing F]
variable {G : Grid d} {M : Finset (Oct d)} {b : Fin d → ℕ}

/-! ### Specification -/

/-- Total force on a gas of density `rho` with acceleration `g`. -/
def netForce (D : Domain d) (G : Grid d) (M : Finset (Oct d)) (b : Fin d → ℕ) (rho g : Fld d F) : F :=
  cellSum b M fun o x => rho o x * (volume D (cellGrid G b) (cellOct b o x) : F) * g o x

/-- Middle of a box. -/
def middle (D : Domain d) (G : Grid d) (c : Oct d) (k : Fin d) : ℚ :=
  D.xmin k + (lo G c k + hi G c k) / 2 * (D.xmax k - D.xmin k)

/-! ### Net force -/

/-- **C88.** The acceleration is defined in all cells, and a gas of uniform density in a periodic domain feels no net force, on
any mesh and for any potential. -/
theorem C88_uniform_gas (hG : G.Pos) (hM : Tiling G M) (hB : Balanced G M) {D : Domain d} (hD : Domain.Ok D)
    (hb : ∀ k, 0 < b k) (hper : ∀ k, G.periodic k = true) (absorbing : Fin d → Bool) (phi : Fld d F) (j : Fin d) (rho : F) :
    ∃ g : Fld d F, (∀ o ∈ M, ∀ x : Fin d → ℕ, (∀ k, x k < b k) → gradient absorbing phi D G M b o x j = some (g o x)) ∧
      netForce D G M b (fun _ _ => rho) g = 0 := by
  refine ⟨accel absorbing D G M b phi j, fun o ho x hx => gradient_eq hG hM hB hD absorbing phi ho hx j, ?_⟩
  unfold netForce
  simp only [mul_assoc]
  rw [cellSum_mul, sum_accel hG hM hB hD hb hper, mul_zero]

/-- The net force is what is left of the equation. -/
theorem netForce_residual (hG : G.Pos) (hM : Tiling G M) (hB : Balanced G M) {D : Domain d} (hD : Domain.Ok D)
    (hb : ∀ k, 0 < b k) (hper : ∀ k, G.periodic k = true) {l : ℕ} (hl : ∀ o ∈ M, o.level = l) (absorbing : Fin d → Bool)
    (fourPiG mean : F) (rho phi : Fld d F) (j : Fin d) :
    fourPiG * netForce D G M b rho (accel absorbing D G M b phi j) =
      -cellSum b M fun o x => (rhs D G b fourPiG mean rho o x - op absorbing D G M b phi o x) * accel absorbing D G M b phi j o x := by
  have h1 := dot_op_accel hG hM hB (D := D) hb hper hl absorbing phi j
  have h2 := sum_accel hG hM hB hD hb hper absorbing phi j
  have e : (cellSum b M fun o x => (rhs D G b fourPiG mean rho o x - op absorbing D G M b phi o x) *
      accel absorbing D G M b phi j o x) =
      fourPiG * mean * (cellSum b M fun o x => (volume D (cellGrid G b) (cellOct b o x) : F) * accel absorbing D G M b phi j o x) -
      fourPiG * netForce D G M b rho (accel absorbing D G M b phi j) -
      cellSum b M fun o x => op absorbing D G M b phi o x * accel absorbing D G M b phi j o x := by
    unfold netForce
    rw [← cellSum_mul, ← cellSum_mul, ← cellSum_sub, ← cellSum_sub]
    refine cellSum_congr fun o _ x _ => ?_
    unfold rhs
    rw [cellVolume_eq hG hb]
    ring
  rw [e, h1, h2]
  ring

/-- **C88** (third law). On a uniform mesh of a periodic domain the gas exerts no net force on itself, if its potential solves
the equation of the solver. -/
theorem C88_third_law (hG : G.Pos) (hM : Tiling G M) (hB : Balanced G M) {D : Domain d} (hD : Domain.Ok D)
    (hb : ∀ k, 0 < b k) (hper : ∀ k, G.periodic k = true) {l : ℕ} (hl : ∀ o ∈ M, o.level = l) (absorbing : Fin d → Bool)
    {fourPiG : F} (h4 : fourPiG ≠ 0) (rho phi : Fld d F)
    (hphi : ∀ o ∈ M, ∀ x : Fin d → ℕ, (∀ k, x k < b k) →
      matprod absorbing phi D G M b o x = some (rhs D G b fourPiG (rhoMean D G M b rho) rho o x)) (j : Fin d) :
    ∃ g : Fld d F, (∀ o ∈ M, ∀ x : Fin d → ℕ, (∀ k, x k < b k) → gradient absorbing phi D G M b o x j = some (g o x)) ∧
      netForce D G M b rho g = 0 := by
  refine ⟨accel absorbing D G M b phi j, fun o ho x hx => gradient_eq hG hM hB hD absorbing phi ho hx j, ?_⟩
  have h := netForce_residual hG hM hB hD hb hper hl absorbing fourPiG (rhoMean D G M b rho) rho phi j
  have e : (cellSum b M fun o x => (rhs D G b fourPiG (rhoMean D G M b rho) rho o x - op absorbing D G M b phi o x) *
      accel absorbing D G M b phi j o x) = 0 := by
    refine Finset.sum_eq_zero fun o ho => Finset.sum_eq_zero fun x hx => ?_
    have hx' : ∀ k, x k < b k := fun k => Finset.mem_range.1 (Fintype.mem_piFinset.1 hx k)
    have := hphi o ho x hx'
    rw [matprod_eq hG hM hB hD absorbing phi ho hx'] at this
    simp only
    rw [Option.some.inj this, sub_self, zero_mul]
  rw [e, neg_zero] at h
  exact (mul_eq_zero.1 h).resolve_left h4

/-- **C88** (third law for the solver). The potential the solver ends with gives a net force that is at most the requested accuracy
times the norms of the right-hand side and of the acceleration. -/
theorem C88_solver_net_force (hG : G.Pos) (hM : Tiling G M) (hB : Balanced G M) {D : Domain d} (hD : Domain.Ok D)
    (hb : ∀ k, 0 < b k) (hper : ∀ k, G.periodic k = true) {l : ℕ} (hl : ∀ o ∈ M, o.level = l) (absorbing : Fin d → Bool)
    (fourPiG : F) (rho phi0 : Fld d F) (eps : F) (n : ℕ) {phi : Fld d F}
    (h : solve absorbing D G M b eps n (rhs D G b fourPiG (rhoMean D G M b rho) rho) phi0 = some phi) (j : Fin d) :
    ∃ g : Fld d F, (∀ o ∈ M, ∀ x : Fin d → ℕ, (∀ k, x k < b k) → gradient absorbing phi D G M b o x j = some (g o x)) ∧
      (fourPiG * netForce D G M b rho g) ^ 2 ≤
        eps ^ 2 * cellSum b M (fun o x => rhs D G b fourPiG (rhoMean D G M b rho) rho o x ^ 2) * cellSum b M (fun o x => g o x ^ 2) := by
  refine ⟨accel absorbing D G M b phi j, fun o ho x hx => gradient_eq hG hM hB hD absorbing phi ho hx j, ?_⟩
  obtain ⟨A, h1, h2⟩ := C49_accuracy hG hM hB hD absorbing _ phi0 eps n h
  rw [netForce_residual hG hM hB hD hb hper hl absorbing fourPiG (rhoMean D G M b rho) rho phi j, neg_sq]
  set g := accel absorbing D G M b phi j
  set f := rhs D G b fourPiG (rhoMean D G M b rho) rho
  have e : (cellSum b M fun o x => (f o x - op absorbing D G M b phi o x) * g o x) =
      cellSum b M fun o x => (f o x - A o x) * g o x := cellSum_congr fun o ho x hx => by
    have := h1 o ho x hx
    rw [matprod_eq hG hM hB hD absorbing phi ho hx] at this
    rw [Option.some.inj this]
  rw [e]
  have hcs : (cellSum b M fun o x => (f o x - A o x) * g o x) ^ 2 ≤
      cellSum b M (fun o x => (f o x - A o x) ^ 2) * cellSum b M fun o x => g o x ^ 2 := by
    rw [cellSum_eq, cellSum_eq, cellSum_eq]
    exact Finset.sum_mul_sq_le_sq_mul_sq _ _ _
  refine hcs.trans (mul_le_mul_of_nonneg_right h2 ?_)
  exact Finset.sum_nonneg fun o _ => Finset.sum_nonneg fun x _ => sq_nonneg _

/-! ### Linear potentials -/

theorem middle_eq (D : Domain d) (c : Oct d) (k : Fin d) :
    middle D G c k = D.xmin k + ((c.pos k : ℚ) + 1 / 2) * cellSize D G c k := by
  unfold middle cellSize hi lo
  ring

/-- The middles of adjacent cells are `centerDist` apart. -/
theorem middle_dist {C : Finset (Oct d)} (hG : G.Pos) (hC : Tiling G C) (hopen : ∀ k, G.periodic k = false) (D : Domain d)
    {c q : Oct d} (hc : c ∈ C) {j : Fin d} {s : ℤ} (hs : s = 1 ∨ s = -1) (hq : q ∈ nbrs G C c j s) :
    middle D G c j - middle D G q j = -s * centerDist D G j c q := by
  have hqC := (mem_nbrs.1 hq).1
  unfold middle centerDist cellSize
  rcases hs with rfl | rfl
  · rw [nbrs_touch hG hC hopen hc hq]
    push_cast
    ring
  · rw [nbrs_symm hG hC (Or.inr rfl) hc hqC, neg_neg] at hq
    rw [nbrs_touch hG hC hopen hqC hq]
    push_cast
    ring

/-- The places of the smaller neighbours average to the middle of the cell. -/
theorem sum_places (j k : Fin d) {s : ℤ} (hk : k ≠ j) :
    ((loops fun i => if faceOff j s i = 0 then [(0 : ℤ), 1] else [0]).map fun δ => ((δ k : ℚ) - 1 / 2)).sum = 0 := by
  have hnd : (loops fun i => if faceOff j s i = 0 then [(0 : ℤ), 1] else [0]).Nodup :=
    nodup_loops _ fun i => by split <;> decide
  rw [← List.sum_toFinset _ hnd]
  have hmem : ∀ δ : Fin d → ℤ, δ ∈ (loops fun i => if faceOff j s i = 0 then [(0 : ℤ), 1] else [0]).toFinset ↔
      ∀ i, δ i ∈ (if faceOff j s i = 0 then [(0 : ℤ), 1] else [0]) := fun δ => by
    rw [List.mem_toFinset, mem_loops]
  have h01 : ∀ δ ∈ (loops fun i => if faceOff j s i = 0 then [(0 : ℤ), 1] else [0]).toFinset, δ k = 0 ∨ δ k = 1 := by
    intro δ hδ
    have := (hmem δ).1 hδ k
    rw [if_pos (faceOff_ne s hk)] at this
    simpa using this
  refine Finset.sum_involution (fun δ _ => Function.update δ k (1 - δ k)) (fun δ hδ => ?_) (fun δ hδ _ h => ?_)
    (fun δ hδ => ?_) fun δ hδ => ?_
  · rw [Function.update_self]
    push_cast
    ring
  · have := congrFun h k
    rw [Function.update_self] at this
    omega
  · rw [hmem]
    intro i
    by_cases hi : i = k
    · subst hi
      rw [Function.update_self, if_pos (faceOff_ne s hk)]
      rcases h01 δ hδ with h | h <;> rw [h] <;> decide
    · rw [Function.update_of_ne hi]
      exact (hmem δ).1 hδ i
  · funext i
    by_cases hi : i = k
    · subst hi
      rw [Function.update_self, Function.update_self]
      ring
    · rw [Function.update_of_ne hi, Function.update_of_ne hi]

/-- Next to cells that are not larger, the tangential distances cancel. -/
theorem sum_tangential (hG : G.Pos) (hM : Tiling G M) (hB : Balanced G M) (D : Domain d) {o : Oct d}
    (ho : o ∈ M) {x : Fin d → ℕ} (hx : ∀ k, x k < b k) (j : Fin d) {s : ℤ} (hs : s = 1 ∨ s = -1)
    (hin : ¬ OnBoundary G b o x j s)
    (hle : ∀ q ∈ nbrs (cellGrid G b) (cellMesh b M) (cellOct b o x) j s, o.level ≤ q.level) {k : Fin d} (hk : k ≠ j) :
    ∑ q ∈ nbrs (cellGrid G b) (cellMesh b M) (cellOct b o x) j s, weight D (cellGrid G b) j (cellOct b o x) q *
      (middle D (cellGrid G b) (cellOct b o x) k - middle D (cellGrid G b) q k) = 0 := by
  have hov := hM.valid _ ho
  obtain ⟨r, -, h2, h3, -, hside⟩ := side hG hM hB ⟨o, x, b, .localToBlock⟩ ho hx rfl j hs (not_not.1 hin)
  cases hside with
  | same st hl hn hp =>
    simp only at hl hn hp
    rw [hn, Finset.sum_singleton, middle_eq, middle_eq, cellSize_eq, cellSize_eq, hp k hk,
      show (cellOct b r.oct r.idx).level = (cellOct b o x).level from hl]
    ring
  | bigger st hl hn hp =>
    simp only at hl hn
    have := hle (cellOct b r.oct r.idx) (by rw [hn]; exact Finset.mem_singleton_self _)
    have e : (cellOct b r.oct r.idx).level = r.oct.level := rfl
    omega
  | smaller st hl f hf hnd hn =>
    simp only at hl hf hnd hn
    have : nbrs (cellGrid G b) (cellMesh b M) (cellOct b o x) j s =
        ((loops (fun k => if faceOff j s k = 0 then [(0 : ℤ), 1] else [0])).map
          fun δ => cellOct b (f δ).oct (f δ).idx).toFinset := by
      ext q
      rw [hn q, List.mem_toFinset]
    rw [this, List.sum_toFinset _ hnd, List.map_map]
    have hw : ∀ δ ∈ loops (fun k => if faceOff j s k = 0 then [(0 : ℤ), 1] else [0]),
        ((fun q => weight D (cellGrid G b) j (cellOct b o x) q *
          (middle D (cellGrid G b) (cellOct b o x) k - middle D (cellGrid G b) q k)) ∘
            fun δ => cellOct b (f δ).oct (f δ).idx) δ =
          -(weight D (cellGrid G b) j (cellOct b o x) ⟨o.level + 1, fun _ => 0⟩ *
            (cellSize D (cellGrid G b) (cellOct b o x) k / 2)) * ((δ k : ℚ) - 1 / 2) := by
      intro δ hδ
      obtain ⟨-, -, -, -, a5, a6⟩ := hf δ hδ
      have hlev : (cellOct b (f δ).oct (f δ).idx).level = o.level + 1 := a5
      have e1 : weight D (cellGrid G b) j (cellOct b o x) (cellOct b (f δ).oct (f δ).idx) =
          weight D (cellGrid G b) j (cellOct b o x) ⟨o.level + 1, fun _ => 0⟩ := by
        unfold weight centerDist area
        simp only [cellSize_eq, hlev]
      have e2 : ((cellOct b (f δ).oct (f δ).idx).pos k : ℚ) = 2 * ((cellOct b o x).pos k : ℚ) + (δ k : ℚ) := by
        have := a6 k hk
        exact_mod_cast this
      simp only [Function.comp]
      rw [e1, middle_eq, middle_eq, e2, cellSize_succ D (G := cellGrid G b) (c := cellOct b o x)
        (q := cellOct b (f δ).oct (f δ).idx) hov.1 a5 k]
      ring
    rw [List.map_congr_left hw, List.sum_map_mul_left, sum_places j k hk, mul_zero]

/-- A linear potential. -/
def linear (D : Domain d) (G : Grid d) (b : Fin d → ℕ) (a : Fin d → F) : Fld d F := fun o x =>
  ∑ k, a k * (middle D (cellGrid G b) (cellOct b o x) k : F)

theorem side_linear (hG : G.Pos) (hM : Tiling G M) (hB : Balanced G M) {D : Domain d} (hD : Domain.Ok D)
    (hopen : ∀ k, G.periodic k = false) (absorbing : Fin d → Bool) (a : Fin d → F) {o : Oct d}
    (ho : o ∈ M) {x : Fin d → ℕ} (hx : ∀ k, x k < b k) (j : Fin d) {s : ℤ} (hs : s = 1 ∨ s = -1)
    (hin : ¬ OnBoundary G b o x j s)
    (htan : ∀ k, k ≠ j → a k = 0 ∨ ∀ q ∈ nbrs (cellGrid G b) (cellMesh b M) (cellOct b o x) j s, o.level ≤ q.level) :
    sideOp absorbing D G M b (linear D G b a) j s o x = -(s : F) * a j * (faceArea D (cellGrid G b) j (cellOct b o x) : F) := by
  have hb : ∀ k, 0 < b k := fun k => by have := hx k; omega
  have hG' := cellGrid_pos hG hb
  have hM' := cellMesh_tiling hG hb hM
  have hc : cellOct b o x ∈ cellMesh b M := mem_cellMesh.2 ⟨o, ho, x, hx, rfl⟩
  have hbox : ∀ q ∈ cellMesh b M, onBox b M (linear D G b a) q = ∑ k, a k * (middle D (cellGrid G b) q k : F) := by
    intro q hq
    obtain ⟨o', ho', x', hx', rfl⟩ := mem_cellMesh.1 hq
    rw [onBox_cell ho' hx']
    rfl
  unfold sideOp
  rw [if_neg fun h => hin h.2, add_zero]
  have e : ∀ q ∈ nbrs (cellGrid G b) (cellMesh b M) (cellOct b o x) j s,
      (weight D (cellGrid G b) j (cellOct b o x) q : F) * (linear D G b a o x - onBox b M (linear D G b a) q) =
      ∑ k, a k * ((weight D (cellGrid G b) j (cellOct b o x) q *
        (middle D (cellGrid G b) (cellOct b o x) k - middle D (cellGrid G b) q k) : ℚ) : F) := by
    intro q hq
    rw [hbox q (mem_nbrs.1 hq).1]
    unfold linear
    rw [← Finset.sum_sub_distrib, Finset.mul_sum]
    refine Finset.sum_congr rfl fun k _ => ?_
    push_cast
    ring
  rw [Finset.sum_congr rfl e, Finset.sum_comm, Finset.sum_eq_single j]
  · rw [← Finset.mul_sum]
    have : ∑ q ∈ nbrs (cellGrid G b) (cellMesh b M) (cellOct b o x) j s, weight D (cellGrid G b) j (cellOct b o x) q *
        (middle D (cellGrid G b) (cellOct b o x) j - middle D (cellGrid G b) q j) =
        -(s : ℚ) * faceArea D (cellGrid G b) j (cellOct b o x) := by
      rw [← sum_area hG hM hB hD ho hx j hs hin, Finset.mul_sum]
      refine Finset.sum_congr rfl fun q hq => ?_
      rw [middle_dist hG' hM' hopen D hc hs hq]
      have h1 := cellSize_pos hG' hD (cellOct b o x) j
      have h2 := cellSize_pos hG' hD q j
      unfold weight centerDist
      field_simp
    rw [← Rat.cast_sum, this]
    push_cast
    ring
  · intro k _ hk
    rw [← Finset.mul_sum]
    rcases htan k hk with h | h
    · rw [h, zero_mul]
    · rw [← Rat.cast_sum, sum_tangential hG hM hB D ho hx j hs hin h hk, Rat.cast_zero, mul_zero]
  · exact fun h => absurd (Finset.mem_univ j) h

/-- **C88** (linear potentials). In a cell that is not on the boundary in direction `j` the acceleration in this direction is
minus the slope of a linear potential, if the potential depends on this direction only or no neighbour in this direction is
larger. The second condition cannot be dropped (`C88_larger_neighbour_fails`). -/
theorem C88_linear_partial (hG : G.Pos) (hM : Tiling G M) (hB : Balanced G M) {D : Domain d} (hD : Domain.Ok D)
    (hopen : ∀ k, G.periodic k = false) (absorbing : Fin d → Bool) (a : Fin d → F) {o : Oct d}
    (ho : o ∈ M) {x : Fin d → ℕ} (hx : ∀ k, x k < b k) (j : Fin d)
    (hin : ∀ s : ℤ, s = 1 ∨ s = -1 → ¬ OnBoundary G b o x j s)
    (htan : (∀ k, k ≠ j → a k = 0) ∨ ∀ s : ℤ, s = 1 ∨ s = -1 →
      ∀ q ∈ nbrs (cellGrid G b) (cellMesh b M) (cellOct b o x) j s, o.level ≤ q.level) :
    gradient absorbing (linear D G b a) D G M b o x j = some (-a j) := by
  have hb : ∀ k, 0 < b k := fun k => by have := hx k; omega
  have hG' := cellGrid_pos hG hb
  have ht : ∀ s : ℤ, s = 1 ∨ s = -1 → ∀ k, k ≠ j → a k = 0 ∨
      ∀ q ∈ nbrs (cellGrid G b) (cellMesh b M) (cellOct b o x) j s, o.level ≤ q.level := fun s hs k hk =>
    htan.imp (fun h => h k hk) fun h => h s hs
  rw [gradient_eq hG hM hB hD absorbing _ ho hx j]
  unfold accel
  rw [side_linear hG hM hB hD hopen absorbing a ho hx j (Or.inl rfl) (hin 1 (Or.inl rfl)) (ht 1 (Or.inl rfl)),
    side_linear hG hM hB hD hopen absorbing a ho hx j (Or.inr rfl) (hin (-1) (Or.inr rfl)) (ht (-1) (Or.inr rfl))]
  congr 1
  have hv : ((volume D (cellGrid G b) (cellOct b o x) : ℚ) : F) ≠ 0 := by
    exact_mod_cast (volume_pos hG' hD (cellOct b o x)).ne'
  have hfa : (cellSize D (cellGrid G b) (cellOct b o x) j : F) * (faceArea D (cellGrid G b) j (cellOct b o x) : F) =
      (volume D (cellGrid G b) (cellOct b o x) : F) := by
    rw [← faceArea_mul D (cellOct b o x) j]
    push_cast
    ring
  rw [← hfa] at hv ⊢
  have h1 := left_ne_zero_of_mul hv
  have h2 := right_ne_zero_of_mul hv
  push_cast
  field_simp
  ring

/-- Where a cell lies in a larger one in direction `k`: on the lower or upper half. -/
def half (c : Oct d) (k : Fin d) : ℚ := if c.pos k % 2 = 0 then -1 else 1

/-- Next to a larger cell. -/
theorem side_larger (hG : G.Pos) (hM : Tiling G M) (hB : Balanced G M) {D : Domain d} (hD : Domain.Ok D)
    (hopen : ∀ k, G.periodic k = false) (absorbing : Fin d → Bool) (a : Fin d → F) {o : Oct d}
    (ho : o ∈ M) {x : Fin d → ℕ} (hx : ∀ k, x k < b k) (j : Fin d) {s : ℤ} (hs : s = 1 ∨ s = -1)
    (hin : ¬ OnBoundary G b o x j s)
    (hlt : ∃ q ∈ nbrs (cellGrid G b) (cellMesh b M) (cellOct b o x) j s, q.level < o.level) :
    sideOp absorbing D G M b (linear D G b a) j s o x = (faceArea D (cellGrid G b) j (cellOct b o x) : F) *
      (-(s : F) * a j + (∑ k ∈ Finset.univ.erase j, a k *
        ((half (cellOct b o x) k * cellSize D (cellGrid G b) (cellOct b o x) k : ℚ) : F)) /
          (3 * (cellSize D (cellGrid G b) (cellOct b o x) j : F))) := by
  have hb : ∀ k, 0 < b k := fun k => by have := hx k; omega
  have hG' := cellGrid_pos hG hb
  have hM' := cellMesh_tiling hG hb hM
  have hc : cellOct b o x ∈ cellMesh b M := mem_cellMesh.2 ⟨o, ho, x, hx, rfl⟩
  obtain ⟨r, -, h2, h3, -, hside⟩ := side hG hM hB ⟨o, x, b, .localToBlock⟩ ho hx rfl j hs (not_not.1 hin)
  have hrv := hM.valid _ h2
  obtain ⟨q0, hq0, hq1⟩ := hlt
  unfold sideOp
  rw [if_neg fun h => hin h.2, add_zero]
  cases hside with
  | same st hl hn hp =>
    simp only at hl hn
    rw [hn, Finset.mem_singleton] at hq0
    rw [hq0] at hq1
    exact absurd hq1 (not_lt.2 hl.ge)
  | smaller st hl f hf hnd hn =>
    simp only at hl hf hn
    obtain ⟨δ, hδ, rfl⟩ := List.mem_map.1 ((hn q0).1 hq0)
    have := (hf δ hδ).2.2.2.2.1
    have e : (cellOct b (f δ).oct (f δ).idx).level = (f δ).oct.level := rfl
    omega
  | bigger st hl hn hp =>
    simp only at hl hn hp
    have hq : cellOct b r.oct r.idx ∈ nbrs (cellGrid G b) (cellMesh b M) (cellOct b o x) j s := by
      rw [hn]; exact Finset.mem_singleton_self _
    rw [hn, Finset.sum_singleton, onBox_cell h2 h3]
    set c := cellOct b o x with hcdef
    set q := cellOct b r.oct r.idx
    have e := fun k => cellSize_succ D (G := cellGrid G b) (c := q) (q := c) hrv.1 hl.symm k
    have hpos := cellSize_pos hG' hD c j
    have hdist := middle_dist hG' hM' hopen D hc hs hq
    have hcd : centerDist D (cellGrid G b) j c q = 3 / 2 * cellSize D (cellGrid G b) c j := by
      unfold centerDist
      rw [e j]
      ring
    have har : area D (cellGrid G b) j c q = faceArea D (cellGrid G b) j c := by
      have h4 := area_of_le hG' hD (c := c) (q := q) hrv.1 (Or.inr hl.symm) j
      rw [← faceArea_mul D c j] at h4
      exact mul_right_cancel₀ hpos.ne' h4
    have htan : ∀ k ∈ Finset.univ.erase j, a k * ((middle D (cellGrid G b) c k - middle D (cellGrid G b) q k : ℚ) : F) =
        a k * ((half c k * cellSize D (cellGrid G b) c k : ℚ) : F) / 2 := by
      intro k hk
      have h5 : middle D (cellGrid G b) c k - middle D (cellGrid G b) q k = half c k * cellSize D (cellGrid G b) c k / 2 := by
        have h6 : cellSize D (cellGrid G b) q k = 2 * cellSize D (cellGrid G b) c k := by rw [e k]; ring
        rw [middle_eq, middle_eq, hp k (Finset.ne_of_mem_erase hk), h6]
        unfold half
        have h7 := Nat.div_add_mod (c.pos k) 2
        have h8 : (c.pos k : ℚ) = 2 * ((c.pos k / 2 : ℕ) : ℚ) + ((c.pos k % 2 : ℕ) : ℚ) := by exact_mod_cast h7.symm
        split
        · rename_i h9
          rw [h9] at h8
          rw [h8]
          push_cast
          ring
        · rename_i h9
          have h10 : c.pos k % 2 = 1 := by omega
          rw [h10] at h8
          rw [h8]
          push_cast
          ring
      rw [h5]
      push_cast
      ring
    have hdiff : linear D G b a o x - linear D G b a r.oct r.idx =
        a j * ((-(s : ℚ) * centerDist D (cellGrid G b) j c q : ℚ) : F) +
          (∑ k ∈ Finset.univ.erase j, a k * ((half c k * cellSize D (cellGrid G b) c k : ℚ) : F)) / 2 := by
      unfold linear
      rw [← Finset.sum_sub_distrib, ← Finset.add_sum_erase Finset.univ _ (Finset.mem_univ j), Finset.sum_div,
        ← Finset.sum_congr rfl htan, ← hdist]
      congr 1
      · push_cast
        ring
      · refine Finset.sum_congr rfl fun k _ => ?_
        push_cast
        ring
    rw [hdiff]
    unfold weight
    rw [har, hcd]
    have hposF : (cellSize D (cellGrid G b) c j : F) ≠ 0 := by exact_mod_cast hpos.ne'
    push_cast
    field_simp

/-- **C88** (error next to a larger cell). If the neighbour on one side is larger, a linear potential gives an acceleration that is
wrong by a sixth of its slopes along the face (for cubic cells), at any resolution. -/
theorem C88_error_at_larger (hG : G.Pos) (hM : Tiling G M) (hB : Balanced G M) {D : Domain d} (hD : Domain.Ok D)
    (hopen : ∀ k, G.periodic k = false) (absorbing : Fin d → Bool) (a : Fin d → F) {o : Oct d}
    (ho : o ∈ M) {x : Fin d → ℕ} (hx : ∀ k, x k < b k) (j : Fin d) {s : ℤ} (hs : s = 1 ∨ s = -1)
    (hin : ∀ s : ℤ, s = 1 ∨ s = -1 → ¬ OnBoundary G b o x j s)
    (hlt : ∃ q ∈ nbrs (cellGrid G b) (cellMesh b M) (cellOct b o x) j s, q.level < o.level)
    (hle : ∀ q ∈ nbrs (cellGrid G b) (cellMesh b M) (cellOct b o x) j (-s), o.level ≤ q.level) :
    gradient absorbing (linear D G b a) D G M b o x j = some (-a j + (s : F) / 6 * ∑ k ∈ Finset.univ.erase j, a k *
      ((half (cellOct b o x) k * (cellSize D (cellGrid G b) (cellOct b o x) k / cellSize D (cellGrid G b) (cellOct b o x) j) : ℚ) : F)) := by
  have hb : ∀ k, 0 < b k := fun k => by have := hx k; omega
  have hG' := cellGrid_pos hG hb
  rw [gradient_eq hG hM hB hD absorbing _ ho hx j]
  have h1 := side_larger hG hM hB hD hopen absorbing a ho hx j hs (hin s hs) hlt
  have h2 := side_linear hG hM hB hD hopen absorbing a ho hx j (s := -s) (by omega) (hin (-s) (by omega)) fun k _ => Or.inr hle
  set c := cellOct b o x
  have hpos : (cellSize D (cellGrid G b) c j : F) ≠ 0 := by exact_mod_cast (cellSize_pos hG' hD c j).ne'
  have hv : ((volume D (cellGrid G b) c : ℚ) : F) ≠ 0 := by exact_mod_cast (volume_pos hG' hD c).ne'
  have hfa : (volume D (cellGrid G b) c : F) = (faceArea D (cellGrid G b) j c : F) * (cellSize D (cellGrid G b) c j : F) := by
    rw [← faceArea_mul D c j]
    push_cast
    rfl
  rw [hfa] at hv
  have hf := left_ne_zero_of_mul hv
  have hsum : ∑ k ∈ Finset.univ.erase j, a k *
      ((half c k * (cellSize D (cellGrid G b) c k / cellSize D (cellGrid G b) c j) : ℚ) : F) =
      (∑ k ∈ Finset.univ.erase j, a k * ((half c k * cellSize D (cellGrid G b) c k : ℚ) : F)) / (cellSize D (cellGrid G b) c j : F) := by
    rw [Finset.sum_div]
    refine Finset.sum_congr rfl fun k _ => ?_
    push_cast
    ring
  rw [hsum]
  congr 1
  unfold accel
  change (cellSize D (cellGrid G b) c j : F) / (2 * (volume D (cellGrid G b) c : F)) * _ = _
  rw [hfa]
  rcases hs with rfl | rfl
  · rw [h1, h2]
    push_cast
    field_simp
    ring
  · rw [neg_neg] at h2
    rw [h1, h2]
    push_cast
    field_simp
    ring

end Verif.Gravity
