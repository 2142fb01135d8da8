import Verif.Gravity.Converge
import Verif.Flux.Face

/-!
# C88: the force of `GravitySolver_cg` and the third law

Model of the last kernel of `update_gravity_field` (`core/src/gravity/GravitySolver_cg.cpp` L380-418), which computes the
acceleration from the potential. Arithmetic is exact.
-/

namespace Verif.Gravity

open Verif.Octree Verif.Cells Verif.Flux Verif.Hydro

variable {d : ℕ} {K : Type} [Field K]

/-! ### Model -/

/-- L386-413, `gradient(dir)`: the acceleration in direction `j`. The two corrections of the distance exclude each other,
so their order does not matter. -/
def gradient (absorbing : Fin d → Bool) (φ : Oct d → (Fin d → ℕ) → K) (D : Domain d) (G : Grid d)
    (M : Finset (Oct d)) (b : Fin d → ℕ) (o : Oct d) (x : Fin d → ℕ) (j : Fin d) : Option K :=
  (getNeighborGhost G M ⟨o, x, b, .localToBlock⟩ (faceOff j (-1))).bind fun rL =>
  (getNeighborGhost G M ⟨o, x, b, .localToBlock⟩ (faceOff j 1)).bind fun rR =>
  (getValue φ G M rL (faceOff j (-1))).bind fun vL => (getValue φ G M rR (faceOff j 1)).map fun vR =>
    let h : K := (getCellSize D G ⟨o, x, b, .localToBlock⟩ j : ℚ)
    let dL := (vL - φ o x) / stretch rL.levelDiff h
    let dR := (φ o x - vR) / stretch rR.levelDiff h
    let dL := if absorbing j && (rL.status = .boundary) then 0 else dL
    let dR := if absorbing j && (rR.status = .boundary) then 0 else dR
    (dL + dR) / 2

/-! ### The force through the sides of a cell -/

variable {G : Grid d} {M : Finset (Oct d)} {b : Fin d → ℕ}

/-- The acceleration in terms of what the sides of a cell contribute to the operator. -/
noncomputable def accel (absorbing : Fin d → Bool) (D : Domain d) (G : Grid d) (M : Finset (Oct d)) (b : Fin d → ℕ)
    (φ : Oct d → (Fin d → ℕ) → K) (j : Fin d) (o : Oct d) (x : Fin d → ℕ) : K :=
  (cellSize D (cellGrid G b) (cellOct b o x) j : K) / (2 * (volume D (cellGrid G b) (cellOct b o x) : K)) *
    (sideOp absorbing D G M b φ j 1 o x - sideOp absorbing D G M b φ j (-1) o x)

theorem gradient_eq [CharZero K] (hG : G.Pos) (hM : Tiling G M) (hB : Balanced G M) {D : Domain d} (hD : Domain.Ok D)
    (absorbing : Fin d → Bool) (φ : Oct d → (Fin d → ℕ) → K) {o : Oct d} (ho : o ∈ M) {x : Fin d → ℕ}
    (hx : ∀ k, x k < b k) (j : Fin d) :
    gradient absorbing φ D G M b o x j = some (accel absorbing D G M b φ j o x) := by
  have hb : ∀ k, 0 < b k := fun k => by have := hx k; omega
  have hG' := cellGrid_pos hG hb
  obtain ⟨rR, vR, hR1, hR2, hR3⟩ := side_all hG hM hB hD absorbing φ ho hx j (Or.inl rfl)
  obtain ⟨rL, vL, hL1, hL2, hL3⟩ := side_all hG hM hB hD absorbing φ ho hx j (s := -1) (Or.inr rfl)
  have hs : ((cellSize D (cellGrid G b) (cellOct b o x) j : ℚ) : K) ≠ 0 := by
    exact_mod_cast (cellSize_pos hG' hD (cellOct b o x) j).ne'
  have hv : ((volume D (cellGrid G b) (cellOct b o x) : ℚ) : K) ≠ 0 := by
    exact_mod_cast (volume_pos hG' hD (cellOct b o x)).ne'
  unfold gradient
  rw [hL1, hR1, Option.bind_some, Option.bind_some, hL2, hR2, Option.bind_some, Option.map_some,
    getCellSize_eq hG D ⟨o, x, b, .localToBlock⟩ hb j]
  simp only
  congr 1
  unfold accel
  rw [← hR3, ← hL3]
  generalize (cellSize D (cellGrid G b) (cellOct b o x) j : K) = h at hs ⊢
  generalize (volume D (cellGrid G b) (cellOct b o x) : K) = V at hv ⊢
  split <;> split <;> field_simp <;> ring

/-! ### A uniform gas is not accelerated -/

/-- The side of a cell in the domain, on boxes. -/
theorem sideOp_box (hper : ∀ k, G.periodic k = true) (absorbing : Fin d → Bool) (D : Domain d)
    (φ : Oct d → (Fin d → ℕ) → K) (j : Fin d) (s : ℤ) {o : Oct d} (ho : o ∈ M) {x : Fin d → ℕ} (hx : ∀ k, x k < b k) :
    sideOp absorbing D G M b φ j s o x = ∑ q ∈ nbrs (cellGrid G b) (cellMesh b M) (cellOct b o x) j s,
      (weight D (cellGrid G b) j (cellOct b o x) q : K) * (onBox b M φ (cellOct b o x) - onBox b M φ q) := by
  unfold sideOp
  rw [if_neg (fun h => h.2 (inDomain_periodic hper b _ _)), add_zero, onBox_cell ho hx]

theorem sum_accel [CharZero K] (hG : G.Pos) (hM : Tiling G M) (hB : Balanced G M) {D : Domain d} (hD : Domain.Ok D)
    (hb : ∀ k, 0 < b k) (hper : ∀ k, G.periodic k = true) (absorbing : Fin d → Bool) (φ : Oct d → (Fin d → ℕ) → K)
    (j : Fin d) :
    cellSum b M (fun o x => (volume D (cellGrid G b) (cellOct b o x) : K) * accel absorbing D G M b φ j o x) = 0 := by
  have hG' := cellGrid_pos hG hb
  have hM' := cellMesh_tiling hG hb hM
  set C := cellMesh b M
  set u := onBox b M φ
  set sz : Oct d → K := fun c => (cellSize D (cellGrid G b) c j : K)
  set w : Oct d → Oct d → K := fun c q => (weight D (cellGrid G b) j c q : K)
  set ar : Oct d → Oct d → K := fun c q => (area D (cellGrid G b) j c q : K)
  have hwa : ∀ c q, w c q * ((sz c + sz q) / 2) = ar c q := by
    intro c q
    have h1 := cellSize_pos hG' hD c j
    have h2 := cellSize_pos hG' hD q j
    have h3 : weight D (cellGrid G b) j c q * ((cellSize D (cellGrid G b) c j + cellSize D (cellGrid G b) q j) / 2) =
        area D (cellGrid G b) j c q := by
      unfold weight centerDist
      field_simp
    simp only [w, sz, ar]
    rw [← h3]
    push_cast
    ring
  have e : cellSum b M (fun o x => (volume D (cellGrid G b) (cellOct b o x) : K) * accel absorbing D G M b φ j o x) =
      ∑ c ∈ C, ∑ q ∈ nbrs (cellGrid G b) C c j 1, sz c / 2 * (w c q * (u c - u q)) -
        ∑ c ∈ C, ∑ q ∈ nbrs (cellGrid G b) C c j (-1), sz c / 2 * (w c q * (u c - u q)) := by
    rw [← Finset.sum_sub_distrib, ← cellSum_box b fun c => ∑ q ∈ nbrs (cellGrid G b) C c j 1, sz c / 2 * (w c q * (u c - u q)) -
      ∑ q ∈ nbrs (cellGrid G b) C c j (-1), sz c / 2 * (w c q * (u c - u q))]
    refine cellSum_congr fun o ho x hx => ?_
    unfold accel
    rw [sideOp_box hper absorbing D φ j 1 ho hx, sideOp_box hper absorbing D φ j (-1) ho hx, ← Finset.mul_sum,
      ← Finset.mul_sum]
    have hv : ((volume D (cellGrid G b) (cellOct b o x) : ℚ) : K) ≠ 0 := by
      exact_mod_cast (volume_pos hG' hD (cellOct b o x)).ne'
    generalize (volume D (cellGrid G b) (cellOct b o x) : K) = V at hv ⊢
    simp only [sz]
    field_simp
    rfl
  rw [e]
  have hw : ∀ c q, w c q = w q c := fun c q => by simp only [w]; rw [weight_symm]
  have har : ∀ c q, ar c q = ar q c := fun c q => by simp only [ar]; rw [area_symm]
  have e2 : ∑ c ∈ C, ∑ q ∈ nbrs (cellGrid G b) C c j (-1), sz c / 2 * (w c q * (u c - u q)) =
      ∑ c ∈ C, ∑ q ∈ nbrs (cellGrid G b) C c j 1, sz q / 2 * (w c q * (u q - u c)) := by
    rw [sum_faces hG' hM' j fun c q => sz q / 2 * (w c q * (u q - u c))]
    exact Finset.sum_congr rfl fun c _ => Finset.sum_congr rfl fun q _ => by rw [hw]
  have e3 : ∑ c ∈ C, ∑ q ∈ nbrs (cellGrid G b) C c j 1, ar c q * u q =
      ∑ c ∈ C, ∑ q ∈ nbrs (cellGrid G b) C c j (-1), ar c q * u c := by
    rw [sum_faces hG' hM' j fun c q => ar c q * u q]
    exact Finset.sum_congr rfl fun c _ => Finset.sum_congr rfl fun q _ => by rw [har]
  have e4 : ∑ c ∈ C, ∑ q ∈ nbrs (cellGrid G b) C c j 1, sz c / 2 * (w c q * (u c - u q)) -
      ∑ c ∈ C, ∑ q ∈ nbrs (cellGrid G b) C c j 1, sz q / 2 * (w c q * (u q - u c)) =
      ∑ c ∈ C, ∑ q ∈ nbrs (cellGrid G b) C c j 1, ar c q * u c - ∑ c ∈ C, ∑ q ∈ nbrs (cellGrid G b) C c j 1, ar c q * u q := by
    rw [← Finset.sum_sub_distrib, ← Finset.sum_sub_distrib]
    refine Finset.sum_congr rfl fun c _ => ?_
    rw [← Finset.sum_sub_distrib, ← Finset.sum_sub_distrib]
    refine Finset.sum_congr rfl fun q _ => ?_
    rw [← hwa c q]
    ring
  rw [e2, e4, e3, ← Finset.sum_sub_distrib]
  refine Finset.sum_eq_zero fun c hc => ?_
  obtain ⟨o, ho, x, hx, rfl⟩ := mem_cellMesh.1 hc
  have ha : ∀ s : ℤ, s = 1 ∨ s = -1 → ∑ q ∈ nbrs (cellGrid G b) C (cellOct b o x) j s, ar (cellOct b o x) q =
      (faceArea D (cellGrid G b) j (cellOct b o x) : K) := by
    intro s hs
    have := sum_area hG hM hB hD ho hx j hs fun h => h (inDomain_periodic hper b _ _)
    simp only [ar]
    rw [← this]
    push_cast
    rfl
  rw [← Finset.sum_mul, ← Finset.sum_mul, ha 1 (Or.inl rfl), ha (-1) (Or.inr rfl), sub_self]

/-! ### The third law on a uniform mesh -/

/-- The box next to `c` in direction `j`, around the periodic domain. -/
def shiftOct (G : Grid d) (j : Fin d) (s : ℤ) (c : Oct d) : Oct d :=
  ⟨c.level, fun k => (((c.pos k : ℤ) + faceOff j s k) % G.count k c.level).toNat⟩

theorem shift_pos (hG : G.Pos) (j : Fin d) (s : ℤ) (c : Oct d) (k : Fin d) :
    ((shiftOct G j s c).pos k : ℤ) = ((c.pos k : ℤ) + faceOff j s k) % G.count k c.level := by
  have h : 0 < (G.count k c.level : ℤ) := by exact_mod_cast count_pos hG k c.level
  exact Int.toNat_of_nonneg (Int.emod_nonneg _ h.ne')

theorem shift_inverse (hG : G.Pos) (j : Fin d) (s : ℤ) {c : Oct d} (hc : ∀ k, c.pos k < G.count k c.level) :
    shiftOct G j (-s) (shiftOct G j s c) = c := by
  obtain ⟨l, p⟩ := c
  have : ∀ k, (shiftOct G j (-s) (shiftOct G j s ⟨l, p⟩)).pos k = p k := fun k => by
    zify
    rw [shift_pos hG, shift_pos hG]
    have h1 : faceOff j (-s) k = -faceOff j s k := by unfold faceOff; split <;> simp
    rw [h1, show (shiftOct G j s ⟨l, p⟩).level = l from rfl]
    simp only
    rw [← sub_eq_add_neg, Int.emod_sub_emod, add_sub_cancel_right]
    exact Int.emod_eq_of_lt (by positivity) (by exact_mod_cast hc k)
  exact congrArg (Oct.mk l) (funext this)

theorem shift_comm (hG : G.Pos) (j k : Fin d) (s t : ℤ) (c : Oct d) :
    shiftOct G j s (shiftOct G k t c) = shiftOct G k t (shiftOct G j s c) := by
  obtain ⟨l, p⟩ := c
  have : ∀ i, (shiftOct G j s (shiftOct G k t ⟨l, p⟩)).pos i = (shiftOct G k t (shiftOct G j s ⟨l, p⟩)).pos i := fun i => by
    zify
    rw [shift_pos hG, shift_pos hG, shift_pos hG, shift_pos hG]
    rw [show (shiftOct G j s ⟨l, p⟩).level = l from rfl, show (shiftOct G k t ⟨l, p⟩).level = l from rfl]
    rw [Int.emod_add_emod, Int.emod_add_emod]
    congr 1
    ring
  exact congrArg (Oct.mk l) (funext this)

/-- On a uniform periodic mesh a cell has one neighbour on each side. -/
theorem nbrs_uniform (hG : G.Pos) (hM : Tiling G M) (hB : Balanced G M) (hper : ∀ k, G.periodic k = true) {l : ℕ}
    (hl : ∀ o ∈ M, o.level = l) {c : Oct d} (hc : c ∈ cellMesh b M) (j : Fin d) {s : ℤ} (hs : s = 1 ∨ s = -1) :
    nbrs (cellGrid G b) (cellMesh b M) c j s = {shiftOct (cellGrid G b) j s c} := by
  obtain ⟨o, ho, x, hx, rfl⟩ := mem_cellMesh.1 hc
  have hb : ∀ k, 0 < b k := fun k => by have := hx k; omega
  have hG' := cellGrid_pos hG hb
  have hin := inDomain_periodic hper b o.level (target b o x (faceOff j s))
  obtain ⟨r, P, h1, h2, h3, -, h5, h6⟩ := C25_neighbor_cell hG hM hB ⟨o, x, b, .localToBlock⟩ ho hx (faceOff j s)
    (fun k => by have := faceOff_abs (j := j) hs k; have := hb k; simp only; omega) hin
  obtain ⟨r', h1', -, -, -, hside⟩ := side hG hM hB ⟨o, x, b, .localToBlock⟩ ho hx rfl j hs hin
  rw [h1] at h1'
  cases h1'
  have hlr := (hl _ h2).trans (hl _ ho).symm
  have hP : cellOct b r.oct r.idx = ⟨o.level, P⟩ := by
    rcases h6 with h | h | h
    · exact h.2
    · have := h.2.1; simp only at this; omega
    · have := h.2.1; simp only at this; omega
  have hn : nbrs (cellGrid G b) (cellMesh b M) (cellOct b o x) j s = {cellOct b r.oct r.idx} := by
    cases hside with
    | same _ _ hn _ => exact hn
    | bigger _ hl' _ _ => simp only at hl'; omega
    | smaller _ hl' _ _ _ _ => simp only at hl'; omega
  rw [hn, hP]
  congr 1
  refine congrArg (Oct.mk o.level) (funext fun k => ?_)
  zify
  have h7 : ((shiftOct (cellGrid G b) j s (cellOct b o x)).pos k : ℤ) = _ := shift_pos hG' j s (cellOct b o x) k
  refine Eq.trans ?_ h7.symm
  obtain ⟨h8, t, -, h9⟩ := h5 k
  change (P k : ℤ) = (((cellOct b o x).pos k : ℤ) + faceOff j s k) % (cellGrid G b).count k o.level
  have h10 : ((cellOct b o x).pos k : ℤ) + faceOff j s k = target b o x (faceOff j s) k := rfl
  rw [h10, ← h9, Int.add_mul_emod_self_right]
  exact (Int.emod_eq_of_lt (by positivity) (by exact_mod_cast h8)).symm

/-- Sums over the cells of a uniform periodic mesh may be shifted. -/
theorem sum_shift (hG : G.Pos) (hM : Tiling G M) (hB : Balanced G M) (hb : ∀ k, 0 < b k) (hper : ∀ k, G.periodic k = true)
    {l : ℕ} (hl : ∀ o ∈ M, o.level = l) (j : Fin d) {s : ℤ} (hs : s = 1 ∨ s = -1) (f : Oct d → K) :
    ∑ c ∈ cellMesh b M, f (shiftOct (cellGrid G b) j s c) = ∑ c ∈ cellMesh b M, f c := by
  have hG' := cellGrid_pos hG hb
  have hM' := cellMesh_tiling hG hb hM
  have hmem : ∀ c ∈ cellMesh b M, ∀ s : ℤ, s = 1 ∨ s = -1 → shiftOct (cellGrid G b) j s c ∈ cellMesh b M :=
    fun c hc s hs => (mem_nbrs.1 (by rw [nbrs_uniform hG hM hB hper hl hc j hs]; exact Finset.mem_singleton_self _)).1
  refine Finset.sum_nbij' (shiftOct (cellGrid G b) j s) (shiftOct (cellGrid G b) j (-s)) (fun c hc => hmem c hc s hs)
    (fun c hc => hmem c hc (-s) (by omega)) (fun c hc => shift_inverse hG' j s (hM'.valid c hc).2) (fun c hc => ?_)
    fun _ _ => rfl
  have := shift_inverse hG' j (-s) (hM'.valid c hc).2
  rwa [neg_neg] at this

/-- The operator and the force of the same potential are orthogonal on a uniform periodic mesh. -/
theorem dot_op_accel [CharZero K] (hG : G.Pos) (hM : Tiling G M) (hB : Balanced G M) {D : Domain d} (hb : ∀ k, 0 < b k)
    (hper : ∀ k, G.periodic k = true) {l : ℕ} (hl : ∀ o ∈ M, o.level = l) (absorbing : Fin d → Bool)
    (φ : Oct d → (Fin d → ℕ) → K) (j : Fin d) :
    cellSum b M (fun o x => op absorbing D G M b φ o x * accel absorbing D G M b φ j o x) = 0 := by
  have hG' := cellGrid_pos hG hb
  have hM' := cellMesh_tiling hG hb hM
  set C := cellMesh b M with hC
  set u := onBox b M φ
  set T := shiftOct (cellGrid G b) with hT
  -- sizes do not depend on the cell
  have hw : ∀ k : Fin d, ∃ W : K, ∀ c ∈ C, ∀ q ∈ C, (weight D (cellGrid G b) k c q : K) = W := by
    have hlev : ∀ c ∈ C, c.level = l := fun c hc => by
      obtain ⟨o, ho, x, hx, rfl⟩ := mem_cellMesh.1 hc
      exact hl o ho
    intro k
    refine ⟨(weight D (cellGrid G b) k ⟨l, fun _ => 0⟩ ⟨l, fun _ => 0⟩ : K), fun c hc q hq => ?_⟩
    unfold weight centerDist area
    simp only [cellSize_eq, hlev c hc, hlev q hq]
  have hA : ∃ a : K, ∀ c ∈ C, (cellSize D (cellGrid G b) c j : K) / (2 * (volume D (cellGrid G b) c : K)) = a := by
    refine ⟨(cellSize D (cellGrid G b) ⟨l, fun _ => 0⟩ j : K) / (2 * (volume D (cellGrid G b) ⟨l, fun _ => 0⟩ : K)), fun c hc => ?_⟩
    obtain ⟨o, ho, x, hx, rfl⟩ := mem_cellMesh.1 hc
    have hlo : (cellOct b o x).level = l := hl o ho
    unfold volume
    simp only [cellSize_eq, hlo]
  choose W hW using hw
  obtain ⟨a, ha⟩ := hA
  have hmem : ∀ c ∈ C, ∀ k, ∀ s : ℤ, s = 1 ∨ s = -1 → T k s c ∈ C := fun c hc k s hs =>
    (mem_nbrs.1 (by rw [nbrs_uniform hG hM hB hper hl hc k hs]; exact Finset.mem_singleton_self _)).1
  have hside : ∀ (k : Fin d) (s : ℤ), s = 1 ∨ s = -1 → ∀ o ∈ M, ∀ x : Fin d → ℕ, (∀ i, x i < b i) →
      sideOp absorbing D G M b φ k s o x = W k * (u (cellOct b o x) - u (T k s (cellOct b o x))) := by
    intro k s hs o ho x hx
    have hc : cellOct b o x ∈ C := mem_cellMesh.2 ⟨o, ho, x, hx, rfl⟩
    rw [sideOp_box hper absorbing D φ k s ho hx, nbrs_uniform hG hM hB hper hl hc k hs, Finset.sum_singleton,
      hW k _ hc _ (hmem _ hc k s hs)]
  have e : cellSum b M (fun o x => op absorbing D G M b φ o x * accel absorbing D G M b φ j o x) =
      ∑ c ∈ C, (∑ k, W k * (2 * u c - u (T k 1 c) - u (T k (-1) c))) * (a * (W j * (u (T j (-1) c) - u (T j 1 c)))) := by
    rw [← cellSum_box b fun c => (∑ k, W k * (2 * u c - u (T k 1 c) - u (T k (-1) c))) *
      (a * (W j * (u (T j (-1) c) - u (T j 1 c))))]
    refine cellSum_congr fun o ho x hx => ?_
    have hc : cellOct b o x ∈ C := mem_cellMesh.2 ⟨o, ho, x, hx, rfl⟩
    unfold op accel
    rw [ha _ hc, hside j 1 (Or.inl rfl) o ho x hx, hside j (-1) (Or.inr rfl) o ho x hx]
    congr 1
    · refine Finset.sum_congr rfl fun k _ => ?_
      rw [hside k 1 (Or.inl rfl) o ho x hx, hside k (-1) (Or.inr rfl) o ho x hx]
      ring
    · ring
  rw [e]
  -- one direction of the operator
  have key : ∀ k, ∑ c ∈ C, (2 * u c - u (T k 1 c) - u (T k (-1) c)) * (u (T j (-1) c) - u (T j 1 c)) = 0 := by
    intro k
    have inv : ∀ c ∈ C, ∀ (i : Fin d) (s : ℤ), T i (-s) (T i s c) = c := fun c hc i s =>
      shift_inverse hG' i s (hM'.valid c hc).2
    have inv' : ∀ c ∈ C, ∀ i : Fin d, T i 1 (T i (-1) c) = c := fun c hc i => by
      have := inv c hc i (-1); rwa [neg_neg] at this
    have sh := fun (i : Fin d) (s : ℤ) (hs : s = 1 ∨ s = -1) (f : Oct d → K) => sum_shift hG hM hB hb hper hl i hs f
    have q1 : ∑ c ∈ C, u c * u (T j (-1) c) = ∑ c ∈ C, u c * u (T j 1 c) := by
      rw [← sh j 1 (Or.inl rfl) fun c => u c * u (T j (-1) c)]
      refine Finset.sum_congr rfl fun c hc => ?_
      rw [show T j (-1) (shiftOct (cellGrid G b) j 1 c) = c from inv c hc j 1, mul_comm]
    have q2 : ∀ s : ℤ, s = 1 ∨ s = -1 → ∑ c ∈ C, u (T k s c) * u (T j (-1) c) = ∑ c ∈ C, u (T k (-s) c) * u (T j 1 c) := by
      intro s hs
      rw [← sh j 1 (Or.inl rfl) fun c => u (T k s c) * u (T j (-1) c)]
      rw [← sh k (-s) (by omega) fun c => u (T k s (shiftOct (cellGrid G b) j 1 c)) * u (T j (-1) (shiftOct (cellGrid G b) j 1 c))]
      refine Finset.sum_congr rfl fun c hc => ?_
      have hck := hmem c hc k (-s) (by omega)
      rw [show T j (-1) (shiftOct (cellGrid G b) j 1 (shiftOct (cellGrid G b) k (-s) c)) = T k (-s) c from inv _ hck j 1]
      rw [show T k s (shiftOct (cellGrid G b) j 1 (shiftOct (cellGrid G b) k (-s) c)) = T j 1 c by
        rw [hT, shift_comm hG' k j]
        have := inv c hc k (-s)
        rw [neg_neg] at this
        rw [← hT, this]]
      ring
    have e1 : ∑ c ∈ C, (2 * u c - u (T k 1 c) - u (T k (-1) c)) * (u (T j (-1) c) - u (T j 1 c)) =
        2 * (∑ c ∈ C, u c * u (T j (-1) c) - ∑ c ∈ C, u c * u (T j 1 c)) -
        (∑ c ∈ C, u (T k 1 c) * u (T j (-1) c) - ∑ c ∈ C, u (T k (-1) c) * u (T j 1 c)) -
        (∑ c ∈ C, u (T k (-1) c) * u (T j (-1) c) - ∑ c ∈ C, u (T k 1 c) * u (T j 1 c)) := by
      simp only [← Finset.sum_sub_distrib, Finset.mul_sum]
      exact Finset.sum_congr rfl fun c _ => by ring
    have q3 := q2 (-1) (Or.inr rfl)
    rw [neg_neg] at q3
    rw [e1, q1, q2 1 (Or.inl rfl), q3]
    ring
  simp only [Finset.sum_mul]
  rw [Finset.sum_comm]
  refine Finset.sum_eq_zero fun k _ => ?_
  have : ∑ c ∈ C, W k * (2 * u c - u (T k 1 c) - u (T k (-1) c)) * (a * (W j * (u (T j (-1) c) - u (T j 1 c)))) =
      W k * a * W j * ∑ c ∈ C, (2 * u c - u (T k 1 c) - u (T k (-1) c)) * (u (T j (-1) c) - u (T j 1 c)) := by
    rw [Finset.mul_sum]
    exact Finset.sum_congr rfl fun c _ => by ring
  rw [this, key, mul_zero]

end Verif.Gravity
