import Verif.Gravity.Operator
import Verif.Flux.Patch
import Verif.Refine.Markers

/-!
# C59: refinement indicators

Model of `getMarker` of `core/src/refine_condition/RefineCondition_pseudo_gradient.cpp` L36-112 and of
`second_derivative_error` (`RefineCondition_second_derivative_error.cpp` L48-69, L147-166). Arithmetic is exact.
-/

namespace Verif.Refine

open Verif.Octree Verif.Cells Verif.Flux Verif.Hydro Verif.Gravity

variable {d : ℕ} {F : Type} [Field F] [LinearOrder F] [IsStrictOrderedRing F]

/-! ### Model -/

/-- `real_type.h` L25-26. -/
def fMax (x y : F) : F := if x > y then x else y
def fMin (x y : F) : F := if x < y then x else y

/-- L49-57, `indicator_scalar_gradient`. -/
def indicator (qi qj : F) : F :=
  let m := fMax |qi| |qj|
  if m < 1 / 1000 then 0
  else
    let m := |qi - qj| / m
    fMax (fMin m 1) 0

/-- L59-91, `grad`. -/
def grad (q : Oct d → (Fin d → ℕ) → F) (G : Grid d) (M : Finset (Oct d)) (b : Fin d → ℕ) (o : Oct d) (x : Fin d → ℕ)
    (j : Fin d) (s : ℤ) : Option F :=
  (getNeighborGhost G M ⟨o, x, b, .localToBlock⟩ (faceOff j s)).bind fun r =>
    if r.status = .boundary then some 0
    else if r.levelDiff ≥ 0 then some (indicator (q o x) (q r.oct r.idx))
    else ((loops fun k => if faceOff j s k = 0 then [(0 : ℤ), 1] else [0]).mapM (getNeighborGhost G M r)).map fun rs =>
      rs.foldl (fun m n => fMax m (indicator (q o x) (q n.oct n.idx))) 0

/-- L93-102: the largest over all sides. -/
def diffMax (q : Oct d → (Fin d → ℕ) → F) (G : Grid d) (M : Finset (Oct d)) (b : Fin d → ℕ) (o : Oct d)
    (x : Fin d → ℕ) : Option F :=
  ((List.finRange d).mapM fun j =>
    (grad q G M b o x j 1).bind fun a => (grad q G M b o x j (-1)).map fun c => [a, c]).map fun l =>
      l.flatten.foldl fMax 0

/-- L104-112. -/
def pseudoGradient (q : Oct d → (Fin d → ℕ) → F) (G : Grid d) (M : Finset (Oct d)) (b : Fin d → ℕ)
    (errorMin errorMax : F) (o : Oct d) (x : Fin d → ℕ) : Option ℤ :=
  (diffMax q G M b o x).map fun v => criterion (some v) errorMax errorMin

/-- `RefineCondition_second_derivative_error.cpp` L48-69; `eps` is the precision of `real_t`. -/
def secondDerivative (eps ql qc qr : F) : F :=
  let fr := qr - qc
  let fl := ql - qc
  let fc := |qr| + |ql| + 2 * |qc|
  |fr + fl| / (|fr| + |fl| + 1 / 100 * fc + eps)

/-- L150-159: over both variables and all directions; `v` lists the values to the left, in the middle and to the
right. -/
def secondDerivativeMax (eps : F) (v : List (F × F × F)) : F :=
  (v.map fun t => secondDerivative eps t.1 t.2.1 t.2.2).foldl fMax 0

/-! ### Specification -/

/-- Relative difference of two values, at most 1; values below 0.001 count as equal. -/
noncomputable def relDiff (a c : F) : F := if max |a| |c| < 1 / 1000 then 0 else min 1 (|a - c| / max |a| |c|)

/-! ### Proofs -/

omit [Field F] [IsStrictOrderedRing F] in
theorem fMax_eq (x y : F) : fMax x y = max x y := by
  unfold fMax
  split
  · next h => exact (max_eq_left (le_of_lt h)).symm
  · next h => exact (max_eq_right (not_lt.1 h)).symm

omit [Field F] [IsStrictOrderedRing F] in
theorem fMin_eq (x y : F) : fMin x y = min x y := by
  unfold fMin
  split
  · next h => exact (min_eq_left (le_of_lt h)).symm
  · next h => exact (min_eq_right (not_lt.1 h)).symm

omit [Field F] [IsStrictOrderedRing F] in
theorem foldl_fMax {A : Type} (f : A → F) (l : List A) (t : F) : ∀ a, l.foldl (fun m n => fMax m (f n)) a ≤ t ↔
    a ≤ t ∧ ∀ n ∈ l, f n ≤ t := by
  induction l with
  | nil => intro a; simp
  | cons p l ih =>
    intro a
    rw [List.foldl_cons, ih, fMax_eq, max_le_iff]
    simp only [List.mem_cons, forall_eq_or_imp]
    exact and_assoc

/-- C59 (indicator): between 0 and 1, symmetric, 0 for equal values. -/
theorem C59_indicator (a c : F) : indicator a c = relDiff a c ∧ 0 ≤ indicator a c ∧ indicator a c ≤ 1 ∧
    indicator a c = indicator c a ∧ indicator a a = 0 := by
  have e : ∀ a c : F, indicator a c = relDiff a c := by
    intro a c
    unfold indicator relDiff
    simp only [fMax_eq, fMin_eq]
    split
    · rfl
    · next h =>
      have hm : 0 < max |a| |c| := lt_of_lt_of_le (by norm_num) (not_lt.1 h)
      rw [min_comm, max_eq_left (le_min zero_le_one (div_nonneg (abs_nonneg _) hm.le))]
  have h01 : 0 ≤ relDiff a c ∧ relDiff a c ≤ 1 := by
    unfold relDiff
    split
    · exact ⟨le_rfl, zero_le_one⟩
    · exact ⟨le_min zero_le_one (div_nonneg (abs_nonneg _) (le_max_of_le_left (abs_nonneg _))), min_le_left _ _⟩
  refine ⟨e a c, by rw [e]; exact h01.1, by rw [e]; exact h01.2, ?_, ?_⟩
  · rw [e, e]
    unfold relDiff
    rw [max_comm, abs_sub_comm]
  · rw [e]
    unfold relDiff
    rw [sub_self, abs_zero, zero_div, min_eq_right zero_le_one, ite_self]

variable {G : Grid d} {M : Finset (Oct d)} {b : Fin d → ℕ}

/-- One side: all cells that share a part of the face. -/
theorem grad_spec (hG : G.Pos) (hM : Tiling G M) (hB : Balanced G M) (q : Oct d → (Fin d → ℕ) → F) {o : Oct d}
    (ho : o ∈ M) {x : Fin d → ℕ} (hx : ∀ k, x k < b k) (j : Fin d) {s : ℤ} (hs : s = 1 ∨ s = -1) :
    ∃ v, grad q G M b o x j s = some v ∧ ∀ t, 0 ≤ t → (v ≤ t ↔
      ∀ n ∈ nbrs (cellGrid G b) (cellMesh b M) (cellOct b o x) j s, relDiff (q o x) (onBox b M q n) ≤ t) := by
  by_cases hin : InDomain (cellGrid G b) o.level (target b o x (faceOff j s))
  · obtain ⟨r, h1, h2, h3, h4, hside⟩ := side hG hM hB ⟨o, x, b, .localToBlock⟩ ho hx rfl j hs hin
    have one : r.status ≠ .boundary → r.levelDiff ≥ 0 →
        nbrs (cellGrid G b) (cellMesh b M) (cellOct b o x) j s = {cellOct b r.oct r.idx} →
        ∃ v, grad q G M b o x j s = some v ∧ ∀ t, 0 ≤ t → (v ≤ t ↔
          ∀ n ∈ nbrs (cellGrid G b) (cellMesh b M) (cellOct b o x) j s, relDiff (q o x) (onBox b M q n) ≤ t) := by
      intro k1 k2 k3
      refine ⟨indicator (q o x) (q r.oct r.idx), ?_, fun t _ => ?_⟩
      · unfold grad
        rw [h1, Option.bind_some, if_neg k1, if_pos k2]
      · rw [k3, (C59_indicator _ _).1]
        simp only [Finset.mem_singleton, forall_eq]
        rw [onBox_cell h2 h3]
    cases hside with
    | same st hl hn hp =>
      have hst' : r.status = .sameSize ∨ r.status = .localToBlock := by
        rcases st with st | st
        · right; rw [st]; rfl
        · exact Or.inl st
      have hld := (OneNeighbor.levelDiff_cases r).2.2 hst'
      exact one (by rcases hst' with h | h <;> rw [h] <;> decide) (by omega) hn
    | bigger st hl hn hp =>
      have hld := (OneNeighbor.levelDiff_cases r).2.1 st
      exact one (by rw [st]; decide) (by omega) hn
    | smaller st hl f hf hnd hn =>
      have hld := (OneNeighbor.levelDiff_cases r).1 st
      have hnge : ¬ r.levelDiff ≥ 0 := by omega
      simp only at hl hf hnd hn
      refine ⟨((loops fun k => if faceOff j s k = 0 then [(0 : ℤ), 1] else [0]).map f).foldl
        (fun m n => fMax m (indicator (q o x) (q n.oct n.idx))) 0, ?_, fun t ht => ?_⟩
      · unfold grad
        rw [h1, Option.bind_some, if_neg (by rw [st]; decide), if_neg hnge,
          OneNeighbor.loops_mapM_some _ _ f fun δ hδ => (hf δ hδ).1, Option.map_some]
      · rw [foldl_fMax (fun n : CellIndex d => indicator (q o x) (q n.oct n.idx))]
        constructor
        · rintro ⟨-, h⟩ n hn'
          obtain ⟨δ, hδ, rfl⟩ := List.mem_map.1 ((hn n).1 hn')
          obtain ⟨a1, a2, a3, -⟩ := hf δ hδ
          rw [onBox_cell a2 a3, ← (C59_indicator _ _).1]
          exact h _ (List.mem_map_of_mem hδ)
        · intro h
          refine ⟨ht, fun n hn' => ?_⟩
          obtain ⟨δ, hδ, rfl⟩ := List.mem_map.1 hn'
          obtain ⟨a1, a2, a3, -⟩ := hf δ hδ
          have := h _ ((hn _).2 (List.mem_map.2 ⟨δ, hδ, rfl⟩))
          rwa [onBox_cell a2 a3, ← (C59_indicator _ _).1] at this
  · obtain ⟨r, h1, h2, h3⟩ := outside hG hM hB ⟨o, x, b, .localToBlock⟩ ho hx rfl j hs hin
    simp only at h3
    refine ⟨0, ?_, fun t ht => ?_⟩
    · unfold grad
      rw [h1, Option.bind_some, if_pos h2]
    · rw [h3]
      simp [ht]

/-- C59 (pseudo gradient): the value compared with the thresholds is the largest relative difference to a cell that
shares a face or a part of a face, and 0 if there is none. -/
theorem C59_pseudo_gradient (hG : G.Pos) (hM : Tiling G M) (hB : Balanced G M) (q : Oct d → (Fin d → ℕ) → F) {o : Oct d}
    (ho : o ∈ M) {x : Fin d → ℕ} (hx : ∀ k, x k < b k) :
    ∃ v, diffMax q G M b o x = some v ∧ 0 ≤ v ∧ v ≤ 1 ∧ ∀ t, 0 ≤ t → (v ≤ t ↔
      ∀ j, ∀ s : ℤ, s = 1 ∨ s = -1 → ∀ n ∈ nbrs (cellGrid G b) (cellMesh b M) (cellOct b o x) j s,
        relDiff (q o x) (onBox b M q n) ≤ t) := by
  have h := fun j => grad_spec hG hM hB q ho hx j (Or.inl rfl)
  have h' := fun j => grad_spec hG hM hB q ho hx j (s := -1) (Or.inr rfl)
  choose vR hR1 hR2 using h
  choose vL hL1 hL2 using h'
  have key : ∀ t, 0 ≤ t → ((((List.finRange d).map fun j => [vR j, vL j]).flatten.foldl fMax 0 ≤ t) ↔
      ∀ j, ∀ s : ℤ, s = 1 ∨ s = -1 → ∀ n ∈ nbrs (cellGrid G b) (cellMesh b M) (cellOct b o x) j s,
        relDiff (q o x) (onBox b M q n) ≤ t) := by
    intro t ht
    rw [foldl_fMax (fun n : F => n)]
    constructor
    · rintro ⟨-, h⟩ j s hs
      have hmem : ∀ v ∈ [vR j, vL j], v ≤ t := fun v hv =>
        h v (List.mem_flatten.2 ⟨_, List.mem_map.2 ⟨j, List.mem_finRange j, rfl⟩, hv⟩)
      rcases hs with rfl | rfl
      · exact (hR2 j t ht).1 (hmem _ (by simp))
      · exact (hL2 j t ht).1 (hmem _ (by simp))
    · intro h
      refine ⟨ht, fun v hv => ?_⟩
      obtain ⟨l, hl, hv⟩ := List.mem_flatten.1 hv
      obtain ⟨j, -, rfl⟩ := List.mem_map.1 hl
      rcases List.mem_cons.1 hv with rfl | hv
      · exact (hR2 j t ht).2 (h j 1 (Or.inl rfl))
      · rw [List.mem_singleton.1 hv]
        exact (hL2 j t ht).2 (h j (-1) (Or.inr rfl))
  refine ⟨_, ?_, ?_, ?_, key⟩
  · unfold diffMax
    rw [OneNeighbor.loops_mapM_some _ _ fun j => [vR j, vL j]]
    · rfl
    · intro j _
      rw [hR1, hL1, Option.bind_some, Option.map_some]
  · exact ((foldl_fMax (fun n : F => n) _ _ 0).1 le_rfl).1
  · refine (key 1 zero_le_one).2 fun j s _ n _ => ?_
    rw [← (C59_indicator _ _).1]
    exact (C59_indicator _ _).2.2.1

/-- C59 (decision): a cell requests refinement iff some neighbour differs by more than the threshold, and a cell of a
uniform field requests coarsening. -/
theorem C59_request (hG : G.Pos) (hM : Tiling G M) (hB : Balanced G M) (q : Oct d → (Fin d → ℕ) → F) {o : Oct d}
    (ho : o ∈ M) {x : Fin d → ℕ} (hx : ∀ k, x k < b k) {errorMin errorMax : F} (h0 : 0 ≤ errorMin) (h1 : 0 ≤ errorMax) :
    ∃ m, pseudoGradient q G M b errorMin errorMax o x = some m ∧
      (m = 1 ↔ ∃ j, ∃ s : ℤ, (s = 1 ∨ s = -1) ∧ ∃ n ∈ nbrs (cellGrid G b) (cellMesh b M) (cellOct b o x) j s,
        errorMax < relDiff (q o x) (onBox b M q n)) ∧
      ((∀ o' ∈ M, ∀ y : Fin d → ℕ, (∀ k, y k < b k) → q o' y = q o x) → m = -1) := by
  obtain ⟨v, e1, e2, e3, e4⟩ := C59_pseudo_gradient hG hM hB q ho hx
  refine ⟨criterion (some v) errorMax errorMin, ?_, ?_, ?_⟩
  · unfold pseudoGradient
    rw [e1, Option.map_some]
  · rw [(C52_criterion v errorMax errorMin).1, ← not_le, e4 _ h1]
    push Not
    rfl
  · intro h
    have hv : v ≤ 0 := (e4 0 le_rfl).2 fun j s hs n hn => by
      obtain ⟨o', ho', y, hy, rfl⟩ := mem_cellMesh.1 (mem_nbrs.1 hn).1
      rw [onBox_cell ho' hy, h o' ho' y hy, ← (C59_indicator _ _).1, (C59_indicator _ (q o x)).2.2.2.2]
    exact (C52_criterion v errorMax errorMin).2.1.2 ⟨le_trans hv h1, le_trans hv h0⟩

/-- With the default thresholds (L17-18: coarsen 0.002, refine 0.001) every cell is refined or coarsened. -/
theorem C59_default_thresholds (v : ℚ) : criterion (some v) (1 / 1000) (2 / 1000) = 1 ∨
    criterion (some v) (1 / 1000) (2 / 1000) = -1 := by
  rcases lt_or_ge (1 / 1000 : ℚ) v with h | h
  · exact Or.inl ((C52_criterion v _ _).1.2 h)
  · exact Or.inr ((C52_criterion v _ _).2.1.2 ⟨h, by linarith⟩)

/-- C59 (second derivative): the error is at least 0 and below 1, and is 0 for values on a line. -/
theorem C59_second_derivative {eps : F} (he : 0 < eps) (ql qc qr : F) :
    0 ≤ secondDerivative eps ql qc qr ∧ secondDerivative eps ql qc qr < 1 ∧
      (secondDerivative eps ql qc qr = 0 ↔ qc = (ql + qr) / 2) := by
  have hd : 0 < |qr - qc| + |ql - qc| + 1 / 100 * (|qr| + |ql| + 2 * |qc|) + eps := by
    have h1 := abs_nonneg (qr - qc)
    have h2 := abs_nonneg (ql - qc)
    have h3 := abs_nonneg qr
    have h4 := abs_nonneg ql
    have h5 := abs_nonneg qc
    linarith
  unfold secondDerivative
  refine ⟨div_nonneg (abs_nonneg _) hd.le, ?_, ?_⟩
  · simp only
    rw [div_lt_one hd]
    have h1 := abs_add_le (qr - qc) (ql - qc)
    have h3 := abs_nonneg qr
    have h4 := abs_nonneg ql
    have h5 := abs_nonneg qc
    linarith
  · simp only
    rw [div_eq_zero_iff, or_iff_left hd.ne', abs_eq_zero]
    constructor <;> intro h <;> linarith

/-- C59 (second derivative, all variables): with a refinement threshold of at least 1 nothing is refined. -/
theorem C59_second_derivative_max {eps : F} (he : 0 < eps) (v : List (F × F × F)) :
    0 ≤ secondDerivativeMax eps v ∧ secondDerivativeMax eps v ≤ 1 := by
  unfold secondDerivativeMax
  constructor
  · exact ((foldl_fMax (fun n : F => n) _ _ 0).1 le_rfl).1
  · rw [foldl_fMax (fun n : F => n)]
    refine ⟨zero_le_one, fun n hn => ?_⟩
    obtain ⟨t, -, rfl⟩ := List.mem_map.1 hn
    exact (C59_second_derivative he _ _ _).2.1.le

/-! ### Examples -/

/-- A step between two levels. -/
def stepField (o : Oct 2) (_ : Fin 2 → ℕ) : ℚ := if o.level = 1 then 1 else 1 + (o.pos 1 : ℕ)

/-- By evaluation: the cell sees the largest of two smaller neighbours. -/
example : diffMax stepField quadGrid quad.toFinset ![2, 2] ⟨1, ![0, 0]⟩ ![1, 1] = some (1 / 2) ∧
    diffMax stepField quadGrid quad.toFinset ![2, 2] ⟨1, ![0, 0]⟩ ![0, 0] = some 0 ∧
    pseudoGradient stepField quadGrid quad.toFinset ![2, 2] (1 / 10) (1 / 4) ⟨1, ![0, 0]⟩ ![1, 1] = some 1 ∧
    pseudoGradient stepField quadGrid quad.toFinset ![2, 2] (1 / 10) (1 / 4) ⟨1, ![0, 0]⟩ ![0, 0] = some (-1) := by
  decide +kernel

/-- The hypotheses of the theorems are met. -/
example : ∃ v, diffMax stepField quadGrid quad.toFinset ![2, 2] ⟨1, ![0, 0]⟩ ![1, 1] = some v ∧ 0 ≤ v ∧ v ≤ 1 := by
  obtain ⟨v, h1, h2, h3, -⟩ := C59_pseudo_gradient quadGrid_pos quad_tiling quad_balanced stepField
    (b := ![2, 2]) (o := ⟨1, ![0, 0]⟩) (by decide) (x := ![1, 1]) (by decide)
  exact ⟨v, h1, h2, h3⟩

end Verif.Refine
