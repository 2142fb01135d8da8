import Verif.Gravity.Operator
import Verif.Hydro.Euler
import Verif.Hydro.Boundary
import Mathlib.Tactic.LinearCombination

/-!
# C50: heat conduction

Model of `compute_rhs` of `core/src/parabolic/ParabolicTerm_thermal_conduction.h` L110-257 and of the update in
`core/src/parabolic/ParabolicUpdate_explicit.cpp` L113-149. Only the energy has a right hand side. Arithmetic is
exact.
-/

namespace Verif.Parabolic

open Verif.Octree Verif.Cells Verif.Flux Verif.Hydro Verif.Gravity

variable {d : ℕ} {K V : Type} [Field K]

/-! ### Model -/

/-- `temp` is `consToPrim` followed by `compute_temperature` (L124-126), `kappa` is `compute_kappa` L80-102, a function
of the position. `user j s` is `overrideBoundaryHeatFlux` when `bc_min[j]` (`s = -1`) or `bc_max[j]` (`s = 1`)
is `BC_USER` (L238-241). -/
structure Conduction (d : ℕ) (K V : Type) where
  temp : V → K
  kappa : (Fin d → ℚ) → K
  user : Fin d → ℤ → Option (K → V → K) := fun _ _ => none

/-- L141: `S[ldiff + 1]`. -/
def relSize (ldiff : ℤ) : K := if ldiff = -1 then 3 / 4 else if ldiff = 0 then 1 else 3 / 2

/-- `getCellCenter` (`AMRBlockForeachCell.h` L58-81) of cell `z` of a patch with two ghost layers, `z` counted from the
first cell of the block: the index has `i = z + 2` and `bx = b + 4`, the size is that of the mesh. -/
def patchCenter (D : Domain d) (G : Grid d) (b : Fin d → ℕ) (o : Oct d) (z : Fin d → ℤ) (k : Fin d) : ℚ :=
  D.xmin k + getCenter G o k * (D.xmax k - D.xmin k) +
    (((z k + 2 : ℤ) : ℚ) - (b k + 2 * 2 : ℕ) * (1 / 2) + 1 / 2) * getCellSize D G ⟨o, fun _ => 0, b, .localToBlock⟩ k

/-- `TC - TL` on the left, `TR - TC` on the right. -/
def tempDiff (s : ℤ) (tC tN : K) : K := if s = -1 then tC - tN else tN - tC

/-- L166-241: `FL` (`s = -1`) or `FR` (`s = 1`). -/
def iface (H : Conduction d K V) (I : Source d V) (D : Domain d) (G : Grid d) (M : Finset (Oct d)) (b : Fin d → ℕ)
    (o : Oct d) (x : Fin d → ℕ) (j : Fin d) (s : ℤ) : Option K :=
  (patchRead I G M b o fun k => x k).bind fun uC =>
  (getNeighborGhost G M ⟨o, x, b, .localToBlock⟩ (faceOff j s)).bind fun r =>
    let h : K := (getCellSize D G ⟨o, x, b, .localToBlock⟩ j : ℚ)
    let kC := H.kappa (getCellCenter D G ⟨o, x, b, .localToBlock⟩)
    let S : K := relSize r.levelDiff
    let F := if r.levelDiff ≥ 0 then
        (Euler.nextTo I G M b o x j s).map fun uN =>
          1 / 2 * (kC + H.kappa (patchCenter D G b o fun k => (x k : ℤ) + faceOff j s k)) *
            tempDiff s (H.temp uC) (H.temp uN) / (S * h)
      else ((foreachSmallerNeighbor true G M r (faceOff j s)).mapM id).map fun rs =>
        Euler.fac d * (rs.map fun n => 1 / 2 * (kC + H.kappa (getCellCenter D G n)) *
          tempDiff s (H.temp uC) (H.temp (I.U n.oct n.idx))).sum / (S * h)
    F.map fun F => if r.status = .boundary then
      match H.user j s with
      | some f => f F uC
      | none => F
      else F

/-- L243-256: the right hand side for the energy. -/
def rhs (H : Conduction d K V) (I : Source d V) (D : Domain d) (G : Grid d) (M : Finset (Oct d)) (b : Fin d → ℕ)
    (o : Oct d) (x : Fin d → ℕ) : Option K :=
  ((List.finRange d).mapM fun j =>
    (iface H I D G M b o x j (-1)).bind fun FL => (iface H I D G M b o x j 1).map fun FR =>
      ((∏ k ∈ Finset.univ.erase j, getCellSize D G ⟨o, x, b, .localToBlock⟩ k : ℚ) : K) * (FR - FL)).map fun l =>
  l.sum / ((∏ k, getCellSize D G ⟨o, x, b, .localToBlock⟩ k : ℚ) : K)

/-- `ParabolicUpdate_explicit.cpp` L143-147: the energy `eout` already in the output array changes by `dt` times the
right hand side. -/
def stepCell (H : Conduction d K V) (I : Source d V) (D : Domain d) (G : Grid d) (M : Finset (Oct d)) (b : Fin d → ℕ)
    (dt : K) (eout : Oct d → (Fin d → ℕ) → K) (o : Oct d) (x : Fin d → ℕ) : Option K :=
  (rhs H I D G M b o x).map fun r => eout o x + dt * r

/-! ### Specification -/

/-- Middle of a box. -/
def mid (D : Domain d) (G : Grid d) (c : Oct d) (k : Fin d) : ℚ :=
  D.xmin k + (lo G c k + hi G c k) / 2 * (D.xmax k - D.xmin k)

/-- The conductivity cell `c` uses on its face with `q` on side `s` in direction `j`: the mean over the middle of
`c` and, for a smaller `q`, its middle, otherwise the middle of a cell of the size of `c` next to `c`. -/
def cond (H : Conduction d K V) (D : Domain d) (G : Grid d) (j : Fin d) (s : ℤ) (c q : Oct d) : K :=
  1 / 2 * (H.kappa (mid D G c) + if q.level ≤ c.level then
    H.kappa (fun k => mid D G c k + faceOff j s k * cellSize D G c k) else H.kappa (mid D G q))

/-- Heat that flows per unit of time from `q` into `c` through their face, as `c` sees it. -/
noncomputable def heat (H : Conduction d K V) (D : Domain d) (G : Grid d) (M : Finset (Oct d)) (b : Fin d → ℕ)
    (T : Oct d → (Fin d → ℕ) → K) (j : Fin d) (s : ℤ) (c q : Oct d) : K :=
  (weight D (cellGrid G b) j c q : K) * cond H D (cellGrid G b) j s c q * (onBox b M T q - onBox b M T c)

/-- The temperature of each cell. -/
def temps (H : Conduction d K V) (I : Source d V) (o : Oct d) (x : Fin d → ℕ) : K := H.temp (I.U o x)

/-- Beyond the boundary of the domain the patches have the temperature of the cell inside, and no heat flux is
imposed. -/
def Insulated (H : Conduction d K V) (I : Source d V) (G : Grid d) (M : Finset (Oct d)) (b : Fin d → ℕ) : Prop :=
  ∀ o ∈ M, ∀ x : Fin d → ℕ, (∀ k, x k < b k) → ∀ j s, (s = 1 ∨ s = -1) → OnBoundary G b o x j s →
    H.user j s = none ∧ ∃ v, Euler.nextTo I G M b o x j s = some v ∧ H.temp v = H.temp (I.U o x)

/-- Both cells of a face use the same conductivity. -/
def Matching (H : Conduction d K V) (D : Domain d) (G : Grid d) (M : Finset (Oct d)) (b : Fin d → ℕ) : Prop :=
  ∀ j, ∀ c ∈ cellMesh b M, ∀ q ∈ nbrs (cellGrid G b) (cellMesh b M) c j 1,
    cond H D (cellGrid G b) j 1 c q = cond H D (cellGrid G b) j (-1) q c

/-! ### One side of a cell -/

variable {G : Grid d} {M : Finset (Oct d)} {b : Fin d → ℕ} {H : Conduction d K V} {I : Source d V}

theorem getCellCenter_mid (hG : G.Pos) (hb : ∀ k, 0 < b k) (D : Domain d) (c : CellIndex d) (hc : c.b = b) :
    getCellCenter D G c = mid D (cellGrid G b) (cellOct b c.oct c.idx) := by
  funext k
  subst hc
  exact C26_center hG D c hb k

theorem patchCenter_mid (hG : G.Pos) (hb : ∀ k, 0 < b k) (D : Domain d) (o : Oct d) (x : Fin d → ℕ) (j : Fin d)
    (s : ℤ) : (patchCenter D G b o fun k => (x k : ℤ) + faceOff j s k) = fun k =>
      mid D (cellGrid G b) (cellOct b o x) k + faceOff j s k * cellSize D (cellGrid G b) (cellOct b o x) k := by
  funext k
  have h := C26_center hG D ⟨o, x, b, .localToBlock⟩ hb k
  have h2 := getCellSize_eq hG D ⟨o, x, b, .localToBlock⟩ hb k
  unfold mid
  simp only at h h2
  rw [← h, ← h2]
  unfold patchCenter getCellCenter
  have e : getCellSize D G ⟨o, fun _ => 0, b, .localToBlock⟩ k = getCellSize D G ⟨o, x, b, .localToBlock⟩ k := rfl
  rw [e]
  push_cast
  ring

theorem stretch_eq (l : ℤ) (hl : l = -1 ∨ l = 0 ∨ l = 1) (h : K) : stretch l h = relSize l * h := by
  unfold stretch relSize
  rcases hl with rfl | rfl | rfl
  · simp only [if_true, show ¬ (-1 : ℤ) = 1 by decide, if_false]; ring
  · simp only [show ¬ (0 : ℤ) = 1 by decide, show ¬ (0 : ℤ) = -1 by decide, if_false, if_true]; ring
  · simp only [show ¬ (1 : ℤ) = 0 by decide, show ¬ (1 : ℤ) = -1 by decide, if_false, if_true]; ring

/-- Sign of the side. -/
theorem tempDiff_eq {s : ℤ} (hs : s = 1 ∨ s = -1) (a c : K) : tempDiff s a c = s * (c - a) := by
  unfold tempDiff
  rcases hs with rfl | rfl
  · rw [if_neg (by decide)]; push_cast; ring
  · rw [if_pos rfl]; push_cast; ring

section
variable [CharZero K]

/-- What one side inside the domain adds. -/
theorem iface_inside (hd : d = 2 ∨ d = 3) (hG : G.Pos) (hM : Tiling G M) (hB : Balanced G M) {D : Domain d}
    (hD : Domain.Ok D) (hb2 : ∀ k, 2 ≤ b k) {o : Oct d} (ho : o ∈ M) {x : Fin d → ℕ} (hx : ∀ k, x k < b k) (j : Fin d)
    {s : ℤ} (hs : s = 1 ∨ s = -1) (hin : InDomain (cellGrid G b) o.level (target b o x (faceOff j s))) :
    ∃ F, iface H I D G M b o x j s = some F ∧
      (faceArea D (cellGrid G b) j (cellOct b o x) : K) * F =
        s * ∑ q ∈ nbrs (cellGrid G b) (cellMesh b M) (cellOct b o x) j s,
          heat H D G M b (temps H I) j s (cellOct b o x) q := by
  have hb : ∀ k, 0 < b k := fun k => by have := hx k; omega
  have hG' := cellGrid_pos hG hb
  have hpos := cellSize_pos hG' hD (cellOct b o x) j
  have hK : ((cellSize D (cellGrid G b) (cellOct b o x) j : ℚ) : K) ≠ 0 := by exact_mod_cast hpos.ne'
  have hfa : (faceArea D (cellGrid G b) j (cellOct b o x) : K) =
      (volume D (cellGrid G b) (cellOct b o x) : K) / (cellSize D (cellGrid G b) (cellOct b o x) j : K) := by
    rw [← faceArea_mul D _ j]
    push_cast
    field_simp
  have hC : patchRead I G M b o (fun k => (x k : ℤ)) = some (I.U o x) := patchRead_interior hx
  have hsz := getCellSize_eq hG D ⟨o, x, b, .localToBlock⟩ hb j
  simp only at hsz
  have hctr := getCellCenter_mid hG hb D ⟨o, x, b, .localToBlock⟩ rfl
  simp only at hctr
  obtain ⟨r, h1, h2, h3, h4, hside⟩ := side hG hM hB ⟨o, x, b, .localToBlock⟩ ho hx rfl j hs hin
  -- one neighbour
  have one : r.status ≠ .boundary → r.levelDiff = 0 ∨ r.levelDiff = 1 → r.oct.level ≤ o.level →
      nbrs (cellGrid G b) (cellMesh b M) (cellOct b o x) j s = {cellOct b r.oct r.idx} →
      ∃ F, iface H I D G M b o x j s = some F ∧
      (faceArea D (cellGrid G b) j (cellOct b o x) : K) * F =
        s * ∑ q ∈ nbrs (cellGrid G b) (cellMesh b M) (cellOct b o x) j s,
          heat H D G M b (temps H I) j s (cellOct b o x) q := by
    intro k1 k2 k3 k4
    have hge : r.levelDiff ≥ 0 := by omega
    obtain ⟨r', v, e1, e2, e3, e4⟩ := side_value hG hM hB hD (temps H I) ho hx j hs hin
    rw [h1] at e1
    obtain rfl := Option.some.inj e1
    unfold getValue at e3
    rw [if_neg k1, if_pos hge] at e3
    obtain rfl := Option.some.inj e3
    have hn : Euler.nextTo I G M b o x j s = some (I.U r.oct r.idx) := patchRead_near hb2 hx hs h1 k1 hge
    refine ⟨1 / 2 * (H.kappa (mid D (cellGrid G b) (cellOct b o x)) + H.kappa fun k =>
        mid D (cellGrid G b) (cellOct b o x) k +
          faceOff j s k * cellSize D (cellGrid G b) (cellOct b o x) k) *
        (s * (H.temp (I.U r.oct r.idx) - H.temp (I.U o x))) /
        stretch r.levelDiff (cellSize D (cellGrid G b) (cellOct b o x) j : K), ?_, ?_⟩
    · unfold iface
      simp only [hC, h1, Option.bind_some]
      rw [if_pos hge, hn, Option.map_some, Option.map_some, if_neg k1, hctr, hsz,
        patchCenter_mid hG hb, tempDiff_eq hs, ← stretch_eq _ (by omega)]
    · rw [k4, Finset.sum_singleton, onBox_cell h2 h3] at e4
      rw [k4, Finset.sum_singleton, heat, onBox_cell h2 h3, onBox_cell ho hx, hfa, cond,
        if_pos (show (cellOct b r.oct r.idx).level ≤ (cellOct b o x).level from k3)]
      unfold temps at e4 ⊢
      linear_combination -(1 / 2 * (s : K) * (H.kappa (mid D (cellGrid G b) (cellOct b o x)) + H.kappa fun k =>
        mid D (cellGrid G b) (cellOct b o x) k +
          faceOff j s k * cellSize D (cellGrid G b) (cellOct b o x) k)) * e4
  cases hside with
  | same st hl hn hp =>
    have hst' : r.status = .sameSize ∨ r.status = .localToBlock := by
      rcases st with st | st
      · right; rw [st]; rfl
      · exact Or.inl st
    exact one (by rcases hst' with h | h <;> rw [h] <;> decide)
      (Or.inl ((OneNeighbor.levelDiff_cases r).2.2 hst')) (le_of_eq hl) hn
  | bigger st hl hn hp =>
    exact one (by rw [st]; decide) (Or.inr ((OneNeighbor.levelDiff_cases r).2.1 st))
      (by simp only at hl; omega) hn
  | smaller st hl f hf hnd hn =>
    have hld := (OneNeighbor.levelDiff_cases r).1 st
    have hnb : r.status ≠ .boundary := by rw [st]; decide
    have hnge : ¬ r.levelDiff ≥ 0 := by omega
    simp only at hl hf hnd hn
    have hlist : (foreachSmallerNeighbor true G M r (faceOff j s)).mapM id =
        some ((loops fun k => if faceOff j s k = 0 then [(0 : ℤ), 1] else [0]).map f) := by
      unfold foreachSmallerNeighbor
      rw [List.mapM_map]
      exact OneNeighbor.loops_mapM_some _ _ f fun δ hδ => (hf δ hδ).1
    obtain ⟨r', v, e1, e2, e3, e4⟩ := side_value hG hM hB hD (fun o' x' =>
      1 / 2 * (H.kappa (mid D (cellGrid G b) (cellOct b o x)) +
        H.kappa (mid D (cellGrid G b) (cellOct b o' x'))) * (temps H I o' x' - temps H I o x)) ho hx j hs hin
    rw [h1] at e1
    obtain rfl := Option.some.inj e1
    unfold getValue at e3
    rw [if_neg hnb, if_neg hnge, hlist, Option.map_some] at e3
    have hL := length_face j (s := s) (by omega)
    have e5 := Option.some.inj e3
    rw [List.length_map, hL] at e5
    have hfac : (Euler.fac d : K) = 1 / ((2 ^ (d - 1) : ℕ) : K) := by
      unfold Euler.fac
      rcases hd with rfl | rfl
      · norm_num
      · norm_num
    have hsum : ((((loops fun k => if faceOff j s k = 0 then [(0 : ℤ), 1] else [0]).map f).map fun n =>
        1 / 2 * (H.kappa (mid D (cellGrid G b) (cellOct b o x)) + H.kappa (getCellCenter D G n)) *
          tempDiff s (H.temp (I.U o x)) (H.temp (I.U n.oct n.idx))).sum : K) = s * 
        ((((loops fun k => if faceOff j s k = 0 then [(0 : ℤ), 1] else [0]).map f).map fun n =>
          1 / 2 * (H.kappa (mid D (cellGrid G b) (cellOct b o x)) +
            H.kappa (mid D (cellGrid G b) (cellOct b n.oct n.idx))) *
            (temps H I n.oct n.idx - temps H I o x)).sum : K) := by
      rw [← List.sum_map_mul_left]
      refine congrArg List.sum (List.map_congr_left fun n hn' => ?_)
      obtain ⟨δ, hδ, rfl⟩ := List.mem_map.1 hn'
      rw [getCellCenter_mid hG hb D (f δ) (hf δ hδ).2.2.2.1, tempDiff_eq hs]
      unfold temps
      ring
    refine ⟨Euler.fac d * (s * ((((loops fun k => if faceOff j s k = 0 then [(0 : ℤ), 1] else [0]).map f).map fun n =>
          1 / 2 * (H.kappa (mid D (cellGrid G b) (cellOct b o x)) +
            H.kappa (mid D (cellGrid G b) (cellOct b n.oct n.idx))) *
            (temps H I n.oct n.idx - temps H I o x)).sum : K)) /
        stretch r.levelDiff (cellSize D (cellGrid G b) (cellOct b o x) j : K), ?_, ?_⟩
    · unfold iface
      simp only [hC, h1, Option.bind_some]
      rw [if_neg hnge, hlist, Option.map_some, Option.map_some, if_neg hnb, hctr, hsz, ← stretch_eq _ (by omega),
        hsum]
    · have e6 : ∑ q ∈ nbrs (cellGrid G b) (cellMesh b M) (cellOct b o x) j s,
          heat H D G M b (temps H I) j s (cellOct b o x) q = (volume D (cellGrid G b) (cellOct b o x) : K) /
            (cellSize D (cellGrid G b) (cellOct b o x) j : K) * v /
            stretch r.levelDiff (cellSize D (cellGrid G b) (cellOct b o x) j : K) := by
        simp only [sub_self, mul_zero, zero_sub] at e4
        rw [mul_neg, neg_div] at e4
        rw [← neg_inj, e4, ← Finset.sum_neg_distrib]
        refine Finset.sum_congr rfl fun q hq => ?_
        obtain ⟨δ, hδ, rfl⟩ := List.mem_map.1 ((hn q).1 hq)
        obtain ⟨a1, a2, a3, a4, a5, a6⟩ := hf δ hδ
        rw [heat, cond, if_neg (show ¬ (cellOct b (f δ).oct (f δ).idx).level ≤ (cellOct b o x).level by
          change ¬ (f δ).oct.level ≤ o.level; omega), onBox_cell a2 a3, onBox_cell a2 a3, onBox_cell ho hx]
        ring
      rw [e6, ← e5, hfac, hfa]
      ring

omit [CharZero K] in
/-- What a side on the boundary adds. -/
theorem iface_boundary (hG : G.Pos) (hM : Tiling G M) (hB : Balanced G M) {D : Domain d}
    {o : Oct d} (ho : o ∈ M) {x : Fin d → ℕ} (hx : ∀ k, x k < b k) (j : Fin d)
    {s : ℤ} (hs : s = 1 ∨ s = -1) (hbd : OnBoundary G b o x j s) (hI : Insulated H I G M b) :
    iface H I D G M b o x j s = some 0 ∧ nbrs (cellGrid G b) (cellMesh b M) (cellOct b o x) j s = ∅ := by
  obtain ⟨r, h1, h2, h3⟩ := outside hG hM hB ⟨o, x, b, .localToBlock⟩ ho hx rfl j hs hbd
  refine ⟨?_, h3⟩
  obtain ⟨hu, v, hv, hT⟩ := hI o ho x hx j s hs hbd
  have hge : r.levelDiff ≥ 0 := by unfold CellIndex.levelDiff; rw [h2]; decide
  unfold iface
  simp only [patchRead_interior hx, h1, Option.bind_some]
  rw [if_pos hge, hv, Option.map_some, Option.map_some, if_pos h2, hu]
  simp only
  rw [hT, tempDiff_eq hs, sub_self, mul_zero, mul_zero, zero_div]

/-- Heat that flows into a cell. -/
noncomputable def inflow (H : Conduction d K V) (D : Domain d) (G : Grid d) (M : Finset (Oct d)) (b : Fin d → ℕ)
    (T : Oct d → (Fin d → ℕ) → K) (c : Oct d) : K :=
  ∑ j, ((∑ q ∈ nbrs (cellGrid G b) (cellMesh b M) c j 1, heat H D G M b T j 1 c q) +
    ∑ q ∈ nbrs (cellGrid G b) (cellMesh b M) c j (-1), heat H D G M b T j (-1) c q)

/-- C50 (fluxes): the right hand side is defined in every cell, and times the volume it is the sum of the heat
received from the neighbours: area of the common face, times a conductivity, times the difference of
temperatures over the distance of the middles. -/
theorem C50_rhs (hd : d = 2 ∨ d = 3) (hG : G.Pos) (hM : Tiling G M) (hB : Balanced G M) {D : Domain d}
    (hD : Domain.Ok D) (hb2 : ∀ k, 2 ≤ b k) (hI : Insulated H I G M b) {o : Oct d} (ho : o ∈ M) {x : Fin d → ℕ}
    (hx : ∀ k, x k < b k) : ∃ r, rhs H I D G M b o x = some r ∧
      (volume D (cellGrid G b) (cellOct b o x) : K) * r = inflow H D G M b (temps H I) (cellOct b o x) := by
  have hb : ∀ k, 0 < b k := fun k => by have := hx k; omega
  have hG' := cellGrid_pos hG hb
  have hv : ((volume D (cellGrid G b) (cellOct b o x) : ℚ) : K) ≠ 0 := by
    exact_mod_cast (volume_pos hG' hD _).ne'
  have all : ∀ j, ∀ s : ℤ, s = 1 ∨ s = -1 → ∃ F, iface H I D G M b o x j s = some F ∧
      (faceArea D (cellGrid G b) j (cellOct b o x) : K) * F =
        s * ∑ q ∈ nbrs (cellGrid G b) (cellMesh b M) (cellOct b o x) j s,
          heat H D G M b (temps H I) j s (cellOct b o x) q := by
    intro j s hs
    by_cases hin : InDomain (cellGrid G b) o.level (target b o x (faceOff j s))
    · exact iface_inside hd hG hM hB hD hb2 ho hx j hs hin
    · obtain ⟨h1, h2⟩ := iface_boundary (D := D) hG hM hB ho hx j hs hin hI
      exact ⟨0, h1, by rw [h2, Finset.sum_empty, mul_zero, mul_zero]⟩
  have hR := fun j => all j 1 (Or.inl rfl)
  have hL := fun j => all j (-1) (Or.inr rfl)
  choose FR hR1 hR2 using hR
  choose FL hL1 hL2 using hL
  have hsz : ∀ k, getCellSize D G ⟨o, x, b, .localToBlock⟩ k = cellSize D (cellGrid G b) (cellOct b o x) k :=
    fun k => getCellSize_eq hG D ⟨o, x, b, .localToBlock⟩ hb k
  unfold rhs
  rw [OneNeighbor.loops_mapM_some _ _ fun j =>
    (faceArea D (cellGrid G b) j (cellOct b o x) : K) * (FR j - FL j)]
  · refine ⟨_, rfl, ?_⟩
    beta_reduce
    rw [← List.ofFn_eq_map, List.sum_ofFn, Finset.prod_congr rfl fun k _ => hsz k]
    change _ * (_ / ((volume D (cellGrid G b) (cellOct b o x) : ℚ) : K)) = _
    rw [mul_div_cancel₀ _ hv]
    unfold inflow
    refine Finset.sum_congr rfl fun j _ => ?_
    rw [mul_sub, hR2, hL2]
    push_cast
    ring
  · intro j _
    rw [hL1, hR1, Option.bind_some, Option.map_some, Finset.prod_congr rfl fun k _ => hsz k]
    rfl

end

end Verif.Parabolic
