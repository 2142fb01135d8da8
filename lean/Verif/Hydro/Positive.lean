import Verif.Flux.Face
import Verif.Hydro.Euler
import Verif.Hydro.MassFlux
import Verif.TimeLoop.Dt

/-!
# C86: density under the time step of the code

The mass update of `HydroUpdate_euler` with the states of `State_hydro.h`, the HLLC solver and the time step
of `Compute_dt_hydro.cpp`. Arithmetic is exact; no gravity.
-/

namespace Verif.Hydro.Euler

open Verif.Octree Verif.Cells Verif.Flux Verif.Hydro Verif.Dt

variable {d : ℕ}

/-! ### Model -/

/-- The variables of a state (`state_foreach_var`, `State_hydro.h`) as a family. -/
def comps (q : Prim ℝ) : Fin 5 → ℝ := ![q.rho, q.p, q.u, q.v, q.w]

def prim (f : Fin 5 → ℝ) : Prim ℝ := ⟨f 0, f 1, f 2, f 3, f 4⟩

/-- The mass part of the scheme: `compute_primitives` (`core/src/hydro/HydroUpdate_utils.h` L40-51), the floor
on the density L106, and the density of the flux of `riemann_hydro` with exchanged components L158-166. -/
noncomputable def massScheme (P : Params) (d : ℕ) : Scheme d ℝ (Fin 5) (Cons ℝ) where
  toPrim u := comps (consToPrim d P.gamma (getCons d u))
  post q i := if i = 0 then max (q 0) P.smallr else q i
  flux j l r := (fluxDir P (Fin.ofNat 3 j) (prim l) (prim r)).rho

/-- `CopyGhostBlockCellData.h` L48-58: the mean of the conservative variables of the smaller cells. -/
noncomputable def meanCons (l : List (Cons ℝ)) : Cons ℝ :=
  let m (f : Cons ℝ → ℝ) := (l.map f).sum / l.length
  ⟨m Cons.rho, m Cons.e, m Cons.ru, m Cons.rv, m Cons.rw⟩

/-- What patches are filled from; `bval` are the values beyond the boundary. -/
noncomputable def gasSource (U : Oct d → (Fin d → ℕ) → Cons ℝ) (bval : CellIndex d → Cons ℝ) : Source d (Cons ℝ) :=
  ⟨U, bval, meanCons⟩

/-! ### Specification -/

/-- Sizes of a cell, as the kernel of the time step reads them. -/
noncomputable def sizes (D : Domain d) (G : Grid d) (b : Fin d → ℕ) (o : Oct d) (x : Fin d → ℕ) (k : Fin 3) : ℝ :=
  if h : k.val < d then (cellSize D (cellGrid G b) (cellOct b o x) ⟨k, h⟩ : ℚ) else 1

/-- A gas above the floors of the solver. -/
def Gas (P : Params) (d : ℕ) (u : Cons ℝ) : Prop :=
  P.smallr ≤ u.rho ∧ u.rho * P.smallp ≤ pressure d P.gamma u

/-! ### Proofs -/

variable {P : Params} {G : Grid d} {M : Finset (Oct d)} {b : Fin d → ℕ}

theorem toPrim_rho (u : Cons ℝ) : (massScheme P d).toPrim u 0 = u.rho := rfl

theorem toPrim_p (hd : d = 2 ∨ d = 3) {u : Cons ℝ} (hu : u.rho ≠ 0) :
    (massScheme P d).toPrim u 1 = pressure d P.gamma u := by
  show (consToPrim d P.gamma (getCons d u)).p = _
  unfold consToPrim getCons pressure kinetic
  simp only
  rcases hd with rfl | rfl
  · simp only [if_neg (show ¬ (2 : ℕ) = 3 by decide)]
    field_simp
    ring
  · simp only [if_true]
    field_simp

/-- The velocity in a direction. -/
def velIx (j : Fin d) : Fin 5 := Fin.ofNat 5 (2 + j)

theorem toPrim_vel (hd : d = 2 ∨ d = 3) (u : Cons ℝ) (j : Fin d) :
    (massScheme P d).toPrim u (velIx j) = momentum u (Fin.ofNat 3 j) / u.rho := by
  rcases hd with rfl | rfl
  · fin_cases j <;> rfl
  · fin_cases j
    · rfl
    · rfl
    · show (if 3 = 3 then (if 3 = 3 then u.rw else 0) / u.rho else 0 : ℝ) = u.rw / u.rho
      simp

theorem swap_vel (hd : d = 2 ∨ d = 3) (f : Fin 5 → ℝ) (j : Fin d) :
    (swapPrim (Fin.ofNat 3 j) (prim f)).u = f (velIx j) := by
  rcases hd with rfl | rfl <;> fin_cases j <;> rfl

theorem swap_rho (f : Fin 5 → ℝ) (j : Fin 3) : (swapPrim j (prim f)).rho = f 0 := by
  fin_cases j <;> rfl

theorem swap_p (f : Fin 5 → ℝ) (j : Fin 3) : (swapPrim j (prim f)).p = f 1 := by
  fin_cases j <;> rfl

theorem flux_rho (j : Fin d) (l r : Fin 5 → ℝ) : (massScheme P d).flux j l r =
    (hllc P (swapPrim (Fin.ofNat 3 j) (prim l)) (swapPrim (Fin.ofNat 3 j) (prim r))).rho := by
  show (swapCons _ _).rho = _
  generalize (Fin.ofNat 3 (j : ℕ)) = k
  fin_cases k <;> rfl

/-- A reconstructed state, before the floor. -/
theorem faceOf_atFace {s : ℤ} (hs : s = 1 ∨ s = -1) (qc qn w : Fin 5 → ℝ) {h : ℝ} (hh : 1 / 2 ≤ h) (i : Fin 5) :
    ∃ v, AtFace (qc i) (qn i) (w i) h v ∧
      faceOf (massScheme P d) s qc qn w h i = if i = 0 then max v P.smallr else v := by
  rcases hs with rfl | rfl
  · refine ⟨_, atFace_right hh, ?_⟩
    unfold faceOf reconstruct slope
    rw [if_pos rfl]
    show (if i = 0 then _ else _) = _
    split
    · rename_i h; subst h; rfl
    · rfl
  · refine ⟨_, atFace_left hh, ?_⟩
    unfold faceOf reconstruct slope
    rw [if_neg (by decide)]
    show (if i = 0 then _ else _) = _
    split
    · rename_i h; subst h; rfl
    · rfl

/-- What leaves a cell through a face with a neighbour, on either side. -/
theorem outflow_le (hP : P.Ok) (hd : d = 2 ∨ d = 3) (j : Fin d) {s : ℤ} (hs : s = 1 ∨ s = -1)
    (qc qn w w' : Fin 5 → ℝ) {h h' m : ℝ} (hh : 1 / 2 ≤ h) (hh' : 1 / 2 ≤ h')
    (hsum : 1 / (2 * h) + 1 / (2 * h') = 1) (hw : 0 ≤ w 0) (hρ : P.smallr ≤ qc 0) (hp : qc 0 * P.smallp ≤ qc 1)
    (hm : |qc (velIx j)| ≤ m) (hn : |qn (velIx j)| ≤ m) :
    s * orient (massScheme P d) j s (faceOf (massScheme P d) s qc qn w h)
        (faceOf (massScheme P d) (-s) qn qc w' h') ≤
      3 / 2 * qc 0 * (m + √(P.gamma * qc 1 / qc 0)) := by
  have hs' : -s = 1 ∨ -s = -1 := by omega
  have hρ0 : 0 < qc 0 := hP.smallr.trans_le hρ
  obtain ⟨vr, fr, er⟩ := faceOf_atFace (P := P) (d := d) hs qc qn w hh 0
  obtain ⟨vp, fp, ep⟩ := faceOf_atFace (P := P) (d := d) hs qc qn w hh 1
  obtain ⟨vu, fu, eu⟩ := faceOf_atFace (P := P) (d := d) hs qc qn w hh (velIx j)
  obtain ⟨np, gp, fp'⟩ := faceOf_atFace (P := P) (d := d) hs' qn qc w' hh' 1
  obtain ⟨nu, gu, fu'⟩ := faceOf_atFace (P := P) (d := d) hs' qn qc w' hh' (velIx j)
  have hv : velIx j ≠ 0 := by
    rcases hd with rfl | rfl <;> fin_cases j <;> decide
  rw [if_pos rfl] at er
  rw [if_neg (by decide)] at ep fp'
  rw [if_neg hv] at eu fu'
  generalize faceOf (massScheme P d) s qc qn w h = a at *
  generalize faceOf (massScheme P d) (-s) qn qc w' h' = c at *
  set A := swapPrim (Fin.ofNat 3 j) (prim a) with hA
  set C := swapPrim (Fin.ofNat 3 j) (prim c) with hC
  have hRA : sideR P A ≤ 3 / 2 * qc 0 := by
    unfold sideR
    rw [hA, swap_rho, er]
    have := fr.bound hw hρ0.le
    exact max_le (max_le this (by linarith)) (by linarith)
  have hR0 := sideR_pos hP A
  have hu1 : |a (velIx j)| ≤ m := by
    rw [eu]; exact fu.abs_le.trans (max_le hm hn)
  have hu2 : |c (velIx j)| ≤ m := by
    rw [fu']; exact gu.abs_le.trans (max_le hn hm)
  have hm0 : 0 ≤ m := (abs_nonneg _).trans hm
  have hpress : max (sideP P A - sideP P C) 0 / cfast P A ≤ 3 / 2 * qc 0 * √(P.gamma * qc 1 / qc 0) := by
    have hc := cfast_pos hP A
    rcases le_or_gt (sideP P A) (sideP P C) with hle | hlt
    · rw [max_eq_right (by linarith), zero_div]
      exact mul_nonneg (by linarith) (Real.sqrt_nonneg _)
    · rw [max_eq_left (by linarith)]
      have hX : sideP P A ≤ 3 / 2 * qc 1 := by
        have hfl : sideR P A * P.smallp ≤ 3 / 2 * qc 1 := by
          have := mul_le_mul_of_nonneg_right hRA hP.smallp.le
          linarith
        have hpA : A.p = vp := by rw [hA, swap_p, ep]
        have hpC : C.p = np := by rw [hC, swap_p, fp']
        rcases le_total A.p (sideR P A * P.smallp) with h | h
        · unfold sideP
          rw [max_eq_right h]
          exact hfl
        · have hlt' : np < vp := by
            have h1 : np ≤ sideP P C := by rw [← hpC]; exact le_max_left _ _
            have h2 : sideP P A = vp := by unfold sideP; rw [max_eq_left h, hpA]
            linarith
          have := fp.order hsum gp hlt'
          have h2 : sideP P A = vp := by unfold sideP; rw [max_eq_left h, hpA]
          have hp0 : 0 < qc 1 := (mul_pos hρ0 hP.smallp).trans_le hp
          linarith
      have hpos := sideP_pos hP C
      refine le_trans ?_ (pressure_part hP hρ hp A hRA hX)
      exact div_le_div_of_nonneg_right (by linarith) hc.le
  have hmass : ∀ t : ℝ, t ≤ m → sideR P A * max t 0 ≤ 3 / 2 * qc 0 * m := fun t ht =>
    mul_le_mul hRA (max_le ht hm0) (le_max_right _ _) (by linarith)
  have hA1 : A.u = a (velIx j) := swap_vel hd a j
  have hC1 : C.u = c (velIx j) := swap_vel hd c j
  have b1 := abs_le.1 hu1
  have b2 := abs_le.1 hu2
  rcases hs with rfl | rfl
  · unfold orient
    rw [if_pos rfl, flux_rho, Int.cast_one, one_mul]
    have h1 := mass_le hP A C
    have h2 := hmass (max A.u C.u) (by rw [hA1, hC1]; exact max_le (by linarith) (by linarith))
    linarith
  · unfold orient
    rw [if_neg (by decide), flux_rho]
    have h1 := neg_mass_le hP C A
    have h2 := hmass (max (-A.u) (-C.u)) (by rw [hA1, hC1]; exact max_le (by linarith) (by linarith))
    push_cast
    linarith

theorem meanCons_rho {l : List (Cons ℝ)} (h : ∀ u ∈ l, 0 ≤ u.rho) : 0 ≤ (meanCons l).rho := by
  refine div_nonneg (List.sum_nonneg fun x hx => ?_) (Nat.cast_nonneg _)
  obtain ⟨u, hu, rfl⟩ := List.mem_map.1 hx
  exact h u hu

/-- Densities in a patch are not negative. -/
theorem patch_rho (hG : G.Pos) (hM : Tiling G M) (hB : Balanced G M) (hper : ∀ k, G.periodic k = true)
    (hb : ∀ k, 4 ≤ b k ∧ 2 ∣ b k) {U : Oct d → (Fin d → ℕ) → Cons ℝ} {bval : CellIndex d → Cons ℝ}
    (hU : ∀ o ∈ M, ∀ x : Fin d → ℕ, (∀ k, x k < b k) → 0 ≤ (U o x).rho) {o : Oct d} (ho : o ∈ M) {y : Fin d → ℕ}
    (hy : ∀ k, y k < b k + 2 * 2) {v : Cons ℝ} (hv : patchVal (gasSource U bval) G M b o y = some v) :
    0 ≤ v.rho := by
  have hb0 : ∀ k, 0 < b k := fun k => by have := (hb k).1; omega
  have hin : InDomain (cellGrid G b) o.level (patchPos b (fun _ => 2) o y) := inDomain_periodic hper b _ _
  obtain ⟨r, P, h1, h2, h3, h4, h5, h6⟩ := C24_ghost_partial hG hM hB ho hb0 (g := fun _ => 2)
    (fun k => by have := (hb k).1; omega) (fun _ _ _ _ k => ⟨by have := (hb k).1; omega, (hb k).2⟩) hy hin
  have hbd : r.status ≠ .boundary := by
    rcases h6 with ⟨st | st, -⟩ | ⟨st, -⟩ | ⟨st, -⟩ <;> rw [st] <;> decide
  unfold patchVal at hv
  rw [h1, Option.bind_some, if_neg hbd] at hv
  by_cases hl : r.levelDiff ≥ 0
  · rw [if_pos hl] at hv
    rw [← Option.some.inj hv]
    exact hU _ h2 _ h3
  · rw [if_neg hl] at hv
    rcases h6 with ⟨st, -⟩ | ⟨st, -⟩ | ⟨st, e⟩
    · exfalso; apply hl; unfold CellIndex.levelDiff; rcases st with st | st <;> rw [st] <;> decide
    · exfalso; apply hl; unfold CellIndex.levelDiff; rw [st]; decide
    · obtain ⟨rs, e1, e2, -⟩ := C25_siblings hG hM hB true r h2 (by rw [h4]; exact h3)
        (fun k => by rw [h4, e]; exact ⟨P k, rfl⟩) (Or.inl fun k => by rw [h4]; exact (hb k).2)
      have : (rs.map some).mapM id = some rs := by
        clear e1 e2
        induction rs with
        | nil => rfl
        | cons a l ih =>
          rw [List.map_cons, List.mapM_cons, ih]
          rfl
      rw [e1, this, Option.map_some] at hv
      rw [← Option.some.inj hv]
      refine meanCons_rho fun u hu => ?_
      obtain ⟨n, hn, rfl⟩ := List.mem_map.1 hu
      obtain ⟨a1, a2⟩ := e2 n hn
      exact hU _ a1 _ (by rw [h4] at a2; exact a2)

theorem beyond_rho (hG : G.Pos) (hM : Tiling G M) (hB : Balanced G M) (hper : ∀ k, G.periodic k = true)
    (hb : ∀ k, 4 ≤ b k ∧ 2 ∣ b k) {U : Oct d → (Fin d → ℕ) → Cons ℝ} {bval : CellIndex d → Cons ℝ}
    (hU : ∀ o ∈ M, ∀ x : Fin d → ℕ, (∀ k, x k < b k) → 0 ≤ (U o x).rho) {o : Oct d} (ho : o ∈ M) {x : Fin d → ℕ}
    (j : Fin d) (t : ℤ) : 0 ≤ beyond (massScheme P d) (gasSource U bval) G M b o x j t 0 := by
  unfold beyond
  cases hn : nextTo (gasSource U bval) G M b o x j t with
  | none => exact le_refl _
  | some u =>
    show 0 ≤ (massScheme P d).toPrim u 0
    rw [toPrim_rho]
    unfold nextTo patchRead at hn
    obtain ⟨y, hy, hu⟩ := Option.bind_eq_some_iff.1 hn
    refine patch_rho hG hM hB hper hb hU ho (y := y) ?_ hu
    unfold inBlock at hy
    split at hy
    · rename_i h
      rw [← Option.some.inj hy]
      intro k
      have := h k
      simp only at this ⊢
      push_cast at this
      omega
    · cases hy

theorem dist_facts {a c : ℕ} (h1 : a ≤ c + 1) (h2 : c ≤ a + 1) :
    (1 : ℝ) / 2 ≤ dist a c ∧ (1 : ℝ) / (2 * dist a c) + 1 / (2 * dist c a) = 1 := by
  unfold dist
  rcases lt_trichotomy a c with h | h | h
  · rw [if_neg (by omega), if_neg (by omega), if_neg (by omega), if_pos (by omega)]
    norm_num
  · subst h
    simp only [if_true]
    norm_num
  · rw [if_neg (by omega), if_pos (by omega), if_neg (by omega), if_neg (by omega)]
    norm_num

/-- The rate that limits the time step is a sum over the directions of the mesh. -/
theorem courant_eq (hd : d = 2 ∨ d = 3) (D : Domain d) (u : Cons ℝ) (o : Oct d) (x : Fin d → ℕ) :
    courant d P.gamma (u, sizes D G b o x) =
      ∑ j : Fin d, (|momentum u (Fin.ofNat 3 j) / u.rho| + soundSpeed d P.gamma u) /
        (cellSize D (cellGrid G b) (cellOct b o x) j : ℚ) := by
  unfold courant sizes
  rcases hd with rfl | rfl
  · rw [Fin.sum_univ_two, show Finset.univ.filter (fun k : Fin 3 => k.val < 2) = {0, 1} by decide,
      Finset.sum_pair (by decide)]
    rfl
  · rw [Fin.sum_univ_three, show Finset.univ.filter (fun k : Fin 3 => k.val < 3) = {0, 1, 2} by decide,
      Finset.sum_insert (by decide), Finset.sum_pair (by decide), ← add_assoc]
    rfl

theorem size_le (hG : G.Pos) {D : Domain d} (hD : Domain.Ok D) {c q : Oct d} (hq : G.lmin ≤ q.level)
    (hl : c.level ≤ q.level + 1) (j : Fin d) : cellSize D G q j ≤ 2 * cellSize D G c j := by
  have hL : 0 < D.xmax j - D.xmin j := sub_pos.2 (hD j)
  rw [cellSize_eq, cellSize_eq]
  have h1 : 0 < G.count j c.level := count_pos hG j _
  have h2 : 0 < G.count j q.level := count_pos hG j _
  have h3 : G.count j c.level ≤ 2 * G.count j q.level := by
    have e := count_add G j 1 hq
    rw [pow_one] at e
    have : G.count j c.level ≤ G.count j (q.level + 1) := by
      unfold Grid.count
      exact Nat.mul_le_mul_left _ (Nat.pow_le_pow_right (by norm_num) (by omega))
    omega
  rw [← mul_div_assoc, div_le_div_iff₀ (by exact_mod_cast h2) (by exact_mod_cast h1)]
  have h4 : (G.count j c.level : ℚ) ≤ 2 * G.count j q.level := by exact_mod_cast h3
  nlinarith

/-- What leaves a cell through one of its sides. -/
theorem side_le (hP : P.Ok) (hG : G.Pos) (hM : Tiling G M) (hB : Balanced G M) (hd : d = 2 ∨ d = 3)
    (hper : ∀ k, G.periodic k = true) {D : Domain d} (hD : Domain.Ok D) (hb : ∀ k, 4 ≤ b k ∧ 2 ∣ b k)
    {U : Oct d → (Fin d → ℕ) → Cons ℝ} {bval : CellIndex d → Cons ℝ}
    (hU : ∀ o ∈ M, ∀ x : Fin d → ℕ, (∀ k, x k < b k) → Gas P d (U o x)) {o : Oct d} (ho : o ∈ M)
    {x : Fin d → ℕ} (hx : ∀ k, x k < b k) (j : Fin d) {s : ℤ} (hs : s = 1 ∨ s = -1) {m : ℝ}
    (hm : ∀ o' ∈ M, ∀ x' : Fin d → ℕ, (∀ k, x' k < b k) → o.level ≤ o'.level + 1 →
      |momentum (U o' x') (Fin.ofNat 3 j) / (U o' x').rho| ≤ m) :
    s * sideSum D G M b (pairFlux (massScheme P d) (gasSource U bval) G M b)
        (boundaryFlux (massScheme P d) (gasSource U bval) G M b) j s o x ≤
      (faceArea D (cellGrid G b) j (cellOct b o x) : ℚ) *
        (3 / 2 * (U o x).rho * (m + soundSpeed d P.gamma (U o x))) := by
  have hb0 : ∀ k, 0 < b k := fun k => by have := (hb k).1; omega
  have hG' := cellGrid_pos hG hb0
  have hB' := cellMesh_balanced hG hb0 hB
  have hin : ¬ OnBoundary G b o x j s := not_not.2 (inDomain_periodic hper b _ _)
  have hcm : cellOct b o x ∈ cellMesh b M := mem_cellMesh.2 ⟨_, ho, _, hx, rfl⟩
  have hρU : ∀ o ∈ M, ∀ x : Fin d → ℕ, (∀ k, x k < b k) → 0 < (U o x).rho := fun o ho x hx =>
    hP.smallr.trans_le (hU o ho x hx).1
  unfold sideSum
  rw [if_neg hin, add_zero,
    ← sum_area hG hM hB hD ho hx j hs hin, Rat.cast_sum, Finset.sum_mul, Finset.mul_sum]
  refine Finset.sum_le_sum fun q hq => ?_
  have hqm := (mem_nbrs.1 hq).1
  obtain ⟨l1, l2⟩ := nbrs_level hG' hB' hcm hq
  obtain ⟨o', ho', x', hx', rfl⟩ := mem_cellMesh.1 hqm
  have ha : (0 : ℝ) ≤ (area D (cellGrid G b) j (cellOct b o x) (cellOct b o' x') : ℚ) := by
    exact_mod_cast (area_pos hG' hD j _ _).le
  obtain ⟨d1, d3⟩ := dist_facts l1 l2
  obtain ⟨d2, -⟩ := dist_facts l2 l1
  have hg := hU o ho x hx
  have hne := (hρU o ho x hx).ne'
  have key := outflow_le (m := m) hP hd j hs ((massScheme P d).toPrim (U o x)) ((massScheme P d).toPrim (U o' x'))
    (beyond (massScheme P d) (gasSource U bval) G M b o x j (-s))
    (beyond (massScheme P d) (gasSource U bval) G M b o' x' j s) d1 d2 d3
    (beyond_rho hG hM hB hper hb (fun o ho x hx => (hρU o ho x hx).le) ho j (-s)) hg.1
    (by rw [toPrim_p hd hne]; exact hg.2)
    (by rw [toPrim_vel hd]; exact hm o ho x hx (by omega))
    (by rw [toPrim_vel hd]; exact hm o' ho' x' hx' l1)
  rw [toPrim_p hd hne] at key
  rw [mul_left_comm]
  refine mul_le_mul_of_nonneg_left ?_ ha
  have e : (if s = 1 then pairFlux (massScheme P d) (gasSource U bval) G M b j (cellOct b o x) (cellOct b o' x')
      else pairFlux (massScheme P d) (gasSource U bval) G M b j (cellOct b o' x') (cellOct b o x)) =
      orient (massScheme P d) j s
        (faceOf (massScheme P d) s ((massScheme P d).toPrim (U o x)) ((massScheme P d).toPrim (U o' x'))
          (beyond (massScheme P d) (gasSource U bval) G M b o x j (-s))
          (dist (cellOct b o x).level (cellOct b o' x').level))
        (faceOf (massScheme P d) (-s) ((massScheme P d).toPrim (U o' x')) ((massScheme P d).toPrim (U o x))
          (beyond (massScheme P d) (gasSource U bval) G M b o' x' j s)
          (dist (cellOct b o' x').level (cellOct b o x).level)) := by
    unfold orient pairFlux faceState
    rw [unbox_cell ho hx, unbox_cell ho' hx']
    rcases hs with rfl | rfl
    · rfl
    · rfl
  rw [e]
  exact key

/-! ### Theorems -/

/-- **C86** One step of `HydroUpdate_euler` takes at most `(6 d + 3) cfl` of the mass of a cell, on any mesh of a
periodic domain, if the time step meets the bound of `Compute_dt_hydro.cpp` in every cell. With
`cfl < 1 / (6 d + 3)` densities stay positive. Missing: values of `cfl` above (`C86_default_fails`), gravity,
other boundaries. -/
theorem C86_density_partial (hP : P.Ok) (hG : G.Pos) (hM : Tiling G M) (hB : Balanced G M) (hd : d = 2 ∨ d = 3)
    (hper : ∀ k, G.periodic k = true) {D : Domain d} (hD : Domain.Ok D) (hb : ∀ k, 4 ≤ b k ∧ 2 ∣ b k)
    (U : Oct d → (Fin d → ℕ) → Cons ℝ) (bval : CellIndex d → Cons ℝ)
    (hU : ∀ o ∈ M, ∀ x : Fin d → ℕ, (∀ k, x k < b k) → Gas P d (U o x)) {dt cfl : ℝ} (hdt : 0 < dt)
    (hc : ∀ o ∈ M, ∀ x : Fin d → ℕ, (∀ k, x k < b k) →
      dt ≤ cfl / courant d P.gamma (U o x, sizes D G b o x))
    {o : Oct d} (ho : o ∈ M) {x : Fin d → ℕ} (hx : ∀ k, x k < b k) :
    ∃ ρ, updateCell (massScheme P d) (gasSource U bval) D G M b dt (U o x).rho o x = some ρ ∧
      (1 - (6 * d + 3) * cfl) * (U o x).rho ≤ ρ := by
  have hb0 : ∀ k, 0 < b k := fun k => by have := (hb k).1; omega
  have hG' := cellGrid_pos hG hb0
  have hsz : ∀ o' (x' : Fin d → ℕ) (j : Fin d),
      (0 : ℝ) < (cellSize D (cellGrid G b) (cellOct b o' x') j : ℚ) := fun o' x' j => by
    exact_mod_cast cellSize_pos hG' hD _ j
  have hρ : 0 < (U o x).rho := hP.smallr.trans_le (hU o ho x hx).1
  have hcs : ∀ u : Cons ℝ, 0 ≤ soundSpeed d P.gamma u := fun u => Real.sqrt_nonneg _
  -- the bound on the time step, as a sum
  have hrate : ∀ o' ∈ M, ∀ x' : Fin d → ℕ, (∀ k, x' k < b k) →
      dt * ∑ j : Fin d, (|momentum (U o' x') (Fin.ofNat 3 j) / (U o' x').rho| + soundSpeed d P.gamma (U o' x')) /
        (cellSize D (cellGrid G b) (cellOct b o' x') j : ℚ) ≤ cfl := by
    intro o' ho' x' hx'
    have h := hc o' ho' x' hx'
    have hg := hU o' ho' x' hx'
    have h1 : 0 < (U o' x').rho := hP.smallr.trans_le hg.1
    have h2 : 0 < pressure d P.gamma (U o' x') := (mul_pos h1 hP.smallp).trans_le hg.2
    have hcs0 : 0 < soundSpeed d P.gamma (U o' x') :=
      Real.sqrt_pos.2 (div_pos (mul_pos (by linarith [hP.gamma]) h2) h1)
    rw [courant_eq hd] at h
    rwa [le_div_iff₀] at h
    refine Finset.sum_pos (fun j _ => div_pos (add_pos_of_nonneg_of_pos (abs_nonneg _) hcs0) (hsz _ _ j)) ?_
    exact ⟨⟨0, by omega⟩, Finset.mem_univ _⟩
  have hterm : ∀ o' (x' : Fin d → ℕ) (j : Fin d), 0 ≤ (|momentum (U o' x') (Fin.ofNat 3 j) / (U o' x').rho| +
      soundSpeed d P.gamma (U o' x')) / (cellSize D (cellGrid G b) (cellOct b o' x') j : ℚ) := fun o' x' j =>
    div_nonneg (add_nonneg (abs_nonneg _) (hcs _)) (hsz _ _ j).le
  -- speeds of the cell and its neighbours
  have hspeed : ∀ j : Fin d, ∀ o' ∈ M, ∀ x' : Fin d → ℕ, (∀ k, x' k < b k) → o.level ≤ o'.level + 1 →
      |momentum (U o' x') (Fin.ofNat 3 j) / (U o' x').rho| ≤
        2 * cfl * (cellSize D (cellGrid G b) (cellOct b o x) j : ℚ) / dt := by
    intro j o' ho' x' hx' hl
    have h1 := hrate o' ho' x' hx'
    have h2 := Finset.single_le_sum (fun i _ => hterm o' x' i) (Finset.mem_univ j)
    have h3 := mul_le_mul_of_nonneg_left h2 hdt.le
    have h4 := hsz o' x' j
    have h5 : (cellSize D (cellGrid G b) (cellOct b o' x') j : ℝ) ≤
        2 * (cellSize D (cellGrid G b) (cellOct b o x) j : ℚ) := by
      exact_mod_cast size_le hG' hD (c := cellOct b o x) (q := cellOct b o' x') (hM.valid _ ho').1 hl j
    have h6 : dt * ((|momentum (U o' x') (Fin.ofNat 3 j) / (U o' x').rho| + soundSpeed d P.gamma (U o' x')) /
        (cellSize D (cellGrid G b) (cellOct b o' x') j : ℚ)) ≤ cfl := h3.trans h1
    rw [mul_div_assoc', div_le_iff₀ h4] at h6
    rw [le_div_iff₀ hdt]
    have hc0 : 0 ≤ cfl := (mul_nonneg hdt.le (Finset.sum_nonneg fun i _ => hterm o' x' i)).trans h1
    have h7 := mul_le_mul_of_nonneg_left h5 hc0
    have h8 := mul_nonneg hdt.le (hcs (U o' x'))
    nlinarith
  obtain ⟨ρ, e1, e2⟩ := updateCell_eq hG hM hB hd hD hb (massScheme P d) rfl (gasSource U bval) ho hx dt (U o x).rho
  refine ⟨ρ, e1, ?_⟩
  have hv : (0 : ℝ) < (volume D (cellGrid G b) (cellOct b o x) : ℚ) := by
    exact_mod_cast volume_pos hG' hD _
  refine le_of_mul_le_mul_left ?_ hv
  rw [e2]
  set vol : ℝ := ((volume D (cellGrid G b) (cellOct b o x) : ℚ) : ℝ) with hvol
  set cs := soundSpeed d P.gamma (U o x) with hcsd
  have hdir : ∀ j : Fin d,
      dt * (sideSum D G M b (pairFlux (massScheme P d) (gasSource U bval) G M b)
          (boundaryFlux (massScheme P d) (gasSource U bval) G M b) j 1 o x -
        sideSum D G M b (pairFlux (massScheme P d) (gasSource U bval) G M b)
          (boundaryFlux (massScheme P d) (gasSource U bval) G M b) j (-1) o x) ≤
      vol * (3 * (U o x).rho) * (2 * cfl + dt * (cs / (cellSize D (cellGrid G b) (cellOct b o x) j : ℚ))) := by
    intro j
    have h1 := side_le hP hG hM hB hd hper hD hb hU (bval := bval) ho hx j (Or.inl rfl) (hspeed j)
    have h2 := side_le hP hG hM hB hd hper hD hb hU (bval := bval) ho hx j (s := -1) (Or.inr rfl) (hspeed j)
    push_cast at h1 h2
    have hf : ((faceArea D (cellGrid G b) j (cellOct b o x) : ℚ) : ℝ) *
        (cellSize D (cellGrid G b) (cellOct b o x) j : ℚ) = vol := by
      rw [hvol, ← faceArea_mul (G := cellGrid G b) D (cellOct b o x) j]
      push_cast
      rfl
    have hs := hsz o x j
    have h3 := mul_le_mul_of_nonneg_left (add_le_add h1 h2) hdt.le
    refine le_trans (le_of_eq (by ring)) (h3.trans (le_of_eq ?_))
    rw [← hf]
    field_simp
    ring
  have hsum : dt * ∑ j, (sideSum D G M b (pairFlux (massScheme P d) (gasSource U bval) G M b)
          (boundaryFlux (massScheme P d) (gasSource U bval) G M b) j 1 o x -
        sideSum D G M b (pairFlux (massScheme P d) (gasSource U bval) G M b)
          (boundaryFlux (massScheme P d) (gasSource U bval) G M b) j (-1) o x) ≤
      vol * (3 * (U o x).rho) * (2 * d * cfl + cfl) := by
    rw [Finset.mul_sum]
    refine (Finset.sum_le_sum fun j _ => hdir j).trans ?_
    rw [← Finset.mul_sum, Finset.sum_add_distrib, Finset.sum_const, Finset.card_univ, Fintype.card_fin, nsmul_eq_mul,
      ← Finset.mul_sum]
    have h1 : dt * ∑ j : Fin d, cs / (cellSize D (cellGrid G b) (cellOct b o x) j : ℚ) ≤ cfl := by
      refine le_trans (mul_le_mul_of_nonneg_left (Finset.sum_le_sum fun j _ => ?_) hdt.le) (hrate o ho x hx)
      exact div_le_div_of_nonneg_right (by linarith [abs_nonneg (momentum (U o x) (Fin.ofNat 3 j) / (U o x).rho)])
        (hsz o x j).le
    refine mul_le_mul_of_nonneg_left ?_ (by positivity)
    linarith
  nlinarith

end Verif.Hydro.Euler
