import Verif.Flux.Area

/-!
# Balance of fluxes over a mesh

A general statement about flux-difference updates of the cells of a mesh, used for the hydro updates and
for heat conduction.
-/

namespace Verif.Flux

open Verif.Octree Verif.Cells

variable {d : ℕ} {K : Type} [Field K] {G : Grid d} {M : Finset (Oct d)} {b : Fin d → ℕ}

open Classical in
/-- What leaves the domain through its boundary per unit of time. -/
noncomputable def outflow (D : Domain d) (G : Grid d) (M : Finset (Oct d)) (b : Fin d → ℕ)
    (bflux : Oct d → (Fin d → ℕ) → Fin d → ℤ → K) : K :=
  cellSum b M fun o x => ∑ j,
    ((if OnBoundary G b o x j 1 then (faceArea D (cellGrid G b) j (cellOct b o x) : K) * bflux o x j 1
      else 0) -
    if OnBoundary G b o x j (-1) then (faceArea D (cellGrid G b) j (cellOct b o x) : K) *
      bflux o x j (-1) else 0)

/-- Without boundaries nothing leaves. -/
theorem outflow_periodic (hper : ∀ k, G.periodic k = true) (D : Domain d)
    (bflux : Oct d → (Fin d → ℕ) → Fin d → ℤ → K) : outflow D G M b bflux = 0 := by
  unfold outflow
  refine Finset.sum_eq_zero fun o _ => Finset.sum_eq_zero fun x _ => Finset.sum_eq_zero fun j _ => ?_
  have h : ∀ s, ¬ OnBoundary G b o x j s := fun s => not_not.2 (inDomain_periodic hper b _ _)
  rw [if_neg (h 1), if_neg (h (-1)), sub_zero]

open Classical in
/-- The flux through one side of a cell, for a flux `F j c q` from a cell `c` to its upper neighbour `q`. -/
noncomputable def sideSum (D : Domain d) (G : Grid d) (M : Finset (Oct d)) (b : Fin d → ℕ)
    (F : Fin d → Oct d → Oct d → K) (bflux : Oct d → (Fin d → ℕ) → Fin d → ℤ → K) (j : Fin d) (s : ℤ)
    (o : Oct d) (x : Fin d → ℕ) : K :=
  (∑ q ∈ nbrs (cellGrid G b) (cellMesh b M) (cellOct b o x) j s,
    (area D (cellGrid G b) j (cellOct b o x) q : K) *
      if s = 1 then F j (cellOct b o x) q else F j q (cellOct b o x)) +
  if OnBoundary G b o x j s then (faceArea D (cellGrid G b) j (cellOct b o x) : K) * bflux o x j s
  else 0

/-- What is exchanged between cells cancels in the sum over the mesh. -/
theorem sum_sideSum (hG : G.Pos) (hM : Tiling G M) (hb : ∀ k, 0 < b k) (D : Domain d)
    (F : Fin d → Oct d → Oct d → K) (bflux : Oct d → (Fin d → ℕ) → Fin d → ℤ → K) :
    cellSum b M (fun o x => ∑ j, (sideSum D G M b F bflux j 1 o x - sideSum D G M b F bflux j (-1) o x)) =
      outflow D G M b bflux := by
  have hG' := cellGrid_pos hG hb
  have hM' := cellMesh_tiling hG hb hM
  unfold outflow
  rw [cellSum_comm, cellSum_comm]
  refine Finset.sum_congr rfl fun j _ => ?_
  rw [cellSum_sub, cellSum_sub]
  unfold sideSum
  rw [cellSum_add, cellSum_add]
  have key := sum_faces hG' hM' j fun c q => (area D (cellGrid G b) j c q : K) * F j c q
  have e1 := cellSum_box (M := M) b fun c => ∑ q ∈ nbrs (cellGrid G b) (cellMesh b M) c j 1,
        (area D (cellGrid G b) j c q : K) * F j c q
  have e2 : cellSum b M (fun o x => ∑ q ∈ nbrs (cellGrid G b) (cellMesh b M) (cellOct b o x) j (-1),
      (area D (cellGrid G b) j (cellOct b o x) q : K) * F j q (cellOct b o x)) =
      ∑ c ∈ cellMesh b M, ∑ q ∈ nbrs (cellGrid G b) (cellMesh b M) c j (-1),
        (area D (cellGrid G b) j q c : K) * F j q c := by
    rw [← cellSum_box b fun c => ∑ q ∈ nbrs (cellGrid G b) (cellMesh b M) c j (-1),
        (area D (cellGrid G b) j q c : K) * F j q c]
    refine cellSum_congr fun o _ x _ => Finset.sum_congr rfl fun q _ => ?_
    rw [area_symm]
  simp only [if_neg (show ¬ (-1 : ℤ) = 1 by decide), if_true]
  rw [e1, e2, key]
  ring

/-- An update by the difference of the fluxes through the sides of each cell changes the total by what
leaves the domain. -/
theorem balance (hG : G.Pos) (hM : Tiling G M) (hb : ∀ k, 0 < b k) (D : Domain d)
    (F : Fin d → Oct d → Oct d → K) (bflux : Oct d → (Fin d → ℕ) → Fin d → ℤ → K) (dt : K)
    (update : Oct d → (Fin d → ℕ) → Option K) (U : Oct d → (Fin d → ℕ) → K)
    (h : ∀ o ∈ M, ∀ x : Fin d → ℕ, (∀ k, x k < b k) → ∃ a, update o x = some a ∧
      (volume D (cellGrid G b) (cellOct b o x) : K) * a =
        (volume D (cellGrid G b) (cellOct b o x) : K) * U o x -
          dt * ∑ j, (sideSum D G M b F bflux j 1 o x - sideSum D G M b F bflux j (-1) o x)) :
    ∃ U' : Oct d → (Fin d → ℕ) → K,
      (∀ o ∈ M, ∀ x : Fin d → ℕ, (∀ k, x k < b k) → update o x = some (U' o x)) ∧
      cellSum b M (fun o x => (volume D (cellGrid G b) (cellOct b o x) : K) * U' o x) =
        cellSum b M (fun o x => (volume D (cellGrid G b) (cellOct b o x) : K) * U o x) -
          dt * outflow D G M b bflux := by
  have step : ∀ o (x : Fin d → ℕ), ∃ a, o ∈ M → (∀ k, x k < b k) → update o x = some a ∧
      (volume D (cellGrid G b) (cellOct b o x) : K) * a =
        (volume D (cellGrid G b) (cellOct b o x) : K) * U o x -
          dt * ∑ j, (sideSum D G M b F bflux j 1 o x - sideSum D G M b F bflux j (-1) o x) := by
    intro o x
    by_cases h' : o ∈ M ∧ ∀ k, x k < b k
    · obtain ⟨a, h1⟩ := h o h'.1 x h'.2
      exact ⟨a, fun _ _ => h1⟩
    · exact ⟨0, fun h1 h2 => absurd ⟨h1, h2⟩ h'⟩
  choose U' hU' using step
  refine ⟨U', fun o ho x hx => (hU' o x ho hx).1, ?_⟩
  rw [cellSum_congr fun o ho x hx => (hU' o x ho hx).2, cellSum_sub, cellSum_mul, sum_sideSum hG hM hb]

end Verif.Flux
