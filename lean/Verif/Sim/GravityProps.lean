import Verif.Sim.Gravity

/-!
# C90: gravity does not depend on the ranks
-/

namespace Verif.Sim

open Verif.Octree Verif.Cells Verif.Adapt Verif.Flux Verif.Gravity Verif.Run

variable {d P Q : ℕ} {F : Type} [Field F] [LinearOrder F] [NeZero P] [NeZero Q] {C : Poisson d} {e L : ℕ}
  (hG : C.grid.WF) (hd : 0 < d) (hde : d ≤ e) (h64 : e * L < 64) (hL : C.grid.lmin ≤ L)
  (hT : ∏ i, C.grid.coarse i < 2 ^ 32) (hP : P ≤ ∏ i, C.grid.coarse i) (hQ : Q ≤ ∏ i, C.grid.coarse i)
include hG hd hde h64 hL hT hP

omit hQ in
/-- **C90.** At any time of a run on any number of ranks, whatever the ghosts and new arrays contain: the potential and
the accelerations that the solver leaves in the cells of all ranks are those of the solver on the whole mesh, and it fails
on ranks if and only if it fails there. -/
theorem C90_ranks_solve_the_mesh {mks : List (Oct d → ℤ)} {s : Ranks d P} (h : Reach e L C.grid mks s) {gc : ℕ}
    (hgc : 1 ≤ gc) (eps : F) (n : ℕ) {source : F → Fld d F → Fld d F}
    (hsrc : ∀ m (u v : Fld d F) o x, u o x = v o x → source m u o x = source m v o x) (rho gphi : RFld d P F)
    (g : Fin P → Oct d → (Fin d → ℕ) → Fin d → F) (old : CGRanks d P F) :
    Both (SameGravity s C.blk) (updateGravity C s gc eps n source rho gphi g old)
      (globalGravity C s.mesh eps n source (fun o => rho (owner s.octs o) o) fun o => gphi (owner s.octs o) o) := by
  have hs := (reach_good hG hd hde h64 hL hT hP h).1
  refine gravity_same hG hs hgc eps n hsrc (fun r o ho x _ => ?_) (fun r o ho x _ => ?_) g old
  · rw [owner_eq hs ho]
  · rw [owner_eq hs ho]

include hQ in
/-- **C90.** Two runs with the same markers, on different numbers of ranks, with different load balancing and different
contents of ghosts: if density and old potential are equal in all cells, so are the new potential and the accelerations. -/
theorem C90_independent_of_ranks {mks : List (Oct d → ℤ)} {s : Ranks d P} {t : Ranks d Q} (h : Reach e L C.grid mks s)
    (h' : Reach e L C.grid mks t) {gc gc' : ℕ} (hgc : 1 ≤ gc) (hgc' : 1 ≤ gc') (eps : F) (n : ℕ)
    {source : F → Fld d F → Fld d F}
    (hsrc : ∀ m (u v : Fld d F) o x, u o x = v o x → source m u o x = source m v o x) {rho gphi : RFld d P F}
    {rho' gphi' : RFld d Q F}
    (hrho : ∀ r q o, o ∈ s.octs r → o ∈ t.octs q → ∀ x, (∀ k, x k < C.blk k) → rho r o x = rho' q o x)
    (hphi : ∀ r q o, o ∈ s.octs r → o ∈ t.octs q → ∀ x, (∀ k, x k < C.blk k) → gphi r o x = gphi' q o x)
    (g : Fin P → Oct d → (Fin d → ℕ) → Fin d → F) (old : CGRanks d P F)
    (g' : Fin Q → Oct d → (Fin d → ℕ) → Fin d → F) (old' : CGRanks d Q F) :
    Both (fun u u' => ∀ r q o, o ∈ s.octs r → o ∈ t.octs q → ∀ x, (∀ k, x k < C.blk k) →
        u.1 r o x = u'.1 q o x ∧ u.2 r o x = u'.2 q o x)
      (updateGravity C s gc eps n source rho gphi g old) (updateGravity C t gc' eps n source rho' gphi' g' old') := by
  obtain ⟨hs, ms⟩ := reach_good hG hd hde h64 hL hT hP h
  obtain ⟨ht, mt⟩ := reach_good hG hd hde h64 hL hT hQ h'
  have hm : s.mesh = t.mesh := ms.unique mt
  have h1 := C90_ranks_solve_the_mesh hG hd hde h64 hL hT hP h hgc eps n hsrc rho gphi g old
  have h2 : Both (SameGravity t C.blk) (updateGravity C t gc' eps n source rho' gphi' g' old')
      (globalGravity C s.mesh eps n source (fun o => rho (owner s.octs o) o) fun o => gphi (owner s.octs o) o) := by
    rw [hm]
    refine gravity_same hG ht hgc' eps n hsrc (fun q o ho x hx => ?_) (fun q o ho x hx => ?_) g' old'
    · exact (hrho _ q o (owner_mem _ (show o ∈ s.mesh by rw [hm]; exact mem_mesh ho)) ho x hx).symm
    · exact (hphi _ q o (owner_mem _ (show o ∈ s.mesh by rw [hm]; exact mem_mesh ho)) ho x hx).symm
  rcases h1 with ⟨u, v, e1, e2, e3, e4⟩ | ⟨e1, e2⟩ <;> rcases h2 with ⟨u', v', k1, k2, k3, k4⟩ | ⟨k1, k2⟩
  · rw [e2] at k2
    cases k2
    refine Or.inl ⟨u, u', e1, k1, fun r q o ho ho' x hx => ⟨(e3 r o ho x hx).trans (k3 q o ho' x hx).symm, ?_⟩⟩
    have := (e4 r o ho x hx).trans (k4 q o ho' x hx).symm
    funext j
    exact Option.some.inj (congrFun this j)
  · rw [e2] at k2; cases k2
  · rw [e2] at k2; cases k2
  · exact Or.inr ⟨e1, k1⟩

variable [IsStrictOrderedRing F]

omit hQ in
/-- **C90.** The solver ends on ranks, for the sources of both kinds of runs, and the potential it leaves solves the
equation on the whole mesh to the requested accuracy. The mean density must not be 0 in a cosmological run, which
divides by it. -/
theorem C90_ends (hD : Domain.Ok C.dom) (hb : ∀ k, 0 < C.blk k) {mks : List (Oct d → ℤ)} {s : Ranks d P}
    (h : Reach e L C.grid mks s) {gc : ℕ} (hgc : 1 ≤ gc) (eps : F) {source : F → Fld d F → Fld d F} (rho gphi : RFld d P F)
    (hsrc : (∃ a, source = rhs C.dom C.grid C.blk a) ∨ meanRanks C s rho ≠ 0 ∧ ∃ a, source = rhsCosmo C.dom C.grid C.blk a)
    (g : Fin P → Oct d → (Fin d → ℕ) → Fin d → F) (old : CGRanks d P F) :
    ∃ u, updateGravity C s gc eps (s.mesh.card * (∏ k, C.blk k) + 1) source rho gphi g old = some u ∧
      ∃ A : Fld d F, (∀ o ∈ s.mesh, ∀ x : Fin d → ℕ, (∀ k, x k < C.blk k) →
          matprod C.absorbing (fun o => u.1 (owner s.octs o) o) C.dom C.grid s.mesh C.blk o x = some (A o x)) ∧
        cellSum C.blk s.mesh (fun o x => (source (meanRanks C s rho) (rho (owner s.octs o)) o x - A o x) ^ 2) ≤
          eps ^ 2 * cellSum C.blk s.mesh (fun o x => source (meanRanks C s rho) (rho (owner s.octs o)) o x ^ 2) := by
  have hs := (reach_good hG hd hde h64 hL hT hP h).1
  have hpt : ∀ m (u v : Fld d F) o x, u o x = v o x → source m u o x = source m v o x := by
    intro m u v o x huv
    rcases hsrc with ⟨a, rfl⟩ | ⟨-, a, rfl⟩
    · unfold rhs; rw [huv]
    · unfold rhsCosmo; rw [huv]
  set grho : Fld d F := fun o => rho (owner s.octs o) o with hgr
  have hown : Own s C.blk rho grho := fun r o ho x _ => by simp only [hgr]; rw [owner_eq hs ho]
  have em : meanRanks C s rho = rhoMean C.dom C.grid s.mesh C.blk grho := by
    unfold meanRanks rhoMean
    rw [sumRanks_eq hs (g := fun o x => grho o x * (cellVolume C.dom C.grid C.blk o x : F))
      fun r o ho x hx => by rw [hown r o ho x hx]]
  have hsol : Solvable C.absorbing C.grid s.mesh C.blk (source (meanRanks C s rho) grho) := by
    left
    rw [em]
    rcases hsrc with ⟨a, rfl⟩ | ⟨hm, a, rfl⟩
    · exact (C49_compatible hG.toPos hs.tiling hb hD a a grho).1
    · exact (C49_compatible hG.toPos hs.tiling hb hD a a grho).2 (by rwa [← em])
  obtain ⟨phi, hphi⟩ := C49_terminates hG.toPos hs.tiling hs.balanced hd hD hb C.absorbing hsol
    (fun o => gphi (owner s.octs o) o) eps
  obtain ⟨A, hA1, hA2⟩ := C49_accuracy hG.toPos hs.tiling hs.balanced hD C.absorbing _ _ eps _ hphi
  rcases C90_ranks_solve_the_mesh hG hd hde h64 hL hT hP h hgc eps (s.mesh.card * (∏ k, C.blk k) + 1) hpt rho gphi g old
    with ⟨u, v, e1, e2, e3, -⟩ | ⟨-, e2⟩
  · refine ⟨u, e1, A, fun o ho x hx => ?_, ?_⟩
    · have hv : v.1 = phi := by
        unfold globalGravity at e2
        rw [← em, hphi] at e2
        cases e2; rfl
      rw [← hA1 o ho x hx]
      have hself := around_self hG hs ho
      obtain ⟨a, a1, a2⟩ := matprod_congr (b := C.blk) hself hx (u := fun o => u.1 (owner s.octs o) o) (v := phi)
        (AgreeOn.near (fun o ho x hx => by rw [← hv]; exact e3 _ o (owner_mem _ ho) x hx) ho) C.absorbing C.dom
      rw [a1, a2]
    · have hloc : ∀ o x, source (meanRanks C s rho) (rho (owner s.octs o)) o x = source (meanRanks C s rho) grho o x :=
        fun o x => hpt _ _ _ _ _ rfl
      simp only [hloc]
      exact hA2
  · exfalso
    unfold globalGravity at e2
    rw [← em, hphi] at e2
    cases e2

end Verif.Sim
