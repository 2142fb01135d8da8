import Verif.Sim.BlockRanks

/-!
# C107: the refinement conditions on all ranks

What a cell asks for depends only on its octant and two layers of cells around it, so ranks mark octants as one would on
the whole mesh.
-/

namespace Verif.Sim

open Verif.Octree Verif.Cells Verif.Adapt Verif.Flux Verif.Hydro Verif.Hydro.OneNeighbor Verif.Refine Verif.Remap Verif.Run

variable {d P : ℕ} {K ι ν S : Type}

/-! ### Patches of an octant on a rank -/

section
variable {V : Type} {G : Grid d} {M Mr : Finset (Oct d)} {b : Fin d → ℕ} {o : Oct d} {x : Fin d → ℕ} {I I' : Source d V}

theorem around_mesh (h : Around G M Mr o) : Around G M M o :=
  ⟨h.wf, h.tiling, h.balanced, fun _ h => h, h.sub _ h.mem, fun _ h _ => h⟩

theorem fillPatch_defined (hG : G.Pos) (hM : Tiling G M) (hB : Balanced G M) (ho : o ∈ M) (hb : ∀ k, 4 ≤ b k ∧ 2 ∣ b k)
    (I : Source d V) : fillPatch I G M b o = some () := by
  obtain ⟨l, hl, -⟩ := mapM_both (f := patchVal I G M b o) (f' := patchVal I G M b o)
    (l := loops fun k => List.range (b k + 2 * 2)) fun y hy => by
      obtain ⟨v, hv⟩ := patch_defined (I := I) hG hM hB ho hb (y := y) fun k => by simpa using (mem_loops _ _).1 hy k
      exact ⟨v, hv, hv⟩
  unfold fillPatch
  rw [hl]
  rfl

theorem fillPatch_same (h : Around G M Mr o) (hb : ∀ k, 4 ≤ b k ∧ 2 ∣ b k) :
    fillPatch I G Mr b o = fillPatch I' G M b o := by
  have e : fillPatch I G Mr b o = fillPatch I G M b o := by
    unfold fillPatch
    rw [patches_congr fun z => patchRead_mesh h hb z]
  rw [e, fillPatch_defined h.wf.toPos h.tiling h.balanced (h.sub _ h.mem) hb,
    fillPatch_defined h.wf.toPos h.tiling h.balanced (h.sub _ h.mem) hb]

/-- The cells next to a cell, also across edges and corners: two layers around the octant give them. -/
theorem patchRead_next (h : Around G M Mr o) (hb : ∀ k, 4 ≤ b k ∧ 2 ∣ b k) (hx : ∀ k, x k < b k) {n : ℕ} (hn : 2 ≤ n)
    (hI : SameSource G b n M o I I') {z : Fin d → ℤ} (hz : ∀ k, -1 ≤ z k ∧ z k ≤ 1) :
    patchRead I G Mr b o (fun k => (x k : ℤ) + z k) = patchRead I' G M b o fun k => (x k : ℤ) + z k := by
  rw [patchRead_mesh h hb]
  refine patchRead_values (around_mesh h) hb (t := 1) (by norm_num) hn hI fun k => ?_
  have := hz k
  have := hx k
  push_cast
  omega

end

variable [Field K] [LinearOrder K] {C : Config d K ι ν S} {M Mr : Finset (Oct d)} {o : Oct d} {x : Fin d → ℕ}

/-- The block sizes that a refinement condition needs. Patches with two ghost layers have to lie in the neighbours of an
octant and to have pairs of cells (C24). -/
def Condition.Fits {blk : Fin d → ℕ} : Condition d K ι blk → Prop
  | .secondDerivative .. => ∀ k, 4 ≤ blk k ∧ 2 ∣ blk k
  | _ => True

theorem secondDerivativeCell_congr {V : Type} {G : Grid d} {b : Fin d → ℕ} {I I' : Source d V} (h : Around G M Mr o)
    (hb : ∀ k, 4 ≤ b k ∧ 2 ∣ b k) (hx : ∀ k, x k < b k) (hI : SameSource G b 2 M o I I') (eps : K)
    (prim : List (V → K)) : ∃ v, secondDerivativeCell eps prim I G Mr b o x = some v ∧
      secondDerivativeCell eps prim I' G M b o x = some v := by
  have next : ∀ z : Fin d → ℤ, (∀ k, -1 ≤ z k ∧ z k ≤ 1) → ∃ v, (patchRead I G Mr b o fun k => (x k : ℤ) + z k) = some v ∧
      (patchRead I' G M b o fun k => (x k : ℤ) + z k) = some v := by
    intro z hz
    rw [patchRead_next h hb hx (le_refl 2) hI hz]
    have hz2 : ∀ k, -((2 : ℕ) : ℤ) ≤ (x k : ℤ) + z k ∧ (x k : ℤ) + z k < b k + (2 : ℕ) := fun k => by
      have := hz k; have := hx k; push_cast; omega
    rw [patchRead_eq hz2]
    obtain ⟨v, hv⟩ := patch_defined (I := I') h.wf.toPos h.tiling h.balanced (h.sub _ h.mem) hb
      (y := fun k => ((x k : ℤ) + z k + 2).toNat) fun k => by have := hz2 k; omega
    exact ⟨v, hv, hv⟩
  unfold secondDerivativeCell
  refine mapM_both_map _ fun q _ => mapM_both fun j _ => ?_
  obtain ⟨l, l1, l2⟩ := next (faceOff j (-1)) (faceOff_small j (Or.inr rfl))
  obtain ⟨r, r1, r2⟩ := next (faceOff j 1) (faceOff_small j (Or.inl rfl))
  obtain ⟨c, c1, c2⟩ := next (fun _ => 0) fun _ => by omega
  rw [l1, l2, r1, r2, c1, c2]
  exact ⟨_, rfl, rfl⟩

theorem cellMark_congr (h : Around C.grid M Mr o) (hf : C.condition.Fits) {U U' : Oct d → (Fin d → ℕ) → ι → K}
    (hn : AgreeNear C.grid C.blk Mr o U U') (hw : (∀ k, 4 ≤ C.blk k) → AgreeWithin C.grid C.blk 2 M o U U')
    (hx : ∀ k, x k < C.blk k) : ∃ m, cellMark C Mr U o x = some m ∧ cellMark C M U' o x = some m := by
  unfold cellMark
  cases hc : C.condition with
  | pseudoGradient =>
    obtain ⟨a, a1, a2⟩ := diffMax_congr (q := fun o x => C.rho (U o x)) (q' := fun o x => C.rho (U' o x)) h hx
      ⟨fun y hy => by simp only [hn.1 y hy], fun o' h' y y' hy hy' ht => by simp only [hn.2 o' h' y y' hy hy' ht]⟩
    simp only
    unfold pseudoGradient
    rw [a1, a2]
    exact ⟨_, rfl, rfl⟩
  | mass t t' => simp only [hn.1 x hx]; exact ⟨_, rfl, rfl⟩
  | downflows s q t t' => simp only [hn.1 x hx]; exact ⟨_, rfl, rfl⟩
  | secondDerivative eps prim bval avg =>
    rw [hc] at hf
    have hb : ∀ k, 4 ≤ C.blk k ∧ 2 ∣ C.blk k := hf
    have hw' := hw fun k => (hb k).1
    simp only
    obtain ⟨v, v1, v2⟩ := secondDerivativeCell_congr h hb hx
      (I := ⟨U, fun r => bval (fun y => U r.oct fun k => y k) r, avg⟩)
      (I' := ⟨U', fun r => bval (fun y => U' r.oct fun k => y k) r, avg⟩) ⟨hw', fun r _ hr => by
        show bval _ r = bval _ r
        congr 1
        funext y
        rw [hr]
        exact hw'.1 _ fun k => (y k).2, rfl⟩ eps prim
    rw [fillPatch_defined h.wf.toPos h.tiling h.balanced (h.sub _ h.mem) hb, fillPatch_same h hb
      (I' := ⟨U', fun r => bval (fun y => U' r.oct fun k => y k) r, avg⟩), fillPatch_defined h.wf.toPos h.tiling h.balanced
      (h.sub _ h.mem) hb, v1, v2]
    exact ⟨_, rfl, rfl⟩

theorem marker_congr (h : Around C.grid M Mr o) (hf : C.condition.Fits) {U U' : Oct d → (Fin d → ℕ) → ι → K}
    (hn : AgreeNear C.grid C.blk Mr o U U') (hw : (∀ k, 4 ≤ C.blk k) → AgreeWithin C.grid C.blk 2 M o U U') :
    ∃ m, marker C Mr U o = some m ∧ marker C M U' o = some m := by
  unfold marker
  exact mapM_both_map _ fun x hx => cellMark_congr h hf hn hw (mem_cells.1 hx)

theorem cellMark_three {U : Oct d → (Fin d → ℕ) → ι → K} {m : ℤ} (h : cellMark C M U o x = some m) :
    m = -1 ∨ m = 0 ∨ m = 1 := by
  unfold cellMark at h
  cases hc : C.condition with
  | pseudoGradient =>
    rw [hc] at h
    simp only [pseudoGradient, Option.map_eq_some_iff] at h
    obtain ⟨v, -, rfl⟩ := h
    exact criterion_three _ _ _
  | mass t t' =>
    rw [hc] at h
    simp only [Option.some.injEq] at h
    rw [← h]
    exact massMark_three _ _ _ _
  | downflows s q t t' =>
    rw [hc] at h
    simp only [Option.some.injEq] at h
    rw [← h]
    exact downflowMark_three _ _ _ _ _
  | secondDerivative eps prim bval avg =>
    rw [hc] at h
    simp only [Option.bind_eq_some_iff, Option.map_eq_some_iff] at h
    obtain ⟨-, -, v, -, rfl⟩ := h
    exact criterion_three _ _ _

end Verif.Sim
