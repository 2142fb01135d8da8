import Verif.Sim.SnapshotProps
import Verif.Sim.RestartCheck

/-!
# C106: names of the variables, large meshes, and files that meet the hypotheses
-/

namespace Verif.Sim

open Verif.Octree Verif.Cells Verif.Adapt Verif.Run Verif.Io Verif.Restart

/-! ### Names -/

/-- The value of the parameter for the names `l`. -/
def joinNames : List (List Char) → List Char
  | [] => []
  | [n] => n
  | n :: l => n ++ ',' :: joinNames l

theorem split_name (n cur l : List Char) (hn : ',' ∉ n) : splitNames cur (n ++ l) = splitNames (cur ++ n) l := by
  induction n generalizing cur with
  | nil => simp
  | cons c n ih =>
    simp only [List.mem_cons, not_or] at hn
    rw [List.cons_append, splitNames, if_neg (fun e => hn.1 e.symm), ih _ hn.2]
    simp

/-- **C106**, names: names that are separated by commas only are found. -/
theorem C106_names (l : List (List Char)) (h : ∀ n ∈ l, n ≠ [] ∧ ',' ∉ n) : splitNames [] (joinNames l) = l := by
  induction l with
  | nil => rfl
  | cons n l ih =>
    obtain ⟨h1, h2⟩ := h n (by simp)
    cases l with
    | nil =>
      have := split_name n [] [] h2
      rw [List.append_nil] at this
      rw [joinNames, this]
      simp [splitNames, h1]
    | cons m l =>
      rw [joinNames, split_name n [] _ h2, splitNames, if_pos rfl, ih fun k hk => h k (by simp [hk])]
      · simp
      · simp

/-- **C106**, disagreement: blanks are not removed (as they are from the names of particle attributes, `IOManager_hdf5.cpp` L142-149), so that the
second variable of `rho, rho_vx` is not written. -/
theorem C106_blanks_fail : let fieldOf : String → Option Bool := fun n =>
      if n = "rho" then some false else if n = "rho_vx" then some true else none
    (varNames "rho, rho_vx").filterMap (column fieldOf) = [.field false] ∧
      (varNames "rho,rho_vx").filterMap (column fieldOf) = [.field false, .field true] := by
  decide +kernel

/-! ### Large meshes -/

theorem connectivity_wraps {β ι K : Type} {G : Geometry β} {l : Local β ι K} {N : ℕ} (h3 : G.block.nbNodesPerCell = 8)
    (h1 : l.octs.length * G.block.nbCellsPerOct % 2 ^ 32 = N) (h2 : N * 8 % 2 ^ 32 = 0) (hN : N < 2 ^ 63) :
    connectivityData G [0] [l] = some (List.replicate N (List.replicate 8 0)) := by
  have h : connectivity G.block 0 l.octs.length = List.replicate N (List.replicate 8 0) := by
    unfold connectivity
    rw [h1, h3, h2]
    simp only [Nat.not_lt_zero, if_false, List.map_const', List.length_range]
  have h4 : before ([l].map fun l => l.octs.length) 0 = 0 := rfl
  unfold connectivityData datasetOf
  have e : ([l].zipIdx.mapM fun p => some (connectivity G.block (before ([l].map fun l => l.octs.length) p.2)
      p.1.octs.length)) = some [List.replicate N (List.replicate 8 0)] := by
    apply mapM_of_map
    show [some (connectivity G.block (before ([l].map fun l => l.octs.length) 0) l.octs.length)] = [some _]
    rw [h4, h]
  rw [e, Option.bind_some, dataset_eq _ _ (by simp)]
  · simp
  · simpa using hN

/-- **C106**, disagreement: the number of iterations of the loop that fills the connectivity (`IOManager_hdf5.cpp` L387) is a `uint32_t`. With
`2^20` octants of 8x8x8 cells on a rank it is 0: all corners of all cells are node 0. -/
theorem C106_overflow_fails {β ι K : Type} (G : Geometry β) (hG : G.block = ⟨3, fun _ => 8⟩) (l : Local β ι K)
    (hl : l.octs.length = 2 ^ 20) :
    connectivityData G [0] [l] = some (List.replicate (2 ^ 29) (List.replicate 8 0)) := by
  apply connectivity_wraps
  · rw [hG]; rfl
  · rw [hG, hl]
    show 2 ^ 20 * (8 * 8 * 8) % 2 ^ 32 = 2 ^ 29
    norm_num
  · norm_num
  · norm_num

/-- There are such cells: without the overflow the corners of a cell are different nodes. -/
example : (connectivity (⟨3, fun _ => 8⟩ : Block) 0 1)[0]? = some [0, 1, 10, 9, 81, 82, 91, 90] := by decide +kernel

/-! ### Files -/

/-- A loop over the cells of `n` octants. -/
def cellLoop (B : Block) (n : ℕ) : List (ℕ × (Fin 3 → ℕ)) :=
  (List.range n).flatMap fun o => (List.range B.nbCellsPerOct).map fun j => (o, cellPos B j)

theorem cellLoop_all {B : Block} (hB : B.WF) (n : ℕ) : AllCells B n (cellLoop B n) where
  nodup := by
    apply List.Nodup.of_map fun c => linearize B c.1 c.2
    have e : (cellLoop B n).map (fun c => linearize B c.1 c.2) = (List.range (n * B.nbCellsPerOct)).map id := by
      rw [range_blocks]
      unfold cellLoop
      rw [List.map_flatMap]
      refine List.flatMap_congr fun o _ => ?_
      rw [List.map_map]
      refine List.map_congr_left fun j _ => ?_
      simp only [Function.comp, linearize_eq, inBlock_cellPos, id]
    rw [e, List.map_id]
    exact List.nodup_range
  mem c := by
    unfold cellLoop
    simp only [List.mem_flatMap, List.mem_range, List.mem_map]
    constructor
    · rintro ⟨o, ho, j, hj, rfl⟩
      exact ⟨ho, cellPos_lt hB.pos hj⟩
    · rintro ⟨h1, h2⟩
      exact ⟨c.1, h1, _, inBlock_lt h2, by rw [cellPos_inBlock h2]⟩

theorem saveable_of {d P : ℕ} [NeZero P] {K ι ν S : Type} [Field K] [LinearOrder K] {C : Config d K ι ν S} (hC : C.Ok)
    {s : State d P K ι} (hs : Ok C s) (hn : s.ranks.mesh.card * (blockOf C).nbNodesPerOct * 8 < 2 ^ 32) :
    Saveable C (List.range P) (fun r => cellLoop (blockOf C) (s.ranks.octs r).length) s := by
  have hB := block_wf hC
  have hr : ∀ r, (s.ranks.octs r).length ≤ s.ranks.mesh.card := by
    intro r
    rw [← leafList_length hs]
    unfold leafList
    rw [List.length_flatten]
    exact List.single_le_sum (by simp) _ (by
      rw [List.map_ofFn]
      exact (List.mem_ofFn' _ _).2 ⟨r, rfl⟩)
  have h1 : ∀ r, (s.ranks.octs r).length * (blockOf C).nbNodesPerOct ≤ s.ranks.mesh.card * (blockOf C).nbNodesPerOct :=
    fun r => Nat.mul_le_mul_right _ (hr r)
  have h2 := cells_le_nodes hB
  refine ⟨fun r => ?_, fun r => ?_, fun r => cellLoop_all hB _, List.Perm.refl _, by omega⟩
  · have := h1 r
    omega
  · calc _ ≤ s.ranks.mesh.card * (blockOf C).nbNodesPerOct * 8 :=
        Nat.mul_le_mul (Nat.mul_le_mul (hr r) h2) hB.nodesPerCell_le
      _ < _ := hn

/-- The mesh with a refined octant of C85 on one rank: 28 cells in the file, in all of which the field is 1. -/
example : ∃ (s : State 2 1 ℚ Unit) (file : Snapshot ℚ) (col : List (Entry ℚ)),
    saveSnapshot exRest 0 1 (fun n => if n = "rho" then some () else none) "rho,level" [0]
      (fun r => cellLoop (blockOf exRest) (s.ranks.octs r).length) s = some file ∧ file.connectivity.length = 28 ∧
      ("rho", col) ∈ file.columns ∧ col = List.replicate 28 (.real 1) := by
  obtain ⟨s, -, hs, hv, hm⟩ := exRest_serial
  have hcard : s.ranks.mesh.card = 7 := by rw [hm]; decide +kernel
  have hsv := saveable_of exRest_ok hs (by rw [hcard]; decide +kernel)
  obtain ⟨file, cell, e, -, hb, -, -, -, hcol⟩ := C106_shows_partial exRest_ok 0 1 (fun n => if n = "rho" then some () else none)
    "rho,level" hs hsv
  obtain ⟨col, h1, h2, h3⟩ := hcol "rho" (.field ()) (by decide +kernel)
    (.field (by decide +kernel) (by decide +kernel))
  have hlen : file.connectivity.length = 28 := by
    have := saveSnapshot_eq exRest_ok 0 1 (fun n => if n = "rho" then some () else none) "rho,level" hs hsv
    rw [e, Option.some.injEq] at this
    rw [this]
    show List.length (List.flatMap _ _) = _
    rw [blocks_length _ _ (c := (blockOf exRest).nbCellsPerOct) fun x _ => by simp, List.length_zipIdx, leafList_length hs,
      hcard]
    decide +kernel
  refine ⟨s, file, col, e, hlen, h1, List.eq_replicate_iff.2 ⟨h2.trans hlen, fun x hx => ?_⟩⟩
  obtain ⟨m, hm', rfl⟩ := List.getElem_of_mem hx
  obtain ⟨r, k1, k2⟩ := h3 m hm'
  obtain ⟨k3, k4⟩ := hb.mapsTo (show m < _ by rw [← h2]; exact hm')
  have k5 := congrFun (hv _ k3 _ k4) ()
  unfold State.field at k5
  rw [owner_eq hs k1] at k5
  rw [k2, k5]

/-- On one rank and on four ranks: the same file. -/
example : ∃ (s : State 2 1 ℚ Unit) (t : State 2 4 ℚ Unit) (file : Snapshot ℚ), simulate exRest 0 [] = some s ∧
    simulate exRest 0 [] = some t ∧
    saveSnapshot exRest 0 1 (fun n => if n = "rho" then some () else none) "rho,ioct" (List.range 1)
      (fun r => cellLoop (blockOf exRest) (s.ranks.octs r).length) s = some file ∧
    saveSnapshot exRest 0 1 (fun n => if n = "rho" then some () else none) "rho,ioct" (List.range 4)
      (fun r => cellLoop (blockOf exRest) (t.ranks.octs r).length) t = some file := by
  have key : ∀ (P : ℕ) [NeZero P], P ≤ ∏ k, exRest.grid.coarse k → ∃ s : State 2 P ℚ Unit, simulate exRest 0 [] = some s ∧
      Saveable exRest (List.range P) (fun r => cellLoop (blockOf exRest) (s.ranks.octs r).length) s := by
    intro P _ hP
    obtain ⟨s, e, hs, -, -, m0⟩ := startSim_spec (P := P) exRest_ok hP 0
    have hcard : s.ranks.mesh.card ≤ 4 := by
      refine le_trans (Finset.card_le_card (t := Finset.univ.image fun p : Fin 2 × Fin 2 =>
        (⟨1, ![p.1, p.2]⟩ : Oct 2)) fun o ho => ?_) (le_trans Finset.card_image_le (by simp))
      obtain ⟨h1, h2⟩ := (m0 o).1 ho
      refine Finset.mem_image.2 ⟨(⟨o.pos 0, h2 0⟩, ⟨o.pos 1, h2 1⟩), Finset.mem_univ _, ?_⟩
      obtain ⟨lev, pos⟩ := o
      simp only at h1
      subst h1
      congr 1
      funext i
      fin_cases i <;> rfl
    refine ⟨s, by unfold simulate; rw [e]; rfl, saveable_of exRest_ok hs ?_⟩
    have e9 : (blockOf exRest).nbNodesPerOct = 9 := by decide +kernel
    rw [e9]
    omega
  obtain ⟨s, e1, h1⟩ := key 1 (by decide)
  obtain ⟨t, e2, h2⟩ := key 4 (by decide)
  obtain ⟨file, k1, k2⟩ := C106_same_run_partial exRest_ok (by decide) (by decide) 0 1
    (fun n => if n = "rho" then some () else none) (value := "rho,ioct") (by decide +kernel) 0 [] e1 e2 h1 h2
  exact ⟨s, t, file, e1, e2, k1, k2⟩

/-- The variable `rank` shows the distribution. -/
example : columnLocal (ι := Unit) (K := ℚ) ⟨2, ![2, 1, 1]⟩ (fun _ : ℕ => 0) 3 1 ⟨[7], fun _ _ _ => 0, []⟩ .rank =
    some [.int 1, .int 1] := by decide +kernel

end Verif.Sim
