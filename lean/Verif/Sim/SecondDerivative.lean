import Verif.Sim.ConditionsProps

/-!
# C107: second derivatives next to smaller cells and at boundaries
-/

namespace Verif.Sim

open Verif.Octree Verif.Cells Verif.Adapt Verif.Flux Verif.Hydro Verif.Hydro.OneNeighbor Verif.Refine Verif.Remap Verif.Run

variable {d P : ℕ} {K ι ν S : Type}

/-! ### Specification -/

/-- `v` is the state on side `σ` of cell `x` of octant `o` of rank `r` in direction `j`: that of the cell which is there; if
the cells there are smaller, the mean over the box of the size of the cell; and outside the domain the boundary value,
computed from the block of the octant for the index that lies there. -/
inductive NextTo [Field K] [LinearOrder K] (C : Config d K ι ν S)
    (bval : ((∀ k, Fin (C.blk k)) → ι → K) → CellIndex d → ι → K) (s : State d P K ι) (r : Fin P) (o : Oct d)
    (x : Fin d → ℕ) (j : Fin d) (σ : ℤ) (v : ι → K) : Prop
  | cell (h : Beside C s o x j σ v)
  | mean (p : Fin d → ℕ)
      (hp : Wraps (cellGrid C.grid C.blk) o.level (fun k => (o.pos k * C.blk k + x k : ℕ) + faceOff j σ k) p)
      (rank : (Fin d → Fin 2) → Fin P) (oct : (Fin d → Fin 2) → Oct d) (idx : (Fin d → Fin 2) → Fin d → ℕ)
      (hm : ∀ q, oct q ∈ s.ranks.octs (rank q) ∧ (∀ k, idx q k < C.blk k) ∧
        cellOct C.blk (oct q) (idx q) = ⟨o.level + 1, fun k => 2 * p k + q k⟩)
      (hv : ∀ i, v i * 2 ^ d = ∑ q, s.data (rank q) (oct q) (idx q) i)
  | boundary (hn : nbrs (cellGrid C.grid C.blk) (cellMesh C.blk s.ranks.mesh) (cellOct C.blk o x) j σ = ∅)
      (c : CellIndex d) (hc : c.oct = o ∧ c.status = .boundary ∧ c.b = C.blk ∧
        ∀ k, (c.idx k : ℤ) - C.blk k = x k + faceOff j σ k)
      (hv : v = bval (fun y => s.data r o fun k => y k) c)

/-! ### Patches next to smaller cells -/

section
variable {V : Type} {G : Grid d} {M : Finset (Oct d)} {b : Fin d → ℕ} {o : Oct d} {x p : Fin d → ℕ} {j : Fin d} {σ : ℤ}
  {I : Source d V}

theorem patchRead_finer (hG : G.Pos) (hM : Tiling G M) (hB : Balanced G M) (ho : o ∈ M) (hb : ∀ k, 4 ≤ b k ∧ 2 ∣ b k)
    (hx : ∀ k, x k < b k) (hσ : σ = 1 ∨ σ = -1) (hp : Wraps (cellGrid G b) o.level (target b o x (faceOff j σ)) p)
    {c : Oct d} (hc : c ∈ cellMesh b M) (hanc : Anc ⟨o.level, p⟩ c) (hl : o.level < c.level) :
    ∃ rs : List (CellIndex d),
      patchRead I G M b o (fun k => (x k : ℤ) + faceOff j σ k) = some (I.avg (rs.map fun n => I.U n.oct n.idx)) ∧
      (∀ n ∈ rs, n.oct ∈ M ∧ ∀ k, n.idx k < b k) ∧ (rs.map fun n => cellOct b n.oct n.idx).Nodup ∧
      ∀ q : Oct d, q ∈ (rs.map fun n => cellOct b n.oct n.idx) ↔ q.level = o.level + 1 ∧ ∀ k, q.pos k / 2 = p k := by
  have hb0 : ∀ k, 0 < b k := fun k => by have := (hb k).1; omega
  have habs := faceOff_abs (j := j) hσ
  have hz : ∀ k, -2 ≤ (x k : ℤ) + faceOff j σ k ∧ (x k : ℤ) + faceOff j σ k < b k + 2 := fun k => by
    have := abs_le.1 (habs k)
    have := hx k
    omega
  have hpos : patchPos b (fun _ => 2) o (fun k => ((x k : ℤ) + faceOff j σ k + 2).toNat) = target b o x (faceOff j σ) := by
    funext k
    unfold patchPos target
    have := hz k
    push_cast
    omega
  have hin : InDomain (cellGrid G b) o.level (target b o x (faceOff j σ)) := by
    intro k
    obtain ⟨p1, t, p2, p3⟩ := hp k
    rcases p2 with rfl | ⟨p2, -⟩
    · right
      rw [zero_mul, add_zero] at p3
      rw [← p3]
      exact ⟨by positivity, by exact_mod_cast p1⟩
    · exact Or.inl p2
  obtain ⟨r, p', m1, m2, m3, m4, m5, m6⟩ := C24_ghost_partial hG hM hB ho hb0 (g := fun _ => 2)
    (fun k => by have := (hb k).1; omega) (fun _ _ _ _ k => ⟨by have := (hb k).1; omega, (hb k).2⟩)
    (y := fun k => ((x k : ℤ) + faceOff j σ k + 2).toNat) (fun k => by have := hz k; omega) (by rw [hpos]; exact hin)
  rw [hpos] at m5
  obtain rfl := wraps_unique m5 hp
  have hG' := cellGrid_pos hG hb0
  have hM' := cellMesh_tiling hG hb0 hM
  have mem : cellOct b r.oct r.idx ∈ cellMesh b M := mem_cellMesh.2 ⟨_, m2, _, m3, rfl⟩
  have no : Anc (cellOct b r.oct r.idx) ⟨o.level, p'⟩ → False := fun h => by
    have h1 := hM'.eq_of_anc hG' mem hc (h.trans hanc)
    have h2 := h.1
    rw [h1] at h2
    simp only at h2
    omega
  rcases m6 with ⟨-, e⟩ | ⟨-, -, e⟩ | ⟨st, e⟩
  · exact (no (by rw [e]; exact ⟨le_rfl, fun k => by simp⟩)).elim
  · exact (no e).elim
  obtain ⟨rs, e1, e2, e3, e4⟩ := C25_siblings hG hM hB true r m2 (by rw [m4]; exact m3)
    (fun k => by rw [m4, e]; exact ⟨p' k, rfl⟩) (Or.inl fun k => by rw [m4]; exact (hb k).2)
  rw [m4] at e2 e3 e4
  refine ⟨rs, ?_, e2, e3, fun q => ?_⟩
  · rw [patchRead_eq hz]
    unfold patchVal
    rw [m1, Option.bind_some, if_neg (by rw [st]; decide), if_neg (by unfold CellIndex.levelDiff; rw [st]; decide), e1]
    have : (rs.map some).mapM id = some rs := by
      clear e1 e2 e3 e4
      induction rs with
      | nil => rfl
      | cons a l ih =>
        rw [List.map_cons, List.mapM_cons, ih]
        rfl
    rw [this]
    rfl
  · rw [e4]
    have h1 : r.oct.level = o.level + 1 := congrArg (fun q : Oct d => q.level) e
    rw [h1, e]
    simp only [Nat.mul_div_cancel_left _ two_pos]

end

/-! ### What a cell reads beside it -/

variable [Field K] [LinearOrder K] [NeZero P] {C : Config d K ι ν S} {s : State d P K ι}

/-- The parts of a box, one for each corner. -/
theorem parts_list {l : ℕ} {p : Fin d → ℕ} {L : List (Oct d)} (h1 : L.Nodup)
    (h2 : ∀ q : Oct d, q ∈ L ↔ q.level = l + 1 ∧ ∀ k, q.pos k / 2 = p k) :
    L.Perm ((Finset.univ : Finset (Fin d → Fin 2)).toList.map fun q => (⟨l + 1, fun k => 2 * p k + q k⟩ : Oct d)) := by
  have hinj : Function.Injective fun q : Fin d → Fin 2 => (⟨l + 1, fun k => 2 * p k + q k⟩ : Oct d) := by
    intro q q' h
    funext k
    have := congrFun (congrArg (fun a : Oct d => a.pos) h) k
    simp only at this
    exact Fin.ext (by omega)
  refine (List.perm_ext_iff_of_nodup h1 ((Finset.nodup_toList _).map hinj)).2 fun a => ?_
  rw [h2]
  constructor
  · rintro ⟨a1, a2⟩
    refine List.mem_map.2 ⟨fun k => ⟨a.pos k % 2, Nat.mod_lt _ two_pos⟩, by simp, Oct.ext' a1.symm fun k => ?_⟩
    have := a2 k
    simp only
    omega
  · intro h
    obtain ⟨q, -, rfl⟩ := List.mem_map.1 h
    refine ⟨rfl, fun k => ?_⟩
    have := (q k).2
    simp only
    omega

variable [IsStrictOrderedRing K]

/-- The value that a patch has next to a cell. -/
theorem patchRead_nextTo (hC : C.Ok) (hs : Ok C s) (hb : ∀ k, 4 ≤ C.blk k ∧ 2 ∣ C.blk k) {r : Fin P} {o : Oct d}
    (ho : o ∈ s.ranks.octs r) {x : Fin d → ℕ} (hx : ∀ k, x k < C.blk k) {j : Fin d} {σ : ℤ} (hσ : σ = 1 ∨ σ = -1)
    {bval : ((∀ k, Fin (C.blk k)) → ι → K) → CellIndex d → ι → K} {avg : List (ι → K) → ι → K}
    (havg : ∀ l : List (ι → K), l.length = 2 ^ d → ∀ i, avg l i * 2 ^ d = (l.map fun u => u i).sum) {v : ι → K}
    (hv : NextTo C bval s r o x j σ v) :
    patchRead ⟨s.field, fun r => bval (fun y => s.field r.oct fun k => y k) r, avg⟩ C.grid s.ranks.mesh C.blk o
      (fun k => (x k : ℤ) + faceOff j σ k) = some v := by
  have hb2 : ∀ k, 2 ≤ C.blk k := fun k => by have := (hb k).1; omega
  have hfield : ∀ {r' : Fin P} {o' : Oct d}, o' ∈ s.ranks.octs r' → ∀ y, s.field o' y = s.data r' o' y := fun h y => by
    unfold State.field; rw [owner_eq hs h]
  have h2d : (2 : K) ^ d ≠ 0 := pow_ne_zero _ two_ne_zero
  cases hv with
  | cell h => exact patchRead_beside hC hs (mem_mesh ho) hx hb2 hσ h rfl
  | mean p hp rank oct idx hm hv =>
    have hmem : ∀ q : Fin d → Fin 2, (⟨o.level + 1, fun k => 2 * p k + q k⟩ : Oct d) ∈ cellMesh C.blk s.ranks.mesh := fun q =>
      mem_cellMesh.2 ⟨_, mem_mesh (hm q).1, _, (hm q).2.1, (hm q).2.2⟩
    obtain ⟨rs, e1, e2, e3, e4⟩ := patchRead_finer (I := ⟨s.field, fun r => bval (fun y => s.field r.oct fun k => y k) r, avg⟩)
      hC.wf.toPos hs.tiling hs.balanced (mem_mesh ho) hb hx hσ hp (hmem fun _ => 0) ⟨Nat.le_succ _, fun k => by simp⟩
      (Nat.lt_succ_self _)
    rw [e1]
    have hperm := parts_list e3 e4
    have hlen : rs.length = 2 ^ d := by
      have := hperm.length_eq
      simpa using this
    congr 1
    funext i
    refine mul_right_cancel₀ h2d ?_
    rw [havg _ (by rw [List.length_map, hlen]), hv, List.map_map]
    have hval : ∀ n ∈ rs, s.field n.oct n.idx i = Gravity.onBox C.blk s.ranks.mesh (fun o x => s.field o x i)
        (cellOct C.blk n.oct n.idx) := fun n hn => 
          (Gravity.onBox_cell (e2 n hn).1 (e2 n hn).2 fun o x => s.field o x i).symm
    have e5 : (rs.map ((fun u : ι → K => u i) ∘ fun n => s.field n.oct n.idx)) =
        (rs.map fun n => cellOct C.blk n.oct n.idx).map
          (Gravity.onBox C.blk s.ranks.mesh (fun o x => s.field o x i)) := by
      rw [List.map_map]
      exact List.map_congr_left hval
    rw [e5, (hperm.map _).sum_eq, List.map_map, ← Finset.sum_map_toList]
    congr 1
    refine List.map_congr_left fun q _ => ?_
    rw [Function.comp, ← (hm q).2.2, Gravity.onBox_cell (mem_mesh (hm q).1) (hm q).2.1, hfield (hm q).1]
  | boundary hn c hc hv =>
    have hout : ¬ InDomain (cellGrid C.grid C.blk) o.level (target C.blk o x (faceOff j σ)) := by
      intro hin
      obtain ⟨q, g1, g2, g3, g4, hside⟩ := side hC.wf.toPos hs.tiling hs.balanced ⟨o, x, C.blk, .localToBlock⟩
        (mem_mesh ho) hx rfl j hσ hin
      cases hside with
      | same _ _ h _ => exact Finset.singleton_ne_empty _ (h.symm.trans hn)
      | bigger _ _ h _ => exact Finset.singleton_ne_empty _ (h.symm.trans hn)
      | smaller _ _ f _ _ h =>
        refine Finset.notMem_empty _ (hn ▸ (h _).2 (List.mem_map.2 ⟨fun _ => 0, ?_, rfl⟩))
        exact (mem_loops _ _).2 fun k => by split <;> simp
    have habs := faceOff_abs (j := j) hσ
    obtain ⟨q, g1, g2, g3, g4, g5, -⟩ := C25_boundary (M := s.ranks.mesh) hC.wf.toPos ⟨o, x, C.blk, .localToBlock⟩
      (hs.tiling.valid _ (mem_mesh ho)) hx (faceOff j σ) (fun k => by have := habs k; have := hx k; simp only; omega) hout
    have hqc : q = c := by
      obtain ⟨c1, c2, c3, c4⟩ := hc
      obtain ⟨q1, q2, q3, q4⟩ := q
      obtain ⟨k1, k2, k3, k4⟩ := c
      simp only at g2 g3 g4 g5 c1 c2 c3 c4
      subst g2 g3 g4 c1 c2 c3
      simp only [CellIndex.mk.injEq, and_true, true_and]
      funext k
      have := g5 k
      have := c4 k
      omega
    rw [patchRead_boundary hb2 hx hσ g1 g2, hv, hqc]
    change some (bval (fun y => s.field c.oct fun k => y k) c) = _
    rw [hc.1]
    congr 2
    funext y
    exact hfield ho _

/-- There is such a value. -/
theorem exists_nextTo (hC : C.Ok) (hs : Ok C s) (hb : ∀ k, 4 ≤ C.blk k ∧ 2 ∣ C.blk k) {r : Fin P} {o : Oct d}
    (ho : o ∈ s.ranks.octs r) {x : Fin d → ℕ} (hx : ∀ k, x k < C.blk k) {j : Fin d} {σ : ℤ} (hσ : σ = 1 ∨ σ = -1)
    (bval : ((∀ k, Fin (C.blk k)) → ι → K) → CellIndex d → ι → K) : ∃ v, NextTo C bval s r o x j σ v := by
  have habs := faceOff_abs (j := j) hσ
  by_cases hin : InDomain (cellGrid C.grid C.blk) o.level (target C.blk o x (faceOff j σ))
  · obtain ⟨q, g1, g2, g3, g4, hside⟩ := side hC.wf.toPos hs.tiling hs.balanced ⟨o, x, C.blk, .localToBlock⟩
      (mem_mesh ho) hx rfl j hσ hin
    cases hside with
    | same _ hl h _ => exact ⟨_, .cell ⟨_, _, owner_mem _ g2, _, g3, le_of_eq hl, h, rfl⟩⟩
    | bigger _ hl h _ => exact ⟨_, .cell ⟨_, _, owner_mem _ g2, _, g3, by simp only at hl; omega, h, rfl⟩⟩
    | smaller st hl f hf hnd hn =>
      obtain ⟨r₂, p, k1, k2, k3, k4, k5, k6⟩ := C25_neighbor_cell hC.wf.toPos hs.tiling hs.balanced
        ⟨o, x, C.blk, .localToBlock⟩ (mem_mesh ho) hx (faceOff j σ)
        (fun k => by have := habs k; have := (hb k).1; simp only; omega) hin
      rw [g1] at k1
      obtain rfl := Option.some.inj k1
      rcases k6 with ⟨e, -⟩ | ⟨e, -⟩ | ⟨-, e1, e2⟩
      · rcases e with e | e <;> rw [st] at e <;> cases e
      · rw [st] at e; cases e
      simp only at k5 e1 e2
      have hanc : Anc ⟨o.level, p⟩ (cellOct C.blk q.oct q.idx) := by
        refine ⟨by simp only [cellOct]; omega, fun k => ?_⟩
        rw [show (cellOct C.blk q.oct q.idx).level - o.level = 1 by simp only [cellOct]; omega, pow_one, e2 k]
        simp only
        split <;> omega
      obtain ⟨rs, -, f2, f3, f4⟩ := patchRead_finer (I := ⟨s.field, fun _ _ => 0, fun _ _ => 0⟩) hC.wf.toPos hs.tiling hs.balanced
        (mem_mesh ho) hb hx hσ k5 (mem_cellMesh.2 ⟨_, g2, _, g3, rfl⟩) hanc (by simp only [cellOct]; omega)
      have : ∀ u : Fin d → Fin 2, ∃ o' y, o' ∈ s.ranks.mesh ∧ (∀ k, y k < C.blk k) ∧
          cellOct C.blk o' y = ⟨o.level + 1, fun k => 2 * p k + u k⟩ := fun u => by
        obtain ⟨n, hn, e⟩ := List.mem_map.1 ((f4 ⟨o.level + 1, fun k => 2 * p k + u k⟩).2 ⟨rfl, fun k => by
          have := (u k).2
          simp only
          omega⟩)
        exact ⟨_, _, (f2 n hn).1, (f2 n hn).2, e⟩
      choose oct idx h1 h2 h3 using this
      refine ⟨fun i => (∑ u, s.data (owner s.ranks.octs (oct u)) (oct u) (idx u) i) / 2 ^ d,
        .mean p k5 (fun u => owner s.ranks.octs (oct u)) oct idx (fun u => ⟨owner_mem _ (h1 u), h2 u, h3 u⟩) fun i => ?_⟩
      exact div_mul_cancel₀ _ (pow_ne_zero _ two_ne_zero)
  · obtain ⟨q, g1, g2, g3, g4, g5, -⟩ := C25_boundary (M := s.ranks.mesh) hC.wf.toPos ⟨o, x, C.blk, .localToBlock⟩
      (hs.tiling.valid _ (mem_mesh ho)) hx (faceOff j σ) (fun k => by have := habs k; have := hx k; simp only; omega) hin
    obtain ⟨-, -, -, hn⟩ := outside hC.wf.toPos hs.tiling hs.balanced ⟨o, x, C.blk, .localToBlock⟩ (mem_mesh ho) hx rfl j hσ hin
    exact ⟨_, .boundary hn q ⟨g3, g2, g4, fun k => by rw [← g5 k, g4]⟩ rfl⟩

/-- **C107 (second_derivative).** In a run with `RefineCondition_second_derivative_error`, an octant is marked for
refinement exactly if it is below the finest level and one of the variables is curved in one of its cells, and it is never
marked for coarsening. Next to smaller cells the mean of the cells in the box beside a cell counts, at the boundary the
boundary value. -/
theorem C107_second_derivative (hC : C.Ok) (hP : P ≤ ∏ k, C.grid.coarse k) {time : K} {ops : List Op}
    (h : simulate C time ops = some s) {eps : K} (heps : 0 < eps) (h0 : 0 ≤ C.errorMax)
    {prim : List ((ι → K) → K)} {bval : ((∀ k, Fin (C.blk k)) → ι → K) → CellIndex d → ι → K}
    {avg : List (ι → K) → ι → K} (hc : C.condition = .secondDerivative eps prim bval avg)
    (havg : ∀ l : List (ι → K), l.length = 2 ^ d → ∀ i, avg l i * 2 ^ d = (l.map fun u => u i).sum) {r : Fin P} {o : Oct d}
    (ho : o ∈ s.ranks.octs r) :
    ∃ m, marks C s o = some m ∧ m ≠ -1 ∧ (m = 1 ↔ o.level < C.lmax ∧ ∃ x, (∀ k, x k < C.blk k) ∧ ∃ q ∈ prim, ∃ j u w,
      NextTo C bval s r o x j (-1) u ∧ NextTo C bval s r o x j 1 w ∧
        Init.Curved eps C.errorMax (q u) (q (s.data r o x)) (q w)) := by
  have hs := simulate_ok hC hP h
  obtain ⟨ask, a1, a2, a3⟩ := mark_of hC hs (mem_mesh ho)
  refine ⟨_, rank_marks hC hs (mem_mesh ho), fun hm => ?_, ?_⟩
  · have := (a3.1 hm).1
    rw [hc] at this
    change (0 : ℤ) = -1 at this
    omega
  rw [a2]
  refine and_congr_right fun _ => exists_congr fun x => and_congr_right fun hx => ?_
  have hb : ∀ k, 4 ≤ C.blk k ∧ 2 ∣ C.blk k := by have := hC.condition; rw [hc] at this; exact this
  have hfo : s.field o x = s.data r o x := by unfold State.field; rw [owner_eq hs ho]
  choose v hv using fun j σ (hσ : σ = 1 ∨ σ = -1) => exists_nextTo hC hs hb ho hx (j := j) hσ bval
  have huniq : ∀ {j σ} (hσ : σ = 1 ∨ σ = -1) {w}, NextTo C bval s r o x j σ w → w = v j σ hσ := by
    intro j σ hσ w hw
    have e1 := patchRead_nextTo hC hs hb ho hx hσ havg hw
    rw [patchRead_nextTo hC hs hb ho hx hσ havg (hv j σ hσ)] at e1
    exact (Option.some.inj e1).symm
  have hask := a1 x hx
  unfold cellMark at hask
  rw [hc] at hask
  simp only [Option.bind_eq_some_iff, Option.map_eq_some_iff] at hask
  obtain ⟨-, -, f, hf, hask⟩ := hask
  unfold secondDerivativeCell at hf
  have hcell : ∀ (I : Source d (ι → K)), I.U = s.field →
      patchRead I C.grid s.ranks.mesh C.blk o (fun k => (x k : ℤ) + 0) = some (s.data r o x) := by
    intro I hI
    have := patchRead_interior (I := I) (G := C.grid) (M := s.ranks.mesh) (o := o) hx
    rw [hI, hfo] at this
    simpa using this
  rw [loops_mapM_some _ _ (fun q : (ι → K) → K => (List.finRange d).map fun j =>
    (q (v j (-1) (Or.inr rfl)), q (s.data r o x), q (v j 1 (Or.inl rfl)))) fun q _ => by
      rw [loops_mapM_some _ _ (fun j => (q (v j (-1) (Or.inr rfl)), q (s.data r o x), q (v j 1 (Or.inl rfl))))]
      intro j _
      rw [patchRead_nextTo hC hs hb ho hx (Or.inr rfl) havg (hv j (-1) (Or.inr rfl)), hcell _ rfl,
        patchRead_nextTo hC hs hb ho hx (Or.inl rfl) havg (hv j 1 (Or.inl rfl))]
      rfl, Option.map_some, Option.some.injEq] at hf
  rw [← hask, (C52_criterion _ _ _).1, ← not_le, ← hf]
  unfold secondDerivativeMax
  rw [foldl_fMax (fun a : K => a)]
  simp only [h0, true_and, List.mem_map, List.mem_flatten]
  push Not
  constructor
  · rintro ⟨e, ⟨t, ⟨l, ⟨q, hq, rfl⟩, ht⟩, rfl⟩, hlt⟩
    obtain ⟨j, -, rfl⟩ := List.mem_map.1 ht
    exact ⟨q, hq, j, _, _, hv j (-1) (Or.inr rfl), hv j 1 (Or.inl rfl), (Init.curved_iff heps _ _ _ _).1 hlt⟩
  · rintro ⟨q, hq, j, u, w, hu, hw, hcur⟩
    rw [huniq (Or.inr rfl) hu, huniq (Or.inl rfl) hw] at hcur
    exact ⟨_, ⟨_, ⟨_, ⟨q, hq, rfl⟩, List.mem_map.2 ⟨j, List.mem_finRange j, rfl⟩⟩, rfl⟩, (Init.curved_iff heps _ _ _ _).2 hcur⟩

end Verif.Sim
