import Verif.Sim.BlockRanks
import Verif.Legacy.UpdateProps

/-!
# What the older block-based solver reads

`HydroUpdate_legacy` copies every block into an array with two layers of ghost cells and updates its cells from there.
Which cells of other octants, how far away, determine the result.
-/

namespace Verif.Legacy

open Verif.Octree Verif.Cells Verif.Sim Verif.Legacy.Spec
open Verif.Partition (Within)

variable {d : ℕ} {P : Par d} {M Mr : Finset (Oct d)} {o : Oct d}

/-! ### The ghost cells -/

/-- A rank that has all octants around `o` fills its ghost cells like the whole mesh. -/
theorem fillGhosts_map (h : Around P.G M Mr o) (U : Mesh d) (B : Block d) :
    fillGhosts P Mr U o B = fillGhosts P M U o B := by
  have e : ∀ q, getCellData P Mr U o q = getCellData P M U o q := fun q => by
    unfold getCellData
    rw [Adapt.findNeighbors_congr h.wf h.tiling h.sub (h.sub _ h.mem) h.complete]
  have e' : fillGhostFace P Mr U o = fillGhostFace P M U o := by
    funext k i B
    unfold fillGhostFace
    simp only [e]
  unfold fillGhosts
  rw [e']

/-- A mean over a box is determined by the values of the cells that contain its parts. -/
theorem isMean_congr {G : Grid d} {b : Fin d → ℕ} (hG : G.Pos) (hb : ∀ k, 0 < b k) (hM : Tiling G M)
    {f f' : Oct d → (Fin d → ℕ) → ℝ} {l : ℕ} {W : Fin d → ℕ} {V V' : ℝ} (h : IsMean b M f l W V)
    (h' : IsMean b M f' l W V')
    (heq : ∀ a ∈ M, ∀ x : Fin d → ℕ, (∀ k, x k < b k) → ∀ s : Fin d → Fin 2,
      Anc (cellOct b a x) ⟨l + 1, fun i => 2 * W i + s i⟩ → f a x = f' a x) : V = V' := by
  obtain ⟨c, hc, rfl⟩ := h
  obtain ⟨c', hc', rfl⟩ := h'
  have hcell : Tiling (cellGrid G b) (cellMesh b M) := cellMesh_tiling hG hb hM
  have hmem : ∀ a ∈ M, ∀ x : Fin d → ℕ, (∀ k, x k < b k) → cellOct b a x ∈ cellMesh b M := fun a ha x hx =>
    mem_cellMesh.2 ⟨a, ha, x, hx, rfl⟩
  congr 1
  refine Finset.sum_congr rfl fun s _ => ?_
  obtain ⟨h1, h2, h3⟩ := hc s
  obtain ⟨k1, k2, k3⟩ := hc' s
  have : cellOct b (c s).1 (c s).2 = cellOct b (c' s).1 (c' s).2 := by
    rcases le_total (cellOct b (c s).1 (c s).2).level (cellOct b (c' s).1 (c' s).2).level with hl | hl
    · exact hcell.eq_of_anc (cellGrid_pos hG hb) (hmem _ h1 _ h2) (hmem _ k1 _ k2) (h3.linear k3 hl)
    · exact (hcell.eq_of_anc (cellGrid_pos hG hb) (hmem _ k1 _ k2) (hmem _ h1 _ h2) (k3.linear h3 hl)).symm
  obtain ⟨e1, e2⟩ := cellOct_inj h2 k2 this
  rw [heq _ h1 _ h2 s h3, e1, e2]

/-- Cells that contain a part of a place at most `t` cells from the block. -/
theorem within_part (hG : P.G.Pos) (hb : ∀ k, 4 ≤ P.b k) (hM : Tiling P.G M) {t n : ℕ} (ht : t ≤ 2)
    {z : Fin d → ℤ} (hz : ∀ k, -(t : ℤ) ≤ z k ∧ z k < P.b k + t) {W : Fin d → ℕ}
    (hW : Wraps (cellGrid P.G P.b) o.level (lattice P.b o z) W) (ho : o ∈ M) {a : Oct d} (ha : a ∈ M) {x : Fin d → ℕ}
    (hx : ∀ k, x k < P.b k) {s : Fin d → Fin 2}
    (h : Anc (cellOct P.b a x) ⟨o.level + 1, fun i => 2 * W i + s i⟩) (hn : 2 * t ≤ n * 2 ^ (o.level + 1 - a.level)) :
    Within P.G P.b n o a x := by
  have hl : a.level ≤ o.level + 1 := h.1
  refine within_of_overlap hG hb hx (u := 2 ^ (o.level + 1 - a.level)) ht (by positivity) hn (fun i => ?_) hz fun i => ?_
  · have h1 := count_add P.G i (o.level + 1 - a.level) (hM.valid _ ha).1
    have h2 := count_add P.G i 1 (hM.valid _ ho).1
    rw [show a.level + (o.level + 1 - a.level) = o.level + 1 by omega] at h1
    rw [h1] at h2
    omega
  · obtain ⟨-, q, hq, e⟩ := hW i
    refine ⟨-q, ?_, ?_⟩
    · rcases hq with rfl | ⟨hp, hq⟩
      · left; rfl
      · right; exact ⟨hp, by omega⟩
    have h3 := h.2 i
    simp only [cellOct] at h3
    have hs := (s i).isLt
    rw [count_cell] at e
    unfold lattice at e
    push_cast at e
    have hWi : (o.pos i * P.b i + z i + -q * (P.G.count i o.level * P.b i) : ℤ) = W i := by linarith
    rw [hWi]
    have u0 : 0 < 2 ^ (o.level + 1 - a.level) := by positivity
    have h4 := Nat.div_mul_le_self (2 * W i + s i) (2 ^ (o.level + 1 - a.level))
    have h5 := Nat.lt_div_mul_add (a := 2 * W i + s i) u0
    rw [h3] at h4 h5
    have h4' : ((a.pos i * P.b i + x i) * (2 ^ (o.level + 1 - a.level) : ℕ) : ℤ) ≤ 2 * W i + (s i : ℕ) := by
      exact_mod_cast h4
    have h5' : (2 * W i + (s i : ℕ) : ℤ) < (a.pos i * P.b i + x i) * (2 ^ (o.level + 1 - a.level) : ℕ) +
        (2 ^ (o.level + 1 - a.level) : ℕ) := by
      exact_mod_cast h5
    generalize ((2 ^ (o.level + 1 - a.level) : ℕ) : ℤ) = u at *
    constructor <;> nlinarith

/-- The block of an octant is filled in the same way from two states that agree in the layers of cells it reads: in
`2 * t` layers, or in `t` if no octant around is smaller, for `t` layers of ghost cells. -/
theorem fill_agree (h : Around P.G M Mr o) (hw : P.w = 2) (hb : ∀ k, 4 ≤ P.b k ∧ 2 ∣ P.b k) (hper : PeriodicOk P)
    {U g : Mesh d} {n t : ℕ} (ht : t ≤ 2)
    (hn : 2 * t ≤ n ∨ t ≤ n ∧ ∀ a ∈ M, Touch P.G o a → a.level ≤ o.level)
    (hin : ∀ x : Fin d → ℕ, (∀ k, x k < P.b k) → U o x = g o x)
    (hU : ∀ a ∈ M, ∀ x : Fin d → ℕ, (∀ k, x k < P.b k) → Within P.G P.b n o a x → U a x = g a x)
    (B B' : Block d) :
    ∃ B1 B2, fillGhosts P Mr U o B = some B1 ∧ fillGhosts P M g o B' = some B2 ∧
      (∀ p : Fin d → ℤ, (∀ i, -(t : ℤ) ≤ p i ∧ p i < P.b i + t) → ∀ v, Copied P v → B1 p v = B2 p v) ∧
      ∀ p : Fin d → ℤ, (∀ i, 0 ≤ p i ∧ p i < P.b i) → ∀ v, (∀ k, v = .grav k → P.copyGravity = true) →
        B1 p v = B2 p v := by
  have hG := h.wf.toPos
  have hM := h.tiling
  have ho := h.sub _ h.mem
  have hv := hM.valid _ ho
  have hb4 : ∀ k, 4 ≤ P.b k := fun k => (hb k).1
  have hb0 : ∀ k, 0 < P.b k := fun k => by have := hb4 k; omega
  have hwb : ∀ k, P.w ≤ P.b k := fun k => by have := hb4 k; omega
  have hsm : ∀ n ∈ M, Touch P.G o n → o.level < n.level → ∀ i, 2 * P.w ≤ P.b i := fun _ _ _ _ k => by
    have := hb4 k; omega
  obtain ⟨B1, f1, m1, i1, -, o1⟩ := fillGhosts_spec hG hM h.balanced ho hb0 (fun k => (hb k).2) hwb hsm hper U B
  obtain ⟨B2, f2, m2, i2, -, o2⟩ := fillGhosts_spec hG hM h.balanced ho hb0 (fun k => (hb k).2) hwb hsm hper g B'
  refine ⟨B1, B2, by rw [fillGhosts_map h, f1], f2, fun p hp v hcv => ?_, fun p hp v hcv => ?_⟩
  swap
  · rw [i1 p hp v hcv, i2 p hp v hcv, hin _ fun k => by have := hp k; omega]
  have hpw : ∀ i, -(P.w : ℤ) ≤ p i ∧ p i < P.b i + P.w := fun i => by have := hp i; omega
  set sg := fun i => imageSign (wall (P.bcMin i)) (wall (P.bcMax i)) ((cellGrid P.G P.b).count i o.level)
    (lattice P.b o p i) with hsg
  have hs0 : varSign sg v ≠ 0 := by
    have : ∀ i, sg i ≠ 0 := fun i => by
      rw [hsg]
      unfold imageSign
      simp only
      split <;> norm_num
    cases v with
    | mom k => exact this k
    | grav k => exact this k
    | _ => exact one_ne_zero
  refine mul_left_cancel₀ hs0 ?_
  by_cases hd : InDomain (cellGrid P.G P.b) o.level (fun i => image (wall (P.bcMin i)) (wall (P.bcMax i))
      ((cellGrid P.G P.b).count i o.level) (lattice P.b o p i))
  swap
  · rw [o1 p hpw hd _ hcv, o2 p hpw hd _ hcv]
  obtain ⟨W1, w1, v1⟩ := m1 p hpw hd
  obtain ⟨W, w2, v2⟩ := m2 p hpw hd
  rw [wraps_unique w1 w2] at v1
  have hz : (fun i => image (wall (P.bcMin i)) (wall (P.bcMax i)) ((cellGrid P.G P.b).count i o.level)
      (lattice P.b o p i)) = lattice P.b o (coordIn P p (cellPos P o p)) :=
    funext fun i => (coordIn_image hG hb0 hv hwb hpw i).1.symm
  rw [hz] at w2
  have hzr : ∀ i, -(t : ℤ) ≤ coordIn P p (cellPos P o p) i ∧ coordIn P p (cellPos P o p) i < P.b i + t := by
    intro i
    have h1 := hp i
    have h2 := hb4 i
    obtain ⟨l1, l2, l3⟩ := lattice_ends hv hwb hpw i
    have c1 := cp_neg_iff hG hb0 (P := P) (o := o) (p := p) (i := i)
    have c2 := cp_gt_iff hG hb0 (P := P) (o := o) (p := p) (i := i)
    unfold coordIn
    split_ifs with a1 a2 a3 a4
    · have := c1.1 a1.2; omega
    · have := c2.1 a2.2; omega
    · omega
    · omega
    · omega
  refine isMean_congr hG hb0 hM (v1 _ hcv) (v2 _ hcv) fun a ha x hx s hanc => ?_
  refine congrFun (hU a ha x hx ?_) v
  have hfar := within_part hG hb4 hM ht hzr w2 ho ha hx hanc (n := 2 * t) (by
    have : 0 < 2 ^ (o.level + 1 - a.level) := by positivity
    nlinarith)
  rcases hn with hn | ⟨hn, hlev⟩
  · exact Within.mono hG hn hfar
  · refine within_part hG hb4 hM ht hzr w2 ho ha hx hanc ?_
    have hl := hlev a ha (Within.touch hfar)
    rw [show o.level + 1 - a.level = (o.level - a.level) + 1 by omega, pow_succ]
    have : 0 < 2 ^ (o.level - a.level) := by positivity
    nlinarith

/-! ### The update of a cell -/

/-- How far away, in cells of the block, the values are that the update of a cell depends on. -/
def legacyReach (UP : UPar d) : ℤ := if UP.slopeType = 1 ∨ UP.slopeType = 2 then 2 else 1

/-- The cells that the flux through a face depends on: the two cells at the face and, for the slopes, their neighbours. -/
def Feeds (UP : UPar d) (p : Fin d → ℤ) (k : Fin d) (left : Bool) (q : Fin d → ℤ) : Prop :=
  ∃ c, (c = p ∨ c = p + Pi.single k (if left then -1 else 1)) ∧
    (q = c ∨ (UP.slopeType = 1 ∨ UP.slopeType = 2) ∧ ∃ j, q = c + Pi.single j 1 ∨ q = c - Pi.single j 1)

theorem getPrim_congr {UP : UPar d} {B1 B2 : Block d} {q : Fin d → ℤ} (h : ∀ v : HV d, B1 q v.var = B2 q v.var) :
    getPrim UP B1 q = getPrim UP B2 q := by
  unfold getPrim
  congr 1
  exact funext h

theorem slopes_congr {UP : UPar d} {B1 B2 : Block d} {c : Fin d → ℤ} {j : Fin d}
    (h : ∀ q, (q = c ∨ (UP.slopeType = 1 ∨ UP.slopeType = 2) ∧ ∃ j, q = c + Pi.single j 1 ∨ q = c - Pi.single j 1) →
      (∀ i, -(P.w : ℤ) ≤ q i ∧ q i < P.b i + P.w) → ∀ v : HV d, B1 q v.var = B2 q v.var) :
    slopes P UP B1 j c = slopes P UP B2 j c := by
  funext v
  unfold slopes
  split
  · rename_i hc
    by_cases hs : UP.slopeType = 1 ∨ UP.slopeType = 2
    · rw [getPrim_congr (h c (Or.inl rfl) fun i => by have := hc i; omega),
        getPrim_congr (h _ (Or.inr ⟨hs, j, Or.inl rfl⟩) fun i => ?_),
        getPrim_congr (h _ (Or.inr ⟨hs, j, Or.inr rfl⟩) fun i => ?_)]
      · have := hc i
        simp only [Pi.sub_apply, Pi.single_apply]
        split <;> omega
      · have := hc i
        simp only [Pi.add_apply, Pi.single_apply]
        split <;> omega
    · unfold slopeScalar
      rw [if_neg hs, if_neg hs]
  · rfl

theorem processAxis_congr {RS : State d → State d → State d} {UP : UPar d} (hw : 1 ≤ P.w) {B1 B2 : Block d}
    {p : Fin d → ℤ} (hp : ∀ i, 0 ≤ p i ∧ p i < P.b i) {k : Fin d} {left : Bool}
    {dt : ℝ} (hg : ∀ c, (c = p ∨ c = p + Pi.single k (if left then -1 else 1)) → ∀ q,
      predict UP dt q (getGravity UP B1 c) = predict UP dt q (getGravity UP B2 c))
    (h : ∀ q, Feeds UP p k left q → (∀ i, -(P.w : ℤ) ≤ q i ∧ q i < P.b i + P.w) → ∀ v : HV d, B1 q v.var = B2 q v.var)
    (r : Fin d → ℝ) :
    processAxis RS P UP dt r B1 p k left = processAxis RS P UP dt r B2 p k left := by
  have e1 : getPrim UP B1 p = getPrim UP B2 p :=
    getPrim_congr (h p ⟨p, Or.inl rfl, Or.inl rfl⟩ fun i => by have := hp i; omega)
  have e2 : getPrim UP B1 (p + Pi.single k (if left then -1 else 1)) =
      getPrim UP B2 (p + Pi.single k (if left then -1 else 1)) :=
    getPrim_congr (h _ ⟨_, Or.inr rfl, Or.inl rfl⟩ fun i => by
      have := hp i
      simp only [Pi.add_apply, Pi.single_apply]
      split_ifs <;> omega)
  have e3 : ∀ j, slopes P UP B1 j p = slopes P UP B2 j p := fun j =>
    slopes_congr fun q hq => h q ⟨p, Or.inl rfl, hq⟩
  have e4 : ∀ j, slopes P UP B1 j (p + Pi.single k (if left then -1 else 1)) =
      slopes P UP B2 j (p + Pi.single k (if left then -1 else 1)) := fun j =>
    slopes_congr fun q hq => h q ⟨_, Or.inr rfl, hq⟩
  have e5 := hg p (Or.inl rfl)
  have e6 := hg _ (Or.inr rfl)
  unfold processAxis
  simp only [e1, e2, e3, e4, e5, e6]

theorem predict_congr {UP : UPar d} {B1 B2 : Block d} {dt : ℝ} {c : Fin d → ℤ}
    (h : (d ≠ 2 ∨ UP.gravity.hasField = false) ∨ ∀ k, B1 c (.grav k) = B2 c (.grav k)) (q : State d) :
    predict UP dt q (getGravity UP B1 c) = predict UP dt q (getGravity UP B2 c) := by
  funext v
  cases v with
  | mom j =>
    unfold predict getGravity
    simp only
    rcases h with (h | h) | h
    · rw [if_neg fun h' => h h'.1, if_neg fun h' => h h'.1]
    · cases hu : UP.gravity with
      | cstField => rw [hu] at h; cases h
      | _ => rfl
    · rw [h]
  | _ => rfl

/-- The cell of the ghosted block that has the index of an inner cell. -/
theorem cellOfIndex_range (hb : ∀ i, 0 < P.b i) (n : ℕ) (i : Fin d) :
    -(P.w : ℤ) ≤ cellOfIndex P n i ∧ cellOfIndex P n i < P.b i + P.w := by
  have h : indexToCoord (fun j => P.b j + 2 * P.w) n i < P.b i + 2 * P.w := by
    unfold indexToCoord
    exact Nat.mod_lt _ (show 0 < P.b i + 2 * P.w by have := hb i; omega)
  unfold cellOfIndex
  omega

/-- The update of a cell depends on the cells of the ghosted block at most `legacyReach` away and on its own gravity; in
2D with a gravity field on the whole ghosted block. -/
theorem updateCell_congr {RS : State d → State d → State d} {UP : UPar d} (hw : 1 ≤ P.w) {B1 B2 : Block d}
    {x : Fin d → ℕ} (hx : ∀ i, x i < P.b i)
    (hg : (d ≠ 2 ∨ UP.gravity.hasField = false) ∨ ∀ q : Fin d → ℤ, (∀ i, -(P.w : ℤ) ≤ q i ∧ q i < P.b i + P.w) →
      ∀ v, Copied P v → B1 q v = B2 q v)
    (hc : UP.gravity.hasField = true → P.copyGravity = true)
    (h : ∀ q : Fin d → ℤ, (∀ i, x i - legacyReach UP ≤ q i ∧ q i ≤ x i + legacyReach UP) →
      (∀ i, -(P.w : ℤ) ≤ q i ∧ q i < P.b i + P.w) → ∀ v : HV d, B1 q v.var = B2 q v.var)
    (hin : ∀ v, (∀ k, v = .grav k → P.copyGravity = true) → B1 (fun i => (x i : ℤ)) v = B2 (fun i => (x i : ℤ)) v)
    (dt : ℝ) : updateCell RS P UP dt o B1 x = updateCell RS P UP dt o B2 x := by
  have hp : ∀ i, 0 ≤ (fun i => (x i : ℤ)) i ∧ (fun i => (x i : ℤ)) i < P.b i := fun i => by
    have := hx i
    simp only
    omega
  have hf : ∀ k left q, Feeds UP (fun i => (x i : ℤ)) k left q →
      ∀ i, x i - legacyReach UP ≤ q i ∧ q i ≤ x i + legacyReach UP := by
    rintro k left q ⟨c, hc, hq⟩ i
    have c1 : (x i : ℤ) - 1 ≤ c i ∧ c i ≤ x i + 1 := by
      rcases hc with rfl | rfl
      · simp only; omega
      · simp only [Pi.add_apply, Pi.single_apply]; split_ifs <;> omega
    unfold legacyReach
    rcases hq with rfl | ⟨hs, j, rfl | rfl⟩
    · split_ifs <;> omega
    · rw [if_pos hs]; simp only [Pi.add_apply, Pi.single_apply]; split_ifs <;> omega
    · rw [if_pos hs]; simp only [Pi.sub_apply, Pi.single_apply]; split_ifs <;> omega
  have hall : allFaces RS P UP dt (dtdx P UP dt o) B1 (fun i => (x i : ℤ)) =
      allFaces RS P UP dt (dtdx P UP dt o) B2 (fun i => (x i : ℤ)) := by
    unfold allFaces
    have e0 : getCons B1 (fun i => (x i : ℤ)) = getCons B2 (fun i => (x i : ℤ)) := by
      funext v
      exact hin v.var fun k hk => by cases v <;> cases hk
    rw [e0]
    congr 1
    refine Finset.sum_congr rfl fun k _ => ?_
    have hgr : ∀ left c, (c = (fun i => (x i : ℤ)) ∨
        c = (fun i => (x i : ℤ)) + Pi.single k (if left = true then -1 else 1)) → ∀ q,
        predict UP dt q (getGravity UP B1 c) = predict UP dt q (getGravity UP B2 c) := by
      intro left c hc' q
      refine predict_congr ?_ q
      by_cases hno : d ≠ 2 ∨ UP.gravity.hasField = false
      · exact Or.inl hno
      rcases hg with hg | hg
      · exact Or.inl hg
      obtain ⟨h2, h3⟩ := not_or.1 hno
      refine Or.inr fun j => hg c (fun i => ?_) _ ⟨hc (by simpa using h3), ?_⟩
      · have := hx i
        rcases hc' with rfl | rfl
        · simp only; omega
        · simp only [Pi.add_apply, Pi.single_apply]; split_ifs <;> omega
      · have := j.2
        omega
    rw [processAxis_congr hw hp (hgr true) (fun q hq => h q (hf k true q hq)),
      processAxis_congr hw hp (hgr false) (fun q hq => h q (hf k false q hq))]
  have hrho := hin .rho fun k hk => by cases hk
  unfold updateCell
  rw [hall]
  split
  · rfl
  unfold correct
  simp only
  rw [hrho]
  split
  · rfl
  split
  · rename_i h2
    by_cases hfield : UP.gravity.hasField = true
    · rcases hg with (hg | hg) | hg
      · exact absurd h2 hg
      · rw [hfield] at hg; cases hg
      · rw [if_pos hfield, if_pos hfield]
        have : (fun k => B1 (cellOfIndex P (flatIndex P.b x)) (.grav k)) =
            fun k => B2 (cellOfIndex P (flatIndex P.b x)) (.grav k) := funext fun k =>
          hg _ (cellOfIndex_range (fun i => by have := hx i; omega) _) _ ⟨hc hfield, by have := k.2; omega⟩
        rw [this]
    · rw [if_neg hfield, if_neg hfield]
  split
  · rename_i hfield
    have : (fun k => B1 (fun i => (x i : ℤ)) (.grav k)) = fun k => B2 (fun i => (x i : ℤ)) (.grav k) :=
      funext fun k => hin _ fun _ _ => hc hfield
    rw [this]
  · rfl

end Verif.Legacy
