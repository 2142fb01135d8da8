import Verif.Cells.Face
import Verif.Octree.Symm
import Mathlib.Algebra.BigOperators.Ring.Finset

/-!
# Faces between cells

What the loops over the faces of a cell visit (C25), in the form needed to sum fluxes over a mesh. Used
for hydrodynamics (C45), gravity (C49) and heat conduction (C50).
-/

namespace Verif.Flux

open Verif.Octree Verif.Cells

variable {d : ℕ} {G : Grid d} {M : Finset (Oct d)}

/-- One cell in direction `j`; `s` is 1 or -1. -/
def faceOff (j : Fin d) (s : ℤ) : Fin d → ℤ := fun k => if k = j then s else 0

theorem faceOff_self (j : Fin d) (s : ℤ) : faceOff j s j = s := if_pos rfl

theorem faceOff_ne {j k : Fin d} (s : ℤ) (h : k ≠ j) : faceOff j s k = 0 := if_neg h

theorem faceOff_abs {j : Fin d} {s : ℤ} (hs : s = 1 ∨ s = -1) (k : Fin d) : |faceOff j s k| ≤ 1 := by
  unfold faceOff
  split
  · rcases hs with rfl | rfl <;> simp
  · simp

theorem dirOf_faceOff_neg (j : Fin d) (s : ℤ) (k : Fin d) :
    dirOf (faceOff j (-s)) k = - dirOf (faceOff j s) k := by
  unfold dirOf faceOff
  split
  · exact Left.sign_neg s
  · simp

open Classical in
/-- The cells of `C` on the side `s` of `c` in direction `j`. -/
noncomputable def nbrs (G : Grid d) (C : Finset (Oct d)) (c : Oct d) (j : Fin d) (s : ℤ) :
    Finset (Oct d) :=
  C.filter fun q => DirAdj G c (dirOf (faceOff j s)) q

theorem mem_nbrs {C : Finset (Oct d)} {c q : Oct d} {j : Fin d} {s : ℤ} :
    q ∈ nbrs G C c j s ↔ q ∈ C ∧ DirAdj G c (dirOf (faceOff j s)) q := by
  classical
  unfold nbrs
  exact Finset.mem_filter

theorem dirOf_ne_zero {j : Fin d} {s : ℤ} (hs : s = 1 ∨ s = -1) : dirOf (faceOff j s) j ≠ 0 := by
  unfold dirOf
  rw [faceOff_self]
  rcases hs with rfl | rfl <;> decide

theorem dirOf_zero {j k : Fin d} (s : ℤ) (h : k ≠ j) : dirOf (faceOff j s) k = 0 := by
  unfold dirOf
  rw [faceOff_ne s h]
  exact sign_zero

/-- Being a neighbour is symmetric. -/
theorem nbrs_symm {C : Finset (Oct d)} (hG : G.Pos) (hC : Tiling G C) {c q : Oct d} {j : Fin d} {s : ℤ}
    (hs : s = 1 ∨ s = -1) (hc : c ∈ C) (hq : q ∈ C) :
    q ∈ nbrs G C c j s ↔ c ∈ nbrs G C q j (-s) := by
  have key : ∀ (s : ℤ), (s = 1 ∨ s = -1) → ∀ a ∈ C, ∀ b ∈ C,
      DirAdj G a (dirOf (faceOff j s)) b → DirAdj G b (dirOf (faceOff j (-s))) a := by
    intro s hs a ha b hb h
    have := dirAdj_face_reverse hG hC ha hb (dirOf_ne_zero hs) (fun i hi => dirOf_zero s hi) h
    rwa [show (fun i => - dirOf (faceOff j s) i) = dirOf (faceOff j (-s)) from
      funext fun k => (dirOf_faceOff_neg j s k).symm] at this
  rw [mem_nbrs, mem_nbrs]
  constructor
  · exact fun h => ⟨hc, key s hs c hc q hq h.2⟩
  · intro h
    have := key (-s) (by omega) q hq c hc h.2
    rw [neg_neg] at this
    exact ⟨hq, this⟩

/-- Summing over the upper faces of all cells is summing over the lower faces of all cells. -/
theorem sum_faces {A : Type} [AddCommMonoid A] {C : Finset (Oct d)} (hG : G.Pos) (hC : Tiling G C)
    (j : Fin d) (f : Oct d → Oct d → A) :
    ∑ c ∈ C, ∑ q ∈ nbrs G C c j 1, f c q = ∑ c ∈ C, ∑ q ∈ nbrs G C c j (-1), f q c := by
  rw [Finset.sum_comm' (t' := C) (s' := fun q => nbrs G C q j (-1))]
  intro c q
  constructor
  · rintro ⟨h1, h2⟩
    have h3 := (mem_nbrs.1 h2).1
    exact ⟨(nbrs_symm hG hC (Or.inl rfl) h1 h3).1 h2, h3⟩
  · rintro ⟨h1, h2⟩
    have h3 := (mem_nbrs.1 h1).1
    exact ⟨h3, (nbrs_symm hG hC (Or.inl rfl) h3 h2).2 h1⟩

/-- Neighbours differ by at most one level. -/
theorem nbrs_level {C : Finset (Oct d)} (hG : G.Pos) (hB : Balanced G C) {c q : Oct d}
    {j : Fin d} {s : ℤ} (hc : c ∈ C) (hq : q ∈ nbrs G C c j s) :
    c.level ≤ q.level + 1 ∧ q.level ≤ c.level + 1 := by
  have h := mem_nbrs.1 hq
  have ht := h.2.touch hG
  exact ⟨hB c hc q h.1 ht, hB q h.1 c hc ht.symm⟩

/-- A wrapped position that is inside the domain is not moved. -/
theorem wraps_inside {l : ℕ} {X : Fin d → ℤ} {P : Fin d → ℕ} (h : Wraps G l X P) {k : Fin d}
    (hk : 0 ≤ X k ∧ X k < G.count k l) : (P k : ℤ) = X k := by
  obtain ⟨h1, t, -, h2⟩ := h k
  have h1' : (P k : ℤ) < G.count k l := by exact_mod_cast h1
  have : t = 0 := by
    by_contra hne
    rcases lt_or_gt_of_ne hne with h | h
    · have : t * G.count k l ≤ -1 * (G.count k l : ℤ) :=
        mul_le_mul_of_nonneg_right (by omega) (by positivity)
      omega
    · have : 1 * (G.count k l : ℤ) ≤ t * G.count k l :=
        mul_le_mul_of_nonneg_right (by omega) (by positivity)
      omega
  rw [this] at h2
  omega

theorem count_cell_succ {b : Fin d → ℕ} {l : ℕ} (hl : G.lmin ≤ l) (k : Fin d) :
    (cellGrid G b).count k (l + 1) = 2 * (cellGrid G b).count k l := by
  rw [count_add (cellGrid G b) k 1 hl]
  ring

/-- The visited neighbours when one side of a cell is not on the boundary of the domain. -/
inductive Side (G : Grid d) (M : Finset (Oct d)) (c : CellIndex d) (j : Fin d) (s : ℤ)
    (r : CellIndex d) : Prop
  /-- One neighbour of the same size. -/
  | same (hst : r.status = c.status.keepLocal ∨ r.status = .sameSize)
      (hl : r.oct.level = c.oct.level)
      (hn : nbrs (cellGrid G c.b) (cellMesh c.b M) (cellOct c.b c.oct c.idx) j s =
        {cellOct c.b r.oct r.idx})
      (hp : ∀ k, k ≠ j → (cellOct c.b r.oct r.idx).pos k = (cellOct c.b c.oct c.idx).pos k)
  /-- One larger neighbour. -/
  | bigger (hst : r.status = .bigger) (hl : r.oct.level + 1 = c.oct.level)
      (hn : nbrs (cellGrid G c.b) (cellMesh c.b M) (cellOct c.b c.oct c.idx) j s =
        {cellOct c.b r.oct r.idx})
      (hp : ∀ k, k ≠ j → (cellOct c.b r.oct r.idx).pos k = (cellOct c.b c.oct c.idx).pos k / 2)
  /-- Smaller neighbours, each reached from the first one by an offset that tells its place. -/
  | smaller (hst : r.status = .smaller) (hl : r.oct.level = c.oct.level + 1)
      (f : (Fin d → ℤ) → CellIndex d)
      (hf : ∀ δ ∈ loops (fun k => if faceOff j s k = 0 then [(0 : ℤ), 1] else [0]),
        getNeighborGhost G M r δ = some (f δ) ∧ (f δ).oct ∈ M ∧ (∀ k, (f δ).idx k < c.b k) ∧
        (f δ).b = c.b ∧ (f δ).oct.level = c.oct.level + 1 ∧
        ∀ k, k ≠ j → ((cellOct c.b (f δ).oct (f δ).idx).pos k : ℤ) =
          2 * (cellOct c.b c.oct c.idx).pos k + δ k)
      (hnd : ((loops (fun k => if faceOff j s k = 0 then [(0 : ℤ), 1] else [0])).map
        fun δ => cellOct c.b (f δ).oct (f δ).idx).Nodup)
      (hn : ∀ q, q ∈ nbrs (cellGrid G c.b) (cellMesh c.b M) (cellOct c.b c.oct c.idx) j s ↔
        q ∈ (loops (fun k => if faceOff j s k = 0 then [(0 : ℤ), 1] else [0])).map
          fun δ => cellOct c.b (f δ).oct (f δ).idx)

theorem side (hG : G.Pos) (hM : Tiling G M) (hB : Balanced G M) (c : CellIndex d) (hc : c.oct ∈ M)
    (hx : ∀ k, c.idx k < c.b k) (hst : c.status = .localToBlock) (j : Fin d) {s : ℤ}
    (hs : s = 1 ∨ s = -1)
    (hin : InDomain (cellGrid G c.b) c.oct.level (target c.b c.oct c.idx (faceOff j s))) :
    ∃ r, getNeighborGhost G M c (faceOff j s) = some r ∧ r.oct ∈ M ∧ (∀ k, r.idx k < c.b k) ∧
      r.b = c.b ∧ Side G M c j s r := by
  have hb : ∀ k, 0 < c.b k := fun k => by have := hx k; omega
  have hG' := cellGrid_pos hG hb
  have hM' := cellMesh_tiling hG hb hM
  have hB' := cellMesh_balanced hG hb hB
  have ho := hM.valid _ hc
  have habs := faceOff_abs (j := j) hs
  have hoff2 : ∀ k, 2 * |faceOff j s k| ≤ c.b k + 1 := fun k => by
    have := habs k; have := hb k; omega
  have hcm : cellOct c.b c.oct c.idx ∈ cellMesh c.b M := mem_cellMesh.2 ⟨_, hc, _, hx, rfl⟩
  have hcv := hM'.valid _ hcm
  obtain ⟨r, P, h1, h2, h3, h4, hW, h5⟩ := C25_neighbor_cell hG hM hB c hc hx (faceOff j s) hoff2 hin
  obtain ⟨rs, e1, e2, e3, e4⟩ := C25_face_cells hG hM hB true c hc hx hst (fun h => by cases h)
    (faceOff j s) habs ⟨j, by rw [faceOff_self]; omega⟩ (Or.inl ⟨j, fun k hk => faceOff_ne s hk⟩)
  have hn : ∀ q, q ∈ nbrs (cellGrid G c.b) (cellMesh c.b M) (cellOct c.b c.oct c.idx) j s ↔
      q ∈ rs.map fun r => cellOct c.b r.oct r.idx := fun q => by rw [mem_nbrs, e4]
  have hPk : ∀ k, k ≠ j → P k = (cellOct c.b c.oct c.idx).pos k := by
    intro k hk
    have ht : target c.b c.oct c.idx (faceOff j s) k = ((cellOct c.b c.oct c.idx).pos k : ℤ) := by
      unfold target
      rw [faceOff_ne s hk, add_zero]
      rfl
    have := wraps_inside hW (k := k) (by
      rw [ht]
      exact ⟨by positivity, by exact_mod_cast hcv.2 k⟩)
    rw [ht] at this
    exact_mod_cast this
  refine ⟨r, h1, h2, h3, h4, ?_⟩
  unfold faceCells at e1
  rw [h1] at e1
  simp only at e1
  have one : ∀ rs : List (CellIndex d), [some r] = rs.map some → rs = [r] := by
    intro rs h
    have := congrArg (List.filterMap id) h
    simpa [List.filterMap_map] using this.symm
  rcases h5 with ⟨st, e⟩ | ⟨st, hl, hA⟩ | ⟨st, hl, hp⟩
  · have hns : r.status ≠ .boundary ∧ r.status ≠ .smaller := by
      rcases st with st | st
      · rw [st, hst]; decide
      · rw [st]; decide
    rw [if_neg hns.1, if_neg hns.2] at e1
    have := one rs e1
    subst this
    refine .same st ?_ ?_ ?_
    · have : (cellOct c.b r.oct r.idx).level = c.oct.level := by rw [e]
      exact this
    · ext q; rw [hn]; simp
    · intro k hk
      rw [e]
      exact hPk k hk
  · rw [if_neg (by rw [st]; decide), if_neg (by rw [st]; decide)] at e1
    have := one rs e1
    subst this
    refine .bigger st hl ?_ ?_
    · ext q; rw [hn]; simp
    · intro k hk
      have := hA.2 k
      have hd : (⟨c.oct.level, P⟩ : Oct d).level - (cellOct c.b r.oct r.idx).level = 1 := by
        change c.oct.level - r.oct.level = 1
        omega
      rw [hd, pow_one] at this
      rw [← this]
      change P k / 2 = _
      rw [hPk k hk]
  · rw [if_neg (by rw [st]; decide), if_pos st] at e1
    unfold foreachSmallerNeighbor at e1
    have hsib : getSiblingCell true G M r = getNeighborGhost G M r := by
      funext δ
      unfold getSiblingCell
      rw [if_pos rfl]
    rw [hsib] at e1
    have hrp : ∀ k, k ≠ j → (cellOct c.b r.oct r.idx).pos k = 2 * (cellOct c.b c.oct c.idx).pos k := by
      intro k hk
      rw [hp k, faceOff_ne s hk, if_neg (by omega), hPk k hk]
      omega
    have hrm : cellOct c.b r.oct r.idx ∈ cellMesh c.b M := mem_cellMesh.2 ⟨_, h2, _, h3, rfl⟩
    have hrv := hM'.valid _ hrm
    have step : ∀ δ ∈ loops (fun k => if faceOff j s k = 0 then [(0 : ℤ), 1] else [0]),
        ∃ r', getNeighborGhost G M r δ = some r' ∧ r' ∈ rs ∧ r'.b = c.b ∧
          r'.oct.level = c.oct.level + 1 ∧
          ∀ k, k ≠ j → ((cellOct c.b r'.oct r'.idx).pos k : ℤ) =
            2 * (cellOct c.b c.oct c.idx).pos k + δ k := by
      intro δ hδ
      have hm : getNeighborGhost G M r δ ∈ rs.map some := by
        rw [← e1]; exact List.mem_map.2 ⟨δ, hδ, rfl⟩
      obtain ⟨r', hr', heq⟩ := List.mem_map.1 hm
      have hrm' : cellOct c.b r'.oct r'.idx ∈
          nbrs (cellGrid G c.b) (cellMesh c.b M) (cellOct c.b c.oct c.idx) j s :=
        (hn _).2 (List.mem_map.2 ⟨r', hr', rfl⟩)
      have hlev := nbrs_level hG' hB' hcm hrm'
      rw [mem_loops] at hδ
      have hδ0 : δ j = 0 := by
        have := hδ j
        rw [faceOff_self, if_neg (by omega)] at this
        simpa using this
      have hδ1 : ∀ k, δ k = 0 ∨ δ k = 1 := by
        intro k
        have := hδ k
        split at this
        · simpa using this
        · left; simpa using this
      have hlmin : G.lmin ≤ c.oct.level := ho.1
      have htar : ∀ k, 0 ≤ target r.b r.oct r.idx δ k ∧
          target r.b r.oct r.idx δ k < (cellGrid G r.b).count k r.oct.level := by
        intro k
        rw [h4, hl]
        unfold target
        by_cases hk : k = j
        · subst hk
          rw [hδ0]
          have := hrv.2 k
          change r.oct.pos k * c.b k + r.idx k < (cellGrid G c.b).count k r.oct.level at this
          rw [hl] at this
          constructor
          · positivity
          · rw [add_zero]; exact_mod_cast this
        · have e5 := hrp k hk
          change r.oct.pos k * c.b k + r.idx k = _ at e5
          rw [e5, count_cell_succ hlmin]
          have := hcv.2 k
          have h' : (cellOct c.b c.oct c.idx).pos k < (cellGrid G c.b).count k c.oct.level := this
          have := hδ1 k
          constructor
          · push_cast; omega
          · push_cast; omega
      obtain ⟨r2, P2, g1, g2, g3, g4, gW, g5⟩ := C25_neighbor_cell hG hM hB r h2 (by rw [h4]; exact h3)
        δ (fun k => by
          have h6 := hb k
          rw [h4]
          rcases hδ1 k with h | h <;> rw [h] <;> simp <;> omega) (fun k => Or.inr (htar k))
      rw [g1] at heq
      have heq' : r' = r2 := (Option.some.inj heq)
      subst heq'
      have hP2 : ∀ k, (P2 k : ℤ) = target r.b r.oct r.idx δ k := fun k => wraps_inside gW (htar k)
      rw [h4] at g5 hP2
      refine ⟨r', g1, hr', by rw [g4, h4], ?_⟩
      have fin : cellOct c.b r'.oct r'.idx = ⟨r.oct.level, P2⟩ →
          r'.oct.level = c.oct.level + 1 ∧ ∀ k, k ≠ j → ((cellOct c.b r'.oct r'.idx).pos k : ℤ) =
            2 * (cellOct c.b c.oct c.idx).pos k + δ k := by
        intro h
        have hlv : (cellOct c.b r'.oct r'.idx).level = r.oct.level := by rw [h]
        refine ⟨by rw [← hl]; exact hlv, fun k hk => ?_⟩
        rw [h]
        change (P2 k : ℤ) = _
        rw [hP2]
        unfold target
        have e5 := hrp k hk
        change r.oct.pos k * c.b k + r.idx k = _ at e5
        rw [e5]
        push_cast
        ring
      rcases g5 with ⟨-, g⟩ | ⟨-, gl, gA⟩ | ⟨-, gl, -⟩
      · exact fin g
      · -- a larger cell would contain the first small cell
        exfalso
        have hA' : Anc (cellOct c.b r'.oct r'.idx) (cellOct c.b r.oct r.idx) := by
          refine ⟨by change r'.oct.level ≤ r.oct.level; omega, fun k => ?_⟩
          have h6 := gA.2 k
          have hd : (⟨r.oct.level, P2⟩ : Oct d).level - (cellOct c.b r'.oct r'.idx).level = 1 := by
            change r.oct.level - r'.oct.level = 1
            omega
          have hd' : (cellOct c.b r.oct r.idx).level - (cellOct c.b r'.oct r'.idx).level = 1 := hd
          rw [hd, pow_one] at h6
          rw [hd', pow_one, ← h6]
          have h7 := hP2 k
          unfold target at h7
          change (cellOct c.b r.oct r.idx).pos k / 2 = P2 k / 2
          by_cases hk : k = j
          · subst hk
            rw [hδ0, add_zero] at h7
            have : P2 k = r.oct.pos k * c.b k + r.idx k := by exact_mod_cast h7
            rw [this]
            rfl
          · have e5 := hrp k hk
            have e6 := e5
            change r.oct.pos k * c.b k + r.idx k = _ at e6
            rw [e6] at h7
            rw [e5]
            have := hδ1 k
            push_cast at h7
            omega
        have := hM'.eq_of_anc hG' (mem_cellMesh.2 ⟨_, g2, _, by rw [← h4]; exact g3, rfl⟩) hrm hA'
        have : (cellOct c.b r'.oct r'.idx).level = (cellOct c.b r.oct r.idx).level := by rw [this]
        have : r'.oct.level = r.oct.level := this
        omega
      · exfalso
        have h6 : r'.oct.level ≤ c.oct.level + 1 := hlev.2
        omega
    have : Nonempty (CellIndex d) := ⟨r⟩
    choose! f hf using step
    have hmap : rs = (loops (fun k => if faceOff j s k = 0 then [(0 : ℤ), 1] else [0])).map f := by
      have h6 : (loops (fun k => if faceOff j s k = 0 then [(0 : ℤ), 1] else [0])).map
          (getNeighborGhost G M r) = ((loops (fun k => if faceOff j s k = 0 then [(0 : ℤ), 1]
            else [0])).map f).map some := by
        rw [List.map_map]
        exact List.map_congr_left fun δ hδ => (hf δ hδ).1
      rw [h6] at e1
      exact (List.map_injective_iff.2 (Option.some_injective _) e1).symm
    refine .smaller st hl f ?_ ?_ ?_
    · intro δ hδ
      obtain ⟨a1, a2, a3, a4, a5⟩ := hf δ hδ
      exact ⟨a1, (e2 _ a2).1, (e2 _ a2).2, a3, a4, a5⟩
    · rw [hmap, List.map_map] at e3
      exact e3
    · intro q
      rw [hn q, hmap, List.map_map]
      rfl

/-- A side of a cell on the boundary of the domain. -/
theorem outside (hG : G.Pos) (hM : Tiling G M) (hB : Balanced G M) (c : CellIndex d) (hc : c.oct ∈ M)
    (hx : ∀ k, c.idx k < c.b k) (hst : c.status = .localToBlock) (j : Fin d) {s : ℤ}
    (hs : s = 1 ∨ s = -1)
    (hin : ¬ InDomain (cellGrid G c.b) c.oct.level (target c.b c.oct c.idx (faceOff j s))) :
    ∃ r, getNeighborGhost G M c (faceOff j s) = some r ∧ r.status = .boundary ∧
      nbrs (cellGrid G c.b) (cellMesh c.b M) (cellOct c.b c.oct c.idx) j s = ∅ := by
  have habs := faceOff_abs (j := j) hs
  obtain ⟨r, h1, h2, -⟩ := C25_boundary (M := M) hG c (hM.valid _ hc) hx (faceOff j s)
    (fun k => by have := habs k; have := hx k; omega) hin
  obtain ⟨rs, e1, -, -, e4⟩ := C25_face_cells hG hM hB true c hc hx hst (fun h => by cases h)
    (faceOff j s) habs ⟨j, by rw [faceOff_self]; omega⟩ (Or.inl ⟨j, fun k hk => faceOff_ne s hk⟩)
  refine ⟨r, h1, h2, ?_⟩
  unfold faceCells at e1
  rw [h1] at e1
  simp only at e1
  rw [if_pos h2] at e1
  have : rs = [] := List.map_eq_nil_iff.1 e1.symm
  subst this
  refine Finset.eq_empty_of_forall_notMem fun q hq => ?_
  have := (e4 q).2 (mem_nbrs.1 hq)
  simp at this

/-- On a periodic mesh no side of a cell is on the boundary. -/
theorem inDomain_periodic (hper : ∀ k, G.periodic k = true) (b : Fin d → ℕ) (l : ℕ) (X : Fin d → ℤ) :
    InDomain (cellGrid G b) l X := fun k => Or.inl (hper k)

end Verif.Flux
