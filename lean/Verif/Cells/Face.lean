import Verif.Cells.Neighbor

/-!
# C25: neighbour cells
-/

namespace Verif.Cells

open Verif.Octree

variable {d : ℕ} {G : Grid d} {M : Finset (Oct d)}

theorem wraps_unique {l : ℕ} {X : Fin d → ℤ} {P Q : Fin d → ℕ} (hP : Wraps G l X P)
    (hQ : Wraps G l X Q) : P = Q := by
  funext k
  obtain ⟨p1, t, -, p2⟩ := hP k
  obtain ⟨q1, u, -, q2⟩ := hQ k
  have e : (P k : ℤ) = Q k + (u - t) * G.count k l := by linarith
  have h := congrArg (· % (G.count k l : ℤ)) e
  simp only [Int.add_mul_emod_self_right] at h
  rw [Int.emod_eq_of_lt (by positivity) (by exact_mod_cast p1),
    Int.emod_eq_of_lt (by positivity) (by exact_mod_cast q1)] at h
  exact_mod_cast h

theorem abs_off_le {b : Fin d → ℕ} {x : Fin d → ℕ} (hx : ∀ k, x k < b k) {off : Fin d → ℤ}
    (h : ∀ k, 2 * |off k| ≤ b k + 1) (k : Fin d) : |off k| ≤ b k := by
  have := h k; have := hx k; omega

/-- C25 (any offset): if the requested lattice position is in the domain, the returned cell is a
cell of the mesh. It is the cell at that position, or the coarser cell that contains it, or one of
the finer cells it contains: the one with the lowest coordinates, or the highest ones in the
directions in which the block is left downwards. -/
theorem C25_neighbor_cell (hG : G.Pos) (hM : Tiling G M) (hB : Balanced G M)
    (c : CellIndex d) (hc : c.oct ∈ M) (hx : ∀ k, c.idx k < c.b k) (off : Fin d → ℤ)
    (hoff : ∀ k, 2 * |off k| ≤ c.b k + 1)
    (hin : InDomain (cellGrid G c.b) c.oct.level (target c.b c.oct c.idx off)) :
    ∃ r P, getNeighborGhost G M c off = some r ∧ r.oct ∈ M ∧ (∀ k, r.idx k < c.b k) ∧ r.b = c.b ∧
      Wraps (cellGrid G c.b) c.oct.level (target c.b c.oct c.idx off) P ∧
      ((r.status = c.status.keepLocal ∨ r.status = .sameSize) ∧
          cellOct c.b r.oct r.idx = ⟨c.oct.level, P⟩ ∨
        r.status = .bigger ∧ r.oct.level + 1 = c.oct.level ∧
          Anc (cellOct c.b r.oct r.idx) ⟨c.oct.level, P⟩ ∨
        r.status = .smaller ∧ r.oct.level = c.oct.level + 1 ∧
          ∀ k, (cellOct c.b r.oct r.idx).pos k =
            2 * P k + if (c.idx k : ℤ) + off k < 0 then 1 else 0) := by
  obtain ⟨r, h1, h2, h3, h4, h5⟩ := getNeighborGhost_inDomain hG hM hB c hc hx off
    (abs_off_le hx hoff) (fun _ _ _ _ => hoff) hin
  refine ⟨r, _, h1, h2, h3, h4,
    samePos_wraps hG (hM.valid _ hc) hx (abs_off_le hx hoff) hin, ?_⟩
  rcases h5 with ⟨s, e⟩ | ⟨s, hl, e⟩ | ⟨s, -, e⟩
  · exact Or.inl ⟨s.imp_left And.left, e⟩
  · refine Or.inr (Or.inl ⟨s, ?_, ?_⟩)
    · have : r.oct.level = c.oct.level - 1 := congrArg (fun q : Oct d => q.level) e
      omega
    · rw [e]
      have : c.oct.level - (c.oct.level - 1) = 1 := by omega
      refine ⟨Nat.sub_le _ _, fun k => ?_⟩
      simp only
      rw [this, pow_one]
  · refine Or.inr (Or.inr ⟨s, congrArg (fun q : Oct d => q.level) e, fun k => ?_⟩)
    rw [e]

/-- C25 (boundaries): if the requested position is outside the domain, the result is marked as a
boundary cell, from which an inside cell and an offset leading to it are recovered. -/
theorem C25_boundary (hG : G.Pos)
    (c : CellIndex d) (hc : Valid G c.oct) (hx : ∀ k, c.idx k < c.b k) (off : Fin d → ℤ)
    (hoff : ∀ k, |off k| ≤ c.b k)
    (hin : ¬ InDomain (cellGrid G c.b) c.oct.level (target c.b c.oct c.idx off)) :
    ∃ r, getNeighborGhost G M c off = some r ∧ r.status = .boundary ∧ r.oct = c.oct ∧ r.b = c.b ∧
      (∀ k, (r.idx k : ℤ) - r.b k = c.idx k + off k) ∧
      (getBoundaryPosAndOffset r).1.oct = c.oct ∧
      (∀ k, (getBoundaryPosAndOffset r).1.idx k < c.b k) ∧
      getNeighborGhost G M (getBoundaryPosAndOffset r).1 (getBoundaryPosAndOffset r).2 = some r := by
  have e := getNeighborGhost_boundary (M := M) hG c hc hx off hoff hin
  obtain ⟨oct, idx, b, st⟩ := c
  simp only at *
  have hk : ∀ k, (((idx k : ℤ) + off k + b k).toNat : ℤ) = idx k + off k + b k := fun k => by
    have := abs_le.1 (hoff k)
    omega
  have hins : ∀ k, (((min (max ((idx k : ℤ) + off k) 0) ((b k : ℤ) - 1)).toNat : ℕ) : ℤ) =
      min (max ((idx k : ℤ) + off k) 0) ((b k : ℤ) - 1) := fun k => by
    have := hx k
    omega
  have hsum : ∀ k, (((idx k : ℤ) + off k + b k).toNat : ℤ) - b k = idx k + off k := fun k => by
    rw [hk]; ring
  have hlt : ∀ k, (min (max ((idx k : ℤ) + off k) 0) ((b k : ℤ) - 1)).toNat < b k := fun k => by
    have := hx k; omega
  refine ⟨_, e, rfl, rfl, rfl, fun k => by simp only; rw [hk]; ring, rfl, fun k => ?_, ?_⟩
  · simp only [getBoundaryPosAndOffset]
    rw [hsum]; exact hlt k
  · unfold getBoundaryPosAndOffset
    simp only [hsum]
    have ht : target b oct (fun k => (min (max ((idx k : ℤ) + off k) 0) ((b k : ℤ) - 1)).toNat)
        (fun k => (idx k : ℤ) + off k -
          ((min (max ((idx k : ℤ) + off k) 0) ((b k : ℤ) - 1)).toNat : ℕ)) =
        target b oct idx off := by
      funext k
      unfold target
      push_cast [hins]
      ring
    have := getNeighborGhost_boundary (M := M) hG
      ⟨oct, fun k => (min (max ((idx k : ℤ) + off k) 0) ((b k : ℤ) - 1)).toNat, b, .localToBlock⟩ hc
      hlt (fun k => (idx k : ℤ) + off k -
          ((min (max ((idx k : ℤ) + off k) 0) ((b k : ℤ) - 1)).toNat : ℕ))
      (fun k => by
        have h1 := abs_le.1 (hoff k)
        have h2 := hx k
        simp only
        rw [abs_le, hins]
        omega) (by rw [ht]; exact hin)
    rw [this]
    simp only [Option.some.injEq, CellIndex.mk.injEq, true_and, and_true]
    funext k
    congr 1
    ring

/-- The one-cell offset as a direction. -/
def dirOf (off : Fin d → ℤ) (k : Fin d) : SignType := SignType.sign (off k)

theorem dirOf_cast {off : Fin d → ℤ} (h : ∀ k, |off k| ≤ 1) (k : Fin d) :
    ((dirOf off k : SignType) : ℤ) = off k := sign_cast_of_abs (h k)

theorem inDomain_dir {b : Fin d → ℕ} {o : Oct d} {x : Fin d → ℕ} {off : Fin d → ℤ}
    (h : ∀ k, |off k| ≤ 1) :
    InDomain (cellGrid G b) o.level (target b o x off) ↔
      ∀ k, InDom (cellGrid G b) (cellOct b o x) (dirOf off) k := by
  unfold InDomain InDom
  refine forall_congr' fun k => ?_
  rw [dirOf_cast h]
  rfl

theorem samePos_dir (hG : G.Pos) {o : Oct d} (ho : Valid G o) {b x : Fin d → ℕ}
    (hx : ∀ k, x k < b k) {off : Fin d → ℤ} (h : ∀ k, |off k| ≤ 1)
    (hin : InDomain (cellGrid G b) o.level (target b o x off)) :
    samePos G o x b off = neighborPos (cellGrid G b) (cellOct b o x) (dirOf off) := by
  have hb : ∀ k, 0 < b k := fun k => by have := hx k; omega
  refine wraps_unique (samePos_wraps hG ho hx (fun k => ?_) hin) fun k => ?_
  · have := h k; have := hb k; omega
  · refine ⟨neighborPos_lt (cellGrid_pos hG hb) (cellOct b o x) _ k, ?_⟩
    obtain ⟨t, ht, e⟩ := neighborPos_wraps (cell_valid ho hx) (dirOf off) k
      ((inDomain_dir h).1 hin k)
    refine ⟨t, ht, ?_⟩
    rw [dirOf_cast h] at e
    exact e

theorem getNeighborGhost_eq_getNeighbor {c : CellIndex d} {off : Fin d → ℤ}
    (h : ∀ k, 0 ≤ (c.idx k : ℤ) + off k ∧ (c.idx k : ℤ) + off k < c.b k) :
    getNeighborGhost G M c off =
      some ⟨c.oct, fun k => ((c.idx k : ℤ) + off k).toNat, c.b, c.status.keepLocal⟩ := by
  unfold getNeighborGhost
  simp only
  rw [if_pos]
  · unfold getNeighbor
    rw [inBlock_eq_some h]
    rfl
  · intro k
    exact Int.ediv_eq_zero_of_lt (h k).1 (h k).2

/-- The cells a loop over the neighbours in direction `off` reads: the neighbour itself, or the
cells visited by `foreach_smaller_neighbor` when it is smaller. -/
def faceCells (diffBlock : Bool) (G : Grid d) (M : Finset (Oct d)) (c : CellIndex d)
    (off : Fin d → ℤ) : List (Option (CellIndex d)) :=
  match getNeighborGhost G M c off with
  | none => [none]
  | some r =>
    if r.status = .boundary then []
    else if r.status = .smaller then foreachSmallerNeighbor diffBlock G M r off
    else [some r]

/-- Moving from a cell to a lattice position of the same level that holds a cell of the mesh. -/
theorem getNeighborGhost_to_cell (hG : G.Pos) (hM : Tiling G M) (hB : Balanced G M)
    (c : CellIndex d) (hc : c.oct ∈ M) (hx : ∀ k, c.idx k < c.b k) (off : Fin d → ℤ)
    (hoff : ∀ k, |off k| ≤ 1) {Q : Fin d → ℕ}
    (hQ : (⟨c.oct.level, Q⟩ : Oct d) ∈ cellMesh c.b M)
    (hQt : ∀ k, (Q k : ℤ) = target c.b c.oct c.idx off k) :
    ∃ r, getNeighborGhost G M c off = some r ∧ r.oct ∈ M ∧ (∀ k, r.idx k < c.b k) ∧
      cellOct c.b r.oct r.idx = ⟨c.oct.level, Q⟩ := by
  have hb : ∀ k, 0 < c.b k := fun k => by have := hx k; omega
  have hG' := cellGrid_pos hG hb
  have hM' := cellMesh_tiling hG hb hM
  have hQv := hM'.valid _ hQ
  have hin : InDomain (cellGrid G c.b) c.oct.level (target c.b c.oct c.idx off) := fun k => by
    right
    rw [← hQt k]
    exact ⟨by positivity, by exact_mod_cast hQv.2 k⟩
  have hoff2 : ∀ k, 2 * |off k| ≤ c.b k + 1 := fun k => by have := hoff k; have := hb k; omega
  have hoff1 := abs_off_le hx hoff2
  have hP : samePos G c.oct c.idx c.b off = Q :=
    wraps_unique (samePos_wraps hG (hM.valid _ hc) hx hoff1 hin)
      fun k => ⟨hQv.2 k, 0, Or.inl rfl, by rw [← hQt k]; ring⟩
  obtain ⟨r, h1, h2, h3, h4, h5⟩ := getNeighborGhost_inDomain hG hM hB c hc hx off hoff1
    (fun _ _ _ _ => hoff2) hin
  have hr : cellOct c.b r.oct r.idx ∈ cellMesh c.b M := mem_cellMesh.2 ⟨_, h2, _, h3, rfl⟩
  refine ⟨r, h1, h2, h3, ?_⟩
  rw [hP] at h5
  rcases h5 with ⟨-, e⟩ | ⟨-, hl, e⟩ | ⟨-, -, e⟩
  · exact e
  · exact hM'.eq_of_anc hG' hr hQ (by
      rw [e]
      have : c.oct.level - (c.oct.level - 1) = 1 := by omega
      exact ⟨Nat.sub_le _ _, fun k => by simp only; rw [this, pow_one]⟩)
  · refine (hM'.eq_of_anc hG' hQ hr ?_).symm
    rw [e]
    refine ⟨Nat.le_succ _, fun k => ?_⟩
    have : c.oct.level + 1 - c.oct.level = 1 := by omega
    simp only
    rw [this, pow_one]
    split <;> omega

theorem loops_map {α β : Type} {d : ℕ} (f : α → β) (l : Fin d → List α) :
    loops (fun k => (l k).map f) = (loops l).map fun s k => f (s k) := by
  induction d with
  | zero =>
    simp only [loops, List.map_cons, List.map_nil]
    congr 1
    funext k; exact k.elim0
  | succ d ih =>
    simp only [loops, ih, List.flatMap_map, List.map_flatMap, List.map_map]
    congr 1
    funext z
    congr 1
    funext s k
    refine Fin.lastCases ?_ (fun j => ?_) k
    · simp [Function.comp_def]
    · simp [Function.comp_def]

theorem exists_map {α β γ : Type} {L : List α} {f : α → Option β} {g : β → γ} {h : α → γ}
    {P : β → Prop} (H : ∀ x ∈ L, ∃ y, f x = some y ∧ P y ∧ g y = h x) :
    ∃ ys : List β, L.map f = ys.map some ∧ (∀ y ∈ ys, P y) ∧ ys.map g = L.map h := by
  induction L with
  | nil => exact ⟨[], rfl, by simp, rfl⟩
  | cons x L ih =>
    obtain ⟨y, h1, h2, h3⟩ := H x (by simp)
    obtain ⟨ys, e1, e2, e3⟩ := ih fun z hz => H z (by simp [hz])
    exact ⟨y :: ys, by simp [h1, e1], by simpa using ⟨h2, e2⟩, by simp [h3, e3]⟩

/-- C25 (faces): the cells a loop over one side of a cell reads are exactly the cells of the mesh
adjacent to the cell on that side, each one once. The offset is a face direction, or an edge or
corner direction that leaves the block in every direction in which it is negative. -/
theorem C25_face_cells (hG : G.Pos) (hM : Tiling G M) (hB : Balanced G M)
    (diffBlock : Bool) (c : CellIndex d) (hc : c.oct ∈ M) (hx : ∀ k, c.idx k < c.b k)
    (hst : c.status = .localToBlock)
    (hev : diffBlock = false → ∀ k, 2 ∣ c.b k) (off : Fin d → ℤ)
    (hoff : ∀ k, |off k| ≤ 1) (h0 : ∃ k, off k ≠ 0)
    (hdir : (∃ j, ∀ k, k ≠ j → off k = 0) ∨ ∀ k, off k = -1 → c.idx k = 0) :
    ∃ rs : List (CellIndex d), faceCells diffBlock G M c off = rs.map some ∧
      (∀ r ∈ rs, r.oct ∈ M ∧ ∀ k, r.idx k < c.b k) ∧
      (rs.map fun r => cellOct c.b r.oct r.idx).Nodup ∧
      ∀ q, q ∈ (rs.map fun r => cellOct c.b r.oct r.idx) ↔
        q ∈ cellMesh c.b M ∧ DirAdj (cellGrid G c.b) (cellOct c.b c.oct c.idx) (dirOf off) q := by
  have hb : ∀ k, 0 < c.b k := fun k => by have := hx k; omega
  have hG' := cellGrid_pos hG hb
  have hM' := cellMesh_tiling hG hb hM
  have hB' := cellMesh_balanced hG hb hB
  have ho := hM.valid _ hc
  have hoff2 : ∀ k, 2 * |off k| ≤ c.b k + 1 := fun k => by have := hoff k; have := hb k; omega
  have hoff1 := abs_off_le hx hoff2
  have hcm : cellOct c.b c.oct c.idx ∈ cellMesh c.b M := mem_cellMesh.2 ⟨_, hc, _, hx, rfl⟩
  have hs0 : ¬ ∀ k, dirOf off k = 0 := by
    obtain ⟨k, hk⟩ := h0
    exact fun h => hk (sign_eq_zero_iff.1 (h k))
  obtain ⟨ns, hns, hnd, hmem⟩ := findNeighbors_spec hG' hM' hB' hcm (dirOf off) hs0
  suffices h : ∃ rs : List (CellIndex d), faceCells diffBlock G M c off = rs.map some ∧
      (∀ r ∈ rs, r.oct ∈ M ∧ ∀ k, r.idx k < c.b k) ∧
      (rs.map fun r => cellOct c.b r.oct r.idx) = ns by
    obtain ⟨rs, e1, e2, e3⟩ := h
    exact ⟨rs, e1, e2, e3 ▸ hnd, fun q => by rw [e3]; exact hmem q⟩
  unfold findNeighbors at hns
  rw [if_neg hs0] at hns
  by_cases hin : InDomain (cellGrid G c.b) c.oct.level (target c.b c.oct c.idx off)
  · have hbnd : isBoundary (cellGrid G c.b) (cellOct c.b c.oct c.idx) (dirOf off) = false :=
      (isBoundary_iff hG' _ _).2 ((inDomain_dir hoff).1 hin)
    rw [hbnd] at hns
    simp only [Bool.false_eq_true, if_false] at hns
    have hP := samePos_dir hG ho hx hoff hin
    obtain ⟨r, h1, h2, h3, h4, h5⟩ := getNeighborGhost_inDomain hG hM hB c hc hx off hoff1
      (fun _ _ _ _ => hoff2) hin
    have hr : cellOct c.b r.oct r.idx ∈ cellMesh c.b M := mem_cellMesh.2 ⟨_, h2, _, h3, rfl⟩
    unfold faceCells
    rw [h1]
    simp only
    rw [hP] at h5
    have hlev : (cellOct c.b c.oct c.idx).level = c.oct.level := rfl
    rw [hlev] at hns
    rcases h5 with ⟨s, e⟩ | ⟨s, hl, e⟩ | ⟨s, -, e⟩
    · have hs : r.status ≠ .boundary ∧ r.status ≠ .smaller := by
        rcases s with ⟨s, -⟩ | s
        · rw [s, hst]; decide
        · rw [s]; decide
      rw [if_neg hs.1, if_neg hs.2]
      rw [← e, if_pos hr] at hns
      refine ⟨[r], rfl, ?_, ?_⟩
      · simp only [List.mem_singleton, forall_eq]; exact ⟨h2, h3⟩
      · exact Option.some.inj hns
    · rw [if_neg (by rw [s]; decide), if_neg (by rw [s]; decide)]
      have hA : Anc (cellOct c.b r.oct r.idx) (⟨c.oct.level, neighborPos (cellGrid G c.b)
          (cellOct c.b c.oct c.idx) (dirOf off)⟩ : Oct d) := by
        rw [e]
        have : c.oct.level - (c.oct.level - 1) = 1 := by omega
        exact ⟨Nat.sub_le _ _, fun k => by simp only; rw [this, pow_one]⟩
      rw [if_neg, if_pos] at hns
      · refine ⟨[r], rfl, ?_, ?_⟩
        · simp only [List.mem_singleton, forall_eq]; exact ⟨h2, h3⟩
        · rw [← Option.some.inj hns]
          simp only [List.map_cons, List.map_nil]
          rw [e]
          simp only [Nat.shiftRight_eq_div_pow, pow_one]
      · refine ⟨by omega, ?_⟩
        rw [e] at hr
        simpa only [Nat.shiftRight_eq_div_pow, pow_one] using hr
      · intro hmem2
        have h6 := hM'.eq_of_anc hG' hr hmem2 hA
        have : c.oct.level - 1 = c.oct.level := by
          have := congrArg (fun q : Oct d => q.level) h6
          rw [e] at this
          exact this
        omega
    · rw [if_neg (by rw [s]; decide), if_pos s]
      generalize hPdef : neighborPos (cellGrid G c.b) (cellOct c.b c.oct c.idx) (dirOf off) = P at *
      -- the block is left
      have hcross : ¬ ∀ k, 0 ≤ (c.idx k : ℤ) + off k ∧ (c.idx k : ℤ) + off k < c.b k := by
        intro h
        rw [getNeighborGhost_eq_getNeighbor h] at h1
        have e1 := congrArg CellIndex.oct (Option.some.inj h1)
        have e2 : r.oct.level = c.oct.level + 1 := congrArg (fun q : Oct d => q.level) e
        simp only at e1
        rw [← e1] at e2
        omega
      have hneg : ∀ k, ((c.idx k : ℤ) + off k < 0 ↔ dirOf off k = -1) := by
        intro k
        have hko : dirOf off k = -1 ↔ off k = -1 := by
          have := abs_le.1 (hoff k)
          unfold dirOf
          obtain h | h | h : off k = -1 ∨ off k = 0 ∨ off k = 1 := by omega
          all_goals rw [h]; decide
        rw [hko]
        have := abs_le.1 (hoff k)
        constructor
        · intro h; omega
        · intro h
          rcases hdir with ⟨j, hj⟩ | hd
          · by_contra hcon
            refine hcross fun k' => ?_
            have hxk := hx k'
            by_cases e' : k' = j
            · have : k = j := by by_contra hne; have := hj k hne; omega
              subst e'; subst this
              omega
            · rw [hj k' e']; omega
          · have := hd k h; omega
      have hA : Anc (⟨c.oct.level, P⟩ : Oct d) (cellOct c.b r.oct r.idx) := by
        rw [e]
        have : c.oct.level + 1 - c.oct.level = 1 := by omega
        refine ⟨Nat.le_succ _, fun k => ?_⟩
        simp only
        rw [this, pow_one]
        split <;> omega
      have hn1 : (⟨c.oct.level, P⟩ : Oct d) ∉ cellMesh c.b M := by
        intro hm
        have h6 := hM'.eq_of_anc hG' hm hr hA
        rw [e] at h6
        have : c.oct.level = c.oct.level + 1 := congrArg (fun q : Oct d => q.level) h6
        omega
      have hn2 : ¬ (1 ≤ c.oct.level ∧
          (⟨c.oct.level - 1, fun i => P i >>> 1⟩ : Oct d) ∈ cellMesh c.b M) := by
        rintro ⟨hl, hm⟩
        have hA2 : Anc (⟨c.oct.level - 1, fun i => P i >>> 1⟩ : Oct d) ⟨c.oct.level, P⟩ := by
          have : c.oct.level - (c.oct.level - 1) = 1 := by omega
          refine ⟨Nat.sub_le _ _, fun k => ?_⟩
          simp only
          rw [this, Nat.shiftRight_eq_div_pow]
        have h6 := hM'.eq_of_anc hG' hm hr (hA2.trans hA)
        rw [e] at h6
        have : c.oct.level - 1 = c.oct.level + 1 := congrArg (fun q : Oct d => q.level) h6
        omega
      rw [if_neg hn1, if_neg hn2] at hns
      split_ifs at hns with hall
      have hns' := Option.some.inj hns
      -- the visited cells, one by one
      have hloops : (loops fun k => if off k = 0 then [(0 : ℤ), 1] else [0]) =
          (loops fun k => if dirOf off k = 0 then [0, 1] else [0]).map
            fun (s : Fin d → ℕ) k => (s k : ℤ) := by
        rw [← loops_map]
        congr 1
        funext k
        have : dirOf off k = 0 ↔ off k = 0 := sign_eq_zero_iff
        by_cases h : off k = 0
        · rw [if_pos h, if_pos (this.2 h)]; rfl
        · rw [if_neg h, if_neg (mt this.1 h)]; rfl
      have hstep : ∀ δ ∈ (loops fun k => if dirOf off k = 0 then [0, 1] else [0]),
          ∃ r', getSiblingCell diffBlock G M r (fun k => ((δ k : ℕ) : ℤ)) = some r' ∧ (r'.oct ∈ M ∧
            ∀ k, r'.idx k < c.b k) ∧ cellOct c.b r'.oct r'.idx =
              ⟨c.oct.level + 1, fun i => (P i <<< 1) + (if dirOf off i = -1 then 1 else 0) + δ i⟩ := by
        intro δ hδ
        have hQ := hall ⟨c.oct.level + 1,
          fun i => (P i <<< 1) + (if dirOf off i = -1 then 1 else 0) + δ i⟩
          (List.mem_map.2 ⟨δ, hδ, rfl⟩)
        rw [mem_loops] at hδ
        have hδ1 : ∀ k, δ k ≤ 1 ∧ (dirOf off k ≠ 0 → δ k = 0) := fun k => by
          have := hδ k
          split_ifs at this with h
          · refine ⟨?_, fun h' => absurd h h'⟩
            simp only [List.mem_cons, List.not_mem_nil, or_false] at this; omega
          · simp only [List.mem_cons, List.not_mem_nil, or_false] at this
            exact ⟨by omega, fun _ => this⟩
        have hrl : r.oct.level = c.oct.level + 1 := congrArg (fun q : Oct d => q.level) e
        have hrp : ∀ k, r.oct.pos k * c.b k + r.idx k =
            2 * P k + if dirOf off k = -1 then 1 else 0 := fun k => by
          have : r.oct.pos k * c.b k + r.idx k = _ := congrFun (congrArg (fun q : Oct d => q.pos) e) k
          rw [this]
          simp only [hneg]
        have hQt : ∀ k, (((P k <<< 1) + (if dirOf off k = -1 then 1 else 0) + δ k : ℕ) : ℤ) =
            target c.b r.oct r.idx (fun k => ((δ k : ℕ) : ℤ)) k := fun k => by
          unfold target
          rw [hrp k, Nat.shiftLeft_eq]
          push_cast
          ring
        unfold getSiblingCell
        cases diffBlock with
        | true =>
          simp only [if_true]
          obtain ⟨r', e1, e2, e3, e4⟩ := getNeighborGhost_to_cell hG hM hB r h2 (by rw [h4]; exact h3)
            (fun k => ((δ k : ℕ) : ℤ)) (fun k => by have := (hδ1 k).1; rw [abs_le]; omega)
            (by rw [h4, hrl]; exact hQ) (by rw [h4]; exact hQt)
          rw [h4] at e3 e4
          exact ⟨r', e1, ⟨e2, e3⟩, by rw [e4, hrl]⟩
        | false =>
          simp only [Bool.false_eq_true, if_false]
          have hlt : ∀ k, r.idx k + δ k < c.b k := by
            intro k
            have h6 := h3 k
            by_cases hz : dirOf off k = 0
            · have hp := hrp k
              rw [hz, if_neg (by decide)] at hp
              obtain ⟨m, hm⟩ := hev rfl k
              rw [hm] at hp h6 ⊢
              have : 2 ∣ r.idx k := by
                have h7 : r.oct.pos k * (2 * m) = 2 * (r.oct.pos k * m) := by ring
                rw [h7] at hp
                omega
              have := (hδ1 k).1
              omega
            · rw [(hδ1 k).2 hz]; exact h6
          unfold getNeighbor
          rw [inBlock_eq_some (fun k => by rw [h4]; have := hlt k; simp only; omega)]
          refine ⟨_, rfl, ⟨h2, fun k => ?_⟩, Oct.ext' hrl fun k => ?_⟩
          · have := hlt k; simp only; omega
          · have := hrp k
            simp only [cellOct, Nat.shiftLeft_eq]
            omega
      unfold foreachSmallerNeighbor
      rw [hloops, List.map_map, ← hns']
      unfold finerNeighbors
      exact exists_map hstep
  · have hbnd : isBoundary (cellGrid G c.b) (cellOct c.b c.oct c.idx) (dirOf off) = true := by
      have := mt (inDomain_dir hoff).2 hin
      rw [← isBoundary_iff hG'] at this
      simpa using this
    rw [hbnd] at hns
    simp only [if_true] at hns
    refine ⟨[], ?_, by simp, ?_⟩
    · unfold faceCells
      rw [getNeighborGhost_boundary hG c ho hx off hoff1 hin]
      simp
    · exact Option.some.inj hns

end Verif.Cells
