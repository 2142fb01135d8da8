import Verif.Hydro.Euler
import Verif.Hydro.Boundary
import Verif.Mhd.Source

/-!
# C75: the update of `HydroUpdate_hancock`

Model of `core/src/hydro/HydroUpdate_hancock.cpp` L41-227 and L409-464 for one conserved variable, without the
gravity correction and the repair of negative values. The conversion to primitive variables, the evolution by
half a step (`compute_source`), the Riemann solver, the floor on the density, the mean of smaller cells and the
boundary values are arbitrary functions. Arithmetic is exact.
-/

namespace Verif.Hydro.Hancock

open Verif.Octree Verif.Cells Verif.Flux Verif.Hydro

variable {d : ℕ} {K ι V : Type} [Field K] [LinearOrder K]

/-! ### Model -/

/-- The functions the scheme is built from. `source q sl t` is `compute_source` (`HydroUpdate_utils.h`
L186-340): `sl` are the slopes along the directions, `t` the quotients of time step and cell size. -/
structure Scheme (d : ℕ) (K ι V : Type) where
  toPrim : V → ι → K
  source : (ι → K) → List (ι → K) → (Fin d → K) → ι → K
  post : (ι → K) → ι → K
  flux : Fin d → (ι → K) → (ι → K) → K

/-- The cell next to `z` in direction `j`, at distance `t`. -/
def off (z : Fin d → ℤ) (j : Fin d) (t : ℤ) : Fin d → ℤ := fun k => z k + faceOff j t k

/-- A cell of `Qgroup` (`HydroUpdate_hancock.cpp` L430-433: the primitive variables of all cells of `Ugroup`). Cells are counted from the
first cell of the block; the patch has two layers of ghosts. -/
def prim (E : Scheme d K ι V) (I : Source d V) (G : Grid d) (M : Finset (Oct d)) (b : Fin d → ℕ) (o : Oct d)
    (z : Fin d → ℤ) : Option (ι → K) :=
  (patchRead I G M b o z).map E.toPrim

/-- L57-94, the slope along `j`. The code stores it only in the cells where it is read (`SlopesX` and its
analogues have one layer of ghosts, along their direction). -/
def slopeAt (E : Scheme d K ι V) (I : Source d V) (G : Grid d) (M : Finset (Oct d)) (b : Fin d → ℕ) (o : Oct d)
    (z : Fin d → ℤ) (j : Fin d) : Option (ι → K) :=
  (prim E I G M b o z).bind fun qc => (prim E I G M b o (off z j (-1))).bind fun qm =>
    (prim E I G M b o (off z j 1)).map fun qp => Euler.slope qm qc qp 1 1

/-- `dt / size` (L437-439, L446-452). -/
def ratio (D : Domain d) (G : Grid d) (b : Fin d → ℕ) (dt : K) (o : Oct d) (j : Fin d) : K :=
  dt / (getCellSize D G ⟨o, fun _ => 0, b, .localToBlock⟩ j : ℚ)

/-- L96-99, a cell of `Sources`. -/
def sourceAt (E : Scheme d K ι V) (I : Source d V) (D : Domain d) (G : Grid d) (M : Finset (Oct d))
    (b : Fin d → ℕ) (dt : K) (o : Oct d) (z : Fin d → ℤ) : Option (ι → K) :=
  (prim E I G M b o z).bind fun qc => ((List.finRange d).mapM (slopeAt E I G M b o z)).map fun sl =>
    E.source qc sl (ratio D G b dt o)

/-- `reconstruct_state`, L112-122. -/
def reconstruct (E : Scheme d K ι V) (src sl : ι → K) (sign : K) : ι → K :=
  E.post fun i => src i + sign * sl i * (1 / 2)

/-- L138-161 and L196-220: the flux between cell `z` and the next one in direction `j`. -/
def faceFlux (E : Scheme d K ι V) (I : Source d V) (D : Domain d) (G : Grid d) (M : Finset (Oct d))
    (b : Fin d → ℕ) (dt : K) (o : Oct d) (z : Fin d → ℤ) (j : Fin d) : Option K :=
  (sourceAt E I D G M b dt o z).bind fun srcL => (sourceAt E I D G M b dt o (off z j 1)).bind fun srcR =>
  (slopeAt E I G M b o z j).bind fun slL => (slopeAt E I G M b o (off z j 1) j).map fun slR =>
    E.flux j (reconstruct E srcL slL 1) (reconstruct E srcR slR (-1))

/-- L409-464 with `compute_fluxes` (L179-227): all directions in turn add their difference of fluxes. -/
def updateCell (E : Scheme d K ι V) (I : Source d V) (D : Domain d) (G : Grid d) (M : Finset (Oct d))
    (b : Fin d → ℕ) (dt u : K) (o : Oct d) (x : Fin d → ℕ) : Option K :=
  ((loops fun k => List.range (b k + 2 * 2)).mapM (patchVal I G M b o)).bind fun _ =>
    ((List.finRange d).mapM fun j =>
      (faceFlux E I D G M b dt o (off (fun k => (x k : ℤ)) j (-1)) j).bind fun fL =>
        (faceFlux E I D G M b dt o (fun k => (x k : ℤ)) j).map fun fR =>
          (fL - fR) * ratio D G b dt o j).map fun l => u + l.sum

/-! ### Specification -/

/-- Position of a cell of a patch, in cells of its level from the corner of the domain. -/
def place (b : Fin d → ℕ) (o : Oct d) (z : Fin d → ℤ) (k : Fin d) : ℤ := (o.pos k : ℤ) * b k + z k

/-- Cells of two patches of the same level that are at the same place, possibly through periodic boundaries. -/
def SamePlace (G : Grid d) (b : Fin d → ℕ) (o : Oct d) (z : Fin d → ℤ) (o' : Oct d) (z' : Fin d → ℤ) : Prop :=
  o.level = o'.level ∧ ∀ k, ∃ t : ℤ, (t = 0 ∨ G.periodic k = true) ∧
    place b o' z' k = place b o z k + t * ((cellGrid G b).count k o.level)

/-- The cell and its neighbours across faces do not lie beyond a boundary. -/
def Inner (G : Grid d) (b : Fin d → ℕ) (o : Oct d) (z : Fin d → ℤ) : Prop :=
  ∀ k, G.periodic k = true ∨ 1 ≤ place b o z k ∧ place b o z k + 1 < (cellGrid G b).count k o.level

/-! ### Values depend on the place only -/

variable {G : Grid d} {M : Finset (Oct d)} {b : Fin d → ℕ} {o o' : Oct d} {z z' : Fin d → ℤ} {j : Fin d}

theorem SamePlace.off (h : SamePlace G b o z o' z') (j : Fin d) (t : ℤ) :
    SamePlace G b o (off z j t) o' (off z' j t) := by
  refine ⟨h.1, fun k => ?_⟩
  obtain ⟨u, h1, h2⟩ := h.2 k
  refine ⟨u, h1, ?_⟩
  unfold place Hancock.off at *
  linarith

theorem wraps_mod {H : Grid d} {l : ℕ} {X X' : Fin d → ℤ} {P Q : Fin d → ℕ} (hP : Wraps H l X P)
    (hQ : Wraps H l X' Q) (h : ∀ k, ∃ t : ℤ, X' k = X k + t * H.count k l) : P = Q := by
  funext k
  obtain ⟨p1, t, -, p2⟩ := hP k
  obtain ⟨q1, u, -, q2⟩ := hQ k
  obtain ⟨v, h⟩ := h k
  have e : (Q k : ℤ) = P k + (t + v - u) * H.count k l := by linarith
  have h := congrArg (· % (H.count k l : ℤ)) e
  simp only [Int.add_mul_emod_self_right] at h
  rw [Int.emod_eq_of_lt (by positivity) (by exact_mod_cast q1),
    Int.emod_eq_of_lt (by positivity) (by exact_mod_cast p1)] at h
  exact_mod_cast h.symm

variable {I : Source d V}

theorem patchPos_place (hz : ∀ k, -2 ≤ z k ∧ z k < b k + 2) :
    patchPos b (fun _ => 2) o (fun k => (z k + 2).toNat) = place b o z := by
  funext k
  unfold patchPos place
  have := hz k
  push_cast
  have e : ((z k + 2).toNat : ℤ) = z k + 2 := by omega
  rw [e]
  ring

/-- Two patches hold the same value at the same place, unless it is beyond a boundary. -/
theorem patchRead_samePlace (hG : G.Pos) (hM : Tiling G M) (hB : Balanced G M) (hb : ∀ k, 4 ≤ b k ∧ 2 ∣ b k)
    (ho : o ∈ M) (ho' : o' ∈ M) (h : SamePlace G b o z o' z') (hz : ∀ k, -2 ≤ z k ∧ z k < b k + 2)
    (hz' : ∀ k, -2 ≤ z' k ∧ z' k < b k + 2) (hin : InDomain (cellGrid G b) o.level (place b o z))
    (hin' : InDomain (cellGrid G b) o.level (place b o' z')) :
    patchRead I G M b o z = patchRead I G M b o' z' := by
  have hb0 : ∀ k, 0 < b k := fun k => by have := (hb k).1; omega
  have hG' := cellGrid_pos hG hb0
  have hM' := cellMesh_tiling hG hb0 hM
  have get : ∀ {p : Oct d} {w : Fin d → ℤ}, p ∈ M → (∀ k, -2 ≤ w k ∧ w k < b k + 2) →
      InDomain (cellGrid G b) p.level (place b p w) → ∃ r P,
        convertIndexGhost G M b (patchCell b (fun _ => 2) p fun k => (w k + 2).toNat) = some r ∧ r.oct ∈ M ∧
      (∀ k, r.idx k < b k) ∧ r.b = b ∧ Wraps (cellGrid G b) p.level (place b p w) P ∧
      ((r.status = .localToBlock ∨ r.status = .sameSize) ∧ cellOct b r.oct r.idx = ⟨p.level, P⟩ ∨
        r.status = .bigger ∧ r.oct.level + 1 = p.level ∧
          Anc (cellOct b r.oct r.idx) ⟨p.level, P⟩ ∨
        r.status = .smaller ∧
          cellOct b r.oct r.idx = ⟨p.level + 1, fun k => 2 * P k⟩) := by
    intro p w hp hw hi
    have := C24_ghost_partial hG hM hB hp hb0 (g := fun _ => 2)
      (fun k => by have := (hb k).1; omega) (fun _ _ _ _ k => ⟨by have := (hb k).1; omega, (hb k).2⟩)
      (y := fun k => (w k + 2).toNat) (fun k => by have := hw k; omega) (by rw [patchPos_place hw]; exact hi)
    rw [patchPos_place hw] at this
    exact this
  obtain ⟨r, P, h1, h2, h3, h4, h5, h6⟩ := get ho hz hin
  obtain ⟨r', P', k1, k2, k3, k4, k5, k6⟩ := get ho' hz' (h.1 ▸ hin')
  rw [← h.1] at k5 k6
  have hP : P = P' := wraps_mod h5 k5 fun k => by
    obtain ⟨t, -, e⟩ := h.2 k
    exact ⟨t, e⟩
  subst hP
  have mem : cellOct b r.oct r.idx ∈ cellMesh b M := mem_cellMesh.2 ⟨_, h2, _, h3, rfl⟩
  have mem' : cellOct b r'.oct r'.idx ∈ cellMesh b M := mem_cellMesh.2 ⟨_, k2, _, k3, rfl⟩
  have fin : cellOct b r.oct r.idx = cellOct b r'.oct r'.idx → r.oct = r'.oct ∧ r.idx = r'.idx :=
    fun e => cellOct_inj h3 k3 e
  have half : Anc ⟨o.level, P⟩ (⟨o.level + 1, fun k => 2 * P k⟩ : Oct d) := by
    refine ⟨by simp, fun k => ?_⟩
    simp
  have lev : ∀ {p q : Oct d}, p = q → p.level = q.level := fun e => congrArg _ e
  rw [patchRead_eq hz, patchRead_eq hz']
  unfold patchVal
  rw [h1, k1, Option.bind_some, Option.bind_some]
  rcases h6 with ⟨st, e⟩ | ⟨st, hl, e⟩ | ⟨st, e⟩ <;> rcases k6 with ⟨st', e'⟩ | ⟨st', hl', e'⟩ | ⟨st', e'⟩
  · obtain ⟨e1, e2⟩ := fin (e.trans e'.symm)
    have hd : r.levelDiff ≥ 0 := by unfold CellIndex.levelDiff; rcases st with st | st <;> rw [st] <;> decide
    have hd' : r'.levelDiff ≥ 0 := by unfold CellIndex.levelDiff; rcases st' with st | st <;> rw [st] <;> decide
    have hn : ¬ r.status = .boundary := by rcases st with st | st <;> rw [st] <;> decide
    have hn' : ¬ r'.status = .boundary := by rcases st' with st | st <;> rw [st] <;> decide
    rw [if_neg hn, if_neg hn', if_pos hd, if_pos hd', e1, e2]
  · rw [← e] at e'
    have := lev (hM'.eq_of_anc hG' mem' mem e')
    have := lev e
    simp only [cellOct] at *
    omega
  · rw [← e, ← e'] at half
    have := lev (hM'.eq_of_anc hG' mem mem' half)
    have := lev e
    have := lev e'
    simp only [cellOct] at *
    omega
  · rw [← e'] at e
    have := lev (hM'.eq_of_anc hG' mem mem' e)
    have := lev e'
    simp only [cellOct] at *
    omega
  · have hc : cellOct b r.oct r.idx = cellOct b r'.oct r'.idx := by
      refine hM'.eq_of_anc hG' mem mem' ⟨by simp only [cellOct]; omega, fun k => ?_⟩
      have a1 := e.2 k
      have a2 := e'.2 k
      simp only [cellOct] at a1 a2 ⊢
      rw [show r'.oct.level - r.oct.level = 0 by omega, pow_zero, Nat.div_one]
      rw [show o.level - r.oct.level = 1 by omega] at a1
      rw [show o.level - r'.oct.level = 1 by omega] at a2
      exact a2.symm.trans a1
    obtain ⟨e1, e2⟩ := fin hc
    have hd : r.levelDiff ≥ 0 := by unfold CellIndex.levelDiff; rw [st]; decide
    have hd' : r'.levelDiff ≥ 0 := by unfold CellIndex.levelDiff; rw [st']; decide
    have hn : ¬ r.status = .boundary := by rw [st]; decide
    have hn' : ¬ r'.status = .boundary := by rw [st']; decide
    rw [if_neg hn, if_neg hn', if_pos hd, if_pos hd', e1, e2]
  · rw [← e'] at half
    have := lev (hM'.eq_of_anc hG' mem mem' (e.trans half))
    have := lev e'
    simp only [cellOct] at *
    omega
  · rw [← e, ← e'] at half
    have := lev (hM'.eq_of_anc hG' mem' mem half)
    have := lev e
    have := lev e'
    simp only [cellOct] at *
    omega
  · rw [← e] at half
    have := lev (hM'.eq_of_anc hG' mem' mem (e'.trans half))
    have := lev e
    simp only [cellOct] at *
    omega
  · obtain ⟨e1, e2⟩ := fin (e.trans e'.symm)
    have : r = r' := by
      obtain ⟨_, _, _, _⟩ := r
      obtain ⟨_, _, _, _⟩ := r'
      simp only at *
      subst e1 e2 h4 k4 st st'
      rfl
    rw [this]

variable {E : Scheme d K ι V}

theorem off_range {t : ℤ} (ht : t = 1 ∨ t = -1) {m : ℤ} (hz : ∀ k, -m ≤ z k ∧ z k < b k + m) (k : Fin d) :
    -(m + 1) ≤ off z j t k ∧ off z j t k < b k + (m + 1) := by
  have := abs_le.1 (faceOff_abs (j := j) ht k)
  have := hz k
  unfold off
  omega

theorem inner_self (h : Inner G b o z) : InDomain (cellGrid G b) o.level (place b o z) := by
  intro k
  rcases h k with h | h
  · exact Or.inl h
  · right; omega

theorem inner_off {t : ℤ} (ht : t = 1 ∨ t = -1) (h : Inner G b o z) (j : Fin d) :
    InDomain (cellGrid G b) o.level (place b o (off z j t)) := by
  intro k
  rcases h k with h | h
  · exact Or.inl h
  · right
    have := abs_le.1 (faceOff_abs (j := j) ht k)
    unfold place off at *
    generalize (o.pos k : ℤ) * b k = n at *
    omega

theorem inner_samePlace (h : SamePlace G b o z o' z') (hi : Inner G b o z) : Inner G b o' z' := by
  intro k
  rcases hi k with hi | hi
  · exact Or.inl hi
  · obtain ⟨t, ht, e⟩ := h.2 k
    rcases ht with rfl | ht
    · right
      rw [e, ← h.1]
      simpa using hi
    · exact Or.inl ht

omit [LinearOrder K] in
theorem ratio_samePlace (h : o.level = o'.level) (D : Domain d) (dt : K) (j : Fin d) :
    ratio D G b dt o j = ratio D G b dt o' j := by
  unfold ratio getCellSize getSize
  simp only
  rw [h]

section

variable (hG : G.Pos) (hM : Tiling G M) (hB : Balanced G M) (hb : ∀ k, 4 ≤ b k ∧ 2 ∣ b k)
  (ho : o ∈ M) (ho' : o' ∈ M) (h : SamePlace G b o z o' z') (hz : ∀ k, -1 ≤ z k ∧ z k < b k + 1)
  (hz' : ∀ k, -1 ≤ z' k ∧ z' k < b k + 1) (hi : Inner G b o z)

include hG hM hB hb ho ho' h hz hz' hi

theorem slopeAt_samePlace (j : Fin d) : slopeAt E I G M b o z j = slopeAt E I G M b o' z' j := by
  have hi' := inner_samePlace h hi
  have e0 := patchRead_samePlace (I := I) hG hM hB hb ho ho' h (fun k => by have := hz k; omega)
    (fun k => by have := hz' k; omega) (inner_self hi) (h.1 ▸ inner_self hi')
  have e1 := patchRead_samePlace (I := I) hG hM hB hb ho ho' (h.off j 1) (off_range (Or.inl rfl) hz)
    (off_range (Or.inl rfl) hz') (inner_off (Or.inl rfl) hi j) (h.1 ▸ inner_off (Or.inl rfl) hi' j)
  have e2 := patchRead_samePlace (I := I) hG hM hB hb ho ho' (h.off j (-1)) (off_range (Or.inr rfl) hz)
    (off_range (Or.inr rfl) hz') (inner_off (Or.inr rfl) hi j) (h.1 ▸ inner_off (Or.inr rfl) hi' j)
  unfold slopeAt prim
  rw [e0, e1, e2]

theorem sourceAt_samePlace (D : Domain d) (dt : K) :
    sourceAt E I D G M b dt o z = sourceAt E I D G M b dt o' z' := by
  have hi' := inner_samePlace h hi
  have e0 := patchRead_samePlace (I := I) hG hM hB hb ho ho' h (fun k => by have := hz k; omega)
    (fun k => by have := hz' k; omega) (inner_self hi) (h.1 ▸ inner_self hi')
  have e1 : slopeAt E I G M b o z = slopeAt E I G M b o' z' :=
    funext fun j => slopeAt_samePlace hG hM hB hb ho ho' h hz hz' hi j
  have e2 : ratio D G b dt o = ratio D G b dt o' := funext fun j => ratio_samePlace h.1 D dt j
  unfold sourceAt prim
  rw [e0, e1, e2]

end

/-- C75 (faces): two octants of the same level compute the same flux through a face, if the stencil does not
reach beyond a boundary. `z` and `z'` are the cells below the face as the two patches count them, ghosts
included. -/
theorem C75_face (hG : G.Pos) (hM : Tiling G M) (hB : Balanced G M) (hb : ∀ k, 4 ≤ b k ∧ 2 ∣ b k)
    (ho : o ∈ M) (ho' : o' ∈ M) (E : Scheme d K ι V) (I : Source d V) (D : Domain d) (dt : K)
    (h : SamePlace G b o z o' z') (hz : ∀ k, -1 ≤ z k ∧ z k < b k + 1) (hz' : ∀ k, -1 ≤ z' k ∧ z' k < b k + 1)
    (hj : z j < b j) (hj' : z' j < b j) (hi : Inner G b o z) (hi' : Inner G b o (off z j 1)) :
    faceFlux E I D G M b dt o z j = faceFlux E I D G M b dt o' z' j := by
  have rg : ∀ {w : Fin d → ℤ}, (∀ k, -1 ≤ w k ∧ w k < b k + 1) → w j < b j →
      ∀ k, -1 ≤ off w j 1 k ∧ off w j 1 k < b k + 1 := by
    intro w h1 h2 k
    have := h1 k
    unfold off
    by_cases hk : k = j
    · subst hk; rw [faceOff_self]; omega
    · rw [faceOff_ne _ hk]; omega
  unfold faceFlux
  rw [sourceAt_samePlace hG hM hB hb ho ho' h hz hz' hi,
    sourceAt_samePlace hG hM hB hb ho ho' (h.off j 1) (rg hz hj) (rg hz' hj') hi',
    slopeAt_samePlace hG hM hB hb ho ho' h hz hz' hi,
    slopeAt_samePlace hG hM hB hb ho ho' (h.off j 1) (rg hz hj) (rg hz' hj') hi']

/-! ### The update -/

omit [Field K] [LinearOrder K] in
theorem prim_defined (hG : G.Pos) (hM : Tiling G M) (hB : Balanced G M) (hb : ∀ k, 4 ≤ b k ∧ 2 ∣ b k) (ho : o ∈ M)
    (E : Scheme d K ι V) (I : Source d V) (hz : ∀ k, -2 ≤ z k ∧ z k < b k + 2) :
    ∃ q, prim E I G M b o z = some q := by
  obtain ⟨v, hv⟩ := patchRead_defined (I := I) hG hM hB ho hb hz
  unfold prim
  rw [hv]
  exact ⟨_, rfl⟩

theorem slopeAt_defined (hG : G.Pos) (hM : Tiling G M) (hB : Balanced G M) (hb : ∀ k, 4 ≤ b k ∧ 2 ∣ b k) (ho : o ∈ M)
    (E : Scheme d K ι V) (I : Source d V) (hz : ∀ k, -1 ≤ z k ∧ z k < b k + 1) (j : Fin d) :
    ∃ q, slopeAt E I G M b o z j = some q := by
  obtain ⟨q0, h0⟩ := prim_defined hG hM hB hb ho E I (z := z) fun k => by have := hz k; omega
  obtain ⟨q1, h1⟩ := prim_defined hG hM hB hb ho E I (off_range (j := j) (Or.inl rfl) hz)
  obtain ⟨q2, h2⟩ := prim_defined hG hM hB hb ho E I (off_range (j := j) (Or.inr rfl) hz)
  unfold slopeAt
  rw [h0, h1, h2]
  exact ⟨_, rfl⟩

theorem sourceAt_defined (hG : G.Pos) (hM : Tiling G M) (hB : Balanced G M) (hb : ∀ k, 4 ≤ b k ∧ 2 ∣ b k) (ho : o ∈ M)
    (E : Scheme d K ι V) (I : Source d V) (D : Domain d) (dt : K) (hz : ∀ k, -1 ≤ z k ∧ z k < b k + 1) :
    ∃ q, sourceAt E I D G M b dt o z = some q := by
  obtain ⟨q0, h0⟩ := prim_defined hG hM hB hb ho E I (z := z) fun k => by have := hz k; omega
  choose s hs using slopeAt_defined hG hM hB hb ho E I hz
  unfold sourceAt
  rw [h0, Option.bind_some, OneNeighbor.loops_mapM_some _ _ s fun j _ => hs j]
  exact ⟨_, rfl⟩

theorem off_block (hz : ∀ k, -1 ≤ z k ∧ z k < b k + 1) (hj : z j < b j) (k : Fin d) :
    -1 ≤ off z j 1 k ∧ off z j 1 k < b k + 1 := by
  have := hz k
  unfold off
  by_cases hk : k = j
  · subst hk; rw [faceOff_self]; omega
  · rw [faceOff_ne _ hk]; omega

theorem faceFlux_defined (hG : G.Pos) (hM : Tiling G M) (hB : Balanced G M) (hb : ∀ k, 4 ≤ b k ∧ 2 ∣ b k) (ho : o ∈ M)
    (E : Scheme d K ι V) (I : Source d V) (D : Domain d) (dt : K) (hz : ∀ k, -1 ≤ z k ∧ z k < b k + 1)
    (hj : z j < b j) : ∃ f, faceFlux E I D G M b dt o z j = some f := by
  have hz' := off_block hz hj
  obtain ⟨a, ha⟩ := sourceAt_defined hG hM hB hb ho E I D dt hz
  obtain ⟨a', ha'⟩ := sourceAt_defined hG hM hB hb ho E I D dt hz'
  obtain ⟨s, hs⟩ := slopeAt_defined hG hM hB hb ho E I hz j
  obtain ⟨s', hs'⟩ := slopeAt_defined hG hM hB hb ho E I hz' j
  unfold faceFlux
  rw [ha, ha', hs, hs']
  exact ⟨_, rfl⟩

theorem patch_all (hG : G.Pos) (hM : Tiling G M) (hB : Balanced G M) (hb : ∀ k, 4 ≤ b k ∧ 2 ∣ b k) (ho : o ∈ M)
    (I : Source d V) : ∃ l, (loops fun k => List.range (b k + 2 * 2)).mapM (patchVal I G M b o) = some l := by
  have : ∀ y, ∃ v, y ∈ (loops fun k => List.range (b k + 2 * 2)) → patchVal I G M b o y = some v := by
    intro y
    by_cases hy : y ∈ loops fun k => List.range (b k + 2 * 2)
    · obtain ⟨v, hv⟩ := patch_defined (I := I) hG hM hB ho hb (y := y)
        fun k => List.mem_range.1 ((mem_loops _ _).1 hy k)
      exact ⟨v, fun _ => hv⟩
    · exact ⟨I.U o fun _ => 0, fun h => absurd h hy⟩
  choose v hv using this
  exact ⟨_, OneNeighbor.loops_mapM_some _ _ v hv⟩

/-- A neighbour on a mesh of one level. -/
theorem nbr_place (hG : G.Pos) (hM : Tiling G M) (hB : Balanced G M) (hb : ∀ k, 4 ≤ b k ∧ 2 ∣ b k) {L : ℕ}
    (hL : ∀ o ∈ M, o.level = L) (ho : o ∈ M) {x : Fin d → ℕ} (hx : ∀ k, x k < b k) {s : ℤ} (hs : s = 1 ∨ s = -1)
    (hin : InDomain (cellGrid G b) o.level (target b o x (faceOff j s))) :
    ∃ (o' : Oct d) (y : Fin d → ℕ), o' ∈ M ∧ (∀ k, y k < b k) ∧
      nbrs (cellGrid G b) (cellMesh b M) (cellOct b o x) j s = {cellOct b o' y} ∧
      SamePlace G b o (off (fun k => (x k : ℤ)) j s) o' fun k => (y k : ℤ) := by
  obtain ⟨r, h1, h2, h3, h4, hside⟩ := side hG hM hB ⟨o, x, b, .localToBlock⟩ ho hx rfl j hs hin
  have habs := faceOff_abs (j := j) hs
  obtain ⟨r₂, P, k1, k2, k3, k4, k5, k6⟩ := C25_neighbor_cell hG hM hB ⟨o, x, b, .localToBlock⟩ ho hx
    (faceOff j s) (fun k => by have := habs k; have := (hb k).1; simp only; omega) hin
  rw [h1] at k1
  have := Option.some.inj k1
  subst this
  have hl : r.oct.level = o.level := (hL _ h2).trans (hL _ ho).symm
  have hn : nbrs (cellGrid G b) (cellMesh b M) (cellOct b o x) j s = {cellOct b r.oct r.idx} := by
    cases hside with
    | same _ _ hn _ => exact hn
    | bigger _ e _ _ => simp only at e; omega
    | smaller _ e _ _ _ _ => simp only at e; omega
  have hP : cellOct b r.oct r.idx = ⟨o.level, P⟩ := by
    rcases k6 with ⟨-, e⟩ | ⟨-, e, -⟩ | ⟨-, e, -⟩
    · exact e
    · simp only at e; omega
    · simp only at e; omega
  refine ⟨r.oct, r.idx, h2, h3, hn, hl.symm, fun k => ?_⟩
  obtain ⟨p1, t, p2, p3⟩ := k5 k
  have e1 := congrFun (congrArg (fun q : Oct d => q.pos) hP) k
  simp only [cellOct] at e1
  refine ⟨-t, ?_, ?_⟩
  · rcases p2 with rfl | ⟨p2, -⟩
    · exact Or.inl neg_zero
    · exact Or.inr p2
  · unfold place off
    unfold target at p3
    simp only at p3
    have e2 : ((r.oct.pos k : ℤ) * b k + r.idx k) = P k := by exact_mod_cast e1
    rw [e2]
    push_cast at p3
    linarith

/-- The flux from a cell to its upper neighbour, as the patch of the cell gives it. -/
noncomputable def pairFlux (E : Scheme d K ι V) (I : Source d V) (D : Domain d) (G : Grid d) (M : Finset (Oct d))
    (b : Fin d → ℕ) (dt : K) (j : Fin d) (c _q : Oct d) : K :=
  (faceFlux E I D G M b dt (unbox b M c).1 (fun k => ((unbox b M c).2 k : ℤ)) j).getD 0

variable [IsStrictOrderedRing K]

/-- C75 (conservation; missing: meshes with several levels, see `C75_jump_fails`, and boundaries that are not
periodic, see `C75_corner_fails`; gravity; the repair of negative values): on a periodic mesh of one level the
update is defined in every cell and the total of a conserved variable does not change. -/
theorem C75_conservation_partial (hG : G.Pos) (hM : Tiling G M) (hB : Balanced G M) {L : ℕ}
    (hL : ∀ o ∈ M, o.level = L) (hper : ∀ k, G.periodic k = true) {D : Domain d} (hD : Domain.Ok D)
    (hb : ∀ k, 4 ≤ b k ∧ 2 ∣ b k) (E : Scheme d K ι V) (I : Source d V) (dt : K) (U : Oct d → (Fin d → ℕ) → K) :
    ∃ U' : Oct d → (Fin d → ℕ) → K,
      (∀ o ∈ M, ∀ x : Fin d → ℕ, (∀ k, x k < b k) → updateCell E I D G M b dt (U o x) o x = some (U' o x)) ∧
      cellSum b M (fun o x => (volume D (cellGrid G b) (cellOct b o x) : K) * U' o x) =
        cellSum b M (fun o x => (volume D (cellGrid G b) (cellOct b o x) : K) * U o x) := by
  have hb0 : ∀ k, 0 < b k := fun k => by have := (hb k).1; omega
  have inn : ∀ (o : Oct d) (z : Fin d → ℤ), Inner G b o z := fun o z k => Or.inl (hper k)
  obtain ⟨U', h1, h2⟩ := balance hG hM hb0 D (pairFlux E I D G M b dt) (fun _ _ _ _ => 0) dt
    (fun o x => updateCell E I D G M b dt (U o x) o x) U fun o ho x hx => by
      have hz : ∀ k, -1 ≤ (x k : ℤ) ∧ (x k : ℤ) < b k + 1 := fun k => by have := hx k; omega
      have hzm : ∀ j k, -1 ≤ off (fun k => (x k : ℤ)) j (-1) k ∧ off (fun k => (x k : ℤ)) j (-1) k < b k + 1 :=
        fun j k => by
          have := hx k
          have := abs_le.1 (faceOff_abs (j := j) (s := -1) (Or.inr rfl) k)
          unfold off
          by_cases hk : k = j
          · subst hk; rw [faceOff_self]; beta_reduce; omega
          · rw [faceOff_ne _ hk]; beta_reduce; omega
      have hzj : ∀ j, off (fun k => (x k : ℤ)) j (-1) j < b j := fun j => by
        have := hx j
        unfold off
        rw [faceOff_self]
        beta_reduce
        omega
      choose fR hR using fun j => faceFlux_defined (j := j) hG hM hB hb ho E I D dt hz (by have := hx j; omega)
      choose fL hL' using fun j => faceFlux_defined (j := j) hG hM hB hb ho E I D dt (hzm j) (hzj j)
      obtain ⟨l, hl⟩ := patch_all hG hM hB hb ho I
      have hlv : G.lmin ≤ L := hL o ho ▸ (hM.valid o ho).1
      have hsz := fun j => cellSize_pos (cellGrid_pos hG hb0) hD (cellOct b o x) j
      have hrat : ∀ j, ratio D G b dt o j = dt / (cellSize D (cellGrid G b) (cellOct b o x) j : ℚ) := fun j => by
        unfold ratio
        rw [← getCellSize_eq hG D ⟨o, x, b, .localToBlock⟩ hb0]
        rfl
      -- the two sides
      have hside : ∀ j (s : ℤ) (f : K), (s = 1 ∨ s = -1) → (s = 1 → f = fR j) → (s = -1 → f = fL j) →
          sideSum D G M b (pairFlux E I D G M b dt) (fun _ _ _ _ => 0) j s o x *
            (cellSize D (cellGrid G b) (cellOct b o x) j : ℚ) =
            (volume D (cellGrid G b) (cellOct b o x) : K) * f := by
        intro j s f hs hf1 hf2
        obtain ⟨o', y, g1, g2, g3, g4⟩ := nbr_place (j := j) hG hM hB hb hL ho hx hs
          (inDomain_periodic hper b _ _)
        have hlev : (cellOct b o x).level = (cellOct b o' y).level := (hL o ho).trans (hL o' g1).symm
        unfold sideSum
        rw [g3, Finset.sum_singleton, mul_zero, ite_self, add_zero,
          ← area_of_le (cellGrid_pos hG hb0) hD (q := cellOct b o' y)
            (by change G.lmin ≤ o'.level; rw [hL o' g1]; exact hlv) (Or.inl hlev) j]
        have hF : (if s = 1 then pairFlux E I D G M b dt j (cellOct b o x) (cellOct b o' y)
            else pairFlux E I D G M b dt j (cellOct b o' y) (cellOct b o x)) = f := by
          rcases hs with rfl | rfl
          · rw [if_pos rfl, hf1 rfl]
            unfold pairFlux
            rw [unbox_cell ho hx]
            simp only
            rw [hR]
            rfl
          · rw [if_neg (by decide), hf2 rfl]
            unfold pairFlux
            rw [unbox_cell g1 g2]
            simp only
            rw [← C75_face hG hM hB hb ho g1 E I D dt g4 (hzm j) (fun k => by have := g2 k; omega) (hzj j)
              (by have := g2 j; omega) (inn _ _) (inn _ _), hL']
            rfl
        rw [hF]
        push_cast
        ring
      refine ⟨U o x + ∑ j, (fL j - fR j) * ratio D G b dt o j, ?_, ?_⟩
      · unfold updateCell
        rw [hl, Option.bind_some, OneNeighbor.loops_mapM_some _ _ (fun j => (fL j - fR j) * ratio D G b dt o j)]
        · rw [← List.ofFn_eq_map, Option.map_some, List.sum_ofFn]
        · intro j _
          rw [hL', hR]
          rfl
      · rw [mul_add, Finset.mul_sum, Finset.mul_sum, sub_eq_add_neg, ← Finset.sum_neg_distrib]
        congr 1
        refine Finset.sum_congr rfl fun j _ => ?_
        have hsK : ((cellSize D (cellGrid G b) (cellOct b o x) j : ℚ) : K) ≠ 0 := by exact_mod_cast (hsz j).ne'
        have a1 := hside j 1 (fR j) (Or.inl rfl) (fun _ => rfl) (fun h => absurd h (by decide))
        have a2 := hside j (-1) (fL j) (Or.inr rfl) (fun h => absurd h (by decide)) (fun _ => rfl)
        rw [hrat]
        field_simp
        linear_combination (dt) * a1 - dt * a2
  refine ⟨U', h1, ?_⟩
  rw [h2, outflow_periodic hper, mul_zero, sub_zero]

theorem patchRead_const (hG : G.Pos) (hM : Tiling G M) (hB : Balanced G M) (hb : ∀ k, 4 ≤ b k ∧ 2 ∣ b k) (ho : o ∈ M)
    {I : Source d V} {c : V} (hU : ∀ o x, I.U o x = c) (hbv : ∀ r, I.bval r = c)
    (havg : ∀ l : List V, (∀ v ∈ l, v = c) → I.avg l = c) (hz : ∀ k, -2 ≤ z k ∧ z k < b k + 2) :
    patchRead I G M b o z = some c := by
  obtain ⟨v, hv⟩ := patchRead_defined (I := I) hG hM hB ho hb hz
  rw [hv]
  rw [patchRead_eq hz] at hv
  unfold patchVal at hv
  cases hc : convertIndexGhost G M b (patchCell b (fun _ => 2) o fun k => (z k + 2).toNat) with
  | none => rw [hc] at hv; cases hv
  | some r =>
    rw [hc, Option.bind_some] at hv
    split at hv
    · rw [hbv] at hv; exact hv.symm
    · split at hv
      · rw [hU] at hv; exact hv.symm
      · obtain ⟨rs, -, hrs⟩ := Option.map_eq_some_iff.1 hv
        rw [← hrs]
        congr 1
        refine havg _ fun w hw => ?_
        obtain ⟨n, -, rfl⟩ := List.mem_map.1 hw
        exact hU _ _

omit [IsStrictOrderedRing K] in
/-- C75 (constant state): where all cells and all ghosts hold the same state, no cell changes, at any refinement
of the mesh. The half step must keep a state without slopes. -/
theorem C75_constant (hG : G.Pos) (hM : Tiling G M) (hB : Balanced G M) (hb : ∀ k, 4 ≤ b k ∧ 2 ∣ b k) (ho : o ∈ M)
    (D : Domain d) {x : Fin d → ℕ} (hx : ∀ k, x k < b k) (E : Scheme d K ι V) {I : Source d V} {c : V}
    (hU : ∀ o x, I.U o x = c) (hbv : ∀ r, I.bval r = c) (havg : ∀ l : List V, (∀ v ∈ l, v = c) → I.avg l = c)
    (hE : ∀ t, E.source (E.toPrim c) (List.replicate d 0) t = E.toPrim c) (dt u : K) :
    updateCell E I D G M b dt u o x = some u := by
  have pr : ∀ {z : Fin d → ℤ}, (∀ k, -2 ≤ z k ∧ z k < b k + 2) → prim E I G M b o z = some (E.toPrim c) := by
    intro z hz
    unfold prim
    rw [patchRead_const hG hM hB hb ho hU hbv havg hz]
    rfl
  have sl : ∀ {z : Fin d → ℤ}, (∀ k, -1 ≤ z k ∧ z k < b k + 1) → ∀ j, slopeAt E I G M b o z j = some 0 := by
    intro z hz j
    unfold slopeAt
    rw [pr fun k => by have := hz k; omega, pr (off_range (j := j) (Or.inl rfl) hz),
      pr (off_range (j := j) (Or.inr rfl) hz)]
    simp only [Option.bind_some, Option.map_some]
    congr 1
    funext i
    unfold Euler.slope computeSlope
    simp
  have src : ∀ {z : Fin d → ℤ}, (∀ k, -1 ≤ z k ∧ z k < b k + 1) → sourceAt E I D G M b dt o z = some (E.toPrim c) := by
    intro z hz
    unfold sourceAt
    rw [pr fun k => by have := hz k; omega, Option.bind_some,
      OneNeighbor.loops_mapM_some _ _ (fun _ => 0) fun j _ => sl hz j, Option.map_some, List.map_const',
      List.length_finRange, hE]
  have fl : ∀ {z : Fin d → ℤ} {j : Fin d}, (∀ k, -1 ≤ z k ∧ z k < b k + 1) → z j < b j →
      faceFlux E I D G M b dt o z j = some (E.flux j (E.post (E.toPrim c)) (E.post (E.toPrim c))) := by
    intro z j hz hj
    have hz' := off_block hz hj
    unfold faceFlux
    rw [src hz, src hz', sl hz, sl hz']
    simp only [Option.bind_some, Option.map_some]
    unfold reconstruct
    simp
  have hz : ∀ k, -1 ≤ (x k : ℤ) ∧ (x k : ℤ) < b k + 1 := fun k => by have := hx k; omega
  have hzm : ∀ j k, -1 ≤ off (fun k => (x k : ℤ)) j (-1) k ∧ off (fun k => (x k : ℤ)) j (-1) k < b k + 1 :=
    fun j k => by
      have := hx k
      unfold off
      by_cases hk : k = j
      · subst hk; rw [faceOff_self]; beta_reduce; omega
      · rw [faceOff_ne _ hk]; beta_reduce; omega
  have hzj : ∀ j, off (fun k => (x k : ℤ)) j (-1) j < b j := fun j => by
    have := hx j
    unfold off
    rw [faceOff_self]
    beta_reduce
    omega
  obtain ⟨l, hl⟩ := patch_all hG hM hB hb ho I
  unfold updateCell
  rw [hl, Option.bind_some, OneNeighbor.loops_mapM_some _ _ (fun _ => (0 : K))]
  · simp
  · intro j _
    rw [fl (hzm j) (hzj j), fl hz (by have := hx j; omega)]
    simp

/-- Advection with velocity (1, 1): the half step, and the flux of the left state. -/
def exScheme : Scheme 2 ℚ Unit ℚ :=
  ⟨fun u _ => u, fun q sl t i => q i - (sl.getD 0 0 i * t 0 + sl.getD 1 0 i * t 1) * (1 / 2), fun q => q,
    fun _ l _ => l ()⟩

/-- Four octants of one level. -/
def four : List (Oct 2) := [⟨1, ![0, 0]⟩, ⟨1, ![0, 1]⟩, ⟨1, ![1, 0]⟩, ⟨1, ![1, 1]⟩]

theorem four_torus : Tiling torus four.toFinset ∧ Balanced torus four.toFinset :=
  ⟨tiling_of_check ⟨⟨by decide⟩, by decide⟩ _ 1 (by decide +kernel),
    balanced_of_check ⟨⟨by decide⟩, by decide⟩ _ 1 (by decide +kernel)⟩

def exSource : Source 2 ℚ :=
  ⟨fun o x => o.pos 0 * 3 + x 0 * x 0 + o.pos 1 + x 1 * x 1, fun _ => 0, fun l => l.sum / l.length⟩

/-- The hypotheses of `C75_conservation_partial` hold, and cells change. -/
example : torus.Pos ∧ Tiling torus four.toFinset ∧ Balanced torus four.toFinset ∧ (∀ o ∈ four.toFinset, o.level = 1) ∧
    (∀ k, torus.periodic k = true) ∧ Domain.Ok torusDomain ∧ (∀ k, 4 ≤ (![4, 4] : Fin 2 → ℕ) k ∧ 2 ∣ ![4, 4] k) ∧
    updateCell exScheme exSource torusDomain torus four.toFinset ![4, 4] (1 / 8) 5 ⟨1, ![0, 0]⟩ ![2, 1] =
      some (55 / 16) :=
  ⟨torus_pos, four_torus.1, four_torus.2, by decide, torus_periodic, torusDomain_ok, by decide, by decide +kernel⟩

/-- The hypotheses of `C75_face` hold for a face between two octants, away from walls. -/
example : quadGrid.Pos ∧ Tiling quadGrid four.toFinset ∧ Balanced quadGrid four.toFinset ∧
    SamePlace quadGrid ![4, 4] ⟨1, ![0, 0]⟩ ![3, 1] ⟨1, ![1, 0]⟩ ![-1, 1] ∧
    Inner quadGrid ![4, 4] ⟨1, ![0, 0]⟩ ![3, 1] ∧ Inner quadGrid ![4, 4] ⟨1, ![0, 0]⟩ (off ![3, 1] 0 1) :=
  ⟨quadGrid_pos, tiling_of_check ⟨⟨by decide⟩, by decide⟩ _ 1 (by decide +kernel),
    balanced_of_check ⟨⟨by decide⟩, by decide⟩ _ 1 (by decide +kernel),
    ⟨rfl, fun k => ⟨0, Or.inl rfl, by revert k; decide +kernel⟩⟩,
    by unfold Inner; decide +kernel, by unfold Inner; decide +kernel⟩

/-- The hypotheses of `C75_constant` hold for advection, on a mesh with two levels. -/
example : Tiling torus quad.toFinset ∧ ∀ t, exScheme.source (exScheme.toPrim 3) (List.replicate 2 0) t = exScheme.toPrim 3 :=
  ⟨torus_tiling, fun t => by funext i; simp [exScheme, List.replicate]⟩

/-- Also those on the half step of the code, for a state at rest or not. -/
example (q : Prim ℚ) (hw : q.w = 0) (tx ty : ℚ) :
    Mhd.hydroSource 2 q ⟨0, 0, 0, 0, 0⟩ ⟨0, 0, 0, 0, 0⟩ ⟨0, 0, 0, 0, 0⟩ tx ty 0 (5 / 3) = q := by
  obtain ⟨r, p, u, v, w⟩ := q
  simp only at hw
  subst hw
  simp [Mhd.hydroSource]

/-! ### Level jumps -/

/-- Increases with `x`. -/
def riseSource : Source 2 ℚ :=
  ⟨fun o x => o.pos 0 * 10 + x 0 * x 0, fun _ => 0, fun l => l.sum / l.length⟩

/-- C75 fails at a jump in refinement: what leaves the bigger cell (area 1 times the flux) is not what enters its
two smaller neighbours (area 1/2 each). The comment of the code says so (L177). -/
theorem C75_jump_fails :
    ∃ fR f₁ f₂ : ℚ,
      faceFlux exScheme riseSource torusDomain torus quad.toFinset ![4, 4] (1 / 8) ⟨1, ![0, 0]⟩ ![3, 0] 0 = some fR ∧
      faceFlux exScheme riseSource torusDomain torus quad.toFinset ![4, 4] (1 / 8) ⟨2, ![2, 0]⟩ ![-1, 0] 0 = some f₁ ∧
      faceFlux exScheme riseSource torusDomain torus quad.toFinset ![4, 4] (1 / 8) ⟨2, ![2, 0]⟩ ![-1, 1] 0 = some f₂ ∧
      ((faceCells true torus quad.toFinset ⟨⟨1, ![0, 0]⟩, ![3, 0], ![4, 4], .localToBlock⟩ (faceOff 0 1)).map
        fun rs => rs.map fun r => (r.oct, r.idx)) =
          [some (⟨2, ![2, 0]⟩, ![0, 0]), some (⟨2, ![2, 0]⟩, ![0, 1])] ∧
      fR ≠ 1 / 2 * f₁ + 1 / 2 * f₂ :=
  ⟨87 / 8, 9, 9, by decide +kernel, by decide +kernel, by decide +kernel, by decide +kernel, by norm_num⟩

/-! ### Corners of patches at walls -/

def five (q : Prim ℚ) : Fin 5 → ℚ := ![q.rho, q.p, q.u, q.v, q.w]

def ofFive (q : Fin 5 → ℚ) : Prim ℚ := ⟨q 0, q 1, q 2, q 3, q 4⟩

/-- Mass in two dimensions. The conversion, the half step and the floor of the code; the flux is that of the left
state, which is what the Riemann solvers return for a flow faster than sound. -/
def massScheme : Scheme 2 ℚ (Fin 5) (Cons ℚ) :=
  ⟨fun u => five (consToPrim 2 (5 / 3) u),
    fun q sl t => five (Mhd.hydroSource 2 (ofFive q) (ofFive (sl.getD 0 0)) (ofFive (sl.getD 1 0)) ⟨0, 0, 0, 0, 0⟩
      (t 0) (t 1) 0 (5 / 3)),
    fun q i => if i = 0 then max (1 / 1000) (q 0) else q i, fun _ l _ => l 0 * l 2⟩

/-- Density that grows with y, and towards the left; velocity (10, 1), pressure 1. -/
def wallU (o : Oct 2) (x : Fin 2 → ℕ) : Cons ℚ :=
  primToCons 2 (5 / 3) ⟨20 - o.pos 0 * 4 - x 0 + x 1, 1, 10, 1, 0⟩

def walls : Boundary 2 ℚ := ⟨![.reflecting, .reflecting], ![.reflecting, .reflecting], fun _ _ _ => ⟨0, 0, 0, 0, 0⟩⟩

def wallSource : Source 2 (Cons ℚ) :=
  ⟨wallU, fun r => (getBoundaryValue walls wallU r).getD ⟨0, 0, 0, 0, 0⟩, fun l => l.headD ⟨0, 0, 0, 0, 0⟩⟩

/-- C75 fails at walls, on a mesh of one level: two octants side by side on the lower wall do not compute the same
flux through the first face they share. The ghost cell below the wall that is diagonal to an octant belongs to the
image of the other octant; both patches fill it with an image of their own cells
(`getBoundaryValue` mirrors in all directions in which the index leaves the block), here with the image of
`![0, 0]` of the right octant instead of the last cell of the left one. -/
theorem C75_corner_fails :
    ∃ f f' : ℚ, ∃ v v' : Cons ℚ,
      Tiling quadGrid four.toFinset ∧ (∀ o ∈ four.toFinset, o.level = 1) ∧
      SamePlace quadGrid ![4, 4] ⟨1, ![0, 0]⟩ ![3, 0] ⟨1, ![1, 0]⟩ ![-1, 0] ∧
      faceFlux massScheme wallSource torusDomain quadGrid four.toFinset ![4, 4] (1 / 80) ⟨1, ![0, 0]⟩ ![3, 0] 0 =
        some f ∧
      faceFlux massScheme wallSource torusDomain quadGrid four.toFinset ![4, 4] (1 / 80) ⟨1, ![1, 0]⟩ ![-1, 0] 0 =
        some f' ∧ f ≠ f' ∧
      patchRead wallSource quadGrid four.toFinset ![4, 4] ⟨1, ![0, 0]⟩ ![3, -1] = some v ∧
      patchRead wallSource quadGrid four.toFinset ![4, 4] ⟨1, ![1, 0]⟩ ![-1, -1] = some v' ∧
      v = (wallU ⟨1, ![0, 0]⟩ ![3, 0]).mirror 1 ∧
      v' = ((wallU ⟨1, ![1, 0]⟩ ![0, 0]).mirror 1).mirror 0 :=
  ⟨665 / 4, 166, (wallU ⟨1, ![0, 0]⟩ ![3, 0]).mirror 1, ((wallU ⟨1, ![1, 0]⟩ ![0, 0]).mirror 1).mirror 0,
    tiling_of_check ⟨⟨by decide⟩, by decide⟩ _ 1 (by decide +kernel), by decide,
    ⟨rfl, fun k => ⟨0, Or.inl rfl, by revert k; decide +kernel⟩⟩, by decide +kernel, by decide +kernel, by norm_num,
    by decide +kernel, by decide +kernel, rfl, rfl⟩

end Verif.Hydro.Hancock
