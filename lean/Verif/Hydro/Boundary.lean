import Verif.Hydro.OneNeighbor
import Verif.Hydro.Riemann

/-!
# C47: boundary values

Model of `getBoundaryValue` (`core/src/boundary_conditions/BoundaryConditions.h`) and of the flux
through a boundary in `core/src/hydro/HydroUpdate_hancock_oneneighbor.cpp`. Arithmetic is exact.
-/

namespace Verif.Hydro

open Verif.Octree Verif.Cells Verif.Flux Verif.Hydro.OneNeighbor

variable {d : ℕ} {K : Type} [Field K]

/-! ### Model -/

/-- `enums.h` L7-14, without the values that select nothing here. -/
inductive BC where
  | reflecting
  | absorbing
  | periodic
  | user
deriving DecidableEq

/-- `BoundaryConditions.h`: the fields `bc_min`, `bc_max`, and `getUserdefBoundaryValue` L148-161. -/
structure Boundary (d : ℕ) (K : Type) where
  bcMin : Fin d → BC
  bcMax : Fin d → BC
  user : CellIndex d → (Fin d → ℤ) → Fin d → Cons K

/-- Component of a vector along direction `k`. -/
def axis (k : Fin d) : Fin 3 := Fin.ofNat 3 k

/-- `res.rho_u = -ref.rho_u` and its analogues in the other directions. -/
def negateFrom (k : Fin 3) (ref res : Cons K) : Cons K :=
  match k with
  | 0 => { res with ru := -ref.ru }
  | 1 => { res with rv := -ref.rv }
  | 2 => { res with rw := -ref.rw }

/-- L82-125, the block for direction `k`. -/
def applyBC (B : Boundary d K) (c : CellIndex d) (off : Fin d → ℤ) (ref res : Cons K) (k : Fin d) : Cons K :=
  if 0 < off k then
    match B.bcMin k with
    | .reflecting => negateFrom (axis k) ref res
    | .user => B.user c off k
    | _ => res
  else if off k < 0 then
    match B.bcMax k with
    | .reflecting => negateFrom (axis k) ref res
    | .user => B.user c off k
    | _ => res
  else res

/-- L50-128, `getBoundaryValue`; `U o x` are the conserved variables in cell `x` of octant `o`. `none`:
the mirror cell is not in the block (`getNeighbor` asserts this only in debug builds). -/
def getBoundaryValue (B : Boundary d K) (U : Oct d → (Fin d → ℕ) → Cons K) (c : CellIndex d) :
    Option (Cons K) :=
  let p := getBoundaryPosAndOffset c
  (getNeighbor p.1 fun k => -p.2 k + Int.sign (p.2 k)).map fun r =>
    let ref := getCons d (U r.oct r.idx)
    (List.finRange d).foldl (applyBC B c p.2 ref) ref

/-- `HydroUpdate_hancock_oneneighbor.cpp` L287-297 for the hydro solver, without user-defined
boundaries: the flux through side `s` (1 or -1) in direction `j` of cell `x` of octant `o`. -/
noncomputable def boundaryFlux (P : Params) (B : Boundary d ℝ) (G : Grid d) (M : Finset (Oct d))
    (b : Fin d → ℕ) (U : Oct d → (Fin d → ℕ) → Cons ℝ) (o : Oct d) (x : Fin d → ℕ) (j : Fin d) (s : ℤ) :
    Option (Cons ℝ) :=
  (getNeighborGhost G M ⟨o, x, b, .localToBlock⟩ (faceOff j s)).bind fun r =>
    (getBoundaryValue B U r).map fun u =>
      let qc := consToPrim d P.gamma (getCons d (U o x))
      let qn := consToPrim d P.gamma u
      if s < 0 then fluxDir P (axis j) qn qc else fluxDir P (axis j) qc qn

/-! ### Specification -/

/-- Coordinate of the mirror image: the walls are at 0 and `b`. -/
def mirrorCoord (b : ℕ) (i : ℤ) : ℤ :=
  if i < 0 then -1 - i else if (b : ℤ) ≤ i then 2 * b - 1 - i else i

/-- The condition that belongs to side `s` of the domain. -/
def Boundary.at (B : Boundary d K) (j : Fin d) (s : ℤ) : BC := if s < 0 then B.bcMin j else B.bcMax j

/-- A state with the momentum along `k` reversed. -/
def Cons.mirror (k : Fin 3) (u : Cons K) : Cons K :=
  ⟨u.rho, u.e, if k = 0 then -u.ru else u.ru, if k = 1 then -u.rv else u.rv,
    if k = 2 then -u.rw else u.rw⟩

/-! ### Proofs -/

variable {G : Grid d} {M : Finset (Oct d)}

/-- Sides on the boundary are in directions that are not periodic. -/
theorem onBoundary_not_periodic (hM : Tiling G M) {b : Fin d → ℕ} {o : Oct d} (ho : o ∈ M) {x : Fin d → ℕ}
    (hx : ∀ k, x k < b k) {j : Fin d} {s : ℤ} (h : OnBoundary G b o x j s) : ¬ G.periodic j = true := by
  intro hj
  apply h
  intro k
  by_cases hk : k = j
  · subst hk; exact Or.inl hj
  · right
    have hv := (hM.valid o ho).2 k
    rw [count_cell]
    unfold target
    rw [faceOff_ne _ hk]
    have h3 : o.pos k * b k + b k ≤ G.count k o.level * b k := by
      have := Nat.mul_le_mul_right (b k) hv
      rw [Nat.succ_mul] at this
      exact this
    have := hx k
    generalize o.pos k * b k = q at *
    generalize G.count k o.level * b k = n at *
    omega

theorem consToPrim_mirror (hd : d = 2 ∨ d = 3) (gamma : K) (k : Fin 3) (u : Cons K) :
    consToPrim d gamma (u.mirror k) = (consToPrim d gamma u).mirror k := by
  obtain ⟨r, e, x, y, z⟩ := u
  rcases hd with rfl | rfl <;> fin_cases k <;> simp [consToPrim, Cons.mirror, Prim.mirror, neg_div]

theorem negateFrom_self (k : Fin 3) (u : Cons K) : negateFrom k u u = u.mirror k := by
  obtain ⟨r, e, x, y, z⟩ := u
  fin_cases k <;> simp [negateFrom, Cons.mirror]

/-- Which cell is read. -/
theorem getBoundaryValue_eq (B : Boundary d K) (U : Oct d → (Fin d → ℕ) → Cons K) (c : CellIndex d)
    (hb : ∀ k, 0 < c.b k) (hlt : ∀ k, (c.idx k : ℤ) < 3 * c.b k) :
    ∃ (x : Fin d → ℕ) (off : Fin d → ℤ), (∀ k, x k < c.b k) ∧
      (∀ k, (x k : ℤ) = mirrorCoord (c.b k) ((c.idx k : ℤ) - c.b k)) ∧
      (∀ k, (0 < off k ↔ (c.b k : ℤ) ≤ (c.idx k : ℤ) - c.b k) ∧ (off k < 0 ↔ (c.idx k : ℤ) - c.b k < 0)) ∧
      getBoundaryValue B U c =
        some ((List.finRange d).foldl (applyBC B c off (getCons d (U c.oct x))) (getCons d (U c.oct x))) := by
  have hm : ∀ k, 0 ≤ mirrorCoord (c.b k) ((c.idx k : ℤ) - c.b k) ∧
      mirrorCoord (c.b k) ((c.idx k : ℤ) - c.b k) < c.b k := by
    intro k
    have h1 := hb k
    have h2 := hlt k
    unfold mirrorCoord
    split
    · omega
    · split <;> omega
  have hp : ∀ k, ((getBoundaryPosAndOffset c).1.idx k : ℤ) + (-(getBoundaryPosAndOffset c).2 k +
      Int.sign ((getBoundaryPosAndOffset c).2 k)) = mirrorCoord (c.b k) ((c.idx k : ℤ) - c.b k) := by
    intro k
    have h1 := hb k
    have h2 := hlt k
    unfold getBoundaryPosAndOffset mirrorCoord
    simp only
    split
    · rename_i h
      rw [show (min (max ((c.idx k : ℤ) - c.b k) 0) ((c.b k : ℤ) - 1)).toNat = 0 by omega]
      rw [Int.sign_eq_neg_one_of_neg (by push_cast; omega)]
      push_cast; omega
    · split
      · rename_i h
        rw [show (min (max ((c.idx k : ℤ) - c.b k) 0) ((c.b k : ℤ) - 1)).toNat = c.b k - 1 by omega]
        rw [Int.sign_eq_one_of_pos (by omega)]
        omega
      · rename_i h h'
        rw [show (c.idx k : ℤ) - c.b k - ((min (max ((c.idx k : ℤ) - c.b k) 0) ((c.b k : ℤ) - 1)).toNat : ℕ) = 0
          by omega]
        rw [Int.sign_zero]
        omega
  refine ⟨fun k => (mirrorCoord (c.b k) ((c.idx k : ℤ) - c.b k)).toNat, (getBoundaryPosAndOffset c).2,
    fun k => by have := hm k; beta_reduce; omega, fun k => by have := hm k; beta_reduce; omega, ?_, ?_⟩
  · intro k
    have h1 := hb k
    have h2 := hlt k
    unfold getBoundaryPosAndOffset
    simp only
    omega
  · unfold getBoundaryValue getNeighbor
    have : inBlock (getBoundaryPosAndOffset c).1.b (fun k => ((getBoundaryPosAndOffset c).1.idx k : ℤ) +
        (-(getBoundaryPosAndOffset c).2 k + Int.sign ((getBoundaryPosAndOffset c).2 k))) =
        some fun k => (mirrorCoord (c.b k) ((c.idx k : ℤ) - c.b k)).toNat := by
      simp only [hp]
      unfold inBlock
      rw [if_pos]
      exact fun k => hm k
    simp only [this, Option.map_some]
    rfl

theorem foldl_skip {α β : Type} (f : β → α → β) (l : List α) (v : β) (h : ∀ k ∈ l, ∀ w, f w k = w) :
    l.foldl f v = v := by
  induction l generalizing v with
  | nil => rfl
  | cons a l ih =>
    rw [List.foldl_cons, h a (by simp)]
    exact ih _ fun k hk => h k (by simp [hk])

theorem foldl_single {α β : Type} (f : β → α → β) (l : List α) (hn : l.Nodup) (j : α) (hj : j ∈ l) (v : β)
    (h : ∀ k, k ≠ j → ∀ w, f w k = w) : l.foldl f v = f v j := by
  obtain ⟨s, t, rfl⟩ := List.append_of_mem hj
  have h1 := List.nodup_append.1 hn
  have h2 := List.nodup_cons.1 h1.2.1
  rw [List.foldl_append, List.foldl_cons, foldl_skip f s v fun k hk => h k fun e =>
    h1.2.2 k hk j (by simp) e]
  exact foldl_skip f t _ fun k hk => h k fun e => h2.1 (e ▸ hk)

/-- What is returned for a ghost `m` cells beyond side `s` of the domain: the mirror cell, changed by
the condition of the *other* side. -/
theorem boundary_face (hG : G.Pos) (hM : Tiling G M) (B : Boundary d K)
    (U : Oct d → (Fin d → ℕ) → Cons K) {b : Fin d → ℕ} {o : Oct d} (ho : o ∈ M) {x : Fin d → ℕ}
    (hx : ∀ k, x k < b k) (j : Fin d) {m s : ℤ} (hs : s = 1 ∨ s = -1) (hm : 0 < m) (hmb : m ≤ b j)
    (hin : ¬ InDomain (cellGrid G b) o.level (target b o x (faceOff j (s * m)))) :
    ∃ (r : CellIndex d) (y : Fin d → ℕ),
      getNeighborGhost G M ⟨o, x, b, .localToBlock⟩ (faceOff j (s * m)) = some r ∧ r.status = .boundary ∧
      (∀ k, y k < b k) ∧ (∀ k, k ≠ j → y k = x k) ∧ (y j : ℤ) = mirrorCoord (b j) (x j + s * m) ∧
      ((x j : ℤ) + s * m < 0 ∧ s = -1 ∨ (b j : ℤ) ≤ x j + s * m ∧ s = 1) ∧
      (B.at j (-s) = .reflecting → getBoundaryValue B U r = some ((getCons d (U o y)).mirror (axis j))) ∧
      (B.at j (-s) = .absorbing → getBoundaryValue B U r = some (getCons d (U o y))) := by
  have hb : ∀ k, 0 < b k := fun k => by have := hx k; omega
  have hsm : |s * m| = m := by
    rcases hs with rfl | rfl
    · rw [one_mul, abs_of_pos hm]
    · rw [neg_one_mul, abs_neg, abs_of_pos hm]
  obtain ⟨r, h1, h2, h3, h4, h5, -⟩ := C25_boundary (M := M) hG ⟨o, x, b, .localToBlock⟩ (hM.valid _ ho) hx
    (faceOff j (s * m)) (fun k => by
      by_cases hk : k = j
      · subst hk; rw [faceOff_self, hsm]; exact hmb
      · rw [faceOff_ne _ hk]; simp) hin
  simp only at h3 h4 h5
  rw [h4] at h5
  have hj : (r.idx j : ℤ) - b j = x j + s * m := by rw [h5, faceOff_self]
  have hk : ∀ k, k ≠ j → (r.idx k : ℤ) - b k = x k := fun k hk => by rw [h5, faceOff_ne _ hk, add_zero]
  have hlt : ∀ k, (r.idx k : ℤ) < 3 * r.b k := by
    intro k
    rw [h4]
    have := hx k
    by_cases hkj : k = j
    · subst hkj
      have := abs_le.1 (le_of_eq hsm)
      omega
    · have := hk k hkj
      omega
  obtain ⟨y, off, g1, g2, g3, g4⟩ := getBoundaryValue_eq B U r (fun k => by rw [h4]; exact hb k) hlt
  rw [h3] at g4
  simp only [h4] at g1 g2 g3
  have hy : ∀ k, k ≠ j → y k = x k := by
    intro k hkj
    have h := g2 k
    rw [hk k hkj] at h
    have := hx k
    unfold mirrorCoord at h
    rw [if_neg (by omega), if_neg (by omega)] at h
    omega
  have hcase : (x j : ℤ) + s * m < 0 ∧ s = -1 ∨ (b j : ℤ) ≤ x j + s * m ∧ s = 1 := by
    by_contra hc
    apply hin
    intro k
    right
    have hv := (hM.valid o ho).2 k
    rw [count_cell]
    unfold target
    have h3 : o.pos k * b k + b k ≤ G.count k o.level * b k := by
      have := Nat.mul_le_mul_right (b k) hv
      rw [Nat.succ_mul] at this
      exact this
    have := hx k
    generalize o.pos k * b k = q at *
    generalize G.count k o.level * b k = n at *
    by_cases hkj : k = j
    · subst hkj
      rw [faceOff_self]
      rcases hs with rfl | rfl <;> omega
    · rw [faceOff_ne _ hkj]
      omega
  have hskip : ∀ k, k ≠ j → ∀ w, applyBC B r off (getCons d (U o y)) w k = w := by
    intro k hkj w
    have h := g3 k
    rw [hk k hkj] at h
    have := hx k
    unfold applyBC
    rw [if_neg (fun h' => by have := h.1.1 h'; omega), if_neg (fun h' => by have := h.2.1 h'; omega)]
  rw [foldl_single _ _ (List.nodup_finRange d) j (List.mem_finRange j) _ hskip] at g4
  refine ⟨r, y, h1, h2, g1, hy, by rw [g2, hj], hcase, fun h => ?_, fun h => ?_⟩
  · rw [g4, ← negateFrom_self]
    congr 1
    have g := g3 j
    rw [hj] at g
    unfold applyBC
    unfold Boundary.at at h
    rcases hcase with ⟨hc, rfl⟩ | ⟨hc, rfl⟩
    · rw [if_neg (by omega)] at h
      rw [if_neg (fun h' => by have := g.1.1 h'; have := hx j; omega), if_pos (g.2.2 hc), h]
    · rw [if_pos (by omega)] at h
      rw [if_pos (g.1.2 hc), h]
  · rw [g4]
    congr 1
    have g := g3 j
    rw [hj] at g
    unfold applyBC
    unfold Boundary.at at h
    rcases hcase with ⟨hc, rfl⟩ | ⟨hc, rfl⟩
    · rw [if_neg (by omega)] at h
      rw [if_neg (fun h' => by have := g.1.1 h'; have := hx j; omega), if_pos (g.2.2 hc), h]
    · rw [if_pos (by omega)] at h
      rw [if_pos (g.1.2 hc), h]

/-- **C47** (partial: only if both sides of the domain have the same condition in that direction, see
`C47_min_max_swapped_fails`) The ghost `m` cells beyond a reflecting wall is the mirror image of the
cell `m` cells inside, and next to an absorbing boundary (partial: only for the first ghost, see
`C47_absorbing_depth_fails`) the ghost is the nearest cell. -/
theorem C47_ghost_partial (hG : G.Pos) (hM : Tiling G M) (B : Boundary d K)
    (U : Oct d → (Fin d → ℕ) → Cons K) {b : Fin d → ℕ} {o : Oct d} (ho : o ∈ M) {x : Fin d → ℕ}
    (hx : ∀ k, x k < b k) (j : Fin d) (hsame : B.bcMin j = B.bcMax j) {m s : ℤ} (hs : s = 1 ∨ s = -1)
    (hm : 0 < m) (hmb : m ≤ b j)
    (hin : ¬ InDomain (cellGrid G b) o.level (target b o x (faceOff j (s * m)))) :
    ∃ r, getNeighborGhost G M ⟨o, x, b, .localToBlock⟩ (faceOff j (s * m)) = some r ∧
      (B.at j s = .reflecting → ∃ y : Fin d → ℕ, (∀ k, k ≠ j → y k = x k) ∧ y j < b j ∧
        (y j : ℤ) = mirrorCoord (b j) (x j + s * m) ∧
        getBoundaryValue B U r = some ((getCons d (U o y)).mirror (axis j))) ∧
      (B.at j s = .absorbing → m = 1 → getBoundaryValue B U r = some (getCons d (U o x))) := by
  obtain ⟨r, y, h1, -, h3, h4, h5, h6, h7, h8⟩ := boundary_face hG hM B U ho hx j hs hm hmb hin
  have hat : B.at j (-s) = B.at j s := by
    unfold Boundary.at
    rw [hsame]
    simp
  rw [hat] at h7 h8
  refine ⟨r, h1, fun h => ⟨y, h4, h3 j, h5, h7 h⟩, fun h hm1 => ?_⟩
  have : y = x := by
    funext k
    by_cases hk : k = j
    · subst hk
      subst hm1
      have := hx k
      unfold mirrorCoord at h5
      rcases h6 with ⟨h6, rfl⟩ | ⟨h6, rfl⟩
      · rw [if_pos h6] at h5; omega
      · rw [if_neg (by omega), if_pos h6] at h5; omega
    · exact h4 k hk
  rw [h8 h, this]

/-- **C47** Through a reflecting wall (both sides of the domain reflecting in that direction) no mass, no
energy and no tangential momentum flows. -/
theorem C47_wall (hd : d = 2 ∨ d = 3) (hG : G.Pos) (hM : Tiling G M) {P : Params} (hP : P.Ok) (B : Boundary d ℝ)
    (U : Oct d → (Fin d → ℕ) → Cons ℝ) {b : Fin d → ℕ} {o : Oct d} (ho : o ∈ M) {x : Fin d → ℕ}
    (hx : ∀ k, x k < b k) (j : Fin d) (hmin : B.bcMin j = .reflecting) (hmax : B.bcMax j = .reflecting)
    {s : ℤ} (hs : s = 1 ∨ s = -1) (hbd : OnBoundary G b o x j s) :
    ∃ f, boundaryFlux P B G M b U o x j s = some f ∧ f.rho = 0 ∧ f.e = 0 ∧
      ∀ k, k ≠ axis j → f.mom k = 0 := by
  have hbj := hx j
  obtain ⟨r, y, h1, -, h3, h4, h5, h6, h7, -⟩ := boundary_face hG hM B U ho hx j (m := 1) hs one_pos
    (by omega) (by rw [mul_one]; exact hbd)
  have hyx : y = x := by
    funext k
    by_cases hk : k = j
    · subst hk
      unfold mirrorCoord at h5
      rcases h6 with ⟨h6, rfl⟩ | ⟨h6, rfl⟩
      · rw [if_pos h6] at h5; omega
      · rw [if_neg (by omega), if_pos h6] at h5; omega
    · exact h4 k hk
  rw [hyx] at h7
  rw [mul_one] at h1
  have hat : B.at j (-s) = .reflecting := by
    unfold Boundary.at; split <;> assumption
  unfold boundaryFlux
  rw [h1, Option.bind_some, h7 hat, Option.map_some]
  refine ⟨_, rfl, ?_⟩
  simp only
  rw [consToPrim_mirror hd]
  split
  · exact C47_wall_flux_left hP _ _
  · exact C47_wall_flux hP _ _

/-- **C47** In a closed box (every direction periodic or with reflecting walls on both sides) one step of
the one-neighbour scheme keeps the total mass and the total energy, at any refinement. `mass` selects
the variable; the reconstruction is arbitrary. -/
theorem C47_closed_box (hd : d = 2 ∨ d = 3) (hG : G.Pos) (hM : Tiling G M) (hB : Balanced G M) {P : Params}
    (hP : P.Ok) (B : Boundary d ℝ) {S : Type} {D : Domain d} (hD : Domain.Ok D) {b : Fin d → ℕ}
    (hwall : ∀ j, G.periodic j = true ∨ B.bcMin j = .reflecting ∧ B.bcMax j = .reflecting)
    (U : Oct d → (Fin d → ℕ) → Cons ℝ) (mass : Bool) (H : Scheme d ℝ S)
    (hH : ∀ o ∈ M, ∀ x : Fin d → ℕ, (∀ k, x k < b k) → ∀ j s f, OnBoundary G b o x j s →
      boundaryFlux P B G M b U o x j s = some f → H.bflux o x j s = if mass then f.rho else f.e) (dt : ℝ) :
    ∃ U' : Oct d → (Fin d → ℕ) → ℝ,
      (∀ o ∈ M, ∀ x : Fin d → ℕ, (∀ k, x k < b k) →
        updateCell H D G M dt (if mass then (U o x).rho else (U o x).e) ⟨o, x, b, .localToBlock⟩ =
          some (U' o x)) ∧
      cellSum b M (fun o x => (volume D (cellGrid G b) (cellOct b o x) : ℝ) * U' o x) =
        cellSum b M (fun o x => (volume D (cellGrid G b) (cellOct b o x) : ℝ) *
          if mass then (U o x).rho else (U o x).e) := by
  obtain ⟨U', h1, h2⟩ := C45_balance hG hM hB hd hD H dt (b := b) fun o x =>
    if mass then (U o x).rho else (U o x).e
  refine ⟨U', h1, ?_⟩
  rw [h2]
  have : outflow D G M b H.bflux = 0 := by
    unfold outflow
    rw [cellSum_congr (g := fun _ _ => (0 : ℝ))]
    · unfold cellSum; simp
    · intro o ho x hx
      refine Finset.sum_eq_zero fun j _ => ?_
      have key : ∀ s, s = 1 ∨ s = -1 → OnBoundary G b o x j s → H.bflux o x j s = 0 := by
        intro s hs hbd
        rcases hwall j with hj | ⟨hj, hj'⟩
        · exact absurd (onBoundary_not_periodic hM ho hx hbd) (by rw [hj]; simp)
        · obtain ⟨f, e1, e2, e3, -⟩ := C47_wall hd hG hM hP B U ho hx j hj hj' hs hbd
          rw [hH o ho x hx j s f hbd e1]
          split <;> assumption
      have e1 := key 1 (Or.inl rfl)
      have e2 := key (-1) (Or.inr rfl)
      split
      · rename_i h
        rw [e1 h]
        split
        · rename_i h'
          rw [e2 h']; ring
        · ring
      · split
        · rename_i h'
          rw [e2 h']; ring
        · ring
  rw [this, mul_zero, sub_zero]

/-! ### Disagreements -/

/-- Momentum `1 + x` in the first direction. -/
def exU (_ : Oct 2) (x : Fin 2 → ℕ) : Cons ℚ := ⟨1, 10, 1 + x 0, 2, 0⟩

/-- Reflecting at `xmin`, absorbing at `xmax` and in the other direction. -/
def exBoundary : Boundary 2 ℚ := ⟨![.reflecting, .absorbing], ![.absorbing, .absorbing], fun _ _ _ => ⟨0, 0, 0, 0, 0⟩⟩

/-- **C47**, disagreement: the condition of the lower side is applied on the upper side and vice versa. With
a wall at `xmin` and an open boundary at `xmax`, the ghost beyond `xmin` is a copy and the ghost beyond
`xmax` is reflected. -/
theorem C47_min_max_swapped_fails :
    exBoundary.at 0 (-1) = .reflecting ∧ exBoundary.at 0 1 = .absorbing ∧
      ((getNeighborGhost quadGrid quad.toFinset ⟨⟨1, ![0, 0]⟩, ![0, 1], ![2, 2], .localToBlock⟩
        (faceOff 0 (-1))).bind (getBoundaryValue exBoundary exU)) = some ⟨1, 10, 1, 2, 0⟩ ∧
      ((getNeighborGhost quadGrid quad.toFinset ⟨⟨2, ![3, 0]⟩, ![1, 1], ![2, 2], .localToBlock⟩
        (faceOff 0 1)).bind (getBoundaryValue exBoundary exU)) = some ⟨1, 10, -2, 2, 0⟩ := by
  decide +kernel

/-- **C47**, disagreement: the second ghost beyond an absorbing boundary is not the nearest cell (momentum
1) but the second one (momentum 2). -/
theorem C47_absorbing_depth_fails :
    ((getNeighborGhost quadGrid quad.toFinset ⟨⟨1, ![0, 0]⟩, ![0, 1], ![2, 2], .localToBlock⟩
      (faceOff 0 (-2))).bind (getBoundaryValue exBoundary exU)) = some ⟨1, 10, 2, 2, 0⟩ := by
  decide +kernel

/-! ### Examples -/

/-- The hypotheses of `C47_closed_box` hold on a refined mesh in a box with four walls. -/
example (U : Oct 2 → (Fin 2 → ℕ) → Cons ℝ) (recon : Oct 2 → (Fin 2 → ℕ) → (Fin 2 → ℚ) → (Fin 2 → ℚ) → Prim ℝ)
    (mass : Bool) : ∃ (P : Params) (B : Boundary 2 ℝ) (H : Scheme 2 ℝ (Prim ℝ)), P.Ok ∧ quadGrid.Pos ∧
      Tiling quadGrid quad.toFinset ∧ Balanced quadGrid quad.toFinset ∧
      (∀ j, quadGrid.periodic j = true ∨ B.bcMin j = .reflecting ∧ B.bcMax j = .reflecting) ∧
      OnBoundary quadGrid ![2, 2] ⟨1, ![0, 0]⟩ ![0, 1] 0 (-1) ∧ H.recon = recon ∧
      ∀ o ∈ quad.toFinset, ∀ x : Fin 2 → ℕ, (∀ k, x k < ![2, 2] k) → ∀ j s f,
        OnBoundary quadGrid ![2, 2] o x j s →
        boundaryFlux P B quadGrid quad.toFinset ![2, 2] U o x j s = some f →
          H.bflux o x j s = if mass then f.rho else f.e :=
  ⟨⟨7 / 5, 1 / 1000, 1 / 1000, 1 / 1000⟩, ⟨fun _ => .reflecting, fun _ => .reflecting, fun _ _ _ => ⟨0, 0, 0, 0, 0⟩⟩,
    ⟨recon, fun j l r => if mass then (fluxDir ⟨7 / 5, 1 / 1000, 1 / 1000, 1 / 1000⟩ (axis j) l r).rho else
      (fluxDir ⟨7 / 5, 1 / 1000, 1 / 1000, 1 / 1000⟩ (axis j) l r).e, fun o x j s =>
      match boundaryFlux ⟨7 / 5, 1 / 1000, 1 / 1000, 1 / 1000⟩
        ⟨fun _ => .reflecting, fun _ => .reflecting, fun _ _ _ => ⟨0, 0, 0, 0, 0⟩⟩ quadGrid quad.toFinset ![2, 2]
        U o x j s with
      | some f => if mass then f.rho else f.e
      | none => 0⟩,
    ⟨by norm_num, by norm_num, by norm_num⟩, quadGrid_pos, quad_tiling, quad_balanced,
    fun _ => Or.inr ⟨rfl, rfl⟩, by unfold OnBoundary InDomain; decide +kernel, rfl, fun o _ x _ j s f _ h => by
      simp only [h]⟩

end Verif.Hydro
