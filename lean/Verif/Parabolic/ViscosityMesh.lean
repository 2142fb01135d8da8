import Verif.Parabolic.Viscosity
import Verif.Gravity.Operator
import Verif.Flux.Patch

/-!
# C64: the viscous term on the mesh

The velocities that `ParabolicTerm_viscosity::compute_rhs` uses are read from patches with two ghost layers
(`core/src/parabolic/ParabolicUpdate_explicit.cpp` L88-148, `ParabolicTerm_viscosity.h` L77-96).
-/

namespace Verif.Parabolic.Viscosity

open Verif.Octree Verif.Cells Verif.Flux

variable {d : ℕ} {K V : Type} [Field K]

/-! ### Model -/

/-- An offset `{a, b, c}`; in 2D the third number is not used. -/
def off3 (d : ℕ) (a b c : ℤ) : Fin d → ℤ := fun k => if k.val = 0 then a else if k.val = 1 then b else c

/-- `cellmetadata.getCellSize` (L77, `AMRBlockForeachCell.h` L40-55). In 2D the third size is computed like the others, with one
coarse octant and blocks of one cell in the third direction; `Lz` is `zmax - zmin`. -/
def size3 (Lz : ℚ) (D : Domain d) (G : Grid d) (b : Fin d → ℕ) (o : Oct d) (x : Fin d → ℕ) : Fin 3 → K := fun k =>
  if h : k.val < d then ((getCellSize D G ⟨o, x, b, .localToBlock⟩ ⟨k, h⟩ : ℚ) : K)
  else ((Lz / 2 ^ (o.level - G.lmin) : ℚ) : K)

/-- The velocity in the patch, at an offset. `vel` is `compute_primitives`. -/
def velAt (vel : V → Fin 3 → K) (I : Source d V) (G : Grid d) (M : Finset (Oct d)) (b : Fin d → ℕ) (o : Oct d)
    (x : Fin d → ℕ) (e f g : ℤ) : Option (Fin 3 → K) :=
  (patchRead I G M b o fun k => (x k : ℤ) + off3 d e f g k).map vel

/-- L66-226 for one cell (`none`: a read outside of the patch, or a patch with undefined behaviour). The code reads those of the
cells around that the formulas use. -/
def rhsCell (mu : K) (vel : V → Fin 3 → K) (I : Source d V) (Lz : ℚ) (D : Domain d) (G : Grid d) (M : Finset (Oct d))
    (b : Fin d → ℕ) (o : Oct d) (x : Fin d → ℕ) : Option (Flow K) :=
  if [-1, 0, 1].all fun e => [-1, 0, 1].all fun f => [-1, 0, 1].all fun g => (velAt vel I G M b o x e f g).isSome then
    some (rhs (decide (d = 3)) mu (size3 Lz D G b o x) fun e f g => (velAt vel I G M b o x e f g).getD fun _ => 0)
  else none

/-! ### The cells of one level form a lattice -/

/-- Only the 27 cells around count. -/
theorem rhs_congr (three : Bool) (mu : K) (size : Fin 3 → K) {s t : Stencil K}
    (h : ∀ e ∈ ({-1, 0, 1} : Finset ℤ), ∀ f ∈ ({-1, 0, 1} : Finset ℤ), ∀ g ∈ ({-1, 0, 1} : Finset ℤ), s e f g = t e f g) :
    rhs three mu size s = rhs three mu size t := by
  have m : (-1 : ℤ) ∈ ({-1, 0, 1} : Finset ℤ) := by decide
  have z : (0 : ℤ) ∈ ({-1, 0, 1} : Finset ℤ) := by decide
  have p : (1 : ℤ) ∈ ({-1, 0, 1} : Finset ℤ) := by decide
  have hX : ∀ L ∈ ({-1, 0, 1} : Finset ℤ), ∀ R ∈ ({-1, 0, 1} : Finset ℤ), ∀ inv : Fin 3 → K,
      flowX three inv s L R = flowX three inv t L R := by
    intro L hL R hR inv
    simp only [flowX, h L hL _ z _ z, h R hR _ z _ z, h L hL _ p _ z, h R hR _ p _ z, h L hL _ m _ z, h R hR _ m _ z,
      h L hL _ z _ p, h R hR _ z _ p, h L hL _ z _ m, h R hR _ z _ m]
  have hY : ∀ L ∈ ({-1, 0, 1} : Finset ℤ), ∀ R ∈ ({-1, 0, 1} : Finset ℤ), ∀ inv : Fin 3 → K,
      flowY three inv s L R = flowY three inv t L R := by
    intro L hL R hR inv
    simp only [flowY, h _ z L hL _ z, h _ z R hR _ z, h _ p L hL _ z, h _ p R hR _ z, h _ m L hL _ z, h _ m R hR _ z,
      h _ z L hL _ p, h _ z R hR _ p, h _ z L hL _ m, h _ z R hR _ m]
  have hZ : ∀ L ∈ ({-1, 0, 1} : Finset ℤ), ∀ R ∈ ({-1, 0, 1} : Finset ℤ), ∀ inv : Fin 3 → K,
      flowZ inv s L R = flowZ inv t L R := by
    intro L hL R hR inv
    simp only [flowZ, h _ z _ z L hL, h _ z _ z R hR, h _ p _ z L hL, h _ p _ z R hR, h _ m _ z L hL, h _ m _ z R hR,
      h _ z _ p L hL, h _ z _ p R hR, h _ z _ m L hL, h _ z _ m R hR]
  unfold rhs
  simp only [hX _ m _ z, hX _ z _ p, hY _ m _ z, hY _ z _ p, hZ _ m _ z, hZ _ z _ p]

variable {G : Grid d} {M : Finset (Oct d)} {b : Fin d → ℕ} {l : ℕ}

/-- The cells of level `l`, with positions modulo the size of the domain. -/
abbrev Lat (G : Grid d) (b : Fin d → ℕ) (l : ℕ) : Type := ∀ k : Fin d, ZMod ((cellGrid G b).count k l)

/-- One step. -/
def unit (G : Grid d) (b : Fin d → ℕ) (l : ℕ) (j : Fin 3) : Lat G b l := fun k => if k.val = j.val then 1 else 0

/-- The place of a cell. -/
def place (G : Grid d) (b : Fin d → ℕ) (l : ℕ) (o : Oct d) (x : Fin d → ℕ) : Lat G b l := fun k => ((o.pos k * b k + x k : ℕ) : _)

/-- The velocities on the lattice. -/
def field (vel : V → Fin 3 → K) (I : Source d V) (G : Grid d) (b : Fin d → ℕ) (l : ℕ) (p : Lat G b l) : Fin 3 → K :=
  vel (I.U ⟨l, fun k => (p k).val / b k⟩ fun k => (p k).val % b k)

theorem place_add (hd : d ≤ 3) (o : Oct d) (x : Fin d → ℕ) (e f g : ℤ) (k : Fin d) :
    (place G b l o x + e • unit G b l 0 + f • unit G b l 1 + g • unit G b l 2) k =
      (((o.pos k * b k + x k : ℕ) : ℤ) + off3 d e f g k : ℤ) := by
  have hk : k.val < 3 := lt_of_lt_of_le k.isLt hd
  simp only [Pi.add_apply, Pi.smul_apply, place, unit, off3, Fin.val_zero, Fin.val_one, Fin.val_two]
  rcases (show k.val = 0 ∨ k.val = 1 ∨ k.val = 2 by omega) with h | h | h <;> simp [h]

/-- On a mesh of one level, a patch holds the cells of the lattice around the block. -/
theorem read_lattice (hG : G.Pos) (hM : Tiling G M) (hB : Balanced G M) (hb : ∀ k, 2 ≤ b k)
    (hper : ∀ k, G.periodic k = true) (hl : ∀ o ∈ M, o.level = l) (I : Source d V) {o : Oct d} (ho : o ∈ M)
    {z : Fin d → ℤ} (hz : ∀ k, -2 ≤ z k ∧ z k < b k + 2) (p : Lat G b l)
    (hp : ∀ k, p k = ((((o.pos k * b k : ℕ) : ℤ) + z k : ℤ) : ZMod ((cellGrid G b).count k l))) :
    patchRead I G M b o z = some (I.U ⟨l, fun k => (p k).val / b k⟩ fun k => (p k).val % b k) := by
  have hb0 : ∀ k, 0 < b k := fun k => by have := hb k; omega
  rw [patchRead_eq hz]
  obtain ⟨r, P, h1, h2, h3, -, h5, h6⟩ := C24_ghost_partial hG hM hB ho hb0 (g := fun _ => 2)
    (y := fun k => (z k + 2).toNat) (fun k => hb k)
    (fun n hn _ hlt => by rw [hl o ho, hl n hn] at hlt; omega)
    (fun k => by have := hz k; have := hb k; omega) (inDomain_periodic hper b _ _)
  have hol := hl o ho
  have hrl := hl r.oct h2
  have hsame : (r.status = .localToBlock ∨ r.status = .sameSize) ∧ cellOct b r.oct r.idx = ⟨o.level, P⟩ := by
    rcases h6 with h | ⟨-, h, -⟩ | ⟨-, h⟩
    · exact h
    · omega
    · have := congrArg (fun q : Oct d => q.level) h
      simp only [cellOct] at this
      omega
  have hval : ∀ k, (p k).val = P k := by
    intro k
    obtain ⟨hlt, t, -, ht⟩ := h5 k
    rw [hol] at hlt ht
    have hpos : patchPos b (fun _ => 2) o (fun k => (z k + 2).toNat) k = ((o.pos k * b k : ℕ) : ℤ) + z k := by
      unfold patchPos
      have := hz k
      beta_reduce
      generalize o.pos k * b k = q
      push_cast
      omega
    rw [hpos] at ht
    rw [hp k, ← ht]
    push_cast
    rw [ZMod.natCast_self, mul_zero, add_zero]
    exact ZMod.val_natCast_of_lt hlt
  have hP : ∀ k, r.oct.pos k * b k + r.idx k = P k := fun k =>
    congrFun (congrArg (fun q : Oct d => q.pos) hsame.2) k
  have hdiv : ∀ k, P k / b k = r.oct.pos k := by
    intro k
    rw [← hP k, Nat.mul_comm, Nat.mul_add_div (hb0 k), Nat.div_eq_of_lt (h3 k), Nat.add_zero]
  have hmod : ∀ k, P k % b k = r.idx k := by
    intro k
    rw [← hP k, Nat.mul_comm, Nat.mul_add_mod, Nat.mod_eq_of_lt (h3 k)]
  unfold patchVal
  rw [h1, Option.bind_some]
  have hnb : r.status ≠ .boundary := by rcases hsame.1 with h | h <;> rw [h] <;> decide
  have hld : r.levelDiff ≥ 0 := by
    unfold CellIndex.levelDiff
    rcases hsame.1 with h | h <;> rw [h] <;> decide
  rw [if_neg hnb, if_pos hld]
  simp only [hval, hdiv, hmod]
  rw [← hrl]

/-- The right hand side of a cell is that of the lattice. -/
theorem rhsCell_eq (hd : d ≤ 3) (hG : G.Pos) (hM : Tiling G M) (hB : Balanced G M) (hb : ∀ k, 2 ≤ b k)
    (hper : ∀ k, G.periodic k = true) (hl : ∀ o ∈ M, o.level = l) (mu : K) (vel : V → Fin 3 → K) (I : Source d V) (Lz : ℚ)
    (D : Domain d) {o : Oct d} (ho : o ∈ M) {x : Fin d → ℕ} (hx : ∀ k, x k < b k) :
    rhsCell mu vel I Lz D G M b o x = some (rhs (decide (d = 3)) mu (size3 Lz D G b o x)
      (around (unit G b l) (field vel I G b l) (place G b l o x))) := by
  have key : ∀ e ∈ ({-1, 0, 1} : Finset ℤ), ∀ f ∈ ({-1, 0, 1} : Finset ℤ), ∀ g ∈ ({-1, 0, 1} : Finset ℤ),
      velAt vel I G M b o x e f g = some (around (unit G b l) (field vel I G b l) (place G b l o x) e f g) := by
    intro e he f hf g hg
    simp only [Finset.mem_insert, Finset.mem_singleton] at he hf hg
    have hoff : ∀ k, -1 ≤ off3 d e f g k ∧ off3 d e f g k ≤ 1 := by
      intro k
      unfold off3
      split
      · omega
      · split <;> omega
    unfold velAt
    rw [read_lattice hG hM hB hb hper hl I ho (fun k => by have := hx k; have := hoff k; omega)
      (place G b l o x + e • unit G b l 0 + f • unit G b l 1 + g • unit G b l 2) (by
        intro k
        rw [place_add hd]
        push_cast
        ring)]
    rfl
  unfold rhsCell
  rw [if_pos (by
    simp only [List.all_eq_true]
    intro e he f hf g hg
    rw [key e (by simpa using he) f (by simpa using hf) g (by simpa using hg)]
    rfl)]
  congr 1
  apply rhs_congr
  intro e he f hf g hg
  rw [key e he f hf g hg]
  rfl

/-- Sums over the cells of the mesh are sums over the lattice. -/
theorem sum_place [∀ k, NeZero ((cellGrid G b).count k l)] (hG : G.Pos) (hM : Tiling G M) (hb : ∀ k, 2 ≤ b k)
    (hl : ∀ o ∈ M, o.level = l) (f : Lat G b l → K) :
    cellSum b M (fun o x => f (place G b l o x)) = ∑ p, f p := by
  have hb0 : ∀ k, 0 < b k := fun k => by have := hb k; omega
  have hM' := cellMesh_tiling hG hb0 hM
  have hlev : ∀ q ∈ cellMesh b M, q.level = l := by
    intro q hq
    obtain ⟨o, ho, x, -, rfl⟩ := mem_cellMesh.1 hq
    exact hl o ho
  have hbox := cellSum_box (M := M) b (fun q : Oct d => f fun k => (q.pos k : ZMod _))
  refine Eq.trans hbox ?_
  refine Finset.sum_bij (fun q _ k => (q.pos k : ZMod _)) (fun _ _ => Finset.mem_univ _) ?_ ?_ fun _ _ => rfl
  · intro q hq q' hq' h
    have hv := (hM'.valid q hq).2
    have hv' := (hM'.valid q' hq').2
    have e1 := hlev q hq
    have e2 := hlev q' hq'
    cases q with
    | mk ql qp =>
      cases q' with
      | mk ql' qp' =>
        simp only at e1 e2 hv hv' h
        subst e1
        subst e2
        congr 1
        funext k
        have := congrArg ZMod.val (congrFun h k)
        rwa [ZMod.val_natCast_of_lt (hv k), ZMod.val_natCast_of_lt (hv' k)] at this
  · intro p _
    have hN : ∀ k, (0 : ℚ) < (cellGrid G b).count k l := fun k => by
      have := NeZero.pos ((cellGrid G b).count k l)
      exact_mod_cast this
    obtain ⟨q, ⟨hq, hc⟩, -⟩ := hM'.cover (fun k => ((p k).val : ℚ) / (cellGrid G b).count k l) (fun k => by
      have := ZMod.val_lt (p k)
      constructor
      · positivity
      · rw [div_lt_one (hN k)]
        exact_mod_cast this)
    refine ⟨q, hq, ?_⟩
    funext k
    have h := hc k
    unfold lo hi at h
    rw [hlev q hq, div_le_div_iff_of_pos_right (hN k), div_lt_div_iff_of_pos_right (hN k)] at h
    have h1 : q.pos k ≤ (p k).val := by exact_mod_cast h.1
    have h2 : (p k).val < q.pos k + 1 := by exact_mod_cast h.2
    rw [show q.pos k = (p k).val by omega]
    exact ZMod.natCast_zmod_val _

/-! ### Theorems -/

theorem size3_level (Lz : ℚ) (D : Domain d) {o o' : Oct d} (h : o.level = o'.level) (x x' : Fin d → ℕ) :
    (size3 Lz D G b o x : Fin 3 → K) = size3 Lz D G b o' x' := by
  funext k
  unfold size3 getCellSize getSize
  simp only [h]

theorem size3_pos [LinearOrder K] [IsStrictOrderedRing K] (hG : G.Pos) (hb : ∀ k, 2 ≤ b k) {Lz : ℚ} (hz : 0 < Lz) {D : Domain d}
    (hD : Domain.Ok D) (o : Oct d) (x : Fin d → ℕ) (k : Fin 3) : 0 < (size3 Lz D G b o x k : K) := by
  have hb0 : ∀ k, 0 < b k := fun k => by have := hb k; omega
  unfold size3
  split
  · rw [getCellSize_eq hG D _ hb0]
    exact_mod_cast cellSize_pos (cellGrid_pos hG hb0) hD _ _
  · have : 0 < Lz / 2 ^ (o.level - G.lmin) := by positivity
    exact_mod_cast this

/-- **C64** Viscosity on a periodic mesh of one level. Every cell has a right hand side (no read is undefined). Over all cells
momentum and energy add up to nothing, and the work of the viscous force on the flow is at most minus the viscosity times
the sum of the squares of the differences of velocity between each cell and the next ones; `next o x j` is the velocity the
patch holds one cell further in direction `j`. -/
theorem C64_mesh [LinearOrder K] [IsStrictOrderedRing K] (hd : d = 2 ∨ d = 3) (hG : G.Pos) (hM : Tiling G M) (hB : Balanced G M)
    (hb : ∀ k, 2 ≤ b k) (hper : ∀ k, G.periodic k = true) (hl : ∀ o ∈ M, o.level = l) {mu : K} (hmu : 0 ≤ mu)
    (vel : V → Fin 3 → K) (I : Source d V) {Lz : ℚ} (hz : 0 < Lz) {D : Domain d} (hD : Domain.Ok D) :
    ∃ (r : Oct d → (Fin d → ℕ) → Flow K) (next : Oct d → (Fin d → ℕ) → Fin 3 → Fin 3 → K),
      (∀ o ∈ M, ∀ x, (∀ k, x k < b k) → rhsCell mu vel I Lz D G M b o x = some (r o x) ∧ ∀ j ∈ act (decide (d = 3)),
        velAt vel I G M b o x (if j = 0 then 1 else 0) (if j = 1 then 1 else 0) (if j = 2 then 1 else 0) = some (next o x j)) ∧
      (∀ i ∈ act (decide (d = 3)), cellSum b M (fun o x => (r o x).mom i) = 0) ∧
      cellSum b M (fun o x => (r o x).e) = 0 ∧
      cellSum b M (fun o x => ∑ i ∈ act (decide (d = 3)), vel (I.U o x) i * (r o x).mom i) ≤
        cellSum b M (fun o x => -(mu * depth (decide (d = 3)) (size3 Lz D G b o x) *
          ∑ i ∈ act (decide (d = 3)), ∑ j ∈ act (decide (d = 3)),
            ((next o x j i - vel (I.U o x) i) / size3 Lz D G b o x j) ^ 2)) := by
  have hd3 : d ≤ 3 := by omega
  have hb0 : ∀ k, 0 < b k := fun k => by have := hb k; omega
  have : ∀ k, NeZero ((cellGrid G b).count k l) := fun k => ⟨(count_pos (cellGrid_pos hG hb0) k l).ne'⟩
  let sz : Fin 3 → K := size3 Lz D G b ⟨l, fun _ => 0⟩ fun _ => 0
  have hsz : ∀ k, 0 < sz k := size3_pos hG hb hz hD _ _
  have hsz' : ∀ k, sz k ≠ 0 := fun k => (hsz k).ne'
  have hse : ∀ o ∈ M, ∀ x, (size3 Lz D G b o x : Fin 3 → K) = sz := fun o ho x => size3_level Lz D (hl o ho) _ _
  let v := field vel I G b l
  have hv : ∀ o ∈ M, ∀ x, (∀ k, x k < b k) → v (place G b l o x) = vel (I.U o x) := by
    intro o ho x hx
    have h1 := read_lattice hG hM hB hb hper hl I ho (z := fun k => (x k : ℤ)) (fun k => by have := hx k; omega)
      (place G b l o x) (fun k => by unfold place; push_cast; rfl)
    rw [patchRead_interior hx] at h1
    rw [Option.some.inj h1]
    rfl
  have hc : ∀ (f : Oct d → (Fin d → ℕ) → K) (g : Lat G b l → K),
      (∀ o ∈ M, ∀ x, (∀ k, x k < b k) → f o x = g (place G b l o x)) → cellSum b M f = ∑ p, g p := by
    intro f g h
    rw [← sum_place hG hM hb hl g]
    exact cellSum_congr fun o ho x hx => h o ho x hx
  refine ⟨fun o x => rhs (decide (d = 3)) mu sz (around (unit G b l) v (place G b l o x)),
    fun o x j => v (place G b l o x + unit G b l j), ?_, ?_, ?_, ?_⟩
  · intro o ho x hx
    refine ⟨by rw [rhsCell_eq hd3 hG hM hB hb hper hl mu vel I Lz D ho hx, hse o ho x], ?_⟩
    intro j hj
    unfold velAt
    rw [read_lattice hG hM hB hb hper hl I ho (z := fun k => (x k : ℤ) + off3 d (if j = 0 then 1 else 0) (if j = 1 then 1 else 0)
      (if j = 2 then 1 else 0) k) (fun k => by
        have := hx k
        have : 0 ≤ off3 d (if j = 0 then 1 else 0) (if j = 1 then 1 else 0) (if j = 2 then 1 else 0) k ∧
            off3 d (if j = 0 then 1 else 0) (if j = 1 then 1 else 0) (if j = 2 then 1 else 0) k ≤ 1 := by
          unfold off3
          split_ifs <;> omega
        omega) (place G b l o x + unit G b l j) (by
        intro k
        have := place_add (G := G) (b := b) (l := l) hd3 o x (if j = 0 then 1 else 0) (if j = 1 then 1 else 0)
          (if j = 2 then 1 else 0) k
        rw [← add_assoc, ← Nat.cast_add, ← this]
        fin_cases j <;> simp)]
    rfl
  · intro i hi
    rw [hc _ (fun p => (rhs (decide (d = 3)) mu sz (around (unit G b l) v p)).mom i) fun o ho x hx => rfl]
    exact (C64_conserved _ mu hsz' _ v).1 i hi
  · rw [hc _ (fun p => (rhs (decide (d = 3)) mu sz (around (unit G b l) v p)).e) fun o ho x hx => rfl]
    exact (C64_conserved _ mu hsz' _ v).2
  · rw [hc _ (fun p => ∑ i ∈ act (decide (d = 3)), v p i * (rhs (decide (d = 3)) mu sz (around (unit G b l) v p)).mom i)
      fun o ho x hx => by rw [hv o ho x hx],
      hc (fun o x => -(mu * depth (decide (d = 3)) (size3 Lz D G b o x) * _))
        (fun p => -(mu * depth (decide (d = 3)) sz * ∑ i ∈ act (decide (d = 3)), ∑ j ∈ act (decide (d = 3)),
          ((v (p + unit G b l j) i - v p i) / sz j) ^ 2))
      fun o ho x hx => by rw [hv o ho x hx, hse o ho x]]
    rw [Finset.sum_neg_distrib, ← Finset.mul_sum]
    exact C64_dissipation _ hmu hsz _ v

/-- **C64** In 2D the same velocity gradient heats a cell half as fast as a cell one level coarser: the areas of the faces have the
third size of the cell, which halves with each level, and the volume does not. -/
theorem C64_level_fails [CharZero K] {Γ : Type} [AddCommGroup Γ] (G : Grid 2) (D : Domain 2) (b : Fin 2 → ℕ) (Lz : ℚ) (mu : K)
    {o o' : Oct 2} (hlo : G.lmin ≤ o.level) (ho : o'.level = o.level + 1) (x x' : Fin 2 → ℕ)
    (hs : ∀ k, (size3 Lz D G b o x : Fin 3 → K) k ≠ 0) (hs' : ∀ k, (size3 Lz D G b o' x' : Fin 3 → K) k ≠ 0) (ε : Fin 3 → Γ)
    (v v' : Γ → Fin 3 → K) (A : Fin 3 → Fin 3 → K)
    (hv : ∀ g, ∀ i ∈ act false, ∀ k ∈ act false, v (g + ε k) i = v g i + size3 Lz D G b o x k * A i k)
    (hv' : ∀ g, ∀ i ∈ act false, ∀ k ∈ act false, v' (g + ε k) i = v' g i + size3 Lz D G b o' x' k * A i k) (g g' : Γ) :
    (rhs false mu (size3 Lz D G b o' x') (around ε v' g')).e = (rhs false mu (size3 Lz D G b o x) (around ε v g)).e / 2 := by
  rw [(C64_linear false mu hs' ε v' A hv' g').2, (C64_linear false mu hs ε v A hv g).2]
  have : depth false (size3 Lz D G b o' x' : Fin 3 → K) = depth false (size3 Lz D G b o x : Fin 3 → K) / 2 := by
    unfold depth size3
    simp only [Bool.false_eq_true, if_false, Fin.val_two, lt_irrefl, dif_neg, not_false_eq_true, ho,
      show o.level + 1 - G.lmin = (o.level - G.lmin) + 1 by omega, pow_succ]
    push_cast
    rw [div_div]
  rw [this]
  ring

/-! ### Meshes with several levels -/

/-- **C64** On every balanced mesh the right hand side of every cell is defined. -/
theorem C64_defined (hG : G.Pos) (hM : Tiling G M) (hB : Balanced G M) (hb : ∀ k, 4 ≤ b k ∧ 2 ∣ b k) (mu : K)
    (vel : V → Fin 3 → K) (I : Source d V) (Lz : ℚ) (D : Domain d) {o : Oct d} (ho : o ∈ M) {x : Fin d → ℕ}
    (hx : ∀ k, x k < b k) : ∃ r, rhsCell mu vel I Lz D G M b o x = some r := by
  unfold rhsCell
  rw [if_pos]
  · exact ⟨_, rfl⟩
  · simp only [List.all_eq_true]
    intro e he f hf g hg
    simp only [List.mem_cons, List.not_mem_nil, or_false] at he hf hg
    obtain ⟨u, hu⟩ := patchRead_defined (I := I) hG hM hB ho hb (z := fun k => (x k : ℤ) + off3 d e f g k) (fun k => by
      have := hx k
      have : -1 ≤ off3 d e f g k ∧ off3 d e f g k ≤ 1 := by
        unfold off3
        split_ifs <;> omega
      omega)
    unfold velAt
    rw [hu]
    rfl

/-- A mesh of one level that meets the hypotheses of `C64_mesh`. -/
example : Tiling torus {⟨1, ![0, 0]⟩, ⟨1, ![0, 1]⟩, ⟨1, ![1, 0]⟩, ⟨1, ![1, 1]⟩} ∧
    Balanced torus {⟨1, ![0, 0]⟩, ⟨1, ![0, 1]⟩, ⟨1, ![1, 0]⟩, ⟨1, ![1, 1]⟩} ∧
    (rhsCell (1 : ℚ) (fun u : ℚ => ![u, 0, 0]) ⟨fun o x => if o.pos 0 = 0 ∧ x 0 = 0 ∧ x 1 = 1 then 1 else 0, fun _ => 0, fun _ => 0⟩ 1
      torusDomain torus {⟨1, ![0, 0]⟩, ⟨1, ![0, 1]⟩, ⟨1, ![1, 0]⟩, ⟨1, ![1, 1]⟩} ![2, 2] ⟨1, ![0, 0]⟩ ![0, 1]).map Flow.u ≠ some 0 :=
  ⟨tiling_of_check ⟨⟨by decide⟩, by decide⟩ [⟨1, ![0, 0]⟩, ⟨1, ![0, 1]⟩, ⟨1, ![1, 0]⟩, ⟨1, ![1, 1]⟩] 1 (by decide +kernel),
    balanced_of_check ⟨⟨by decide⟩, by decide⟩ [⟨1, ![0, 0]⟩, ⟨1, ![0, 1]⟩, ⟨1, ![1, 0]⟩, ⟨1, ![1, 1]⟩] 1 (by decide +kernel),
    by decide +kernel⟩

end Verif.Parabolic.Viscosity
