import Mathlib.Data.Nat.Bitwise
import Mathlib.Data.List.Nodup
import Mathlib.Data.List.Range
import Mathlib.Tactic.Ring
import Mathlib.Tactic.Linarith

/-!
# Cells exchanged by `GhostCommunicator_partial_blocks`

`core/src/mpi/GhostCommunicator_partial_blocks.cpp` L5-99.
-/

namespace Verif.Comm

/-- A box of cells of a block, upper bounds excluded. -/
structure Region where
  xmin : ℕ
  xmax : ℕ
  ymin : ℕ
  ymax : ℕ
  zmin : ℕ
  zmax : ℕ

/-- L18-20: the debug-only assertions of `add_cells`. -/
def Region.ok (R : Region) (bx by' bz : ℕ) : Bool :=
  decide (R.xmin ≤ R.xmax ∧ R.xmax ≤ bx ∧ R.ymin ≤ R.ymax ∧ R.ymax ≤ by' ∧ R.zmin ≤ R.zmax ∧
    R.zmax ≤ bz)

/-- L21-41: cells written by `add_cells` for a region that satisfies the assertions, in order. -/
def Region.cells (R : Region) (bx by' : ℕ) : List ℕ :=
  let dx := R.xmax - R.xmin
  let dy := R.ymax - R.ymin
  let dz := R.zmax - R.zmin
  (List.range (dx * dy * dz)).map fun i =>
    (i % dx + R.xmin) + bx * ((i / dx) % dy + R.ymin) + bx * by' * ((i / dx) / dy + R.zmin)

/-- `uint32_t` subtraction. -/
def sub32 (a b : ℕ) : ℕ := (a + 2 ^ 32 - b) % 2 ^ 32

/-- L54-93: the regions added for one mask. -/
def maskRegions (bx by' bz gc mask : ℕ) : List Region :=
  let has := fun i => mask.testBit i
  let xmin := if has 0 then gc else 0
  let xr := max (sub32 bx gc) xmin
  let xmax := if has 1 then xr else bx
  let ymin := if has 2 then gc else 0
  let yr := max (sub32 by' gc) ymin
  let ymax := if has 3 then yr else by'
  let zl := min gc bz
  let zmin := if has 4 then zl else 0
  let zr := (max ((bz : ℤ) - gc) zmin).toNat
  (if has 0 then [⟨0, gc, 0, by', 0, bz⟩] else []) ++
  (if has 1 then [⟨xr, bx, 0, by', 0, bz⟩] else []) ++
  (if has 2 then [⟨xmin, xmax, 0, gc, 0, bz⟩] else []) ++
  (if has 3 then [⟨xmin, xmax, yr, by', 0, bz⟩] else []) ++
  (if has 4 then [⟨xmin, xmax, ymin, ymax, 0, zl⟩] else []) ++
  (if has 5 then [⟨xmin, xmax, ymin, ymax, zr, bz⟩] else [])

/-- Result of the computation: a list of cells, the assertion of L45, or writes outside the arrays
(`add_cells` with a region that is not in the block). -/
inductive MaskResult
  | cells (l : List ℕ)
  | abort
  | outOfBounds

/-- L5-99 `precompute_facemask_cells`, row `mask` of `facemask_iCells`. -/
def maskCells (bx by' bz gc mask : ℕ) : MaskResult :=
  if gc ≤ bx ∨ gc ≤ by' then
    if (maskRegions bx by' bz gc mask).all fun R => R.ok bx by' bz then
      .cells ((maskRegions bx by' bz gc mask).flatMap fun R => R.cells bx by')
    else .outOfBounds
  else .abort

/-! ### Specification -/

/-- The cell is in the block, within `gc` cells of one of the faces of the mask
(bit 0: lower x face, bit 1: upper x face, and so on). -/
def NearFaces (bx by' bz gc mask x y z : ℕ) : Prop :=
  (x < bx ∧ y < by' ∧ z < bz) ∧
    ((mask.testBit 0 = true ∧ x < gc) ∨ (mask.testBit 1 = true ∧ bx ≤ x + gc) ∨
     (mask.testBit 2 = true ∧ y < gc) ∨ (mask.testBit 3 = true ∧ by' ≤ y + gc) ∨
     (mask.testBit 4 = true ∧ z < gc) ∨ (mask.testBit 5 = true ∧ bz ≤ z + gc))

/-! ### Proof -/

theorem cell_inj {bx by' x y z x' y' z' : ℕ} (hx : x < bx) (hx' : x' < bx) (hy : y < by') (hy' : y' < by')
    (h : x + bx * y + bx * by' * z = x' + bx * y' + bx * by' * z') : x = x' ∧ y = y' ∧ z = z' := by
  have e : ∀ x y z, x + bx * y + bx * by' * z = x + bx * (y + by' * z) := fun x y z => by ring
  rw [e, e] at h
  have h1 : x = x' := by
    have := congrArg (· % bx) h
    simpa [Nat.add_mul_mod_self_left, Nat.mod_eq_of_lt hx, Nat.mod_eq_of_lt hx'] using this
  subst h1
  have h2 : y + by' * z = y' + by' * z' := by
    have : bx * (y + by' * z) = bx * (y' + by' * z') := by omega
    exact Nat.eq_of_mul_eq_mul_left (by omega) this
  have h3 : y = y' := by
    have := congrArg (· % by') h2
    simpa [Nat.add_mul_mod_self_left, Nat.mod_eq_of_lt hy, Nat.mod_eq_of_lt hy'] using this
  subst h3
  refine ⟨rfl, rfl, ?_⟩
  have : by' * z = by' * z' := by omega
  exact Nat.eq_of_mul_eq_mul_left (by omega) this

def Region.Has (R : Region) (x y z : ℕ) : Prop :=
  R.xmin ≤ x ∧ x < R.xmax ∧ R.ymin ≤ y ∧ y < R.ymax ∧ R.zmin ≤ z ∧ z < R.zmax

theorem Region.mem_cells {R : Region} {bx by' c : ℕ} :
    c ∈ R.cells bx by' ↔ ∃ x y z, R.Has x y z ∧ c = x + bx * y + bx * by' * z := by
  unfold Region.cells Region.Has
  simp only [List.mem_map, List.mem_range]
  constructor
  · rintro ⟨i, hi, rfl⟩
    have hpos : 0 < (R.xmax - R.xmin) * (R.ymax - R.ymin) * (R.zmax - R.zmin) := by omega
    have hx : 0 < R.xmax - R.xmin := Nat.pos_of_mul_pos_right (Nat.pos_of_mul_pos_right hpos)
    have hy : 0 < R.ymax - R.ymin := Nat.pos_of_mul_pos_left (Nat.pos_of_mul_pos_right hpos)
    have h1 := Nat.mod_lt i hx
    have h2 := Nat.mod_lt (i / (R.xmax - R.xmin)) hy
    have h3 : i / (R.xmax - R.xmin) / (R.ymax - R.ymin) < R.zmax - R.zmin := by
      rw [Nat.div_div_eq_div_mul]
      exact Nat.div_lt_of_lt_mul hi
    refine ⟨_, _, _, ⟨?_, ?_, ?_, ?_, ?_, ?_⟩, rfl⟩
    · exact Nat.le_add_left _ _
    · omega
    · exact Nat.le_add_left _ _
    · omega
    · exact Nat.le_add_left _ _
    · exact Nat.add_lt_of_lt_sub h3
  · rintro ⟨x, y, z, ⟨h1, h2, h3, h4, h5, h6⟩, rfl⟩
    set dx := R.xmax - R.xmin
    set dy := R.ymax - R.ymin
    set dz := R.zmax - R.zmin
    set a := x - R.xmin with ha
    set b := y - R.ymin with hb
    set c := z - R.zmin with hc
    have hadx : a < dx := by omega
    have hbdy : b < dy := by omega
    have hcdz : c < dz := by omega
    refine ⟨a + dx * (b + dy * c), ?_, ?_⟩
    · calc a + dx * (b + dy * c) < dx + dx * (b + dy * c) := by omega
        _ = dx * (b + dy * c + 1) := by ring
        _ ≤ dx * (dy * dz) := by
          apply Nat.mul_le_mul_left
          calc b + dy * c + 1 ≤ dy + dy * c := by omega
            _ = dy * (c + 1) := by ring
            _ ≤ dy * dz := Nat.mul_le_mul_left _ hcdz
        _ = dx * dy * dz := by ring
    · have e1 : (a + dx * (b + dy * c)) % dx = a := by
        rw [Nat.add_mul_mod_self_left, Nat.mod_eq_of_lt hadx]
      have e2 : (a + dx * (b + dy * c)) / dx = b + dy * c := by
        rw [Nat.add_mul_div_left _ _ (by omega), Nat.div_eq_of_lt hadx, Nat.zero_add]
      have e3 : (b + dy * c) % dy = b := by
        rw [Nat.add_mul_mod_self_left, Nat.mod_eq_of_lt hbdy]
      have e4 : (b + dy * c) / dy = c := by
        rw [Nat.add_mul_div_left _ _ (by omega), Nat.div_eq_of_lt hbdy, Nat.zero_add]
      rw [e1, e2, e3, e4, show a + R.xmin = x by omega, show b + R.ymin = y by omega,
        show c + R.zmin = z by omega]

theorem Region.nodup_cells {R : Region} {bx by' bz : ℕ} (h : R.ok bx by' bz = true) :
    (R.cells bx by').Nodup := by
  unfold Region.ok at h
  rw [decide_eq_true_eq] at h
  unfold Region.cells
  simp only
  apply List.Nodup.map_on _ List.nodup_range
  intro i hi j hj hij
  rw [List.mem_range] at hi hj
  have hpos : 0 < (R.xmax - R.xmin) * (R.ymax - R.ymin) * (R.zmax - R.zmin) := by omega
  have hx : 0 < R.xmax - R.xmin := Nat.pos_of_mul_pos_right (Nat.pos_of_mul_pos_right hpos)
  have hy : 0 < R.ymax - R.ymin := Nat.pos_of_mul_pos_left (Nat.pos_of_mul_pos_right hpos)
  have h1 := Nat.mod_lt i hx
  have h2 := Nat.mod_lt (i / (R.xmax - R.xmin)) hy
  have h3 := Nat.mod_lt j hx
  have h4 := Nat.mod_lt (j / (R.xmax - R.xmin)) hy
  obtain ⟨e1, e2, e3⟩ := cell_inj (by omega) (by omega) (by omega) (by omega) hij
  have e1' : i % (R.xmax - R.xmin) = j % (R.xmax - R.xmin) := by omega
  have e2' : i / (R.xmax - R.xmin) % (R.ymax - R.ymin) = j / (R.xmax - R.xmin) % (R.ymax - R.ymin) := by
    omega
  have e3' : i / (R.xmax - R.xmin) / (R.ymax - R.ymin) = j / (R.xmax - R.xmin) / (R.ymax - R.ymin) := by
    omega
  have e4 : i / (R.xmax - R.xmin) = j / (R.xmax - R.xmin) := by
    rw [← Nat.div_add_mod (i / (R.xmax - R.xmin)) (R.ymax - R.ymin), e2', e3', Nat.div_add_mod]
  rw [← Nat.div_add_mod i (R.xmax - R.xmin), e1', e4, Nat.div_add_mod]

theorem sub32_eq {a b : ℕ} (h : b ≤ a) (ha : a < 2 ^ 32) : sub32 a b = a - b := by
  unfold sub32
  omega

theorem maskRegions_ok {bx by' bz gc mask : ℕ} (hbx : bx < 2 ^ 32) (hby : by' < 2 ^ 32)
    (hgx : gc ≤ bx) (hgy : gc ≤ by') :
    (maskRegions bx by' bz gc mask).all (fun R => R.ok bx by' bz) = true := by
  unfold maskRegions Region.ok
  simp only [sub32_eq hgx hbx, sub32_eq hgy hby]
  rcases Bool.eq_false_or_eq_true (mask.testBit 0) with f0 | f0 <;>
    rcases Bool.eq_false_or_eq_true (mask.testBit 1) with f1 | f1 <;>
    rcases Bool.eq_false_or_eq_true (mask.testBit 2) with f2 | f2 <;>
    rcases Bool.eq_false_or_eq_true (mask.testBit 3) with f3 | f3 <;>
    rcases Bool.eq_false_or_eq_true (mask.testBit 4) with f4 | f4 <;>
    rcases Bool.eq_false_or_eq_true (mask.testBit 5) with f5 | f5 <;>
    simp [f0, f1, f2, f3, f4, f5] <;> omega

theorem exists_mem_optional {α : Type*} {P : α → Prop} {c0 c1 c2 c3 c4 c5 : Bool} {a0 a1 a2 a3 a4 a5 : α} :
    (∃ a ∈ ((if c0 = true then [a0] else []) ++ (if c1 = true then [a1] else []) ++
      (if c2 = true then [a2] else []) ++ (if c3 = true then [a3] else []) ++
      (if c4 = true then [a4] else []) ++ (if c5 = true then [a5] else [])), P a) ↔
    (c0 = true ∧ P a0) ∨ (c1 = true ∧ P a1) ∨ (c2 = true ∧ P a2) ∨ (c3 = true ∧ P a3) ∨
      (c4 = true ∧ P a4) ∨ (c5 = true ∧ P a5) := by
  cases c0 <;> cases c1 <;> cases c2 <;> cases c3 <;> cases c4 <;> cases c5 <;> simp

/-- One direction: the two slabs taken at the lower and upper face, and what is left. -/
theorem slab {b lo hi gc x : ℕ} {l r : Bool} (hx : x < b) (hlo : lo = if l = true then gc else 0)
    (hhi : hi = max (b - gc) lo) :
    (((l = true ∧ x < gc) ∨ (r = true ∧ hi ≤ x)) ↔ ((l = true ∧ x < gc) ∨ (r = true ∧ b ≤ x + gc))) ∧
    ((lo ≤ x ∧ x < if r = true then hi else b) ↔
      ¬ ((l = true ∧ x < gc) ∨ (r = true ∧ b ≤ x + gc))) := by
  subst hlo
  cases l <;> cases r <;> simp at * <;> omega

theorem split3 {a b a' b' c d c' d' e f e' f' R S : Prop} (h1 : a ∨ b ↔ a' ∨ b') (h2 : R ↔ ¬ (a' ∨ b'))
    (h3 : c ∨ d ↔ c' ∨ d') (h4 : S ↔ ¬ (c' ∨ d')) (h5 : e ∨ f ↔ e' ∨ f') :
    (a ∨ b ∨ (R ∧ c) ∨ (R ∧ d) ∨ (R ∧ S ∧ e) ∨ (R ∧ S ∧ f)) ↔ (a' ∨ b' ∨ c' ∨ d' ∨ e' ∨ f') := by
  rw [show (a ∨ b ∨ (R ∧ c) ∨ (R ∧ d) ∨ (R ∧ S ∧ e) ∨ (R ∧ S ∧ f)) ↔
    ((a ∨ b) ∨ R ∧ ((c ∨ d) ∨ S ∧ (e ∨ f))) by simp only [and_or_left, or_assoc], h1, h2, h3, h4, h5]
  rw [show (a' ∨ b' ∨ c' ∨ d' ∨ e' ∨ f') ↔ ((a' ∨ b') ∨ (c' ∨ d') ∨ (e' ∨ f')) by
    simp only [or_assoc]]
  by_cases p : a' ∨ b' <;> by_cases q : c' ∨ d' <;> simp only [p, q, true_or, false_or, not_true,
    not_false_iff, true_and, false_and, or_false]

theorem mem_maskRegions {bx by' bz gc mask : ℕ} (hbx : bx < 2 ^ 32) (hby : by' < 2 ^ 32)
    (hgx : gc ≤ bx) (hgy : gc ≤ by') (x y z : ℕ) :
    (∃ R ∈ maskRegions bx by' bz gc mask, R.Has x y z) ↔
      NearFaces bx by' bz gc mask x y z := by
  unfold maskRegions
  simp only
  rw [exists_mem_optional, sub32_eq hgx hbx, sub32_eq hgy hby]
  have hzl : ∀ x, x < bz → (x < min gc bz ↔ x < gc) := by omega
  by_cases hb : x < bx ∧ y < by' ∧ z < bz
  · obtain ⟨hxb, hyb, hzb⟩ := hb
    generalize hxl : (if mask.testBit 0 = true then gc else 0) = xl
    generalize hyl : (if mask.testBit 2 = true then gc else 0) = yl
    obtain ⟨x1, x2⟩ := slab (r := mask.testBit 1) hxb hxl.symm rfl
    obtain ⟨y1, y2⟩ := slab (r := mask.testBit 3) hyb hyl.symm rfl
    have z1 : ((mask.testBit 4 = true ∧ z < min gc bz) ∨
        (mask.testBit 5 = true ∧ (max ((bz : ℤ) - gc) ((if mask.testBit 4 = true then min gc bz else 0 : ℕ) : ℤ)).toNat ≤ z)) ↔
        ((mask.testBit 4 = true ∧ z < gc) ∨ (mask.testBit 5 = true ∧ bz ≤ z + gc)) := by
      rcases Bool.eq_false_or_eq_true (mask.testBit 4) with f4 | f4 <;>
        rcases Bool.eq_false_or_eq_true (mask.testBit 5) with f5 | f5 <;> simp [f4, f5] <;> omega
    unfold NearFaces Region.Has
    simp only [hxb, hyb, hzb, Nat.zero_le, true_and, and_true]
    have key := split3 x1 x2 y1 y2 z1
    simp only [and_assoc, and_left_comm] at key ⊢
    exact key
  · constructor
    · intro h
      exfalso
      unfold Region.Has at h
      simp only at h
      have e1 : ∀ n, (if mask.testBit 1 = true then max (bx - gc) n else bx) ≤ max bx n := by
        intro n; split_ifs <;> omega
      have e2 : ∀ n, (if mask.testBit 3 = true then max (by' - gc) n else by') ≤ max by' n := by
        intro n; split_ifs <;> omega
      have e3 := e1 (if mask.testBit 0 = true then gc else 0)
      have e4 := e2 (if mask.testBit 2 = true then gc else 0)
      have e5 : (if mask.testBit 0 = true then gc else 0) ≤ gc := by split_ifs <;> omega
      have e6 : (if mask.testBit 2 = true then gc else 0) ≤ gc := by split_ifs <;> omega
      generalize (if mask.testBit 1 = true then max (bx - gc) _ else bx) = A at *
      generalize (if mask.testBit 3 = true then max (by' - gc) _ else by') = B at *
      omega
    · intro h
      exact absurd h.1 hb

theorem pairwise_optional {α : Type*} {r : α → α → Prop} {c0 c1 c2 c3 c4 c5 : Bool} {a0 a1 a2 a3 a4 a5 : α}
    (h01 : c0 = true → c1 = true → r a0 a1)
    (h02 : c0 = true → c2 = true → r a0 a2)
    (h03 : c0 = true → c3 = true → r a0 a3)
    (h04 : c0 = true → c4 = true → r a0 a4)
    (h05 : c0 = true → c5 = true → r a0 a5)
    (h12 : c1 = true → c2 = true → r a1 a2)
    (h13 : c1 = true → c3 = true → r a1 a3)
    (h14 : c1 = true → c4 = true → r a1 a4)
    (h15 : c1 = true → c5 = true → r a1 a5)
    (h23 : c2 = true → c3 = true → r a2 a3)
    (h24 : c2 = true → c4 = true → r a2 a4)
    (h25 : c2 = true → c5 = true → r a2 a5)
    (h34 : c3 = true → c4 = true → r a3 a4)
    (h35 : c3 = true → c5 = true → r a3 a5)
    (h45 : c4 = true → c5 = true → r a4 a5) :
    ((if c0 = true then [a0] else []) ++
      (if c1 = true then [a1] else []) ++
      (if c2 = true then [a2] else []) ++
      (if c3 = true then [a3] else []) ++
      (if c4 = true then [a4] else []) ++
      (if c5 = true then [a5] else [])).Pairwise r := by
  cases c0 <;> cases c1 <;> cases c2 <;> cases c3 <;> cases c4 <;> cases c5 <;> simp_all

theorem maskRegions_disjoint {bx by' bz gc mask : ℕ} (hbx : bx < 2 ^ 32) (hby : by' < 2 ^ 32)
    (hgx : gc ≤ bx) (hgy : gc ≤ by') :
    (maskRegions bx by' bz gc mask).Pairwise fun R S => ∀ x y z, R.Has x y z → ¬ S.Has x y z := by
  unfold maskRegions Region.Has
  simp only [sub32_eq hgx hbx, sub32_eq hgy hby]
  refine pairwise_optional ?_ ?_ ?_ ?_ ?_ ?_ ?_ ?_ ?_ ?_ ?_ ?_ ?_ ?_ ?_
  all_goals
    intro fa fb x y z hR hS
    simp only [fa, fb, if_true] at hR hS
    try split_ifs at hR hS
    all_goals omega

/-- **C21.** For every face mask the listed cells are exactly the cells of the block within
`gc` cells of a face of the mask, each once. -/
theorem C21_facemask_cells_exact {bx by' bz gc mask : ℕ} (hbx : bx < 2 ^ 32) (hby : by' < 2 ^ 32)
    (hgx : gc ≤ bx) (hgy : gc ≤ by') :
    ∃ l, maskCells bx by' bz gc mask = .cells l ∧ l.Nodup ∧
      ∀ c, c ∈ l ↔ ∃ x y z, NearFaces bx by' bz gc mask x y z ∧ c = x + bx * y + bx * by' * z := by
  have hok := maskRegions_ok (bz := bz) (mask := mask) hbx hby hgx hgy
  have hmem := mem_maskRegions (bz := bz) (mask := mask) hbx hby hgx hgy
  have hdisj := maskRegions_disjoint (bz := bz) (mask := mask) hbx hby hgx hgy
  have hin : ∀ R ∈ maskRegions bx by' bz gc mask, R.ok bx by' bz = true := by
    simpa using hok
  refine ⟨(maskRegions bx by' bz gc mask).flatMap fun R => R.cells bx by', ?_, ?_, ?_⟩
  · unfold maskCells
    rw [if_pos (Or.inl hgx), if_pos hok]
  · rw [List.nodup_flatMap]
    refine ⟨fun R hR => Region.nodup_cells (hin R hR), ?_⟩
    have : (maskRegions bx by' bz gc mask).Pairwise fun R S =>
        (R.ok bx by' bz = true ∧ S.ok bx by' bz = true) ∧ ∀ x y z, R.Has x y z → ¬ S.Has x y z := by
      refine List.Pairwise.and ?_ hdisj
      rw [List.pairwise_iff_forall_sublist]
      intro R S hRS
      exact ⟨hin R (hRS.subset (by simp)), hin S (hRS.subset (by simp))⟩
    refine this.imp ?_
    rintro R S ⟨⟨hR, hS⟩, hd⟩ c hcR hcS
    obtain ⟨x, y, z, h1, rfl⟩ := Region.mem_cells.1 hcR
    obtain ⟨x', y', z', h2, h3⟩ := Region.mem_cells.1 hcS
    unfold Region.ok at hR hS
    rw [decide_eq_true_eq] at hR hS
    have h1' := h1
    have h2' := h2
    unfold Region.Has at h1' h2'
    obtain ⟨e1, e2, e3⟩ := cell_inj (by omega) (by omega) (by omega) (by omega) h3
    subst e1 e2 e3
    exact hd _ _ _ h1 h2
  · intro c
    simp only [List.mem_flatMap, Region.mem_cells]
    constructor
    · rintro ⟨R, hR, x, y, z, h1, h2⟩
      exact ⟨x, y, z, (hmem x y z).1 ⟨R, hR, h1⟩, h2⟩
    · rintro ⟨x, y, z, h1, h2⟩
      obtain ⟨R, hR, h3⟩ := (hmem x y z).2 h1
      exact ⟨R, hR, x, y, z, h3, h2⟩

end Verif.Comm
