import Verif.Cells.Traverse
import Mathlib.Data.List.GetD
import Mathlib.Algebra.Order.BigOperators.Group.Finset

/-!
# C57: temporary patch arrays never overlap

`reserve_patch_tmp`, `allocate_tmp` and `at_ivar` for the grouped and the scratch patch managers.
-/

namespace Verif.Cells.Temp

open Traverse

/-- A reserved array: block size with ghosts and number of variables
(`AMRBlockForeachCell_group.h` L107-119, `AMRBlockForeachCell_scratch.h` L110-120). -/
structure Shape where
  bx : ℕ
  by' : ℕ
  bz : ℕ
  nvars : ℕ
  deriving DecidableEq

/-- `bx = cdata.bx + 2*gx`, ... (`AMRBlockForeachCell_group.h` L110-112). -/
def reserveShape (bx by' bz gx gy gz nvars : ℕ) : Shape :=
  ⟨bx + 2 * gx, by' + 2 * gy, bz + 2 * gz, nvars⟩

/-- An access to a cell and variable of the array reserved `array`-th. -/
structure Access where
  array : ℕ
  cell : Cell
  ivar : ℕ
  deriving DecidableEq

/-- The access is within the array: cell of the (ghosted) block, existing variable. -/
def InShape (s : Shape) (a : Access) : Prop :=
  a.cell.isGhost = false ∧ a.cell.i < s.bx ∧ a.cell.j < s.by' ∧ a.cell.k < s.bz ∧ a.ivar < s.nvars

/-- Offset of an element of a `LayoutLeft` view of extents `(bx*by*bz, nvars, _)`, with the cell index
of `AMRBlockForeachCell_CellArray.h` L550-551; `n` is `CellArray_base::nbOcts`. -/
def elem (s : Shape) (n : ℕ) (a : Access) : ℕ :=
  (a.cell.i + a.cell.j * s.bx + a.cell.k * s.bx * s.by') +
    s.bx * s.by' * s.bz * (a.ivar + s.nvars * (a.cell.iOct % n))

theorem cell_lt {s : Shape} {i j k : ℕ} (h1 : i < s.bx) (h2 : j < s.by') (h3 : k < s.bz) :
    i + j * s.bx + k * s.bx * s.by' < s.bx * s.by' * s.bz := by
  have a1 : i + j * s.bx < s.bx * s.by' := by
    calc i + j * s.bx < s.bx + j * s.bx := by omega
      _ = (j + 1) * s.bx := by ring
      _ ≤ s.by' * s.bx := Nat.mul_le_mul_right _ h2
      _ = s.bx * s.by' := Nat.mul_comm _ _
  calc i + j * s.bx + k * s.bx * s.by' < s.bx * s.by' + k * s.bx * s.by' := by omega
    _ = (k + 1) * (s.bx * s.by') := by ring
    _ ≤ s.bz * (s.bx * s.by') := Nat.mul_le_mul_right _ h3
    _ = s.bx * s.by' * s.bz := Nat.mul_comm _ _

theorem mixed_inj {N x y a b : ℕ} (hx : x < N) (hy : y < N) (h : x + N * a = y + N * b) :
    x = y ∧ a = b := by
  have hN : 0 < N := by omega
  have h1 : (x + N * a) / N = a := by
    rw [Nat.add_comm, Nat.mul_add_div hN, Nat.div_eq_of_lt hx, Nat.add_zero]
  have h2 : (y + N * b) / N = b := by
    rw [Nat.add_comm, Nat.mul_add_div hN, Nat.div_eq_of_lt hy, Nat.add_zero]
  rw [h] at h1
  have hab : a = b := h1.symm.trans h2
  subst hab
  exact ⟨by omega, rfl⟩

theorem elem_inj {s : Shape} {n : ℕ} {a b : Access} (ha : InShape s a) (hb : InShape s b)
    (h : elem s n a = elem s n b) :
    a.cell.i = b.cell.i ∧ a.cell.j = b.cell.j ∧ a.cell.k = b.cell.k ∧ a.ivar = b.ivar ∧
      a.cell.iOct % n = b.cell.iOct % n := by
  obtain ⟨-, a1, a2, a3, a4⟩ := ha
  obtain ⟨-, b1, b2, b3, b4⟩ := hb
  obtain ⟨h1, h2⟩ := mixed_inj (cell_lt a1 a2 a3) (cell_lt b1 b2 b3) h
  obtain ⟨h3, h4⟩ := mixed_inj a4 b4 h2
  have e1 : a.cell.i + s.bx * (a.cell.j + s.by' * a.cell.k) =
      b.cell.i + s.bx * (b.cell.j + s.by' * b.cell.k) := by
    calc _ = a.cell.i + a.cell.j * s.bx + a.cell.k * s.bx * s.by' := by ring
      _ = b.cell.i + b.cell.j * s.bx + b.cell.k * s.bx * s.by' := h1
      _ = _ := by ring
  obtain ⟨h5, h6⟩ := mixed_inj a1 b1 e1
  obtain ⟨h7, h8⟩ := mixed_inj a2 b2 h6
  exact ⟨h5, h7, h8, h3, h4⟩

theorem elem_lt {s : Shape} {n : ℕ} (hn : 0 < n) {a : Access} (ha : InShape s a) :
    elem s n a < s.bx * s.by' * s.bz * s.nvars * n := by
  obtain ⟨-, a1, a2, a3, a4⟩ := ha
  have h1 := cell_lt a1 a2 a3
  have h2 := Nat.mod_lt a.cell.iOct hn
  have h3 : a.ivar + s.nvars * (a.cell.iOct % n) + 1 ≤ s.nvars * n := by
    calc a.ivar + s.nvars * (a.cell.iOct % n) + 1 ≤ s.nvars + s.nvars * (a.cell.iOct % n) := by omega
      _ = s.nvars * (a.cell.iOct % n + 1) := by ring
      _ ≤ s.nvars * n := Nat.mul_le_mul_left _ h2
  have h4 := Nat.mul_le_mul_left (s.bx * s.by' * s.bz) h3
  unfold elem
  rw [Nat.mul_add, Nat.mul_one] at h4
  calc _ < s.bx * s.by' * s.bz * (s.nvars * n) := by omega
    _ = _ := by ring

/-! ### Groups -/

/-- Grouped patches: each reservation is a new allocation (L117) of `nbOctsPerGroup` octants; a
location is the allocation and the offset in it. -/
def groupLoc (rs : List Shape) (nbOctsPerGroup : ℕ) (a : Access) : Option (ℕ × ℕ) :=
  rs[a.array]?.map fun s => (a.array, elem s nbOctsPerGroup a)

/-- C57 (groups): two accesses from octants of the same group go to the same location only if they
name the same array, octant, cell and variable, and every access is inside its allocation. The
octants that may run concurrently are those of one group; groups run one after the other. -/
theorem C57_group (rs : List Shape) (nbOcts n : ℕ) (hn : 0 < n) (grp : ℕ × ℕ)
    (hg : grp ∈ groups nbOcts n) (a b : Access) (sa sb : Shape) (hsa : rs[a.array]? = some sa)
    (hsb : rs[b.array]? = some sb) (ha : InShape sa a) (hb : InShape sb b)
    (hao : grp.1 ≤ a.cell.iOct ∧ a.cell.iOct < grp.1 + grp.2)
    (hbo : grp.1 ≤ b.cell.iOct ∧ b.cell.iOct < grp.1 + grp.2) :
    (∃ off, groupLoc rs n a = some (a.array, off) ∧
      off < sa.bx * sa.by' * sa.bz * sa.nvars * n) ∧
    (groupLoc rs n a = groupLoc rs n b → a = b) := by
  constructor
  · exact ⟨_, by simp [groupLoc, hsa], elem_lt hn ha⟩
  · intro h
    unfold groupLoc at h
    rw [hsa, hsb] at h
    simp only [Option.map_some, Option.some.injEq, Prod.mk.injEq] at h
    obtain ⟨h1, h2⟩ := h
    rw [h1, hsb] at hsa
    cases hsa
    obtain ⟨e1, e2, e3, e4, e5⟩ := elem_inj ha hb h2
    obtain ⟨q, -, rfl⟩ := mem_groups.1 hg
    simp only at hao hbo
    have hmin := min_le_left n (nbOcts - n * q)
    have m1 : a.cell.iOct % n = a.cell.iOct - n * q := by
      have : a.cell.iOct = n * q + (a.cell.iOct - n * q) := by omega
      rw [this, Nat.mul_add_mod, Nat.mod_eq_of_lt (by omega)]; omega
    have m2 : b.cell.iOct % n = b.cell.iOct - n * q := by
      have : b.cell.iOct = n * q + (b.cell.iOct - n * q) := by omega
      rw [this, Nat.mul_add_mod, Nat.mod_eq_of_lt (by omega)]; omega
    obtain ⟨ar, ⟨o, g, i, j, k⟩, v⟩ := a
    obtain ⟨ar', ⟨o', g', i', j', k'⟩, v'⟩ := b
    have hg1 := ha.1
    have hg2 := hb.1
    simp only at *
    have : o = o' := by omega
    subst h1 e1 e2 e3 e4 this hg1 hg2
    rfl

/-! ### Scratch -/

/-- `DataArrayBlock::shmem_size(bx*by*bz, nvars, 1)` in bytes: 8 bytes per value and the alignment
padding that Kokkos adds. -/
def shmemSize (pad : ℕ) (s : Shape) : ℕ := 8 * (s.bx * s.by' * s.bz * s.nvars) + pad

/-- `scratch_size` after the reservations, `AMRBlockForeachCell_scratch.h` L118 (`uint32_t`). -/
def scratchSize (pad : ℕ) (rs : List Shape) : ℕ :=
  rs.foldl (fun acc s => u32 (acc + shmemSize pad s)) 0

/-- `allocate_tmp` (L87-92) called for the arrays of `order`: Kokkos takes the views one after the
other from the scratch memory of the team; `none` when the memory is exhausted (null view). Returns
the byte offset of each array. -/
def allocate (pad size : ℕ) (rs : List Shape) : List ℕ → ℕ → Option (List (ℕ × ℕ))
  | [], _ => some []
  | r :: order, next =>
    match rs[r]? with
    | none => none
    | some s =>
      if next + shmemSize pad s ≤ size then
        (allocate pad size rs order (next + shmemSize pad s)).map ((r, next) :: ·)
      else none

/-- Byte range of an allocated array. -/
def Range (s : Shape) (off : ℕ) (x : ℕ) : Prop :=
  off ≤ x ∧ x < off + 8 * (s.bx * s.by' * s.bz * s.nvars)

theorem scratchSize_eq (pad : ℕ) (rs : List Shape) (h : (rs.map (shmemSize pad)).sum < 2 ^ 32) :
    scratchSize pad rs = (rs.map (shmemSize pad)).sum := by
  have key : ∀ (l : List Shape) (acc : ℕ), acc + (l.map (shmemSize pad)).sum < 2 ^ 32 →
      l.foldl (fun acc s => u32 (acc + shmemSize pad s)) acc =
        acc + (l.map (shmemSize pad)).sum := by
    intro l
    induction l with
    | nil => intro acc _; simp
    | cons s l ih =>
      intro acc hacc
      simp only [List.map_cons, List.sum_cons] at hacc
      simp only [List.foldl_cons, List.map_cons, List.sum_cons]
      have : u32 (acc + shmemSize pad s) = acc + shmemSize pad s := Nat.mod_eq_of_lt (by omega)
      rw [this, ih _ (by omega)]
      omega
  have := key rs 0 (by omega)
  unfold scratchSize
  rw [this]
  omega

/-- Total size of the arrays named by a list of indices. -/
def need (pad : ℕ) (rs : List Shape) (order : List ℕ) : ℕ :=
  (order.map fun r => (rs[r]?.map (shmemSize pad)).getD 0).sum

theorem need_le (pad : ℕ) (rs : List Shape) (order : List ℕ) (hnd : order.Nodup)
    (hlt : ∀ r ∈ order, r < rs.length) : need pad rs order ≤ (rs.map (shmemSize pad)).sum := by
  have h1 : need pad rs order = ∑ r ∈ order.toFinset, (rs[r]?.map (shmemSize pad)).getD 0 := by
    unfold need
    rw [List.sum_toFinset _ hnd]
  have h2 : (rs.map (shmemSize pad)).sum =
      ∑ r ∈ (List.range rs.length).toFinset, (rs[r]?.map (shmemSize pad)).getD 0 := by
    rw [List.sum_toFinset _ List.nodup_range]
    congr 1
    refine List.ext_getElem (by simp) ?_
    intro i hi1 hi2
    simp at hi1 hi2
    simp [hi1]
  rw [h1, h2]
  refine Finset.sum_le_sum_of_subset ?_
  intro r hr
  rw [List.mem_toFinset] at hr ⊢
  exact List.mem_range.2 (hlt r hr)

theorem allocate_spec (pad size : ℕ) (rs : List Shape) : ∀ (order : List ℕ) (next : ℕ),
    (∀ r ∈ order, r < rs.length) → next + need pad rs order ≤ size →
    ∃ res, allocate pad size rs order next = some res ∧ res.map Prod.fst = order ∧
      (∀ p ∈ res, next ≤ p.2 ∧ ∀ s, rs[p.1]? = some s → p.2 + shmemSize pad s ≤ size) ∧
      res.Pairwise fun p q => ∀ s, rs[p.1]? = some s → p.2 + shmemSize pad s ≤ q.2 := by
  intro order
  induction order with
  | nil => intro next _ _; exact ⟨[], rfl, rfl, by simp, List.Pairwise.nil⟩
  | cons r order ih =>
    intro next hlt hsz
    have hr := hlt r (by simp)
    have hs : rs[r]? = some rs[r] := List.getElem?_eq_getElem hr
    have hn : need pad rs (r :: order) = shmemSize pad rs[r] + need pad rs order := by
      unfold need
      rw [List.map_cons, List.sum_cons, hs]; rfl
    rw [hn] at hsz
    obtain ⟨res, h1, h2, h3, h4⟩ := ih (next + shmemSize pad rs[r])
      (fun r' hr' => hlt r' (List.mem_cons_of_mem _ hr')) (by omega)
    refine ⟨(r, next) :: res, ?_, ?_, ?_, ?_⟩
    · unfold allocate
      rw [hs]
      simp only
      rw [if_pos (by omega), h1]
      rfl
    · rw [List.map_cons, h2]
    · intro p hp
      rcases List.mem_cons.1 hp with rfl | hp
      · refine ⟨le_refl _, fun s hs' => ?_⟩
        simp only at hs'
        rw [hs] at hs'
        cases hs'
        omega
      · obtain ⟨h5, h6⟩ := h3 p hp
        exact ⟨by omega, h6⟩
    · refine List.pairwise_cons.2 ⟨fun q hq s hs' => ?_, h4⟩
      simp only at hs' ⊢
      rw [hs] at hs'
      cases hs'
      exact (h3 q hq).1

/-- C57 (scratch): allocating each reserved array at most once, in any order, succeeds, every array
fits in the scratch memory of the team, and the byte ranges of two distinct arrays are disjoint.
Teams have separate scratch memories (Kokkos). The reserved bytes must be counted in 32 bits. -/
theorem C57_scratch (pad : ℕ) (rs : List Shape) (hfit : (rs.map (shmemSize pad)).sum < 2 ^ 32)
    (order : List ℕ) (hnd : order.Nodup) (hlt : ∀ r ∈ order, r < rs.length) :
    ∃ res, allocate pad (scratchSize pad rs) rs order 0 = some res ∧ res.map Prod.fst = order ∧
      (∀ p ∈ res, ∀ s, rs[p.1]? = some s → ∀ x, Range s p.2 x → x < scratchSize pad rs) ∧
      ∀ p ∈ res, ∀ q ∈ res, p.1 ≠ q.1 → ∀ s t, rs[p.1]? = some s → rs[q.1]? = some t →
        ∀ x, Range s p.2 x → ¬ Range t q.2 x := by
  have hle := need_le pad rs order hnd hlt
  obtain ⟨res, h1, h2, h3, h4⟩ := allocate_spec pad (scratchSize pad rs) rs order 0 hlt
    (by rw [scratchSize_eq pad rs hfit]; omega)
  refine ⟨res, h1, h2, ?_, ?_⟩
  · intro p hp s hs x hx
    have := (h3 p hp).2 s hs
    unfold shmemSize at this
    have := hx.2
    omega
  · intro p hp q hq hne s t hs ht x hx hy
    have hsym : ∀ p ∈ res, ∀ q ∈ res, p ≠ q →
        (∀ s, rs[p.1]? = some s → p.2 + shmemSize pad s ≤ q.2) ∨
        (∀ s, rs[q.1]? = some s → q.2 + shmemSize pad s ≤ p.2) := by
      have hp2 : res.Pairwise fun p q =>
          (∀ s, rs[p.1]? = some s → p.2 + shmemSize pad s ≤ q.2) ∨
          (∀ s, rs[q.1]? = some s → q.2 + shmemSize pad s ≤ p.2) := h4.imp fun h => Or.inl h
      intro p hp q hq hpq
      have : Std.Symm fun p q : ℕ × ℕ =>
          (∀ s, rs[p.1]? = some s → p.2 + shmemSize pad s ≤ q.2) ∨
          (∀ s, rs[q.1]? = some s → q.2 + shmemSize pad s ≤ p.2) := ⟨fun _ _ h => h.symm⟩
      exact hp2.forall hp hq hpq
    rcases hsym p hp q hq (fun h => hne (by rw [h])) with h | h
    · have := h s hs
      unfold shmemSize at this
      have := hx.2
      have := hy.1
      omega
    · have := h t ht
      unfold shmemSize at this
      have := hy.2
      have := hx.1
      omega

/-- C57 (scratch, elements): inside one array distinct cells or variables have distinct places, and
the place is within the array's byte range. -/
theorem C57_scratch_elem (s : Shape) (a b : Access) (ha : InShape s a) (hb : InShape s b)
    (off : ℕ) : Range s off (off + 8 * elem s 1 a) ∧
    (off + 8 * elem s 1 a = off + 8 * elem s 1 b →
      a.cell.i = b.cell.i ∧ a.cell.j = b.cell.j ∧ a.cell.k = b.cell.k ∧ a.ivar = b.ivar) := by
  constructor
  · have := elem_lt Nat.one_pos ha
    unfold Range
    omega
  · intro h
    obtain ⟨h1, h2, h3, h4, -⟩ := elem_inj (n := 1) ha hb (by omega)
    exact ⟨h1, h2, h3, h4⟩

/-- Blocks of 4×4×1 cells with two ghost layers and one without, two groups of octants. -/
example : reserveShape 4 4 1 2 2 0 3 = ⟨8, 8, 1, 3⟩ ∧
    groupLoc [⟨8, 8, 1, 3⟩, ⟨4, 4, 1, 2⟩] 2 ⟨1, ⟨3, false, 1, 2, 0⟩, 1⟩ = some (1, 57) ∧
    (2, 1) ∈ groups 3 2 := by decide
example : allocate 8 (scratchSize 8 [⟨8, 8, 1, 3⟩, ⟨4, 4, 1, 2⟩]) [⟨8, 8, 1, 3⟩, ⟨4, 4, 1, 2⟩]
    [1, 0] 0 = some [(1, 0), (0, 264)] := by decide

end Verif.Cells.Temp
