import Verif.Partition.InitModel
import Mathlib.Data.Nat.Log
import Mathlib.Data.Fin.VecNotation
import Mathlib.Tactic.IntervalCases
import Mathlib.Tactic.FinCases
import Mathlib.Algebra.BigOperators.Fin

/-!
# C102: the mesh that an `.ini` file asks for

`core/src/amr/AMRmesh.cpp` L16-69 (`parse_parameters`), `core/src/DyabloTimeLoop.h` L218-223 (`init_amr_mesh`)
and the checks of the constructor of the mesh, `core/src/amr/AMRmesh_hashmap_new.cpp` L42-79.

The values of the file are numbers here; how text becomes a number is in `Verif.Config`.
-/

namespace Verif.Front

open Verif.Octree Verif.Partition

/-! ## Model -/

/-- `core/src/enums.h` L7-14. -/
inductive BC where
  | undefined | reflecting | absorbing | periodic | copy | user
  deriving DecidableEq

/-- What the file says about the mesh: `mesh/ndim`, `mesh/boundary_type_*`, `amr/level_min`, `amr/level_max` and
`amr/coarse_oct_resolution_*`; `none` for a key that is not there. The two keys with a default that does not
depend on other keys (`AMRmesh.cpp` L20-27) are already replaced by their values. Levels are `int`, resolutions
`uint32_t`. -/
structure MeshConfig where
  ndim : ℤ
  bmin : Fin 3 → BC
  bmax : Fin 3 → BC
  levelMin : Option ℤ
  levelMax : Option ℤ
  cx : Option ℕ
  cy : Option ℕ
  cz : Option ℕ

/-- Outcome of a piece of code: an assertion fails, the behaviour is undefined, or there is a value. -/
inductive Outcome (α : Type) where
  | error
  | undefined
  | ok (a : α)
  deriving DecidableEq

def Outcome.bind {α β : Type} (o : Outcome α) (f : α → Outcome β) : Outcome β :=
  match o with
  | .error => .error
  | .undefined => .undefined
  | .ok a => f a

/-- `AMRmesh.h` L80-86. Also what the constructed mesh keeps. -/
structure Parameters where
  dim : ℤ
  periodic : Fin 3 → Bool
  lmin : ℕ
  lmax : ℕ
  coarse : Fin 3 → ℕ

/-- Conversion of an `int` to `uint8_t`. -/
def toU8 (x : ℤ) : ℕ := (x % 256).toNat

/-- `AMRmesh.cpp` L28-32. -/
def parsePeriodic (c : MeshConfig) (i : Fin 3) : Bool :=
  decide (c.bmin i = .periodic) || decide (c.bmax i = .periodic)

/-- `AMRmesh.cpp` L34-52: the file has `amr/level_min`. A shift of `1U` by 32 or more is undefined. -/
def parseLevels (c : MeshConfig) (l : ℤ) : Outcome Parameters :=
  let lmin := toU8 l
  let lmax := toU8 (c.levelMax.getD (lmin + 3))
  if 32 ≤ lmin then .undefined
  else
    let w := 2 ^ lmin
    let depth := if c.ndim = 3 then w else 1
    let coarse : Fin 3 → ℕ := ![c.cx.getD w, c.cy.getD w, c.cz.getD depth]
    if coarse 0 ≤ w ∧ coarse 1 ≤ w ∧ coarse 2 ≤ depth then
      .ok ⟨c.ndim, parsePeriodic c, lmin, lmax, coarse⟩
    else .error

/-- `AMRmesh.cpp` L53-66: the file has resolutions and no `amr/level_min`. The logarithm of 0 is minus infinity, and its
conversion to `int` is undefined. `std::ceil(std::log2(width))` is taken as exact. -/
def parseResolution (c : MeshConfig) (x y z : ℕ) : Outcome Parameters :=
  let width := max x (max y z)
  if width = 0 then .undefined
  else
    let lmin := toU8 (Nat.clog 2 width)
    let lmax := toU8 (c.levelMax.getD (lmin + 3))
    .ok ⟨c.ndim, parsePeriodic c, lmin, lmax, ![x, y, z]⟩

/-- `AMRmesh.cpp` L16-69. With neither kind of key the levels and sizes of `res` are returned without having been
set. -/
def parseParameters (c : MeshConfig) : Outcome Parameters :=
  match c.levelMin with
  | some l => parseLevels c l
  | none =>
    match c.cx, c.cy, c.cz with
    | some x, some y, some z => parseResolution c x y z
    | some x, some y, none => if c.ndim = 2 then parseResolution c x y 1 else .undefined
    | _, _, _ => .undefined

/-- `AMRmesh_hashmap_new.cpp` L60-63. The last assertion is `coarse_grid_size[IZ] <= (dim==3)?(1U << level_min):1`: the
comparison binds first, and the value of the condition is one of the two numbers. -/
def constructSizes (p : Parameters) : Bool :=
  decide (p.lmin ≤ p.lmax) && decide (p.coarse 0 ≤ 2 ^ p.lmin) && decide (p.coarse 1 ≤ 2 ^ p.lmin) &&
    decide ((if p.coarse 2 ≤ (if p.dim = 3 then 1 else 0) then 2 ^ p.lmin else 1) ≠ 0)

/-- `AMRmesh_hashmap_new.cpp` L65-73: the coarse grid would fit into the cube of a lower level. -/
def constructSmall (p : Parameters) : Bool :=
  decide (0 < p.lmin) && decide (p.coarse 0 ≤ 2 ^ (p.lmin - 1)) && decide (p.coarse 1 ≤ 2 ^ (p.lmin - 1)) &&
    decide (p.coarse 2 ≤ if p.dim = 3 then 2 ^ (p.lmin - 1) else 0)

/-- `AMRmesh_hashmap_new.cpp` L60-79: the checks of the constructor. What it then creates is in
`Verif.Partition.InitModel`. -/
def construct (p : Parameters) : Outcome Parameters :=
  if p.lmax < p.lmin then .error
  else if 32 ≤ p.lmin then .undefined
  else if !constructSizes p then .error
  else if constructSmall p then .error
  else if p.dim = 3 ∨ p.coarse 2 = 1 then .ok p
  else .error

/-- `DyabloTimeLoop.h` L218-223. -/
def initMesh (c : MeshConfig) : Outcome Parameters := (parseParameters c).bind construct

/-! ## Specification -/

/-- Levels above this one are not supported (`AMRmesh_hashmap_new.h` L57-60). -/
def maxLevel : ℕ := 20

/-- The mesh is the one that the file asks for, and it is one that the code can handle. -/
structure Sound (c : MeshConfig) (p : Parameters) : Prop where
  dim : p.dim = c.ndim
  /-- Levels and sizes of the file are used. -/
  lmin : ∀ l, c.levelMin = some l → (p.lmin : ℤ) = l
  lmax : ∀ l, c.levelMax = some l → (p.lmax : ℤ) = l
  lmax_default : c.levelMax = none → p.lmax = p.lmin + 3
  cx : ∀ n, c.cx = some n → p.coarse 0 = n
  cy : ∀ n, c.cy = some n → p.coarse 1 = n
  cz : ∀ n, c.cz = some n → p.coarse 2 = n
  /-- Sizes that are not there: the full cube. -/
  cx_default : c.cx = none → p.coarse 0 = 2 ^ p.lmin
  cy_default : c.cy = none → p.coarse 1 = 2 ^ p.lmin
  cz_default : c.cz = none → p.coarse 2 = if c.ndim = 3 then 2 ^ p.lmin else 1
  /-- The coarse grid is not empty and lies in the cube of the lowest level; it is flat in 2D. -/
  pos : ∀ i, 0 < p.coarse i
  fits : ∀ i, p.coarse i ≤ 2 ^ p.lmin
  flat : c.ndim = 2 → p.coarse 2 = 1
  levels : p.lmin ≤ p.lmax
  supported : p.lmax ≤ maxLevel
  /-- The number of coarse octants is a `uint32_t`. -/
  count : ∏ i, p.coarse i < 2 ^ 32
  /-- A direction is periodic if both of its sides are, and not if none is. -/
  periodic : ∀ i, p.periodic i = true ↔ c.bmin i = .periodic ∧ c.bmax i = .periodic

/-- What the code leaves to the user: the values it does not check. -/
structure Reasonable (c : MeshConfig) : Prop where
  ndim : c.ndim = 2 ∨ c.ndim = 3
  /-- Levels, or all sizes. -/
  given : c.levelMin ≠ none ∨ c.cx ≠ none ∧ c.cy ≠ none ∧ (c.ndim = 2 ∨ c.cz ≠ none)
  lmin : ∀ l, c.levelMin = some l → 0 ≤ l ∧ l ≤ 20
  lmax : ∀ l, c.levelMax = some l → 0 ≤ l ∧ l ≤ 20
  /-- Without `amr/level_max` the default has to be supported. -/
  lmax_default : c.levelMax = none → ∀ l, c.levelMin = some l → l ≤ 17
  /-- The same if the lowest level is found from the sizes. -/
  sizes : c.levelMin = none → ∀ n, c.cx = some n ∨ c.cy = some n ∨ c.cz = some n → n ≤ 2 ^ 17
  pos : ∀ n, c.cx = some n ∨ c.cy = some n ∨ c.cz = some n → 0 < n
  boundary : ∀ i, c.bmin i = .periodic ↔ c.bmax i = .periodic

/-! ## Properties -/

theorem toU8_of_le {x : ℤ} (h0 : 0 ≤ x) (h1 : x < 256) : (toU8 x : ℤ) = x := by
  unfold toU8
  rw [Int.emod_eq_of_lt h0 h1]
  exact Int.toNat_of_nonneg h0

theorem toU8_nat {n : ℕ} (h : n < 256) : toU8 (n : ℤ) = n := by
  have := toU8_of_le (x := (n : ℤ)) (by omega) (by omega)
  omega

/-- Everything of `Sound` but the last level check of the constructor, for parameters made by the parser. -/
structure Parsed (c : MeshConfig) (p : Parameters) : Prop where
  dim : p.dim = c.ndim
  lmin : ∀ l, c.levelMin = some l → (p.lmin : ℤ) = l
  lmax : ∀ l, c.levelMax = some l → (p.lmax : ℤ) = l
  lmax_default : c.levelMax = none → p.lmax = p.lmin + 3
  cx : ∀ n, c.cx = some n → p.coarse 0 = n
  cy : ∀ n, c.cy = some n → p.coarse 1 = n
  cz : ∀ n, c.cz = some n → p.coarse 2 = n
  cx_default : c.cx = none → p.coarse 0 = 2 ^ p.lmin
  cy_default : c.cy = none → p.coarse 1 = 2 ^ p.lmin
  cz_default : c.cz = none → p.coarse 2 = if c.ndim = 3 then 2 ^ p.lmin else 1
  pos : ∀ i, 0 < p.coarse i
  fits : ∀ i, p.coarse i ≤ 2 ^ p.lmin
  lmin_le : p.lmin ≤ 20
  supported : p.lmax ≤ maxLevel
  periodic : p.periodic = parsePeriodic c

theorem lmax_eq {c : MeshConfig} (hr : Reasonable c) (n : ℕ) (hn : n ≤ 20)
    (hd : c.levelMax = none → n ≤ 17) :
    (∀ l, c.levelMax = some l → (toU8 (c.levelMax.getD ((n : ℤ) + 3)) : ℤ) = l) ∧
      (c.levelMax = none → toU8 (c.levelMax.getD ((n : ℤ) + 3)) = n + 3) ∧
      toU8 (c.levelMax.getD ((n : ℤ) + 3)) ≤ maxLevel := by
  cases h : c.levelMax with
  | none =>
    have e : toU8 ((n : ℤ) + 3) = n + 3 := by
      have := toU8_nat (n := n + 3) (by omega)
      rw [← this]
      push_cast
      rfl
    have hd := hd h
    refine ⟨by simp, fun _ => by simpa using e, ?_⟩
    simp only [Option.getD_none, e, maxLevel]
    omega
  | some l =>
    have hl := hr.lmax l h
    have e := toU8_of_le (x := l) hl.1 (by omega)
    refine ⟨fun k hk => ?_, by simp, ?_⟩
    · rw [← Option.some.inj hk]
      simpa using e
    · simp only [Option.getD_some, maxLevel]
      omega

theorem parseLevels_parsed {c : MeshConfig} (hr : Reasonable c) {l : ℤ} (hl : c.levelMin = some l) :
    parseLevels c l = .error ∨ ∃ p, parseLevels c l = .ok p ∧ Parsed c p := by
  have hb := hr.lmin l hl
  have e := toU8_of_le (x := l) hb.1 (by omega)
  have hle : toU8 l ≤ 20 := by omega
  have h17 : c.levelMax = none → toU8 l ≤ 17 := fun h => by have := hr.lmax_default h l hl; omega
  obtain ⟨h1, h2, h3⟩ := lmax_eq hr (toU8 l) hle h17
  unfold parseLevels
  simp only []
  rw [if_neg (by omega)]
  by_cases hc : (![c.cx.getD (2 ^ toU8 l), c.cy.getD (2 ^ toU8 l),
      c.cz.getD (if c.ndim = 3 then 2 ^ toU8 l else 1)] : Fin 3 → ℕ) 0 ≤ 2 ^ toU8 l ∧
      (![c.cx.getD (2 ^ toU8 l), c.cy.getD (2 ^ toU8 l),
      c.cz.getD (if c.ndim = 3 then 2 ^ toU8 l else 1)] : Fin 3 → ℕ) 1 ≤ 2 ^ toU8 l ∧
      (![c.cx.getD (2 ^ toU8 l), c.cy.getD (2 ^ toU8 l),
      c.cz.getD (if c.ndim = 3 then 2 ^ toU8 l else 1)] : Fin 3 → ℕ) 2 ≤
        if c.ndim = 3 then 2 ^ toU8 l else 1
  · right
    rw [if_pos hc]
    refine ⟨_, rfl, ?_⟩
    simp only [Matrix.cons_val_zero, Matrix.cons_val_one, Matrix.cons_val] at hc
    obtain ⟨c0, c1, c2⟩ := hc
    have hp2 : 0 < 2 ^ toU8 l := Nat.two_pow_pos _
    have hw : (if c.ndim = 3 then 2 ^ toU8 l else 1) ≤ 2 ^ toU8 l := by split <;> omega
    have hw0 : 0 < (if c.ndim = 3 then 2 ^ toU8 l else 1) := by split <;> omega
    refine
      { dim := rfl
        lmin := fun k hk => ?_
        lmax := h1
        lmax_default := h2
        cx := fun n hn => by simp [hn]
        cy := fun n hn => by simp [hn]
        cz := fun n hn => by simp [hn]
        cx_default := fun h => by simp [h]
        cy_default := fun h => by simp [h]
        cz_default := fun h => by simp [h]
        pos := fun i => ?_
        fits := fun i => ?_
        lmin_le := hle
        supported := h3
        periodic := rfl }
    · rw [hl] at hk
      rw [← Option.some.inj hk]
      exact e
    · fin_cases i
      · cases hx : c.cx with
        | none => simp
        | some n => simpa using hr.pos n (Or.inl hx)
      · cases hx : c.cy with
        | none => simp
        | some n => simpa using hr.pos n (Or.inr (Or.inl hx))
      · cases hx : c.cz with
        | none => simpa using hw0
        | some n => simpa using hr.pos n (Or.inr (Or.inr hx))
    · fin_cases i
      · exact c0
      · exact c1
      · exact le_trans c2 hw
  · left
    rw [if_neg hc]

theorem parseResolution_parsed {c : MeshConfig} (hr : Reasonable c) (hl : c.levelMin = none) {x y z : ℕ}
    (hx : c.cx = some x) (hy : c.cy = some y) (hz : c.cz = some z ∨ c.cz = none ∧ c.ndim = 2 ∧ z = 1) :
    ∃ p, parseResolution c x y z = .ok p ∧ Parsed c p := by
  have px : 0 < x := hr.pos x (Or.inl hx)
  have py : 0 < y := hr.pos y (Or.inr (Or.inl hy))
  have pz : 0 < z := by
    rcases hz with hz | ⟨_, _, hz⟩
    · exact hr.pos z (Or.inr (Or.inr hz))
    · omega
  have sx : x ≤ 2 ^ 17 := hr.sizes hl x (Or.inl hx)
  have sy : y ≤ 2 ^ 17 := hr.sizes hl y (Or.inr (Or.inl hy))
  have sz : z ≤ 2 ^ 17 := by
    rcases hz with hz | ⟨_, _, hz⟩
    · exact hr.sizes hl z (Or.inr (Or.inr hz))
    · rw [hz]; norm_num
  have hw : max x (max y z) ≤ 2 ^ 17 := max_le sx (max_le sy sz)
  have hlog : Nat.clog 2 (max x (max y z)) ≤ 17 := Nat.clog_le_of_le_pow hw
  have e := toU8_nat (n := Nat.clog 2 (max x (max y z))) (by omega)
  have hle := Nat.le_pow_clog (b := 2) (by norm_num) (max x (max y z))
  unfold parseResolution
  simp only []
  rw [if_neg (by have := le_max_left x (max y z); omega), e]
  obtain ⟨h1, h2, h3⟩ := lmax_eq hr _ (by omega : Nat.clog 2 (max x (max y z)) ≤ 20) (fun _ => hlog)
  refine ⟨_, rfl, ?_⟩
  refine
    { dim := rfl
      lmin := fun k hk => by rw [hl] at hk; cases hk
      lmax := h1
      lmax_default := h2
      cx := fun n hn => by rw [hx] at hn; exact Option.some.inj hn
      cy := fun n hn => by rw [hy] at hn; exact Option.some.inj hn
      cz := fun n hn => ?_
      cx_default := fun h => by rw [hx] at h; cases h
      cy_default := fun h => by rw [hy] at h; cases h
      cz_default := fun h => ?_
      pos := fun i => by fin_cases i <;> assumption
      fits := fun i => ?_
      lmin_le := le_trans hlog (by norm_num)
      supported := h3
      periodic := rfl }
  · rcases hz with hz | ⟨hz, _, _⟩
    · rw [hz] at hn; exact Option.some.inj hn
    · rw [hz] at hn; cases hn
  · rcases hz with hz | ⟨_, h2d, hz⟩
    · rw [hz] at h; cases h
    · rw [if_neg (by omega)]; exact hz
  · refine le_trans ?_ hle
    fin_cases i
    · exact le_max_left _ _
    · exact le_trans (le_max_left _ _) (le_max_right _ _)
    · exact le_trans (le_max_right _ _) (le_max_right _ _)

theorem parseParameters_parsed {c : MeshConfig} (hr : Reasonable c) :
    parseParameters c = .error ∨ ∃ p, parseParameters c = .ok p ∧ Parsed c p := by
  unfold parseParameters
  cases hl : c.levelMin with
  | some l => exact parseLevels_parsed hr hl
  | none =>
    right
    have hg := hr.given
    rw [hl] at hg
    simp only [ne_eq, not_true_eq_false, false_or] at hg
    obtain ⟨hx, hy, hz⟩ := hg
    obtain ⟨x, hx⟩ := Option.ne_none_iff_exists'.mp hx
    obtain ⟨y, hy⟩ := Option.ne_none_iff_exists'.mp hy
    rw [hx, hy]
    cases hc : c.cz with
    | some z => exact parseResolution_parsed hr hl hx hy (Or.inl hc)
    | none =>
      rw [hc] at hz
      have h2 : c.ndim = 2 := by
        rcases hz with h | h
        · exact h
        · exact absurd rfl h
      simp only [h2, if_true]
      exact parseResolution_parsed hr hl hx hy (Or.inr ⟨hc, h2, rfl⟩)

theorem construct_ok {p q : Parameters} (h : construct p = .ok q) :
    q = p ∧ p.lmin ≤ p.lmax ∧ p.lmin < 32 ∧ (p.dim = 3 ∨ p.coarse 2 = 1) ∧ constructSmall p = false := by
  unfold construct at h
  split at h
  · cases h
  · split at h
    · cases h
    · split at h
      · cases h
      · split at h
        · cases h
        · split at h
          · rename_i h1 h2 _ h4 h5
            refine ⟨(Outcome.ok.inj h).symm, by omega, by omega, h5, by simpa using h4⟩
          · cases h

/-- **C102** For a configuration with reasonable values, either an error is reported, or the mesh is the one that was
asked for and all its parameters are supported. Nothing is undefined. Beside `Reasonable`, the number of coarse octants has to
be a `uint32_t`. -/
theorem C102_partial {c : MeshConfig} (hr : Reasonable c) :
    initMesh c = .error ∨
      ∃ p, initMesh c = .ok p ∧ (∏ i, p.coarse i < 2 ^ 32 → Sound c p) := by
  unfold initMesh
  rcases parseParameters_parsed hr with h | ⟨p, h, hp⟩
  · rw [h]; exact Or.inl rfl
  · rw [h]
    show construct p = .error ∨ ∃ p', construct p = .ok p' ∧ _
    cases hc : construct p with
    | error => exact Or.inl rfl
    | undefined =>
      exfalso
      have := hp.lmin_le
      unfold construct at hc
      repeat' split at hc
      all_goals first | omega | cases hc
    | ok q =>
      right
      obtain ⟨rfl, hle, _, hd, _⟩ := construct_ok hc
      refine ⟨q, rfl, fun hcount => ?_⟩
      exact
        { dim := hp.dim
          lmin := hp.lmin
          lmax := hp.lmax
          lmax_default := hp.lmax_default
          cx := hp.cx
          cy := hp.cy
          cz := hp.cz
          cx_default := hp.cx_default
          cy_default := hp.cy_default
          cz_default := hp.cz_default
          pos := hp.pos
          fits := hp.fits
          flat := fun h2 => by
            rcases hd with hd | hd
            · rw [hp.dim] at hd; omega
            · exact hd
          levels := hle
          supported := hp.supported
          count := hcount
          periodic := fun i => by
            rw [hp.periodic]
            have := hr.boundary i
            simp only [parsePeriodic, Bool.or_eq_true, decide_eq_true_eq]
            tauto }

/-- **C102** The configurations that are accepted, among those with a lowest level: the coarse grid fits into the cube of that
level and, in 3D, into none of a lower level. -/
theorem C102_accepts {c : MeshConfig} (hr : Reasonable c) {l : ℕ} (hl : c.levelMin = some (l : ℤ)) :
    (∃ p, initMesh c = .ok p) ↔
      (c.levelMax.getD (l + 3) : ℤ) ≥ l ∧
      c.cx.getD (2 ^ l) ≤ 2 ^ l ∧ c.cy.getD (2 ^ l) ≤ 2 ^ l ∧
      (c.ndim = 3 → c.cz.getD (2 ^ l) ≤ 2 ^ l ∧
        (0 < l → 2 ^ (l - 1) < c.cx.getD (2 ^ l) ∨ 2 ^ (l - 1) < c.cy.getD (2 ^ l) ∨
          2 ^ (l - 1) < c.cz.getD (2 ^ l))) ∧
      (c.ndim = 2 → c.cz.getD 1 = 1) := by
  have hb := hr.lmin l hl
  have e : toU8 (l : ℤ) = l := toU8_nat (by omega)
  have hz : c.cz.getD 1 = 1 ∨ 1 < c.cz.getD 1 := by
    cases h : c.cz with
    | none => left; rfl
    | some n => have := hr.pos n (Or.inr (Or.inr h)); simp only [Option.getD_some]; omega
  have hmax : (toU8 (c.levelMax.getD ((l : ℤ) + 3)) : ℤ) = c.levelMax.getD ((l : ℤ) + 3) := by
    cases h : c.levelMax with
    | none => exact toU8_of_le (by simp; omega) (by simp; omega)
    | some k => have := hr.lmax k h; exact toU8_of_le (by simp; omega) (by simp; omega)
  have hp : 0 < 2 ^ l := Nat.two_pow_pos l
  unfold initMesh parseParameters
  rw [hl]
  simp only [parseLevels, e]
  rw [if_neg (by omega : ¬ 32 ≤ l)]
  simp only [Matrix.cons_val_zero, Matrix.cons_val_one, Matrix.cons_val]
  rcases hr.ndim with hd | hd
  · simp only [hd, if_false, IsEmpty.forall_iff, true_and, forall_const,
      show ¬ ((2 : ℤ) = 3) by norm_num]
    by_cases hc : c.cx.getD (2 ^ l) ≤ 2 ^ l ∧ c.cy.getD (2 ^ l) ≤ 2 ^ l ∧ c.cz.getD 1 ≤ 1
    · rw [if_pos hc]
      obtain ⟨c0, c1, c2⟩ := hc
      have c2 : c.cz.getD 1 = 1 := by omega
      simp only [Outcome.bind, construct, constructSizes, constructSmall, Matrix.cons_val_zero, Matrix.cons_val_one,
        Matrix.cons_val, c0, c1, c2, decide_true, Bool.and_true, show ¬ ((2 : ℤ) = 3) by norm_num, if_false,
        and_true]
      constructor
      · rintro ⟨p, h⟩
        split at h
        · cases h
        · omega
      · intro h
        rw [if_neg (by omega), if_neg (by omega)]
        have : l ≤ toU8 (c.levelMax.getD ((l : ℤ) + 3)) := by omega
        simp [this]
    · rw [if_neg hc]
      constructor
      · rintro ⟨p, h⟩; cases h
      · rintro ⟨_, c0, c1, c2⟩
        exact absurd ⟨c0, c1, by omega⟩ hc
  · simp only [hd, if_true, show ¬ ((3 : ℤ) = 2) by norm_num, IsEmpty.forall_iff, and_true, forall_const]
    by_cases hc : c.cx.getD (2 ^ l) ≤ 2 ^ l ∧ c.cy.getD (2 ^ l) ≤ 2 ^ l ∧ c.cz.getD (2 ^ l) ≤ 2 ^ l
    · rw [if_pos hc]
      obtain ⟨c0, c1, c2⟩ := hc
      simp only [Outcome.bind, construct, constructSizes, constructSmall, Matrix.cons_val_zero, Matrix.cons_val_one,
        Matrix.cons_val, c0, c1, c2, decide_true, Bool.and_true, if_true, true_and, true_or]
      have hdec : decide ((if c.cz.getD (2 ^ l) ≤ 1 then 2 ^ l else 1) ≠ 0) = true := by
        simp only [ne_eq, decide_eq_true_eq]
        split <;> omega
      rw [hdec]
      constructor
      · rintro ⟨p, h⟩
        split at h
        · cases h
        · rw [if_neg (by omega)] at h
          rename_i h1
          refine ⟨by omega, fun h0 => ?_⟩
          by_contra hn
          push Not at hn
          have : decide (l ≤ toU8 (c.levelMax.getD ((l : ℤ) + 3))) = true := by simpa using h1
          rw [this] at h
          simp [h0, hn.1, hn.2.1, hn.2.2] at h
      · rintro ⟨h1, h2⟩
        rw [if_neg (by omega), if_neg (by omega)]
        have : decide (l ≤ toU8 (c.levelMax.getD ((l : ℤ) + 3))) = true := by
          simp only [decide_eq_true_eq]; omega
        rw [this]
        refine ⟨_, (if_neg (by simp)).trans ((if_neg fun hh => ?_).trans rfl)⟩
        simp only [Bool.and_eq_true, decide_eq_true_eq] at hh
        rcases h2 hh.1.1.1 with h | h | h
        · exact absurd (of_decide_eq_true hh.1.1.2) (Nat.not_le.mpr h)
        · exact absurd (of_decide_eq_true hh.1.2) (Nat.not_le.mpr h)
        · exact absurd hh.2 (Nat.not_le.mpr h)
    · rw [if_neg hc]
      constructor
      · rintro ⟨p, h⟩; cases h
      · rintro ⟨_, c0, c1, c2, _⟩
        exact absurd ⟨c0, c1, c2⟩ hc

/-- The grid of a mesh, as in the theorems about meshes. -/
def grid (d : ℕ) (hd : d ≤ 3) (p : Parameters) : Grid d where
  lmin := p.lmin
  coarse i := p.coarse (Fin.castLE hd i)
  periodic i := p.periodic (Fin.castLE hd i)

/-- **C102** A sound mesh meets the hypotheses of the theorems about meshes (C01 and on, C08 for the number of octants). -/
theorem C102_grid {c : MeshConfig} {p : Parameters} (h : Sound c p) :
    (c.ndim = 3 → (grid 3 (by omega) p).WF ∧ ∏ i, (grid 3 (by omega) p).coarse i < 2 ^ 32) ∧
      (c.ndim = 2 → (grid 2 (by omega) p).WF ∧ ∏ i, (grid 2 (by omega) p).coarse i < 2 ^ 32) := by
  have hc := h.count
  refine ⟨fun h3 => ⟨⟨⟨fun i => h.pos _⟩, fun i => h.fits _⟩, hc⟩,
    fun h2 => ⟨⟨⟨fun i => h.pos _⟩, fun i => h.fits _⟩, ?_⟩⟩
  have hf := h.flat h2
  rw [Fin.prod_univ_three, hf, mul_one] at hc
  rw [Fin.prod_univ_two]
  exact hc

/-! ## Failures -/

/-- An open box with the given keys. -/
def openConfig (ndim : ℤ) (levelMin levelMax : Option ℤ) (cx cy cz : Option ℕ) : MeshConfig :=
  ⟨ndim, fun _ => .absorbing, fun _ => .absorbing, levelMin, levelMax, cx, cy, cz⟩

/-- **C102** fails: without `amr/level_min` and with a missing resolution nothing is reported, and the mesh is built from
values that were never set. -/
theorem C102_missing_fails (c : MeshConfig) (hl : c.levelMin = none)
    (h : c.cx = none ∨ c.cy = none ∨ c.cz = none ∧ c.ndim ≠ 2) : initMesh c = .undefined := by
  have : parseParameters c = .undefined := by
    unfold parseParameters
    rw [hl]
    simp only
    split
    · rename_i h1 h2 h3
      rw [h1, h2, h3] at h
      simp at h
    · rename_i h1 h2 h3
      rw [h1, h2] at h
      rw [if_neg (by simp at h; exact h.2)]
    · rfl
  unfold initMesh
  rw [this]
  rfl

example : initMesh (openConfig 3 none (some 5) (some 4) (some 4) none) = .undefined :=
  C102_missing_fails _ rfl (Or.inr (Or.inr ⟨rfl, by decide⟩))

/-- **C102** fails: a level is cut to 8 bits. The file asks for level `256 + 3` and gets a mesh of level 3, the same as the
one for level 3. -/
theorem C102_levels_fails :
    ∃ c, initMesh c = initMesh { c with levelMin := some 3 } ∧ c.levelMin = some 259 ∧
      ∃ p, initMesh c = .ok p ∧ p.lmin = 3 := by
  refine ⟨openConfig 3 (some 259) (some 5) none none none, ?_, rfl, ?_⟩
  · rfl
  · exact ⟨⟨3, fun _ => false, 3, 5, ![8, 8, 8]⟩, by
      have : parsePeriodic (openConfig 3 (some 259) (some 5) none none none) = fun _ => false := by
        funext i; simp [parsePeriodic, openConfig]
      simp [initMesh, parseParameters, parseLevels, this, Outcome.bind, construct, constructSizes, constructSmall,
        openConfig, toU8] at *, rfl⟩

/-- **C102** fails: the supported number of levels is not checked. With a coarse grid that is accepted, any `amr/level_max` of
`uint8_t` is. -/
theorem C102_supported_fails :
    ∀ l : ℕ, maxLevel < l → l < 256 → ∃ c p, c.levelMax = some (l : ℤ) ∧ initMesh c = .ok p ∧ p.lmax = l := by
  intro l hl h
  have hm : maxLevel = 20 := rfl
  refine ⟨openConfig 3 (some 2) (some l) none none none, ⟨3, fun _ => false, 2, l, ![4, 4, 4]⟩, rfl, ?_, rfl⟩
  have h0 : parsePeriodic (openConfig 3 (some 2) (some (l : ℤ)) none none none) = fun _ => false := by
    funext i; simp [parsePeriodic, openConfig]
  have e := toU8_nat h
  have e2 : toU8 2 = 2 := rfl
  simp only [initMesh, parseParameters, openConfig, parseLevels, Option.getD_some, e, e2] at *
  rw [h0]
  have h2 : 2 ≤ l := by omega
  simp [Outcome.bind, construct, constructSizes, constructSmall, h2]

/-- **C102** fails: the number of coarse octants is computed in 32 bits. `amr/level_min = 11` is accepted in 3D, and then there
are no octants at all. -/
theorem C102_count_fails :
    ∃ c p, initMesh c = .ok p ∧ c.levelMin = some 11 ∧ p.lmax ≤ maxLevel ∧ ∏ i, p.coarse i = 2 ^ 33 ∧
      totalOcts (grid 3 (by omega) p) = 0 := by
  refine ⟨openConfig 3 (some 11) (some 15) none none none, ⟨3, fun _ => false, 11, 15, ![2048, 2048, 2048]⟩, ?_, rfl,
    by simp [maxLevel], ?_, ?_⟩
  · have h0 : parsePeriodic (openConfig 3 (some 11) (some 15) none none none) = fun _ => false := by
      funext i; simp [parsePeriodic, openConfig]
    have e : toU8 11 = 11 := rfl
    have e2 : toU8 15 = 15 := rfl
    simp only [initMesh, parseParameters, openConfig, parseLevels, Option.getD_some, e, e2] at *
    rw [h0]
    simp [Outcome.bind, construct, constructSizes, constructSmall]
  · simp [Fin.prod_univ_three]
  · simp [totalOcts, grid, Fin.prod_univ_three, Fin.castLE]

/-- **C102** fails: a resolution of 0 is accepted. -/
theorem C102_zero_fails :
    ∃ c p, c.cx = some 0 ∧ initMesh c = .ok p ∧ ∏ i, p.coarse i = 0 := by
  refine ⟨openConfig 3 none (some 5) (some 0) (some 4) (some 4), ⟨3, fun _ => false, 2, 5, ![0, 4, 4]⟩, rfl, ?_, ?_⟩
  · have h0 : parsePeriodic (openConfig 3 none (some 5) (some 0) (some 4) (some 4)) = fun _ => false := by
      funext i; simp [parsePeriodic, openConfig]
    have e : Nat.clog 2 (max 0 (max 4 4)) = 2 := by decide +kernel
    have e2 : toU8 ((2 : ℕ) : ℤ) = 2 := rfl
    have e5 : toU8 5 = 5 := rfl
    simp only [initMesh, parseParameters, openConfig, parseResolution, e, e2, Option.getD_some, e5] at *
    rw [h0]
    simp [Outcome.bind, construct, constructSizes, constructSmall]
  · simp [Fin.prod_univ_three]

/-- **C102** fails: the constructor means to reject a coarse grid that is too deep for the lowest level, but its assertion holds
for every depth. Not reachable from a file, as the parser has the same check. -/
theorem C102_depth_fails (n : ℕ) :
    construct ⟨3, fun _ => false, 2, 5, ![4, 4, n]⟩ = .ok ⟨3, fun _ => false, 2, 5, ![4, 4, n]⟩ := by
  have : (if n ≤ 1 then (4 : ℕ) else 1) ≠ 0 := by split <;> omega
  simp [construct, constructSizes, constructSmall, this]

/-- Whatever the parser returns, the periodic directions are those of `parsePeriodic`. -/
theorem parse_periodic {c : MeshConfig} {p : Parameters} (h : parseParameters c = .ok p) : p.periodic = parsePeriodic c := by
  have hL : ∀ l, parseLevels c l = .ok p → p.periodic = parsePeriodic c := by
    intro l h
    unfold parseLevels at h
    simp only [] at h
    repeat' split at h
    all_goals first | cases h; rfl | cases h
  have hR : ∀ x y z, parseResolution c x y z = .ok p → p.periodic = parsePeriodic c := by
    intro x y z h
    unfold parseResolution at h
    simp only [] at h
    repeat' split at h
    all_goals first | cases h; rfl | cases h
  unfold parseParameters at h
  repeat' split at h
  all_goals first | exact hL _ h | exact hR _ _ _ h | cases h

/-- **C102** What the code does instead of rejecting: in every configuration that it accepts, a direction is periodic if one of
its sides is. -/
theorem C102_periodic {c : MeshConfig} {p : Parameters} (h : initMesh c = .ok p) (i : Fin 3) :
    p.periodic i = true ↔ c.bmin i = .periodic ∨ c.bmax i = .periodic := by
  unfold initMesh at h
  cases hq : parseParameters c with
  | error => rw [hq] at h; cases h
  | undefined => rw [hq] at h; cases h
  | ok q =>
    rw [hq] at h
    have e : construct q = .ok p := h
    have : q = p := by
      unfold construct at e
      repeat' split at e
      all_goals first | exact Outcome.ok.inj e | cases e
    rw [← this, parse_periodic hq]
    simp [parsePeriodic]

/-- **C102** fails: a direction with one periodic side is periodic; the condition for the other side is dropped without a
message. -/
theorem C102_boundary_fails :
    ∃ c p, c.bmin 0 = .periodic ∧ c.bmax 0 = .reflecting ∧ initMesh c = .ok p ∧ p.periodic 0 = true := by
  refine ⟨⟨3, fun _ => .periodic, fun _ => .reflecting, some 2, some 5, none, none, none⟩,
    ⟨3, fun _ => true, 2, 5, ![4, 4, 4]⟩, rfl, rfl, ?_, rfl⟩
  have h0 : parsePeriodic ⟨3, fun _ => .periodic, fun _ => .reflecting, some 2, some 5, none, none, none⟩ =
      fun _ => true := by
    funext i; simp [parsePeriodic]
  have e : toU8 2 = 2 := rfl
  have e2 : toU8 5 = 5 := rfl
  simp only [initMesh, parseParameters, parseLevels, Option.getD_some, e, e2] at *
  rw [h0]
  simp [Outcome.bind, construct, constructSizes, constructSmall]

/-- **C102** fails: in 2D a lowest level that is too high for the coarse grid is not noticed; the same one is rejected in
3D. -/
theorem C102_small_fails :
    (∃ p, initMesh (openConfig 2 (some 3) (some 5) (some 2) (some 2) none) = .ok p) ∧
      initMesh (openConfig 3 (some 3) (some 5) (some 2) (some 2) (some 1)) = .error := by
  have e : toU8 3 = 3 := rfl
  have e2 : toU8 5 = 5 := rfl
  constructor
  · simp [initMesh, parseParameters, openConfig, parseLevels, e, e2, Outcome.bind, construct, constructSizes,
      constructSmall]
  · simp [initMesh, parseParameters, openConfig, parseLevels, e, e2, Outcome.bind, construct, constructSizes,
      constructSmall]

/-! ## Examples -/

/-- 3D, levels 3 to 6, coarse grid 8 x 4 x 6, periodic along x. -/
def exampleConfig : MeshConfig :=
  ⟨3, ![.periodic, .absorbing, .absorbing], ![.periodic, .reflecting, .absorbing], some 3, some 6, none, some 4, some 6⟩

theorem exampleConfig_reasonable : Reasonable exampleConfig where
  ndim := Or.inr rfl
  given := Or.inl (by decide)
  lmin l h := by cases h; omega
  lmax l h := by cases h; omega
  lmax_default h := by cases h
  sizes h := by cases h
  pos n h := by rcases h with h | h | h <;> cases h <;> omega
  boundary i := by fin_cases i <;> simp [exampleConfig]

example : ∃ p, initMesh exampleConfig = .ok p ∧ Sound exampleConfig p := by
  rcases C102_partial exampleConfig_reasonable with h | ⟨p, h, hs⟩
  · exfalso
    obtain ⟨p, hp⟩ := (C102_accepts exampleConfig_reasonable (l := 3) rfl).mpr
      ⟨by decide, by decide, by decide, by decide, by decide⟩
    rw [h] at hp
    cases hp
  · refine ⟨p, h, hs ?_⟩
    have e : toU8 3 = 3 := rfl
    have e2 : toU8 6 = 6 := rfl
    simp [initMesh, parseParameters, exampleConfig, parseLevels, e, e2, Outcome.bind, construct, constructSizes,
      constructSmall] at h
    subst h
    simp [Fin.prod_univ_three]

/-- 2D, sizes without levels: 5 x 3 octants of level 3. -/
example : ∃ p, initMesh (openConfig 2 none none (some 5) (some 3) none) = .ok p ∧ p.lmin = 3 ∧ p.lmax = 6 ∧
    p.coarse = ![5, 3, 1] := by
  have e : Nat.clog 2 (max 5 (max 3 1)) = 3 := by decide +kernel
  have e2 : toU8 ((3 : ℕ) : ℤ) = 3 := rfl
  have e3 : toU8 (((3 : ℕ) : ℤ) + 3) = 6 := rfl
  simp only [initMesh, parseParameters, openConfig, parseResolution, if_true, e, e2, Option.getD_none, e3]
  simp [Outcome.bind, construct, constructSizes, constructSmall]

end Verif.Front
