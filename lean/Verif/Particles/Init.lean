import Verif.Particles.Move
import Mathlib.Algebra.BigOperators.Group.List.Basic
import Mathlib.Data.List.Flatten

/-!
# C65: initial particles

Models of `core/src/init/InitialConditions_particle_grid.cpp` L105-206 (particles on a grid) and of the reading of arrays in
`core/src/init/InitialConditions_simple_particles.cpp` L30-42. Arithmetic on `real_t` is exact. What happens to the particles
between the two kernels (`distributeParticles`) is C29.
-/

namespace Verif.Particles.Init

open Verif.Octree Verif.Cells Verif.Flux Verif.Particles

/-! ### Model: `particle_grid` -/

/-- L110-113: the product of three `uint32_t`. -/
def nbpart (n : Fin 3 → ℕ) : ℕ := (n 0 * n 1 * n 2) % 2 ^ 32

/-- L114, L115: `first P r` and `first P (r + 1)` are the begin and the end of the particles of rank `r`. The product is of
`uint64_t`; it does not overflow for less than `2^32` ranks. -/
def first (n : Fin 3 → ℕ) (P r : ℕ) : ℕ := nbpart n * r / P

/-- L138-140. -/
def site (n : Fin 3 → ℕ) (ip : ℕ) : Fin 3 → ℕ := ![ip % n 0, ip / n 0 % n 1, ip / n 0 / n 1]

/-- L120-128, L142-144. -/
def sitePos (D : Domain 3) (n : Fin 3 → ℕ) (s : Fin 3 → ℕ) (k : Fin 3) : ℚ :=
  D.xmin k + s k * ((D.xmax k - D.xmin k) / n k) + 1 / 2 * ((D.xmax k - D.xmin k) / n k)

/-- L116-118, L132-145: the sites that rank `r` fills. -/
def rankSites (n : Fin 3 → ℕ) (P r : ℕ) : List (Fin 3 → ℕ) :=
  (List.range (first n P (r + 1) - first n P r)).map fun i => site n (first n P r + i)

/-- A particle with its mass. -/
structure Grain where
  pos : Fin 3 → ℚ
  vel : Fin 3 → ℚ
  mass : ℚ

/-- L180-201 for a particle at `x` in a cell of velocity `u`. -/
def grain (D : Domain 3) (n : Fin 3 → ℕ) (total dtp : ℚ) (u x : Fin 3 → ℚ) : Grain :=
  ⟨fun k => wrap (D.xmin k) (D.xmax k) (x k + u k * dtp), u, total / nbpart n⟩

/-- L173-202 for a particle at `x`. `none`: there is no cell. -/
def grainAt (D : Domain 3) (G : Grid 3) (M : Finset (Oct 3)) (minLevel maxLevel : ℕ) (b : Fin 3 → ℕ)
    (rho : Oct 3 → (Fin 3 → ℕ) → ℚ) (mom : Fin 3 → Oct 3 → (Fin 3 → ℕ) → ℚ) (n : Fin 3 → ℕ) (total dtp : ℚ) (x : Fin 3 → ℚ) :
    Option Grain :=
  (getCellFromPos D G M minLevel maxLevel b x).map fun c =>
    grain D n total dtp (fun k => mom k c.oct c.idx / rho c.oct c.idx) x

/-- The particles that rank `r` makes, in order. The search for the cell is on the global mesh; in the code the particles go to
the rank that owns the cell first (L147). -/
def rankGrains (D : Domain 3) (G : Grid 3) (M : Finset (Oct 3)) (minLevel maxLevel : ℕ) (b : Fin 3 → ℕ)
    (rho : Oct 3 → (Fin 3 → ℕ) → ℚ) (mom : Fin 3 → Oct 3 → (Fin 3 → ℕ) → ℚ) (n : Fin 3 → ℕ) (total dtp : ℚ) (P r : ℕ) :
    List (Option Grain) :=
  (rankSites n P r).map fun s => grainAt D G M minLevel maxLevel b rho mom n total dtp (sitePos D n s)

/-! ### Model: `simple_particles` -/

/-- L30-42: the view `a` of extent `npart` after the copy. `none`: entries of `values` that do not exist are read, or entries of
`a` that do not exist are written. -/
def parseArray {α : Type} (values : List α) (npart : ℕ) : Option (List α) :=
  let nb := max values.length npart
  if nb ≤ values.length ∧ nb ≤ npart then some (values.take nb) else none

/-! ### Particles on a grid -/

theorem first_zero (n : Fin 3 → ℕ) (P : ℕ) : first n P 0 = 0 := by simp [first]

theorem first_last (n : Fin 3 → ℕ) {P : ℕ} (hP : 0 < P) : first n P P = nbpart n := by
  unfold first
  exact Nat.mul_div_cancel _ hP

theorem first_mono (n : Fin 3 → ℕ) (P : ℕ) {r s : ℕ} (h : r ≤ s) : first n P r ≤ first n P s :=
  Nat.div_le_div_right (Nat.mul_le_mul_left _ h)

theorem ranks_upto (n : Fin 3 → ℕ) (P q : ℕ) :
    (List.range q).flatMap (rankSites n P) = (List.range (first n P q)).map (site n) := by
  induction q with
  | zero => simp [first_zero]
  | succ q ih =>
    have h : first n P q ≤ first n P (q + 1) := first_mono n P (Nat.le_succ q)
    rw [List.range_succ, List.flatMap_append, ih]
    simp only [List.flatMap_cons, List.flatMap_nil, List.append_nil, rankSites]
    rw [show first n P (q + 1) = first n P q + (first n P (q + 1) - first n P q) by omega, List.range_add, List.map_append,
      List.map_map, show first n P q + (first n P (q + 1) - first n P q) - first n P q = first n P (q + 1) - first n P q by omega]
    rfl

/-- All ranks together fill the sites in order. -/
theorem ranks_all (n : Fin 3 → ℕ) {P : ℕ} (hP : 0 < P) :
    (List.range P).flatMap (rankSites n P) = (List.range (nbpart n)).map (site n) := by
  rw [ranks_upto, first_last n hP]

theorem site_number {n : Fin 3 → ℕ} {s : Fin 3 → ℕ} (hs : ∀ k, s k < n k) :
    site n (s 0 + n 0 * (s 1 + n 1 * s 2)) = s := by
  have h0 := hs 0
  have h1 := hs 1
  have d0 : (s 0 + n 0 * (s 1 + n 1 * s 2)) / n 0 = s 1 + n 1 * s 2 := by
    rw [Nat.add_mul_div_left _ _ (by omega), Nat.div_eq_of_lt h0, Nat.zero_add]
  unfold site
  rw [d0, Nat.add_mul_div_left _ _ (by omega), Nat.div_eq_of_lt h1, Nat.zero_add, Nat.add_mul_mod_self_left,
    Nat.add_mul_mod_self_left, Nat.mod_eq_of_lt h0, Nat.mod_eq_of_lt h1]
  funext k
  fin_cases k <;> rfl

theorem number_site {n : Fin 3 → ℕ} (ip : ℕ) : site n ip 0 + n 0 * (site n ip 1 + n 1 * site n ip 2) = ip := by
  simp only [site, Matrix.cons_val]
  rw [Nat.mod_add_div, Nat.mod_add_div]

theorem site_lt {n : Fin 3 → ℕ} {ip : ℕ} (h : ip < n 0 * n 1 * n 2) (k : Fin 3) : site n ip k < n k := by
  have p0 : 0 < n 0 := by
    rcases Nat.eq_zero_or_pos (n 0) with e | e
    · rw [e] at h; simp at h
    · exact e
  have p1 : 0 < n 1 := by
    rcases Nat.eq_zero_or_pos (n 1) with e | e
    · rw [e] at h; simp at h
    · exact e
  fin_cases k
  · exact Nat.mod_lt _ p0
  · exact Nat.mod_lt _ p1
  · change ip / n 0 / n 1 < n 2
    rw [Nat.div_div_eq_div_mul, Nat.div_lt_iff_lt_mul (Nat.mul_pos p0 p1), Nat.mul_comm]
    exact h

/-- **C65** Over all ranks every site of the grid is filled exactly once, if there are less than `2^32` sites. Missing: larger
grids, see `C65_sites_fails`. -/
theorem C65_sites_partial {n : Fin 3 → ℕ} (hn : n 0 * n 1 * n 2 < 2 ^ 32) {P : ℕ} (hP : 0 < P) :
    ((List.range P).flatMap (rankSites n P)).Nodup ∧
    ∀ s, s ∈ (List.range P).flatMap (rankSites n P) ↔ ∀ k, s k < n k := by
  rw [ranks_all n hP]
  have hb : nbpart n = n 0 * n 1 * n 2 := Nat.mod_eq_of_lt hn
  constructor
  · refine List.Nodup.map ?_ List.nodup_range
    intro a b h
    rw [← number_site (n := n) a, ← number_site (n := n) b, h]
  · intro s
    simp only [List.mem_map, List.mem_range, hb]
    constructor
    · rintro ⟨ip, h, rfl⟩ k
      exact site_lt h k
    · intro hs
      refine ⟨s 0 + n 0 * (s 1 + n 1 * s 2), ?_, site_number hs⟩
      have h0 := hs 0
      have h1 := hs 1
      have h2 := hs 2
      calc s 0 + n 0 * (s 1 + n 1 * s 2) < n 0 + n 0 * (s 1 + n 1 * s 2) := by omega
        _ = n 0 * (s 1 + 1 + n 1 * s 2) := by ring
        _ ≤ n 0 * (n 1 + n 1 * s 2) := Nat.mul_le_mul_left _ (by omega)
        _ = n 0 * n 1 * (s 2 + 1) := by ring
        _ ≤ n 0 * n 1 * n 2 := Nat.mul_le_mul_left _ (by omega)

/-- **C65** (disagreement) The number of particles is a product of 32-bit numbers: a grid of `2048^3` sites gets no particle. -/
theorem C65_sites_fails : ∀ P r, rankSites (fun _ => 2048) P r = [] := by
  intro P r
  have : nbpart (fun _ => 2048) = 0 := by decide
  unfold rankSites first
  rw [this]
  simp

/-- The numbers of particles of two ranks differ by at most one. -/
theorem C65_even (n : Fin 3 → ℕ) {P : ℕ} (hP : 0 < P) (r s : ℕ) :
    (rankSites n P r).length ≤ (rankSites n P s).length + 1 := by
  simp only [rankSites, List.length_map, List.length_range, first]
  have key : ∀ q, nbpart n / P ≤ nbpart n * (q + 1) / P - nbpart n * q / P ∧
      nbpart n * (q + 1) / P - nbpart n * q / P ≤ nbpart n / P + 1 := by
    intro q
    rw [Nat.mul_succ]
    have h1 := Nat.div_add_mod (nbpart n * q) P
    have h2 := Nat.div_add_mod (nbpart n) P
    have h3 := Nat.mod_lt (nbpart n * q) hP
    have h4 := Nat.mod_lt (nbpart n) hP
    rw [Nat.add_div hP]
    generalize nbpart n * q / P = a
    generalize nbpart n / P = b
    split <;> omega
  have := key r
  have := key s
  omega

/-- **C65** Each particle starts in the middle of its cell of the grid, inside of the domain. -/
theorem C65_middle {D : Domain 3} (hD : Domain.Ok D) {n s : Fin 3 → ℕ} (hs : ∀ k, s k < n k) :
    (∀ k, (sitePos D n s k - D.xmin k) / (D.xmax k - D.xmin k) = (2 * s k + 1 : ℚ) / (2 * n k)) ∧
    ∀ k, D.xmin k < sitePos D n s k ∧ sitePos D n s k < D.xmax k := by
  have hL : ∀ k, 0 < D.xmax k - D.xmin k := fun k => sub_pos.2 (hD k)
  have hn : ∀ k, (0 : ℚ) < n k := fun k => by have := hs k; exact_mod_cast (by omega : 0 < n k)
  have h1 : ∀ k, (sitePos D n s k - D.xmin k) / (D.xmax k - D.xmin k) = (2 * s k + 1 : ℚ) / (2 * n k) := by
    intro k
    have := (hL k).ne'
    have := (hn k).ne'
    unfold sitePos
    field_simp
    ring
  refine ⟨h1, fun k => ?_⟩
  have h2 := h1 k
  rw [div_eq_iff (hL k).ne'] at h2
  have h3 : (0 : ℚ) < (2 * s k + 1 : ℚ) / (2 * n k) := by have := hn k; positivity
  have h4 : (2 * s k + 1 : ℚ) / (2 * n k) < 1 := by
    rw [div_lt_one (by have := hn k; positivity)]
    have : s k + 1 ≤ n k := hs k
    have : (s k : ℚ) + 1 ≤ n k := by exact_mod_cast this
    linarith
  constructor
  · nlinarith [mul_pos h3 (hL k)]
  · nlinarith [mul_lt_mul_of_pos_right h4 (hL k)]

/-- **C65** With the default numbers of particles (L45-47), the particles are at the middles of the cells of the coarse grid. -/
theorem C65_default (D : Domain 3) (G : Grid 3) (hG : G.Pos) {b : Fin 3 → ℕ} (hb : ∀ k, 0 < b k) {o : Oct 3} (ho : o.level = G.lmin)
    (x : Fin 3 → ℕ) (k : Fin 3) :
    sitePos D (fun k => b k * G.coarse k) (fun k => o.pos k * b k + x k) k = getCellCenter D G ⟨o, x, b, .localToBlock⟩ k := by
  have h1 : (b k : ℚ) ≠ 0 := by exact_mod_cast (hb k).ne'
  have h2 : (G.coarse k : ℚ) ≠ 0 := by exact_mod_cast (hG.pos k).ne'
  have hc : (cellCount G k o.level : ℚ) = G.coarse k := by
    rw [ho]
    unfold cellCount
    simp
  unfold sitePos getCellCenter getCenter getCellSize getSize
  simp only [hc]
  push_cast
  field_simp
  ring

/-- **C65** (velocity) Every particle gets the velocity of the cell that contains its site, is displaced by this velocity times
`dt_perturb` up to whole lengths of the domain, and stays in the domain if it is displaced by at most a length of the domain to the
lower side. Missing: larger displacements, see C54. -/
theorem C65_velocity_partial {G : Grid 3} {M : Finset (Oct 3)} (hG : G.WF) (hM : Tiling G M) {D : Domain 3} (hD : Domain.Ok D)
    (minLevel maxLevel : ℕ) (hlev : ∀ o ∈ M, minLevel ≤ o.level ∧ o.level ≤ maxLevel) {b : Fin 3 → ℕ} (hb : ∀ k, 0 < b k)
    (rho : Oct 3 → (Fin 3 → ℕ) → ℚ) (mom : Fin 3 → Oct 3 → (Fin 3 → ℕ) → ℚ) {n s : Fin 3 → ℕ} (hs : ∀ k, s k < n k) (total dtp : ℚ)
    {o : Oct 3} (ho : o ∈ M) {i : Fin 3 → ℕ} (hi : ∀ k, i k < b k) (hin : InCell D G b o i (sitePos D n s)) (hrho : rho o i ≠ 0) :
    ∃ g, grainAt D G M minLevel maxLevel b rho mom n total dtp (sitePos D n s) = some g ∧
      (∀ k, g.vel k * rho o i = mom k o i) ∧
      (∀ k, ∃ m : ℤ, g.pos k = sitePos D n s k + g.vel k * dtp + m * (D.xmax k - D.xmin k)) ∧
      ((∀ k, -(D.xmax k - D.xmin k) ≤ g.vel k * dtp) → InBox D g.pos) := by
  have hx := (C65_middle hD hs).2
  obtain ⟨c, h1, -, -, -, -, -, h7⟩ := C26_cell_of_pos hG hM D hD minLevel maxLevel hlev b hb (sitePos D n s)
    fun k => ⟨(hx k).1.le, (hx k).2⟩
  obtain ⟨e1, e2⟩ := h7 o ho i hi hin
  refine ⟨grain D n total dtp (fun k => mom k o i / rho o i) (sitePos D n s), ?_, fun k => ?_, fun k => (C54_wrap (hD k) _).1,
    fun hv k => ?_⟩
  · unfold grainAt
    rw [h1, Option.map_some, e1, e2]
  · exact div_mul_cancel₀ _ hrho
  · refine (C54_wrap (hD k) _).2.2 (Or.inl ?_)
    have h2 := hv k
    have h3 := (hx k).1
    change _ ≤ sitePos D n s k + mom k o i / rho o i * dtp
    change _ ≤ mom k o i / rho o i * dtp at h2
    linarith

/-- **C65** (mass) All particles of all ranks are defined and their masses add up to the total mass. Missing: grids of `2^32` sites
or more. -/
theorem C65_mass_partial {G : Grid 3} {M : Finset (Oct 3)} (hG : G.WF) (hM : Tiling G M) {D : Domain 3} (hD : Domain.Ok D)
    (minLevel maxLevel : ℕ) (hlev : ∀ o ∈ M, minLevel ≤ o.level ∧ o.level ≤ maxLevel) {b : Fin 3 → ℕ} (hb : ∀ k, 0 < b k)
    (rho : Oct 3 → (Fin 3 → ℕ) → ℚ) (mom : Fin 3 → Oct 3 → (Fin 3 → ℕ) → ℚ) {n : Fin 3 → ℕ} (hn0 : ∀ k, 0 < n k)
    (hn : n 0 * n 1 * n 2 < 2 ^ 32) {P : ℕ} (hP : 0 < P) (total dtp : ℚ) :
    ∃ gs : List Grain, (List.range P).flatMap (rankGrains D G M minLevel maxLevel b rho mom n total dtp P) = gs.map some ∧
      gs.length = n 0 * n 1 * n 2 ∧ (gs.map Grain.mass).sum = total := by
  have hnb : nbpart n = n 0 * n 1 * n 2 := Nat.mod_eq_of_lt hn
  have hpos : 0 < nbpart n := by rw [hnb]; exact Nat.mul_pos (Nat.mul_pos (hn0 0) (hn0 1)) (hn0 2)
  have e : (List.range P).flatMap (rankGrains D G M minLevel maxLevel b rho mom n total dtp P) =
      ((List.range P).flatMap (rankSites n P)).map fun s =>
        grainAt D G M minLevel maxLevel b rho mom n total dtp (sitePos D n s) := by
    rw [List.map_flatMap]
    rfl
  have def1 : ∀ ip, ip < nbpart n → ∃ g, grainAt D G M minLevel maxLevel b rho mom n total dtp (sitePos D n (site n ip)) = some g ∧
      g.mass = total / nbpart n := by
    intro ip hip
    rw [hnb] at hip
    have hx := (C65_middle hD (site_lt hip)).2
    obtain ⟨c, h1, -⟩ := C26_cell_of_pos hG hM D hD minLevel maxLevel hlev b hb (sitePos D n (site n ip))
      fun k => ⟨(hx k).1.le, (hx k).2⟩
    refine ⟨grain D n total dtp (fun k => mom k c.oct c.idx / rho c.oct c.idx) (sitePos D n (site n ip)), ?_, rfl⟩
    unfold grainAt
    rw [h1, Option.map_some]
  have upto : ∀ m, m ≤ nbpart n → ∃ gs : List Grain,
      (List.range m).map (fun ip => grainAt D G M minLevel maxLevel b rho mom n total dtp (sitePos D n (site n ip))) = gs.map some ∧
        gs.length = m ∧ (gs.map Grain.mass).sum = m * (total / nbpart n) := by
    intro m
    induction m with
    | zero => exact fun _ => ⟨[], rfl, rfl, by simp⟩
    | succ m ih =>
      intro hm
      obtain ⟨gs, h1, h2, h3⟩ := ih (by omega)
      obtain ⟨g, h4, h5⟩ := def1 m (by omega)
      refine ⟨gs ++ [g], ?_, by simp [h2], ?_⟩
      · rw [List.range_succ, List.map_append, h1, List.map_append, List.map_singleton, List.map_singleton, h4]
      · rw [List.map_append, List.sum_append, h3, List.map_singleton, List.sum_singleton, h5]
        push_cast
        ring
  obtain ⟨gs, h1, h2, h3⟩ := upto _ le_rfl
  refine ⟨gs, ?_, by rw [h2, hnb], ?_⟩
  · rw [e, ranks_all n hP, List.map_map, ← h1]
    rfl
  · rw [h3, mul_div_cancel₀]
    exact_mod_cast hpos.ne'

/-! ### Arrays of `simple_particles` -/

/-- **C65** An array is read if it has exactly `npart` values. Missing: the comment at L33 promises that up to `npart` values are
taken from longer arrays. -/
theorem C65_parse_partial {α : Type} (values : List α) : parseArray values values.length = some values := by
  simp [parseArray]

/-- **C65** (disagreement) `std::max` for `std::min`: any other number of values is undefined behaviour, with fewer values (an
absent attribute has none) as with more. -/
theorem C65_parse_fails {α : Type} (values : List α) (npart : ℕ) (h : values.length ≠ npart) : parseArray values npart = none := by
  unfold parseArray
  rw [if_neg]
  omega

/-! ### Examples -/

/-- A grid of 3 by 2 by 2 particles on five ranks. -/
example : (rankSites ![3, 2, 2] 5 1) = [![2, 0, 0], ![0, 1, 0]] ∧ (rankSites ![3, 2, 2] 5 4).length = 3 := by decide +kernel

example : ((List.range 5).flatMap (rankSites ![3, 2, 2] 5)).Nodup := (C65_sites_partial (by decide) (by decide)).1

/-- Displaced over the upper end of the domain. -/
example : (grainAt cubeDomain cube cubeMesh.toFinset 1 2 ![2, 2, 2] (fun _ _ => 2) (fun k _ _ => ![3, 0, 1] k) ![2, 2, 2] 16 (1 / 2)
    (sitePos cubeDomain ![2, 2, 2] ![1, 0, 1])).map (fun g => (g.pos, g.mass)) = some (![1 / 2, 1 / 4, 0], 2) := by
  decide +kernel

/-- The hypotheses are met. -/
example : ∃ gs : List Grain, (List.range 5).flatMap (rankGrains cubeDomain cube cubeMesh.toFinset 1 2 ![2, 2, 2] (fun _ _ => 2)
    (fun k _ _ => ![3, 0, 1] k) ![3, 2, 2] 16 (1 / 2) 5) = gs.map some ∧ gs.length = 12 ∧ (gs.map Grain.mass).sum = 16 :=
  C65_mass_partial cube_wf cube_tiling (by unfold Domain.Ok; decide) 1 2 cube_levels (by decide) _ _ (by decide) (by decide) (by decide) _ _

end Verif.Particles.Init
