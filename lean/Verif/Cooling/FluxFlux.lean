import Verif.Flux.Face

/-!
# C63: the flux-flux cooling term

Model of `core/src/cooling/CoolingUpdate_FF.cpp` L63-110. The documented purpose (L11-18): the first row of cells is
cooled and the last one is heated, "the heating is exactly compensated by the cooling so that no total energy is injected
in the box". Arithmetic is exact.
-/

namespace Verif.Cooling

open Verif.Octree Verif.Cells Verif.Flux

variable {d : ℕ}

/-! ### Model -/

/-- The option `cooling/FF_layer`, L7 and L37-41. -/
inductive Layer
  | oneCell
  | layer
  deriving DecidableEq

/-- L90-104: the power per volume for a cell of size `dh` with its middle at `pos`. -/
def heating (mode : Layer) (flux dmin dmax pos dh : ℚ) : ℚ :=
  let F := flux / dh
  match mode with
  | .oneCell => if pos < dmin + dh then -F else if pos > dmax - dh then F else 0
  | .layer => 0

/-- L79-106 for one cell: the new value of `e_tot_next`. `j` is the vertical direction, y in 2D and z in 3D (L87-88);
`dmin` and `dmax` are the ends of the domain in that direction (L50-58). -/
def update (mode : Layer) (flux dt : ℚ) (D : Domain d) (G : Grid d) (b : Fin d → ℕ) (j : Fin d)
    (e : Oct d → (Fin d → ℕ) → ℚ) (o : Oct d) (x : Fin d → ℕ) : ℚ :=
  let c : CellIndex d := ⟨o, x, b, .localToBlock⟩
  e o x + dt * heating mode flux (D.xmin j) (D.xmax j) (getCellCenter D G c j) (getCellSize D G c j)

/-! ### Specification -/

/-- The total energy of a field of energy densities. -/
def energy (D : Domain d) (G : Grid d) (M : Finset (Oct d)) (b : Fin d → ℕ) (e : Oct d → (Fin d → ℕ) → ℚ) : ℚ :=
  cellSum b M fun o x => volume D (cellGrid G b) (cellOct b o x) * e o x

/-- The cell lies at the lower end of the domain. -/
def First (G : Grid d) (b : Fin d → ℕ) (j : Fin d) (o : Oct d) (x : Fin d → ℕ) : Prop :=
  lo (cellGrid G b) (cellOct b o x) j = 0

/-- The cell lies at the upper end of the domain. -/
def Last (G : Grid d) (b : Fin d → ℕ) (j : Fin d) (o : Oct d) (x : Fin d → ℕ) : Prop :=
  hi (cellGrid G b) (cellOct b o x) j = 1

/-- Area of an end of the domain. -/
def endArea (D : Domain d) (j : Fin d) : ℚ := ∏ k ∈ Finset.univ.erase j, (D.xmax k - D.xmin k)

/-! ### Proofs -/

variable {G : Grid d} {M : Finset (Oct d)} {b : Fin d → ℕ}

theorem first_iff (hG : G.Pos) (hb : ∀ k, 0 < b k) (j : Fin d) (o : Oct d) (x : Fin d → ℕ) :
    First G b j o x ↔ o.pos j * b j + x j = 0 := by
  have hp : (0 : ℚ) < (cellGrid G b).count j o.level := by exact_mod_cast count_pos (cellGrid_pos hG hb) j _
  change ((o.pos j * b j + x j : ℕ) : ℚ) / ((cellGrid G b).count j o.level : ℚ) = 0 ↔ _
  rw [div_eq_zero_iff, or_iff_left hp.ne']
  exact_mod_cast Iff.rfl

theorem last_iff (hG : G.Pos) (hb : ∀ k, 0 < b k) (j : Fin d) (o : Oct d) (x : Fin d → ℕ) :
    Last G b j o x ↔ o.pos j * b j + x j + 1 = (cellGrid G b).count j o.level := by
  have hp : (0 : ℚ) < (cellGrid G b).count j o.level := by exact_mod_cast count_pos (cellGrid_pos hG hb) j _
  change (((o.pos j * b j + x j : ℕ) : ℚ) + 1) / ((cellGrid G b).count j o.level : ℚ) = 1 ↔ _
  rw [div_eq_one_iff_eq hp.ne']
  exact_mod_cast Iff.rfl

open Classical in
/-- What the kernel adds to a cell: the row is recognised by the position of the middle. -/
theorem update_eq (hG : G.Pos) {D : Domain d} (hD : Domain.Ok D) (hb : ∀ k, 0 < b k) (flux dt : ℚ) (j : Fin d)
    (e : Oct d → (Fin d → ℕ) → ℚ) (o : Oct d) (x : Fin d → ℕ) (hv : o.pos j * b j + x j < (cellGrid G b).count j o.level) :
    update .oneCell flux dt D G b j e o x = e o x + dt * (flux / cellSize D (cellGrid G b) (cellOct b o x) j *
      if First G b j o x then -1 else if Last G b j o x then 1 else 0) := by
  have hG' := cellGrid_pos hG hb
  have hp : (0 : ℚ) < (cellGrid G b).count j o.level := by exact_mod_cast count_pos hG' j _
  have hL : 0 < D.xmax j - D.xmin j := sub_pos.2 (hD j)
  have hc := C26_center hG D ⟨o, x, b, .localToBlock⟩ hb j
  have hs := getCellSize_eq hG D ⟨o, x, b, .localToBlock⟩ hb j
  have hdh := cellSize_pos hG' hD (cellOct b o x) j
  simp only at hc hs
  unfold update heating
  dsimp only
  rw [hs]
  have hn : cellSize D (cellGrid G b) (cellOct b o x) j * (cellGrid G b).count j o.level = D.xmax j - D.xmin j := by
    rw [cellSize_eq]
    exact div_mul_cancel₀ _ hp.ne'
  have hpos : getCellCenter D G ⟨o, x, b, .localToBlock⟩ j = D.xmin j +
      (((o.pos j * b j + x j : ℕ) : ℚ) + 1 / 2) * cellSize D (cellGrid G b) (cellOct b o x) j := by
    rw [hc, cellSize_eq]
    change D.xmin j + (((o.pos j * b j + x j : ℕ) : ℚ) / ((cellGrid G b).count j o.level : ℚ) +
      (((o.pos j * b j + x j : ℕ) : ℚ) + 1) / ((cellGrid G b).count j o.level : ℚ)) / 2 * _ = _ + _ * (_ / ((cellGrid G b).count j o.level : ℚ))
    field_simp
    ring
  rw [hpos]
  generalize cellSize D (cellGrid G b) (cellOct b o x) j = h at *
  rw [first_iff hG hb, last_iff hG hb]
  generalize o.pos j * b j + x j = n at *
  generalize (cellGrid G b).count j o.level = N at *
  have h1 : D.xmin j + ((n : ℚ) + 1 / 2) * h < D.xmin j + h ↔ n = 0 := by
    constructor
    · intro hlt
      by_contra hne
      have : (1 : ℚ) ≤ n := by exact_mod_cast Nat.one_le_iff_ne_zero.2 hne
      nlinarith
    · rintro rfl
      push_cast
      linarith
  have h2 : D.xmin j + ((n : ℚ) + 1 / 2) * h > D.xmax j - h ↔ n + 1 = N := by
    constructor
    · intro hlt
      by_contra hne
      have : (n : ℚ) + 2 ≤ N := by exact_mod_cast (by omega : n + 2 ≤ N)
      nlinarith
    · intro he
      have : (N : ℚ) = n + 1 := by exact_mod_cast he.symm
      rw [this] at hn
      nlinarith
  simp only [h1, h2]
  split
  · ring
  · split
    · ring
    · ring

/-- The same mesh in a domain without periodic directions. -/
def opened (G : Grid d) : Grid d := ⟨G.lmin, G.coarse, fun _ => false⟩

theorem opened_tiling (hM : Tiling G M) : Tiling (opened G) M := ⟨hM.valid, hM.cover⟩

theorem opened_balanced (hB : Balanced G M) : Balanced (opened G) M := by
  intro a ha c hc h
  refine hB a ha c hc fun i => ?_
  obtain ⟨s, h1, h2⟩ := h i
  refine ⟨s, ?_, h2⟩
  rcases h1 with h1 | ⟨h1, -⟩
  · exact Or.inl h1
  · exact absurd h1 (by simp [opened])

open Classical in
/-- The first and the last row of cells cover the ends of the domain. -/
theorem rows (hG : G.Pos) (hM : Tiling G M) (hB : Balanced G M) {D : Domain d} (hD : Domain.Ok D) (hb : ∀ k, 0 < b k)
    (j : Fin d) :
    cellSum b M (fun o x => if First G b j o x then faceArea D (cellGrid G b) j (cellOct b o x) else 0) = endArea D j ∧
      cellSum b M (fun o x => if Last G b j o x then faceArea D (cellGrid G b) j (cellOct b o x) else 0) = endArea D j := by
  have hG1 : (opened G).Pos := ⟨hG.pos⟩
  have key := fun {s : ℤ} (hs : s = 1 ∨ s = -1) =>
    face_total hG1 (opened_tiling hM) (opened_balanced hB) hD hb (fun _ => rfl) j hs
  constructor
  · rw [endArea, ← key (Or.inr rfl)]
    refine cellSum_congr fun o ho x hx => ?_
    rw [if_congr ((first_iff hG hb j o x).trans (onBoundary_iff (G := opened G) (fun _ => rfl) (opened_tiling hM) ho hx j).2.symm)
      rfl rfl]
    rfl
  · rw [endArea, ← key (Or.inl rfl)]
    refine cellSum_congr fun o ho x hx => ?_
    rw [if_congr ((last_iff hG hb j o x).trans (onBoundary_iff (G := opened G) (fun _ => rfl) (opened_tiling hM) ho hx j).1.symm)
      rfl rfl]
    rfl

/-! ### Theorems -/

open Classical in
/-- **C63** The energy of the domain changes by `dt * flux` times the area of an end, with a minus for the first row of cells
and a plus for the cells that are in the last row but not in the first. -/
theorem C63_budget (hG : G.Pos) (hM : Tiling G M) (hB : Balanced G M) {D : Domain d} (hD : Domain.Ok D) (hb : ∀ k, 0 < b k)
    (flux dt : ℚ) (j : Fin d) (e : Oct d → (Fin d → ℕ) → ℚ) :
    energy D G M b (update .oneCell flux dt D G b j e) = energy D G M b e -
      dt * flux * cellSum b M (fun o x =>
        if First G b j o x ∧ Last G b j o x then faceArea D (cellGrid G b) j (cellOct b o x) else 0) := by
  obtain ⟨r1, r2⟩ := rows hG hM hB hD hb j
  have h : energy D G M b (update .oneCell flux dt D G b j e) = energy D G M b e + dt * flux *
      (cellSum b M (fun o x => if Last G b j o x then faceArea D (cellGrid G b) j (cellOct b o x) else 0) -
       cellSum b M (fun o x => if First G b j o x then faceArea D (cellGrid G b) j (cellOct b o x) else 0) -
       cellSum b M (fun o x =>
        if First G b j o x ∧ Last G b j o x then faceArea D (cellGrid G b) j (cellOct b o x) else 0)) := by
    unfold energy
    rw [← cellSum_sub, ← cellSum_sub, ← cellSum_mul, ← cellSum_add]
    refine cellSum_congr fun o ho x hx => ?_
    rw [update_eq hG hD hb flux dt j e o x ((cell_valid (hM.valid o ho) hx).2 j),
      ← faceArea_mul (G := cellGrid G b) D (cellOct b o x) j]
    have hs := cellSize_pos (cellGrid_pos hG hb) hD (cellOct b o x) j
    by_cases h1 : First G b j o x <;> by_cases h2 : Last G b j o x <;> simp only [h1, h2, if_true, if_false, and_true, and_false,
      and_self] <;> field_simp <;> ring
  rw [h, r1, r2]
  ring

/-- **C63** No total energy is injected, on any mesh with at least two cells in the vertical direction. -/
theorem C63_energy_partial (hG : G.Pos) (hM : Tiling G M) (hB : Balanced G M) {D : Domain d} (hD : Domain.Ok D)
    (hb : ∀ k, 0 < b k) (flux dt : ℚ) (j : Fin d) (h2 : 2 ≤ G.coarse j * b j) (e : Oct d → (Fin d → ℕ) → ℚ) :
    energy D G M b (update .oneCell flux dt D G b j e) = energy D G M b e := by
  classical
  rw [C63_budget hG hM hB hD hb]
  have h0 : cellSum b M (fun o x =>
      if First G b j o x ∧ Last G b j o x then faceArea D (cellGrid G b) j (cellOct b o x) else 0) = 0 := by
    refine Finset.sum_eq_zero fun o _ => Finset.sum_eq_zero fun x _ => if_neg ?_
    rw [first_iff hG hb, last_iff hG hb]
    rintro ⟨h3, h4⟩
    have : G.coarse j * b j ≤ (cellGrid G b).count j o.level := Nat.le_mul_of_pos_right _ (by positivity)
    omega
  rw [h0, mul_zero, sub_zero]

/-- **C63** The first row loses, and the last row gains, `dt * flux` times the area of the end of the domain, whatever the
refinement of the rows is; the other cells do not change. -/
theorem C63_rows (hG : G.Pos) (hM : Tiling G M) (hB : Balanced G M) {D : Domain d} (hD : Domain.Ok D) (hb : ∀ k, 0 < b k)
    (flux dt : ℚ) (j : Fin d) (h2 : 2 ≤ G.coarse j * b j) (e : Oct d → (Fin d → ℕ) → ℚ) :
    (∃ first : Oct d → (Fin d → ℕ) → ℚ, energy D G M b first = -(dt * flux * endArea D j) ∧
      ∀ o ∈ M, ∀ x : Fin d → ℕ, (∀ k, x k < b k) → (First G b j o x →
        update .oneCell flux dt D G b j e o x = e o x + first o x) ∧ (¬ First G b j o x → first o x = 0)) ∧
    (∃ last : Oct d → (Fin d → ℕ) → ℚ, energy D G M b last = dt * flux * endArea D j ∧
      ∀ o ∈ M, ∀ x : Fin d → ℕ, (∀ k, x k < b k) → (Last G b j o x →
        update .oneCell flux dt D G b j e o x = e o x + last o x) ∧ (¬ Last G b j o x → last o x = 0)) ∧
    ∀ o ∈ M, ∀ x : Fin d → ℕ, (∀ k, x k < b k) → ¬ First G b j o x → ¬ Last G b j o x →
      update .oneCell flux dt D G b j e o x = e o x := by
  classical
  obtain ⟨r1, r2⟩ := rows hG hM hB hD hb j
  have hu := fun o (ho : o ∈ M) (x : Fin d → ℕ) (hx : ∀ k, x k < b k) =>
    update_eq hG hD hb flux dt j e o x ((cell_valid (hM.valid o ho) hx).2 j)
  refine ⟨⟨fun o x => if First G b j o x then -(dt * (flux / cellSize D (cellGrid G b) (cellOct b o x) j)) else 0, ?_, ?_⟩,
    ⟨fun o x => if Last G b j o x then dt * (flux / cellSize D (cellGrid G b) (cellOct b o x) j) else 0, ?_, ?_⟩, ?_⟩
  · rw [← r1, ← neg_mul, ← cellSum_mul]
    refine cellSum_congr fun o ho x hx => ?_
    have hs := cellSize_pos (cellGrid_pos hG hb) hD (cellOct b o x) j
    rw [← faceArea_mul (G := cellGrid G b) D (cellOct b o x) j]
    by_cases h : First G b j o x
    · simp only [if_pos h]
      field_simp
    · simp only [if_neg h, mul_zero]
  · intro o ho x hx
    refine ⟨fun h => ?_, fun h => if_neg h⟩
    rw [hu o ho x hx, if_pos h]
    beta_reduce
    rw [if_pos h]
    ring
  · rw [← r2, ← cellSum_mul]
    refine cellSum_congr fun o ho x hx => ?_
    have hs := cellSize_pos (cellGrid_pos hG hb) hD (cellOct b o x) j
    rw [← faceArea_mul (G := cellGrid G b) D (cellOct b o x) j]
    by_cases h : Last G b j o x
    · simp only [if_pos h]
      field_simp
    · simp only [if_neg h, mul_zero]
  · intro o ho x hx
    refine ⟨fun h => ?_, fun h => if_neg h⟩
    have hne : ¬ First G b j o x := by
      rw [last_iff hG hb] at h
      rw [first_iff hG hb]
      have : G.coarse j * b j ≤ (cellGrid G b).count j o.level := Nat.le_mul_of_pos_right _ (by positivity)
      omega
    rw [hu o ho x hx, if_neg hne, if_pos h]
    beta_reduce
    rw [if_pos h]
    ring
  · intro o ho x hx h h'
    rw [hu o ho x hx, if_neg h, if_neg h']
    ring

/-- **C63** The option `layer` does nothing. -/
theorem C63_layer (flux dt : ℚ) (D : Domain d) (j : Fin d) (e : Oct d → (Fin d → ℕ) → ℚ) (o : Oct d) (x : Fin d → ℕ) :
    update .layer flux dt D G b j e o x = e o x := by
  unfold update heating
  ring

/-- The domain [0,1]×[0,1] with one row of two octants. -/
def flat : Grid 2 := ⟨1, ![2, 1], ![true, false]⟩

/-- Disagreement: with a single row of cells (two octants of one cell each) the row is cooled and never heated. -/
theorem C63_energy_fails : ∃ (D : Domain 2) (M : Finset (Oct 2)), Domain.Ok D ∧ Tiling flat M ∧ Balanced flat M ∧
    energy D flat M ![1, 1] (update .oneCell 1 1 D flat ![1, 1] 1 fun _ _ => 0) ≠ energy D flat M ![1, 1] fun _ _ => 0 := by
  refine ⟨⟨![0, 0], ![1, 1]⟩, [⟨1, ![0, 0]⟩, ⟨1, ![1, 0]⟩].toFinset, ?_, ?_, ?_, ?_⟩
  · unfold Domain.Ok; decide
  · exact tiling_of_check ⟨⟨by decide⟩, by decide⟩ _ 1 (by decide +kernel)
  · exact balanced_of_check ⟨⟨by decide⟩, by decide⟩ _ 1 (by decide +kernel)
  · unfold energy cellSum
    decide +kernel

/-- The hypotheses are met on a mesh with two levels, where both ends have cells of both sizes, and the cells of the rows do
change. -/
example : energy torusDomain torus quad.toFinset ![4, 4]
      (update .oneCell 3 (1 / 2) torusDomain torus ![4, 4] 1 fun o x => o.level + x 0) =
    energy torusDomain torus quad.toFinset ![4, 4] (fun o x => o.level + x 0) ∧
    update .oneCell 3 (1 / 2) torusDomain torus ![4, 4] 1 (fun o x => o.level + x 0) ⟨2, ![2, 0]⟩ ![0, 0] = -10 ∧
    update .oneCell 3 (1 / 2) torusDomain torus ![4, 4] 1 (fun o x => o.level + x 0) ⟨1, ![0, 0]⟩ ![0, 0] = -5 := by
  refine ⟨C63_energy_partial torus_pos torus_tiling torus_balanced torusDomain_ok (by decide) 3 (1 / 2) 1 (by decide) _, ?_, ?_⟩
  · decide +kernel
  · decide +kernel

end Verif.Cooling
