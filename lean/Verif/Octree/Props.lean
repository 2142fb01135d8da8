import Verif.Octree.Check
import Mathlib.Tactic.FinCases

/-!
# C03, C04, C05, C06: octant numbering, point location, neighbour search
-/

namespace Verif.Octree

variable {d : ℕ}

/-- C03: the combined numbering is a bijection between the local and ghost octants of a mesh with
`n` local and `g` ghost octants and the range `[0, n + g)`; local octants come first. -/
theorem C03_octant_numbering_bijective (n g : ℕ) :
    (∀ o : OctantIndex, o.iOct < (if o.isGhost then g else n) →
      toLocal o n < n + g ∧ ofLocal (toLocal o n) n = o ∧ (o.isGhost = false ↔ toLocal o n < n)) ∧
    (∀ i, i < n + g →
      (ofLocal i n).iOct < (if (ofLocal i n).isGhost then g else n) ∧ toLocal (ofLocal i n) n = i) := by
  constructor
  · rintro ⟨k, gh⟩ h
    cases gh
    · simp at h
      simp [toLocal, ofLocal, h]; omega
    · simp at h
      simp [toLocal, ofLocal, h]
  · intro i hi
    unfold ofLocal toLocal
    split
    · simp; omega
    · simp; omega

example : (⟨3, true⟩ : OctantIndex).iOct < 5 ∧ toLocal ⟨3, true⟩ 10 = 13 ∧ ofLocal 13 10 = ⟨3, true⟩ := by
  decide

theorem searchUp_spec {M : Finset (Oct d)} {b : Oct d} (hb : b ∈ M) :
    ∀ (fuel l : ℕ) (p : Fin d → ℕ), Anc b ⟨l, p⟩ → (∀ c ∈ M, Anc c ⟨l, p⟩ → c = b) →
      l < fuel + b.level → searchUp M fuel l p = some b := by
  intro fuel
  induction fuel with
  | zero =>
    intro l p h1 _ h3
    exfalso
    have := h1.1
    simp only at this
    omega
  | succ fuel ih =>
    intro l p h1 h2 h3
    simp only [searchUp]
    split
    · rename_i hm
      rw [h2 _ hm (Anc.refl _)]
    · rename_i hm
      have hlt : b.level < l := by
        rcases Nat.lt_or_ge b.level l with h | h
        · exact h
        · exfalso
          have : b = ⟨l, p⟩ := h1.eq_of_level (le_antisymm h1.1 h)
          exact hm (this ▸ hb)
      have hup : Anc (⟨l - 1, fun i => p i >>> 1⟩ : Oct d) ⟨l, p⟩ := by
        refine ⟨Nat.sub_le _ _, fun i => ?_⟩
        have : l - (l - 1) = 1 := by omega
        simp [this, Nat.shiftRight_eq_div_pow]
      apply ih
      · exact h1.linear hup (by simp only; omega)
      · intro c hc hca
        exact h2 c hc (hca.trans hup)
      · omega

/-- C04: on a tiling with levels in `[minLevel, maxLevel]`, point location succeeds for every point
of the unit box and returns the leaf that contains it (and no other leaf contains it). -/
theorem C04_getiOctFromPos_correct {G : Grid d} (hG : G.WF) {M : Finset (Oct d)} (hM : Tiling G M)
    (minLevel maxLevel : ℕ) (hlev : ∀ o ∈ M, minLevel ≤ o.level ∧ o.level ≤ maxLevel)
    (x : Fin d → ℚ) (hx : ∀ i, 0 ≤ x i ∧ x i < 1) :
    ∃ o, getiOctFromPos G M minLevel maxLevel x = some o ∧ o ∈ M ∧ Covers G o x ∧
      ∀ o' ∈ M, Covers G o' x → o' = o := by
  obtain ⟨b, ⟨hb, hbx⟩, hu⟩ := hM.cover x hx
  refine ⟨b, ?_, hb, hbx, fun o' h1 h2 => hu o' ⟨h1, h2⟩⟩
  have hlm : G.lmin ≤ maxLevel := le_trans (hM.valid b hb).1 (hlev b hb).2
  have hvx : Covers G ⟨maxLevel, fun i => ⌊x i / (1 / (cellCount G i maxLevel : ℚ))⌋₊⟩ x := by
    intro i
    have h0 : (0 : ℚ) < G.count i maxLevel := by exact_mod_cast count_pos hG i _
    have e : x i / (1 / (cellCount G i maxLevel : ℚ)) = x i * G.count i maxLevel := by
      rw [cellCount_eq]; field_simp
    have hn := mul_nonneg (hx i).1 h0.le
    unfold lo hi
    simp only [e]
    constructor
    · rw [div_le_iff₀ h0]; exact Nat.floor_le hn
    · rw [lt_div_iff₀ h0]; exact_mod_cast Nat.lt_floor_add_one _
  unfold getiOctFromPos
  apply searchUp_spec hb
  · exact anc_of_covers hG (hM.valid b hb) (hlev b hb).2 hbx hvx
  · intro c hc hca
    exact hu c ⟨hc, hca.covers hG (hM.valid c hc).1 hvx⟩
  · have := hlev b hb
    omega

/-- The hypotheses hold for a refined mesh, and the lookup computes. -/
example : Tiling exGrid exMesh.toFinset ∧
    (∀ o ∈ exMesh.toFinset, 1 ≤ o.level ∧ o.level ≤ 3) ∧
    (∀ i, 0 ≤ (![1/3, 4/5] : Fin 2 → ℚ) i ∧ (![1/3, 4/5] : Fin 2 → ℚ) i < 1) := by
  refine ⟨exMesh_tiling, by decide, ?_⟩
  intro i; fin_cases i <;> norm_num

/-- C05: on a 2:1 balanced tiling the neighbour search of a leaf in a non-zero direction succeeds,
lists no octant twice, fits in the 2^(d-1) slots of the result, and returns exactly the leaves
adjacent in that direction. In particular the result is empty iff nothing is adjacent (outside a
non-periodic boundary), and periodic directions wrap. -/
theorem C05_findNeighbors_exact {G : Grid d} (hG : G.WF) {M : Finset (Oct d)} (hM : Tiling G M)
    (hB : Balanced G M) {a : Oct d} (ha : a ∈ M) (off : Fin d → SignType)
    (hoff : ¬ ∀ i, off i = 0) :
    ∃ ns, findNeighbors G M a off = some ns ∧ ns.Nodup ∧ ns.length ≤ 2 ^ (d - 1) ∧
      ∀ b, b ∈ ns ↔ (b ∈ M ∧ DirAdj G a off b) := by
  obtain ⟨ns, h1, h2, h3⟩ := findNeighbors_spec hG hM hB ha off hoff
  refine ⟨ns, h1, h2, ?_, h3⟩
  have one : 1 ≤ 2 ^ (d - 1) := Nat.one_le_two_pow
  unfold findNeighbors at h1
  rw [if_neg hoff] at h1
  split at h1
  · simp at h1; subst h1; simp
  · simp only at h1
    split at h1
    · simp at h1; subst h1; simpa using one
    · split at h1
      · simp at h1; subst h1; simpa using one
      · split at h1
        · simp at h1; subst h1; exact finer_length _ _ _ hoff
        · simp at h1

/-- C05: the search in the zero direction returns the octant itself. -/
theorem C05_findNeighbors_self (G : Grid d) (M : Finset (Oct d)) (a : Oct d) :
    findNeighbors G M a (fun _ => 0) = some [a] := by
  simp [findNeighbors]

/-- C05: the search finds nothing exactly when the direction leaves a non-periodic domain. -/
theorem C05_findNeighbors_empty_iff {G : Grid d} (hG : G.WF) {M : Finset (Oct d)} (hM : Tiling G M)
    {a : Oct d} (ha : a ∈ M) (off : Fin d → SignType)
    (hoff : ¬ ∀ i, off i = 0) :
    findNeighbors G M a off = some [] ↔
      ∃ i, G.periodic i = false ∧
        ((off i = 1 ∧ hi G a i = 1) ∨ (off i = -1 ∧ lo G a i = 0)) := by
  have hva := hM.valid a ha
  have bd : isBoundary G a off = true ↔ ∃ i, G.periodic i = false ∧
        ((off i = 1 ∧ hi G a i = 1) ∨ (off i = -1 ∧ lo G a i = 0)) := by
    rw [← not_iff_not, Bool.not_eq_true, isBoundary_iff hG]
    push Not
    refine forall_congr' fun i => ?_
    have h0 : (0 : ℚ) < G.count i a.level := by exact_mod_cast count_pos hG i _
    have hp := hva.2 i
    have e1 : hi G a i = 1 ↔ a.pos i + 1 = G.count i a.level := by
      unfold hi; rw [div_eq_one_iff_eq (ne_of_gt h0)]; norm_cast
    have e2 : lo G a i = 0 ↔ a.pos i = 0 := by
      unfold lo; rw [div_eq_zero_iff]
      simp [ne_of_gt h0]
    rw [Ne, Ne, e1, e2]
    unfold InDom
    cases hper : G.periodic i
    · simp only [Bool.false_eq_true, false_or, forall_const]
      cases ho : off i
      · simp; omega
      · simp; omega
      · simp; omega
    · simp
  rw [← bd]
  unfold findNeighbors
  rw [if_neg hoff]
  by_cases hb : isBoundary G a off = true
  · rw [if_pos hb]; simp [hb]
  · rw [if_neg hb]
    simp only [hb]
    refine iff_of_false ?_ (by simp)
    split
    · simp
    · split
      · simp
      · split
        · intro h
          simp only [Option.some.injEq] at h
          have hl : (finerNeighbors a.level (neighborPos G a off) off).length = 0 := by rw [h]; rfl
          unfold finerNeighbors at hl
          rw [List.length_map, length_loops, Finset.prod_eq_zero_iff] at hl
          obtain ⟨i, -, hi⟩ := hl
          split at hi <;> simp at hi
        · simp

/-- The coarse octant (1;1,0) of the example sees the two fine octants on its left face, the
periodic images on its right face, and nothing below. -/
example : findNeighbors exGrid exMesh.toFinset ⟨1, ![1, 0]⟩ ![-1, 0] =
      some [⟨2, ![1, 0]⟩, ⟨2, ![1, 1]⟩] ∧
    findNeighbors exGrid exMesh.toFinset ⟨1, ![1, 0]⟩ ![1, 0] =
      some [⟨2, ![0, 0]⟩, ⟨2, ![0, 1]⟩] ∧
    findNeighbors exGrid exMesh.toFinset ⟨1, ![1, 0]⟩ ![0, -1] = some [] := by decide +kernel

/-- Without balance the search can read an absent key: a leaf next to leaves two levels finer. -/
theorem C05_balance_needed :
    ∃ (G : Grid 1) (M : List (Oct 1)) (a : Oct 1) (off : Fin 1 → SignType),
      G.WF ∧ Tiling G M.toFinset ∧ a ∈ M ∧ findNeighbors G M.toFinset a off = none := by
  refine ⟨⟨1, ![2], ![false]⟩,
    [⟨1, ![0]⟩, ⟨3, ![4]⟩, ⟨3, ![5]⟩, ⟨2, ![3]⟩], ⟨1, ![0]⟩, ![1], ⟨⟨by decide⟩, by decide⟩, ?_,
    by decide, by decide +kernel⟩
  exact tiling_of_check ⟨⟨by decide⟩, by decide⟩ _ 3 (by decide)

/-- C06: if `b` is found from `a` in some direction then `a` is found from `b` in some direction. -/
theorem C06_neighbors_symmetric {G : Grid d} (hG : G.WF) {M : Finset (Oct d)} (hM : Tiling G M)
    (hB : Balanced G M) {a b : Oct d} (ha : a ∈ M) (off : Fin d → SignType)
    (hoff : ¬ ∀ i, off i = 0) (ns : List (Oct d)) (hns : findNeighbors G M a off = some ns)
    (hb : b ∈ ns) :
    b ∈ M ∧ ∃ off', (¬ ∀ i, off' i = 0) ∧ ∃ ns', findNeighbors G M b off' = some ns' ∧ a ∈ ns' := by
  obtain ⟨ns1, e1, -, h1⟩ := findNeighbors_spec hG hM hB ha off hoff
  rw [hns] at e1
  simp only [Option.some.injEq] at e1
  subst e1
  obtain ⟨hbM, hadj⟩ := (h1 b).1 hb
  refine ⟨hbM, ?_⟩
  by_cases hab : b = a
  · subst hab
    exact ⟨off, hoff, ns, hns, hb⟩
  · obtain ⟨off', h0, h2⟩ := hM.exists_dir hG hbM ha hab (hadj.touch hG).symm
    obtain ⟨ns2, e2, -, h3⟩ := findNeighbors_spec hG hM hB hbM off' h0
    exact ⟨off', h0, ns2, e2, (h3 a).2 ⟨ha, h2⟩⟩

/-- C06: through faces, the opposite direction leads back: `b` is found from `a` across a face iff
`a` is found from `b` across the opposite face. -/
theorem C06_face_neighbors_reverse {G : Grid d} (hG : G.WF) {M : Finset (Oct d)} (hM : Tiling G M)
    (hB : Balanced G M) {a b : Oct d} (ha : a ∈ M) (hb : b ∈ M) (off : Fin d → SignType) (j : Fin d)
    (hj : off j ≠ 0) (h0 : ∀ i, i ≠ j → off i = 0) :
    (∃ ns, findNeighbors G M a off = some ns ∧ b ∈ ns) ↔
      (∃ ns, findNeighbors G M b (fun i => - off i) = some ns ∧ a ∈ ns) := by
  have hoff : ¬ ∀ i, off i = 0 := fun h => hj (h j)
  have hoff' : ¬ ∀ i, - off i = 0 := fun h => hj (by
    have := h j
    revert this
    cases off j <;> decide)
  obtain ⟨n1, e1, -, h1⟩ := findNeighbors_spec hG hM hB ha off hoff
  obtain ⟨n2, e2, -, h2⟩ := findNeighbors_spec hG hM hB hb (fun i => - off i) hoff'
  rw [e1, e2]
  simp only [Option.some.injEq, exists_eq_left', h1, h2, ha, hb, true_and]
  constructor
  · exact fun h => dirAdj_face_reverse hG hM ha hb hj h0 h
  · intro h
    have := dirAdj_face_reverse hG hM hb ha (off := fun i => - off i) (j := j)
      (fun h => hj (by
        revert h
        cases off j <;> decide))
      (fun i hi => by simp [h0 i hi]) h
    have e : (fun i => - - off i) = off := by
      funext i
      cases off i <;> rfl
    rwa [e] at this

/-- The symmetric statement of C06 fails with opposite directions at corners: a fine octant's corner
neighbour can be a coarse octant whose opposite corner direction leads elsewhere. -/
example : findNeighbors exGrid exMesh.toFinset ⟨2, ![1, 0]⟩ ![1, 1] = some [⟨1, ![1, 0]⟩] ∧
    findNeighbors exGrid exMesh.toFinset ⟨1, ![1, 0]⟩ ![-1, -1] = some [] := by decide +kernel

end Verif.Octree
