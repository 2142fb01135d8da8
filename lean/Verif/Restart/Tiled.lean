import Verif.Restart.Mesh
import Verif.Partition.Props
import Mathlib.Data.List.Sort

/-!
# C67: tiled restart

Model of `core/src/init/InitialConditions_tiled_restart.cpp` L208-368: the mesh that is read is repeated `nrep` times in each
direction, on as many ranks as there are tiles. Particles are not modelled (the code says that they do not work yet).
-/

namespace Verif.Restart

open Verif.Octree Verif.Adapt Verif.Cells Verif.Partition Verif.Morton

variable {d P : ℕ}

/-! ### Model -/

/-- L232-237. `log2` with a tolerance of `1.00001`, truncated, is the integer logarithm for `nrep < 10^5`. -/
def levelDiff (nrep : Fin d → ℕ) : ℕ := Finset.univ.sup fun k => Nat.log2 (nrep k)

/-- L251-269: the number of coarse octants in the file, from the positions and levels of the octants. -/
def detectCoarse (lmin : ℕ) (N : Finset (Oct d)) (k : Fin d) : ℕ :=
  N.sup fun o => ⌊(100001 / 100000 : ℚ) * (o.pos k * (1 / 2 ^ o.level) + 1 / 2 ^ lmin) / (1 / 2 ^ lmin)⌋₊

/-- L238, L274-282: the tree that is read, for a new mesh with the grid `G'`. -/
def tiledInput (G' : Grid d) (nrep : Fin d → ℕ) (N : Finset (Oct d)) : Grid d :=
  ⟨G'.lmin - levelDiff nrep, detectCoarse (G'.lmin - levelDiff nrep) N, fun _ => false⟩

/-- L298-314: marker of an octant of the new mesh. `FMOD(x, 1.0)` of a number that is not negative is its fractional part. -/
def tiledMark (G' : Grid d) (nrep : Fin d → ℕ) (N : Finset (Oct d)) (lmax level : ℕ) (o : Oct d) : Option ℤ :=
  (getiOctFromPos (tiledInput G' nrep N) N (tiledInput G' nrep N).lmin lmax fun k => Int.fract (queryPos G' o k * nrep k)).map
    fun b => if level < b.level + levelDiff nrep then 1 else 0

/-- L287-330: one iteration of the loop, as in C38. -/
def tiledStep (G' : Grid d) (nrep : Fin d → ℕ) (N : Finset (Oct d)) (lmax : ℕ) (D : Finset (Oct d) → Dist d P) (level : ℕ)
    (M : Finset (Oct d)) : Option (Finset (Oct d)) :=
  markStep G' (tiledMark G' nrep N lmax level) (D M) M

/-- L287: `n` iterations from `level`. -/
def tiledLoop (G' : Grid d) (nrep : Fin d → ℕ) (N : Finset (Oct d)) (lmax : ℕ) (D : Finset (Oct d) → Dist d P) :
    ℕ → ℕ → Finset (Oct d) → Option (Finset (Oct d))
  | 0, _, M => some M
  | n + 1, level, M => (tiledStep G' nrep N lmax D level M).bind (tiledLoop G' nrep N lmax D n (level + 1))

/-- L225-337: the mesh at the end. -/
def tiledMesh (G' : Grid d) (nrep : Fin d → ℕ) (N : Finset (Oct d)) (lmax : ℕ) (D : Finset (Oct d) → Dist d P) :
    Option (Finset (Oct d)) :=
  tiledLoop G' nrep N lmax D (lmax - G'.lmin) G'.lmin (coarseMesh G')

/-- L359-366: what the octants of a rank are given: octant number `i` gets block `i % nOcts_written` of the file. -/
def tiledCopy {α : Type} (file : List α) (l : List (Oct d)) : List (Option α) := l.mapIdx fun i _ => file[i % file.length]?

/-! ### Specification: copies of a mesh -/

/-- The grid of `nrep` copies of `G`, with levels numbered from `G.lmin + diff`. -/
def tileGrid (G : Grid d) (nrep : Fin d → ℕ) (diff : ℕ) (per : Fin d → Bool) : Grid d :=
  ⟨G.lmin + diff, fun k => nrep k * G.coarse k, per⟩

/-- The copy of an octant in tile `t`. -/
def copy (G : Grid d) (diff : ℕ) (t : Fin d → ℕ) (o : Oct d) : Oct d :=
  ⟨o.level + diff, fun k => t k * G.count k o.level + o.pos k⟩

/-- The tiles. -/
def tiles (nrep : Fin d → ℕ) : Finset (Fin d → ℕ) := Fintype.piFinset fun k => Finset.range (nrep k)

/-- All copies of all octants. -/
def copies (G : Grid d) (nrep : Fin d → ℕ) (diff : ℕ) (N : Finset (Oct d)) : Finset (Oct d) :=
  (tiles nrep ×ˢ N).image fun p => copy G diff p.1 p.2

/-! ### Geometry of copies -/

theorem mem_tiles {nrep t : Fin d → ℕ} : t ∈ tiles nrep ↔ ∀ k, t k < nrep k := by
  unfold tiles
  simp [Fintype.mem_piFinset]

theorem mem_copies {G : Grid d} {nrep : Fin d → ℕ} {diff : ℕ} {N : Finset (Oct d)} {a : Oct d} :
    a ∈ copies G nrep diff N ↔ ∃ t, (∀ k, t k < nrep k) ∧ ∃ o ∈ N, a = copy G diff t o := by
  unfold copies
  simp only [Finset.mem_image, Finset.mem_product, mem_tiles, Prod.exists]
  constructor
  · rintro ⟨t, o, ⟨h1, h2⟩, rfl⟩
    exact ⟨t, h1, o, h2, rfl⟩
  · rintro ⟨t, h1, o, h2, rfl⟩
    exact ⟨t, o, ⟨h1, h2⟩, rfl⟩

section

variable {G : Grid d} (hG : G.Pos) {nrep : Fin d → ℕ} (hn : ∀ k, 0 < nrep k) (diff : ℕ) (per : Fin d → Bool)

theorem tile_count {l : ℕ} (k : Fin d) : (tileGrid G nrep diff per).count k (l + diff) = nrep k * G.count k l := by
  unfold tileGrid Grid.count
  simp only
  rw [show l + diff - (G.lmin + diff) = l - G.lmin by omega, Nat.mul_assoc]

include hG hn in
theorem lo_copy (t : Fin d → ℕ) (o : Oct d) (k : Fin d) :
    lo (tileGrid G nrep diff per) (copy G diff t o) k = (t k + lo G o k) / nrep k := by
  have h1 : (0 : ℚ) < G.count k o.level := by exact_mod_cast count_pos hG k _
  have h2 : (0 : ℚ) < nrep k := by exact_mod_cast hn k
  unfold lo
  change ((t k * G.count k o.level + o.pos k : ℕ) : ℚ) / ((tileGrid G nrep diff per).count k (o.level + diff) : ℚ) = _
  rw [tile_count]
  push_cast
  field_simp

include hG hn in
theorem hi_copy (t : Fin d → ℕ) (o : Oct d) (k : Fin d) :
    hi (tileGrid G nrep diff per) (copy G diff t o) k = (t k + hi G o k) / nrep k := by
  have h1 : (0 : ℚ) < G.count k o.level := by exact_mod_cast count_pos hG k _
  have h2 : (0 : ℚ) < nrep k := by exact_mod_cast hn k
  unfold hi
  change (((t k * G.count k o.level + o.pos k : ℕ) : ℚ) + 1) / ((tileGrid G nrep diff per).count k (o.level + diff) : ℚ) = _
  rw [tile_count]
  push_cast
  field_simp
  ring

theorem copy_valid {t : Fin d → ℕ} (ht : ∀ k, t k < nrep k) {o : Oct d} (ho : Valid G o) :
    Valid (tileGrid G nrep diff per) (copy G diff t o) := by
  refine ⟨Nat.add_le_add_right ho.1 _, fun k => ?_⟩
  change t k * G.count k o.level + o.pos k < (tileGrid G nrep diff per).count k (o.level + diff)
  rw [tile_count]
  calc t k * G.count k o.level + o.pos k < t k * G.count k o.level + G.count k o.level := by have := ho.2 k; omega
    _ = (t k + 1) * G.count k o.level := by ring
    _ ≤ _ := Nat.mul_le_mul_right _ (ht k)

include hG hn in
theorem covers_copy (t : Fin d → ℕ) (o : Oct d) (x : Fin d → ℚ) :
    Covers (tileGrid G nrep diff per) (copy G diff t o) x ↔ Covers G o fun k => x k * nrep k - t k := by
  unfold Covers
  refine forall_congr' fun k => ?_
  have h2 : (0 : ℚ) < nrep k := by exact_mod_cast hn k
  rw [lo_copy hG hn, hi_copy hG hn, div_le_iff₀ h2, lt_div_iff₀ h2]
  constructor <;> rintro ⟨h3, h4⟩ <;> constructor <;> linarith

/-- The tile of a point is given by the integer part. -/
theorem tile_of_point {x : ℚ} {n t : ℕ} (h0 : 0 ≤ x * n - t) (h1 : x * n - t < 1) : Int.fract (x * n) = x * n - t := by
  have : ⌊x * n⌋ = (t : ℤ) := by
    rw [Int.floor_eq_iff]
    push_cast
    constructor <;> linarith
  unfold Int.fract
  rw [this]
  push_cast
  ring

include hG hn in
/-- Copies of a tiling are a tiling. -/
theorem copies_tiling {N : Finset (Oct d)} (hN : Tiling G N) : Tiling (tileGrid G nrep diff per) (copies G nrep diff N) := by
  constructor
  · intro a ha
    obtain ⟨t, ht, o, ho, rfl⟩ := mem_copies.1 ha
    exact copy_valid diff per ht (hN.valid o ho)
  · intro x hx
    have hn' : ∀ k, (0 : ℚ) < nrep k := fun k => by exact_mod_cast hn k
    have hf : ∀ k, 0 ≤ x k * nrep k := fun k => mul_nonneg (hx k).1 (hn' k).le
    have hlt : ∀ k, ⌊x k * nrep k⌋₊ < nrep k := fun k => by
      rw [Nat.floor_lt (hf k)]
      nlinarith [(hx k).2, hn' k]
    have hfr : ∀ k, 0 ≤ x k * nrep k - ⌊x k * nrep k⌋₊ ∧ x k * nrep k - ⌊x k * nrep k⌋₊ < 1 := fun k => by
      constructor
      · linarith [Nat.floor_le (hf k)]
      · linarith [Nat.lt_floor_add_one (x k * nrep k)]
    obtain ⟨o, ⟨ho, hc⟩, hu⟩ := hN.cover _ hfr
    refine ⟨copy G diff (fun k => ⌊x k * nrep k⌋₊) o, ⟨mem_copies.2 ⟨_, hlt, o, ho, rfl⟩, (covers_copy hG hn diff per _ _ _).2 hc⟩, ?_⟩
    rintro a ⟨ha, hca⟩
    obtain ⟨t, ht, o', ho', rfl⟩ := mem_copies.1 ha
    rw [covers_copy hG hn] at hca
    have e : t = fun k => ⌊x k * nrep k⌋₊ := by
      funext k
      have h1 := (hca k).1
      have h2 := (hca k).2
      have h3 := lo_nonneg (G := G) o' k
      have h4 := hi_le_one hG (hN.valid o' ho') k
      refine ((Nat.floor_eq_iff (hf k)).2 ⟨?_, ?_⟩).symm <;> linarith
    subst e
    rw [hu o' ⟨ho', hca⟩]

include hG hn in
/-- Copies of a mesh that is balanced also through the boundaries at which copies meet are balanced. -/
theorem copies_balanced {N : Finset (Oct d)} (hN : Tiling G N)
    (hB : Balanced { G with periodic := fun k => decide (1 < nrep k) || per k } N) :
    Balanced (tileGrid G nrep diff per) (copies G nrep diff N) := by
  intro a ha b hb hT
  obtain ⟨t, ht, o, ho, rfl⟩ := mem_copies.1 ha
  obtain ⟨u, hu, o', ho', rfl⟩ := mem_copies.1 hb
  have key : Touch { G with periodic := fun k => decide (1 < nrep k) || per k } o o' := by
    intro k
    obtain ⟨s, hs, h1, h2⟩ := hT k
    have hn' : (0 : ℚ) < nrep k := by exact_mod_cast hn k
    rw [lo_copy hG hn, hi_copy hG hn, div_add' _ _ _ hn'.ne', div_le_div_iff_of_pos_right hn'] at h1
    rw [lo_copy hG hn, hi_copy hG hn, div_add' _ _ _ hn'.ne', div_le_div_iff_of_pos_right hn'] at h2
    have a1 := lo_nonneg (G := G) o k
    have a2 := hi_le_one hG (hN.valid o ho) k
    have b1 := lo_nonneg (G := G) o' k
    have b2 := hi_le_one hG (hN.valid o' ho') k
    refine ⟨(u k : ℤ) - t k + s * nrep k, ?_, ?_, ?_⟩
    · have g1 : ((u k : ℤ) - t k + s * nrep k : ℚ) ≤ 1 := by push_cast; linarith
      have g2 : (-1 : ℚ) ≤ ((u k : ℤ) - t k + s * nrep k : ℚ) := by push_cast; linarith
      have g1' : (u k : ℤ) - t k + s * nrep k ≤ 1 := by exact_mod_cast g1
      have g2' : -1 ≤ (u k : ℤ) - t k + s * nrep k := by exact_mod_cast g2
      unfold Shift
      by_cases hper : (decide (1 < nrep k) || per k) = true
      · by_cases e : (u k : ℤ) - t k + s * nrep k = 0
        · exact Or.inl e
        · refine Or.inr ⟨hper, ?_⟩
          omega
      · left
        rw [Bool.or_eq_true, decide_eq_true_iff] at hper
        push Not at hper
        have hs0 : s = 0 := by
          rcases hs with h | ⟨h, -⟩
          · exact h
          · exact absurd h hper.2
        have := ht k
        have := hu k
        have := hper.1
        rw [hs0]
        omega
    · change lo G o k ≤ hi G o' k + _
      push_cast
      linarith
    · change lo G o' k + _ ≤ hi G o k
      push_cast
      linarith
  have := hB o ho o' ho' key
  change o.level + diff ≤ o'.level + diff + 1
  omega

end

/-! ### The mesh -/

/-- **C67** (coarse grid) The number of coarse octants is found if `(coarse + 1) * 2^levels` is at most `10^5`. Missing: finer
meshes, see `C67_coarse_fails`. -/
theorem C67_coarse_partial {G : Grid d} (hG : G.Pos) {N : Finset (Oct d)} (hN : Tiling G N) (lmax : ℕ)
    (hlev : ∀ o ∈ N, o.level ≤ lmax) (k : Fin d) (hsmall : (G.coarse k + 1) * 2 ^ (lmax - G.lmin) ≤ 100000) :
    detectCoarse G.lmin N k = G.coarse k := by
  have hterm : ∀ o : Oct d, G.lmin ≤ o.level →
      (100001 / 100000 : ℚ) * (o.pos k * (1 / 2 ^ o.level) + 1 / 2 ^ G.lmin) / (1 / 2 ^ G.lmin) =
        100001 / 100000 * (o.pos k / 2 ^ (o.level - G.lmin) + 1) := by
    intro o hl
    have : (2 : ℚ) ^ o.level = 2 ^ G.lmin * 2 ^ (o.level - G.lmin) := by rw [← pow_add]; congr 1; omega
    rw [this]
    field_simp
  apply le_antisymm
  · refine Finset.sup_le fun o ho => ?_
    have hv := hN.valid o ho
    rw [hterm o hv.1, ← Nat.lt_succ_iff, Nat.floor_lt (by positivity)]
    have h1 : o.pos k + 1 ≤ G.coarse k * 2 ^ (o.level - G.lmin) := hv.2 k
    have h1' : (o.pos k : ℚ) + 1 ≤ G.coarse k * 2 ^ (o.level - G.lmin) := by exact_mod_cast h1
    have h2 : (2 : ℕ) ^ (o.level - G.lmin) ≤ 2 ^ (lmax - G.lmin) :=
      Nat.pow_le_pow_right (by decide) (by have := hlev o ho; omega)
    have h3 : (G.coarse k + 1) * 2 ^ (o.level - G.lmin) ≤ 100000 := (Nat.mul_le_mul_left _ h2).trans hsmall
    have h3' : ((G.coarse k : ℚ) + 1) * 2 ^ (o.level - G.lmin) ≤ 100000 := by exact_mod_cast h3
    have hp : (0 : ℚ) < 2 ^ (o.level - G.lmin) := by positivity
    have h4 : (o.pos k : ℚ) / 2 ^ (o.level - G.lmin) + 1 ≤ G.coarse k + 1 - 1 / 2 ^ (o.level - G.lmin) := by
      rw [← sub_nonneg]
      have : (G.coarse k : ℚ) + 1 - 1 / 2 ^ (o.level - G.lmin) - (o.pos k / 2 ^ (o.level - G.lmin) + 1) =
          (G.coarse k * 2 ^ (o.level - G.lmin) - (o.pos k + 1)) / 2 ^ (o.level - G.lmin) := by
        field_simp
        ring
      rw [this]
      exact div_nonneg (by linarith) hp.le
    have h5 : ((G.coarse k : ℚ) + 1) / 100000 ≤ 1 / 2 ^ (o.level - G.lmin) := by
      rw [div_le_div_iff₀ (by norm_num) hp]
      linarith
    push_cast
    have h6 : (0 : ℚ) < 1 / 2 ^ (o.level - G.lmin) := by positivity
    have h7 := mul_le_mul_of_nonneg_left h4 (show (0 : ℚ) ≤ 100001 / 100000 by norm_num)
    refine lt_of_le_of_lt h7 ?_
    linarith
  · have hc := hG.pos k
    obtain ⟨o, ho, hcov⟩ := (hN.cover (fun i => if i = k then ((G.coarse k : ℚ) - 1) / G.coarse k else 0) (by
      intro i
      have hp : (0 : ℚ) < G.coarse k := by exact_mod_cast hc
      have hp1 : (1 : ℚ) ≤ G.coarse k := by exact_mod_cast hc
      by_cases h : i = k
      · simp only [if_pos h]
        constructor
        · exact div_nonneg (by linarith) hp.le
        · rw [div_lt_one hp]; linarith
      · simp only [if_neg h]
        norm_num)).exists
    refine le_trans ?_ (Finset.le_sup ho)
    have hv := hN.valid o ho
    rw [hterm o hv.1]
    apply Nat.le_floor
    have h2 := (hcov k).2
    simp only [if_true] at h2
    unfold hi Grid.count at h2
    have hp : (0 : ℚ) < G.coarse k := by exact_mod_cast hc
    have hq : (0 : ℚ) < 2 ^ (o.level - G.lmin) := by positivity
    push_cast at h2
    rw [div_lt_div_iff₀ hp (by positivity)] at h2
    have h3 : ((G.coarse k : ℚ) - 1) * 2 ^ (o.level - G.lmin) < o.pos k + 1 := by nlinarith
    have h4 : ((G.coarse k : ℤ) - 1) * 2 ^ (o.level - G.lmin) < o.pos k + 1 := by exact_mod_cast h3
    have h5 : ((G.coarse k : ℚ) - 1) * 2 ^ (o.level - G.lmin) ≤ o.pos k := by exact_mod_cast Int.lt_add_one_iff.1 h4
    have h6 : (G.coarse k : ℚ) - 1 ≤ o.pos k / 2 ^ (o.level - G.lmin) := by
      rw [le_div_iff₀ hq]
      exact h5
    linarith

/-- **C67** (disagreement) The tolerance of `1.00001` is too large for fine meshes: if an octant at the upper boundary is so fine that
`(coarse + 1) * 2^levels` is more than `10^5`, the coarse grid that is found is too large. -/
theorem C67_coarse_fails {G : Grid d} {N : Finset (Oct d)} {o : Oct d} (ho : o ∈ N) (hl : G.lmin ≤ o.level) (k : Fin d)
    (hupper : o.pos k + 1 = G.count k o.level) (hlarge : 100000 < (G.coarse k + 1) * 2 ^ (o.level - G.lmin)) :
    G.coarse k < detectCoarse G.lmin N k := by
  refine lt_of_lt_of_le ?_ (Finset.le_sup (f := fun o : Oct d =>
    ⌊(100001 / 100000 : ℚ) * (o.pos k * (1 / 2 ^ o.level) + 1 / 2 ^ G.lmin) / (1 / 2 ^ G.lmin)⌋₊) ho)
  rw [Nat.lt_iff_add_one_le]
  apply Nat.le_floor
  have e1 : (2 : ℚ) ^ o.level = 2 ^ G.lmin * 2 ^ (o.level - G.lmin) := by rw [← pow_add]; congr 1; omega
  have e2 : (o.pos k : ℚ) = G.coarse k * 2 ^ (o.level - G.lmin) - 1 := by
    have : ((o.pos k + 1 : ℕ) : ℚ) = ((G.coarse k * 2 ^ (o.level - G.lmin) : ℕ) : ℚ) := by exact_mod_cast hupper
    push_cast at this
    linarith
  have hq : (0 : ℚ) < 2 ^ (o.level - G.lmin) := by positivity
  have h1 : (100001 : ℚ) ≤ (G.coarse k + 1) * 2 ^ (o.level - G.lmin) := by exact_mod_cast hlarge
  have e3 : (100001 / 100000 : ℚ) * (o.pos k * (1 / 2 ^ o.level) + 1 / 2 ^ G.lmin) / (1 / 2 ^ G.lmin) =
      100001 / 100000 * (G.coarse k + 1 - 1 / 2 ^ (o.level - G.lmin)) := by
    rw [e1, e2]
    field_simp
    ring
  have h2 : (1 : ℚ) / 2 ^ (o.level - G.lmin) ≤ (G.coarse k + 1) / 100001 := by
    rw [div_le_div_iff₀ hq (by norm_num)]
    linarith
  rw [e3]
  push_cast
  linarith

/-- The marker is that of a restart from the tiled mesh. -/
theorem tiledMark_eq {G : Grid d} (hG : G.WF) {nrep : Fin d → ℕ} (hn : ∀ k, 0 < nrep k) {per : Fin d → Bool}
    (hG' : (tileGrid G nrep (levelDiff nrep) per).WF) {N : Finset (Oct d)} (hN : Tiling G N) {lmax : ℕ}
    (hlev : ∀ o ∈ N, o.level + levelDiff nrep ≤ lmax) (hcoarse : ∀ k, detectCoarse G.lmin N k = G.coarse k) (level : ℕ) {o : Oct d}
    (ho : Valid (tileGrid G nrep (levelDiff nrep) per) o) :
    tiledMark (tileGrid G nrep (levelDiff nrep) per) nrep N lmax level o =
      restartMark (tileGrid G nrep (levelDiff nrep) per) (copies G nrep (levelDiff nrep) N) lmax level o := by
  have hN' := copies_tiling hG hn (levelDiff nrep) per hN
  have hq := queryPos_covers hG' o
  have hx : ∀ i, 0 ≤ queryPos (tileGrid G nrep (levelDiff nrep) per) o i ∧
      queryPos (tileGrid G nrep (levelDiff nrep) per) o i < 1 := fun i =>
    ⟨le_trans (lo_nonneg o i) (hq i).1, lt_of_lt_of_le (hq i).2 (hi_le_one hG' ho i)⟩
  obtain ⟨b', h1, h2, h3, -⟩ := C04_getiOctFromPos_correct hG' hN' (tileGrid G nrep (levelDiff nrep) per).lmin lmax
    (fun a ha => ⟨(hN'.valid a ha).1, by
      obtain ⟨t, -, c, hc, rfl⟩ := mem_copies.1 ha
      exact hlev c hc⟩) (queryPos (tileGrid G nrep (levelDiff nrep) per) o) hx
  obtain ⟨t, ht, c, hc, rfl⟩ := mem_copies.1 h2
  rw [covers_copy hG hn] at h3
  have hfr : (fun k => Int.fract (queryPos (tileGrid G nrep (levelDiff nrep) per) o k * nrep k)) =
      fun k => queryPos (tileGrid G nrep (levelDiff nrep) per) o k * nrep k - t k := by
    funext k
    have a1 := lo_nonneg (G := G) c k
    have a2 := hi_le_one hG (hN.valid c hc) k
    exact tile_of_point (by linarith [(h3 k).1]) (by linarith [(h3 k).2])
  obtain ⟨b, g1, g2, g3, g4⟩ := C04_getiOctFromPos_correct hG hN G.lmin lmax
    (fun a ha => ⟨(hN.valid a ha).1, by have := hlev a ha; omega⟩)
    (fun k => queryPos (tileGrid G nrep (levelDiff nrep) per) o k * nrep k - t k) (fun k => by
      have a1 := lo_nonneg (G := G) c k
      have a2 := hi_le_one hG (hN.valid c hc) k
      have a3 := h3 k
      exact ⟨by linarith [a3.1], by linarith [a3.2]⟩)
  have := g4 c hc h3
  subst this
  have hin : tiledInput (tileGrid G nrep (levelDiff nrep) per) nrep N = inputGrid G := by
    have hl : (tileGrid G nrep (levelDiff nrep) per).lmin - levelDiff nrep = G.lmin := by
      unfold tileGrid
      simp
    unfold tiledInput inputGrid
    rw [hl]
    congr 1
    funext k
    exact hcoarse k
  unfold tiledMark restartMark
  rw [hin, hfr]
  have e1 : getiOctFromPos (inputGrid (tileGrid G nrep (levelDiff nrep) per)) (copies G nrep (levelDiff nrep) N)
      (tileGrid G nrep (levelDiff nrep) per).lmin lmax (queryPos (tileGrid G nrep (levelDiff nrep) per) o) = _ := h1
  have e2 : getiOctFromPos (inputGrid G) N (inputGrid G).lmin lmax
      (fun k => queryPos (tileGrid G nrep (levelDiff nrep) per) o k * nrep k - t k) = _ := g1
  rw [e1, e2]
  rfl

/-- The loop ends with the copies. -/
theorem tiledLoop_cut {G : Grid d} (hG : G.WF) {nrep : Fin d → ℕ} (hn : ∀ k, 0 < nrep k) {per : Fin d → Bool}
    (hG' : (tileGrid G nrep (levelDiff nrep) per).WF) {N : Finset (Oct d)} (hN : Tiling G N)
    (hB : Balanced { G with periodic := fun k => decide (1 < nrep k) || per k } N) (h1 : 1 ≤ G.lmin) {lmax : ℕ}
    (hlev : ∀ o ∈ N, o.level + levelDiff nrep ≤ lmax) (hb : lmax < 2 ^ 30)
    (hcoarse : ∀ k, detectCoarse G.lmin N k = G.coarse k) (D : Finset (Oct d) → Dist d P)
    (hD : ∀ M, Tiling (tileGrid G nrep (levelDiff nrep) per) M →
      GhostComplete (tileGrid G nrep (levelDiff nrep) per) M (D M).owner (D M).ghost) (n L : ℕ)
    (hlL : (tileGrid G nrep (levelDiff nrep) per).lmin ≤ L) (hL : L + n = lmax) {M : Finset (Oct d)}
    (hM : Tiling (tileGrid G nrep (levelDiff nrep) per) M) (hBM : Balanced (tileGrid G nrep (levelDiff nrep) per) M)
    (hcut : ∀ o, o ∈ M ↔ Valid (tileGrid G nrep (levelDiff nrep) per) o ∧ Cut (copies G nrep (levelDiff nrep) N) L o) :
    tiledLoop (tileGrid G nrep (levelDiff nrep) per) nrep N lmax D n L M = some (copies G nrep (levelDiff nrep) N) := by
  have hN' := copies_tiling hG hn (levelDiff nrep) per hN
  have hB' := copies_balanced hG hn (levelDiff nrep) per hN hB
  have hlev' : ∀ o ∈ copies G nrep (levelDiff nrep) N, o.level ≤ lmax := by
    intro a ha
    obtain ⟨t, -, c, hc, rfl⟩ := mem_copies.1 ha
    exact hlev c hc
  have hl' : 1 ≤ (tileGrid G nrep (levelDiff nrep) per).lmin := by
    change 1 ≤ G.lmin + levelDiff nrep
    omega
  induction n generalizing L M with
  | zero =>
    simp only [tiledLoop, Option.some.injEq]
    ext o
    rw [hcut]
    constructor
    · rintro ⟨-, ⟨h, -⟩ | ⟨-, b, hb', h2, -⟩⟩
      · exact h
      · have := hlev' b hb'; omega
    · intro ho
      exact ⟨hN'.valid o ho, Or.inl ⟨ho, by have := hlev' o ho; omega⟩⟩
  | succ n ih =>
    obtain ⟨M', e, t1, t2, t3⟩ := markStep_cut hG' hN' hB' hl' hlL (show L < lmax by omega) hb (D M) (hD M hM) hM hBM hcut
      (mark := tiledMark (tileGrid G nrep (levelDiff nrep) per) nrep N lmax L) fun o ho => by
        rw [tiledMark_eq hG hn hG' hN hlev hcoarse L (hM.valid o ho)]
        exact restartMark_cut hG' hN' hlev' (hM.valid o ho) ((hcut o).1 ho).2
    have e' : tiledStep (tileGrid G nrep (levelDiff nrep) per) nrep N lmax D L M = some M' := e
    rw [tiledLoop, e', Option.bind_some]
    exact ih (L + 1) (by omega) (by omega) t1 t2 t3

/-- **C67** (mesh) The mesh after a tiled restart consists of exactly the copies of the mesh in the file, if that mesh is balanced also
through the boundaries at which copies meet, its coarse grid is small (`C67_coarse_partial`), and the new coarse grid is `nrep`
times the old one at the level the code assumes. Missing: fine meshes (`C67_coarse_fails`), and three copies of a full cube
(`C67_three_fails`). -/
theorem C67_mesh_partial {G : Grid d} (hG : G.WF) {nrep : Fin d → ℕ} (hn : ∀ k, 0 < nrep k) {per : Fin d → Bool}
    (hG' : (tileGrid G nrep (levelDiff nrep) per).WF) {N : Finset (Oct d)} (hN : Tiling G N)
    (hB : Balanced { G with periodic := fun k => decide (1 < nrep k) || per k } N) (h1 : 1 ≤ G.lmin) (lmax : ℕ)
    (hlm : G.lmin + levelDiff nrep ≤ lmax) (hlev : ∀ o ∈ N, o.level + levelDiff nrep ≤ lmax) (hb : lmax < 2 ^ 30)
    (hsmall : ∀ k, (G.coarse k + 1) * 2 ^ (lmax - levelDiff nrep - G.lmin) ≤ 100000) (D : Finset (Oct d) → Dist d P)
    (hD : ∀ M, Tiling (tileGrid G nrep (levelDiff nrep) per) M →
      GhostComplete (tileGrid G nrep (levelDiff nrep) per) M (D M).owner (D M).ghost) :
    tiledMesh (tileGrid G nrep (levelDiff nrep) per) nrep N lmax D = some (copies G nrep (levelDiff nrep) N) := by
  have hcoarse : ∀ k, detectCoarse G.lmin N k = G.coarse k := fun k =>
    C67_coarse_partial hG hN (lmax - levelDiff nrep) (fun o ho => by have := hlev o ho; omega) k (hsmall k)
  unfold tiledMesh
  have hl : (tileGrid G nrep (levelDiff nrep) per).lmin = G.lmin + levelDiff nrep := rfl
  refine tiledLoop_cut hG hn hG' hN hB h1 hlev hb hcoarse D hD _ _ le_rfl (by omega) (coarseMesh_tiling hG') coarseMesh_balanced ?_
  have hN' := copies_tiling hG hn (levelDiff nrep) per hN
  intro o
  rw [mem_coarseMesh]
  constructor
  · rintro ⟨hv, hl⟩
    refine ⟨hv, ?_⟩
    obtain ⟨c, hc, h | h⟩ := hN'.exists_leaf hG' hv
    · have : c = o := h.eq_of_level (by have := h.1; have := (hN'.valid c hc).1; omega)
      subst this
      exact Or.inl ⟨hc, by omega⟩
    · rcases Nat.lt_or_ge (tileGrid G nrep (levelDiff nrep) per).lmin c.level with hlt | hge
      · exact Or.inr ⟨hl, c, hc, hlt, h⟩
      · have : o = c := h.eq_of_level (by have := h.1; omega)
        subst this
        exact Or.inl ⟨hc, by omega⟩
  · rintro ⟨hv, ⟨h, h2⟩ | ⟨h, -⟩⟩
    · exact ⟨hv, by have := hv.1; omega⟩
    · exact ⟨hv, h⟩

/-- **C67** (levels) The difference of levels is the logarithm of the largest number of copies, rounded down; if all numbers of copies
are powers of two, the new coarse grid fits at this level. -/
theorem C67_levels {G : Grid d} (hG : G.WF) {nrep : Fin d → ℕ} (hn : ∀ k, 0 < nrep k) :
    (∀ k, nrep k < 2 ^ (levelDiff nrep + 1)) ∧ (∀ e, (∀ k, nrep k < 2 ^ (e + 1)) → levelDiff nrep ≤ e) ∧
      ((∀ k, ∃ q, nrep k = 2 ^ q) → ∀ per, (tileGrid G nrep (levelDiff nrep) per).WF) := by
  refine ⟨fun k => ?_, fun e he => ?_, fun hp per => ⟨⟨fun k => ?_⟩, fun k => ?_⟩⟩
  · have h1 : Nat.log2 (nrep k) ≤ levelDiff nrep := Finset.le_sup (f := fun k => Nat.log2 (nrep k)) (Finset.mem_univ k)
    rw [← Nat.log2_lt (hn k).ne']
    omega
  · refine Finset.sup_le fun k _ => ?_
    have := (Nat.log2_lt (hn k).ne').2 (he k)
    omega
  · exact Nat.mul_pos (hn k) (hG.pos k)
  · obtain ⟨q, hq⟩ := hp k
    have h1 : Nat.log2 (nrep k) ≤ levelDiff nrep := Finset.le_sup (f := fun k => Nat.log2 (nrep k)) (Finset.mem_univ k)
    rw [hq, Nat.log2_two_pow] at h1
    change nrep k * G.coarse k ≤ 2 ^ (G.lmin + levelDiff nrep)
    rw [hq, pow_add, Nat.mul_comm]
    exact Nat.mul_le_mul (hG.le k) (Nat.pow_le_pow_right (by decide) h1)

/-- **C67** (disagreement) The difference of levels is rounded down. Three copies of a coarse grid that is a full cube do not fit into
the levels the code assumes: the required coarse grid has more than `2^level_min` octants in this direction. -/
theorem C67_three_fails (G : Grid d) (k : Fin d) (hfull : G.coarse k = 2 ^ G.lmin) {nrep : Fin d → ℕ} (h3 : nrep k = 3)
    (hle : ∀ i, nrep i ≤ 3) (per : Fin d → Bool) : ¬ (tileGrid G nrep (levelDiff nrep) per).WF := by
  intro h
  have h1 := h.le k
  have hd : levelDiff nrep ≤ 1 := by
    refine Finset.sup_le fun i _ => ?_
    have h0 := hle i
    rcases (by omega : nrep i = 0 ∨ nrep i = 1 ∨ nrep i = 2 ∨ nrep i = 3) with e | e | e | e <;> rw [e] <;> decide
  have h2 : (2 : ℕ) ^ (G.lmin + levelDiff nrep) ≤ 2 ^ (G.lmin + 1) := Nat.pow_le_pow_right (by decide) (by omega)
  have h4 : nrep k * G.coarse k ≤ 2 ^ (G.lmin + 1) := le_trans h1 h2
  rw [h3, hfull, pow_succ] at h4
  have : 0 < 2 ^ G.lmin := by positivity
  omega

/-! ### Data -/

/-- Keys of positions that consist of a tile and a position in the tile. -/
theorem zkey_add {e : ℕ} (n k : ℕ) (p q : Fin d → ℕ) (hq : ∀ c, q c < 2 ^ k) :
    zkey d e (n + k) (fun c => p c * 2 ^ k + q c) = zkey d e n p * 2 ^ (e * k) + zkey d e k q := by
  induction k generalizing q with
  | zero =>
    have : q = fun _ => 0 := by
      funext c
      have := hq c
      simpa using this
    subst this
    simp [zkey]
  | succ k ih =>
    rw [← Nat.add_assoc]
    simp only [zkey]
    have h1 : (fun c => (p c * 2 ^ (k + 1) + q c) / 2) = fun c => p c * 2 ^ k + q c / 2 := by
      funext c
      rw [pow_succ, ← Nat.mul_assoc]
      omega
    have h2 : digit (fun c => p c * 2 ^ (k + 1) + q c) = digit q := by
      unfold digit
      refine Finset.sum_congr rfl fun c _ => ?_
      congr 1
      beta_reduce
      rw [pow_succ, ← Nat.mul_assoc]
      omega
    rw [h1, h2, ih (fun c => q c / 2) fun c => by have := hq c; rw [pow_succ] at this; omega]
    ring

theorem zkey_zero {e : ℕ} (n : ℕ) : zkey d e n (fun _ => 0) = 0 := by
  induction n with
  | zero => rfl
  | succ n ih => simp [zkey, digit, ih]

/-- The position of an octant in units of level `L`. -/
theorem fine_lt {G : Grid d} {p : ℕ} (hp : ∀ k, G.coarse k = 2 ^ p) {L : ℕ} {o : Oct d} (ho : Valid G o) (hL : o.level ≤ L)
    (k : Fin d) : o.pos k * 2 ^ (L - o.level) < 2 ^ (p + (L - G.lmin)) := by
  have h := ho.2 k
  have h1 := ho.1
  unfold Grid.count at h
  rw [hp k, ← pow_add] at h
  calc o.pos k * 2 ^ (L - o.level) < 2 ^ (p + (o.level - G.lmin)) * 2 ^ (L - o.level) :=
        Nat.mul_lt_mul_of_pos_right h (by positivity)
    _ = 2 ^ (p + (L - G.lmin)) := by rw [← pow_add]; congr 1; omega

theorem okey_small {G : Grid d} {p : ℕ} (hp : ∀ k, G.coarse k = 2 ^ p) (hpl : p ≤ G.lmin) {e L : ℕ} {o : Oct d}
    (ho : Valid G o) (hL : o.level ≤ L) :
    okey e L o = zkey d e (p + (L - G.lmin)) fun k => o.pos k * 2 ^ (L - o.level) := by
  have h1 := ho.1
  have h := zkey_add (e := e) (G.lmin - p) (p + (L - G.lmin)) (fun _ => 0) (fun k => o.pos k * 2 ^ (L - o.level)) (fine_lt hp ho hL)
  rw [zkey_zero] at h
  unfold okey
  rw [show G.lmin - p + (p + (L - G.lmin)) = L by omega] at h
  simpa using h

theorem okey_copy {G : Grid d} {p : ℕ} (hp : ∀ k, G.coarse k = 2 ^ p) (hpl : p ≤ G.lmin) {e L diff : ℕ} {o : Oct d}
    (ho : Valid G o) (hL : o.level ≤ L) (t : Fin d → ℕ) :
    okey e (L + diff) (copy G diff t o) =
      zkey d e (G.lmin + diff - p) t * 2 ^ (e * (p + (L - G.lmin))) + okey e L o := by
  have h1 := ho.1
  rw [okey_small hp hpl ho hL, ← zkey_add _ _ _ _ (fine_lt hp ho hL)]
  unfold okey
  rw [show G.lmin + diff - p + (p + (L - G.lmin)) = L + diff by omega]
  congr 1
  funext k
  change (t k * G.count k o.level + o.pos k) * 2 ^ (L + diff - (o.level + diff)) = _
  unfold Grid.count
  rw [hp k, show L + diff - (o.level + diff) = L - o.level by omega, Nat.add_mul, Nat.mul_assoc, ← pow_add, ← pow_add]
  congr 3
  omega

theorem okey_lt_tile {G : Grid d} {p : ℕ} (hp : ∀ k, G.coarse k = 2 ^ p) (hpl : p ≤ G.lmin) {e L : ℕ} (hde : d ≤ e) {o : Oct d}
    (ho : Valid G o) (hL : o.level ≤ L) : okey e L o < 2 ^ (e * (p + (L - G.lmin))) := by
  rw [okey_small hp hpl ho hL]
  exact zkey_lt hde _ _

/-- Tile and octant of a copy are unique. -/
theorem copy_inj {G : Grid d} {diff : ℕ} {t t' : Fin d → ℕ} {o o' : Oct d} (ho : Valid G o) (ho' : Valid G o')
    (h : copy G diff t o = copy G diff t' o') : t = t' ∧ o = o' := by
  have hl : o.level = o'.level := by
    have := congrArg Oct.level h
    change o.level + diff = o'.level + diff at this
    omega
  have hk : ∀ k, t k = t' k ∧ o.pos k = o'.pos k := by
    intro k
    have h1 := congrFun (congrArg Oct.pos h) k
    change t k * G.count k o.level + o.pos k = t' k * G.count k o'.level + o'.pos k at h1
    have h2 := ho.2 k
    have h3 := ho'.2 k
    rw [← hl] at h1 h3
    generalize G.count k o.level = c at *
    have e1 : t k = t' k := by
      have : (t k * c + o.pos k) / c = (t' k * c + o'.pos k) / c := congrArg (· / c) h1
      rwa [Nat.mul_comm, Nat.mul_add_div (by omega), Nat.div_eq_of_lt h2, Nat.mul_comm (t' k), Nat.mul_add_div (by omega),
        Nat.div_eq_of_lt h3, Nat.add_zero, Nat.add_zero] at this
    rw [e1] at h1
    exact ⟨e1, by omega⟩
  refine ⟨funext fun k => (hk k).1, ?_⟩
  obtain ⟨l, q⟩ := o
  obtain ⟨l', q'⟩ := o'
  simp only at hl
  subst hl
  congr 1
  funext k
  exact (hk k).2

/-- The copies of a sorted list, tile after tile, are sorted. -/
theorem copies_sorted {G : Grid d} {p : ℕ} (hp : ∀ k, G.coarse k = 2 ^ p) (hpl : p ≤ G.lmin) {e L diff : ℕ} (hde : d ≤ e)
    {g : List (Oct d)} (hg : ∀ o ∈ g, Valid G o ∧ o.level ≤ L) (hs : g.Pairwise fun a b => okey e L a < okey e L b)
    {T : List (Fin d → ℕ)} (hT : T.Pairwise fun a b => zkey d e (G.lmin + diff - p) a < zkey d e (G.lmin + diff - p) b) :
    (T.map fun t => g.map (copy G diff t)).flatten.Pairwise fun a b => okey e (L + diff) a < okey e (L + diff) b := by
  rw [List.pairwise_flatten]
  constructor
  · intro l hl
    obtain ⟨t, -, rfl⟩ := List.mem_map.1 hl
    rw [List.pairwise_map]
    refine hs.imp_of_mem fun {a b} ha hb h => ?_
    rw [okey_copy hp hpl (hg a ha).1 (hg a ha).2, okey_copy hp hpl (hg b hb).1 (hg b hb).2]
    omega
  · rw [List.pairwise_map]
    refine hT.imp fun {t t'} h x hx y hy => ?_
    obtain ⟨a, ha, rfl⟩ := List.mem_map.1 hx
    obtain ⟨b, hb, rfl⟩ := List.mem_map.1 hy
    rw [okey_copy hp hpl (hg a ha).1 (hg a ha).2, okey_copy hp hpl (hg b hb).1 (hg b hb).2]
    have h1 := okey_lt_tile hp hpl hde (hg a ha).1 (hg a ha).2
    have h2 := Nat.mul_le_mul_right (2 ^ (e * (p + (L - G.lmin)))) h
    rw [Nat.succ_mul] at h2
    omega

/-- A list of all tiles in the order of their keys. -/
theorem sorted_tiles {e n : ℕ} (hde : d ≤ e) (nrep : Fin d → ℕ) (hle : ∀ k, nrep k ≤ 2 ^ n) :
    ∃ T : List (Fin d → ℕ), (T.Pairwise fun a b => zkey d e n a < zkey d e n b) ∧ (∀ t, t ∈ T ↔ t ∈ tiles nrep) ∧
      T.length = (tiles nrep).card := by
  classical
  let r : (Fin d → ℕ) → (Fin d → ℕ) → Prop := fun a b => zkey d e n a ≤ zkey d e n b
  have hperm := List.perm_insertionSort r (tiles nrep).toList
  have : Std.Total r := ⟨fun a b => le_total _ _⟩
  have : IsTrans _ r := ⟨fun a b c => le_trans⟩
  have hsort := List.pairwise_insertionSort r (tiles nrep).toList
  refine ⟨_, ?_, fun t => by rw [hperm.mem_iff, Finset.mem_toList], by rw [hperm.length_eq, Finset.length_toList]⟩
  have hnd : ((tiles nrep).toList.insertionSort r).Nodup := hperm.nodup_iff.2 (Finset.nodup_toList _)
  refine (hsort.and hnd).imp_of_mem fun {a b} ha hb h => ?_
  refine lt_of_le_of_ne h.1 fun he => h.2 ?_
  rw [hperm.mem_iff, Finset.mem_toList, mem_tiles] at ha hb
  exact zkey_inj hde _ (fun c => lt_of_lt_of_le (ha c) (hle c)) (fun c => lt_of_lt_of_le (hb c) (hle c)) he

theorem tiledCopy_get {α : Type} {file : List α} {l : List (Oct d)} (h : l.length = file.length) {i : ℕ} (hi : i < l.length) :
    (tiledCopy file l)[i]? = some file[i]? := by
  unfold tiledCopy
  rw [List.getElem?_mapIdx, List.getElem?_eq_getElem hi]
  simp [Nat.mod_eq_of_lt (h ▸ hi)]

/-- **C67** (data) If the coarse grid of the file is a cube with a power of two octants in each direction, the mesh consists of the
copies, and there are as many ranks as tiles, then after the balancing without compaction (its default) every octant of every
rank is given the values of the octant it is a copy of. `g` lists the octants in the order of the file. Missing: other coarse
grids, for which the code gives octants the values of other octants (`C67_fields_fails`). -/
theorem C67_fields_partial {α : Type} {G : Grid d} (hG : G.WF) {p : ℕ} (hp : ∀ k, G.coarse k = 2 ^ p)
    {nrep : Fin d → ℕ} (hn : ∀ k, 0 < nrep k) {diff : ℕ} {per : Fin d → Bool} (hG' : (tileGrid G nrep diff per).WF)
    {N : Finset (Oct d)} (hN : Tiling G N) {e L : ℕ} (hde : d ≤ e) (hd : 0 < d) (hL : ∀ o ∈ N, o.level ≤ L)
    (h64 : e * (L + diff) < 64) {g : List (Oct d)} (hg : ∀ o, o ∈ g ↔ o ∈ N)
    (hsort : g.Pairwise fun a b => okey e L a < okey e L b)
    {ls : List (List (Oct d))} (hdis : Distributed e (L + diff) (copies G nrep diff N) ls) (h0 : ls.getD 0 [] ≠ [])
    (hranks : ls.length = ∏ k, nrep k) (v : Oct d → α) :
    ∃ ls' I, loadBalance e (L + diff) 0 ls = some (ls', I) ∧ ls'.flatten = ls.flatten ∧ ls'.length = ls.length ∧
      ∀ l ∈ ls', ∀ (i : ℕ) (t : Fin d → ℕ) (o : Oct d), (∀ k, t k < nrep k) → o ∈ N → l[i]? = some (copy G diff t o) →
        (tiledCopy (g.map v) l)[i]? = some (some (v o)) := by
  obtain ⟨k0⟩ : Nonempty (Fin d) := ⟨⟨0, hd⟩⟩
  have hpl : p ≤ G.lmin := by
    have := hG.le k0
    rw [hp] at this
    exact (Nat.pow_le_pow_iff_right (by decide)).1 this
  have hle : ∀ k, nrep k ≤ 2 ^ (G.lmin + diff - p) := by
    intro k
    have h1 : nrep k * G.coarse k ≤ 2 ^ (G.lmin + diff) := hG'.le k
    rw [hp, show G.lmin + diff = (G.lmin + diff - p) + p by omega, pow_add] at h1
    exact Nat.le_of_mul_le_mul_right h1 (by positivity)
  obtain ⟨T, hTs, hTm, hTl⟩ := sorted_tiles (e := e) hde nrep hle
  have hgv : ∀ o ∈ g, Valid G o ∧ o.level ≤ L := fun o ho => ⟨hN.valid o ((hg o).1 ho), hL o ((hg o).1 ho)⟩
  have hflat : ls.flatten = (T.map fun t => g.map (copy G diff t)).flatten := by
    refine zlist_unique hdis.order (copies_sorted hp hpl hde hgv hsort hTs) fun a => ?_
    rw [hdis.mem, mem_copies]
    simp only [List.mem_flatten, List.mem_map, hTm, mem_tiles]
    constructor
    · rintro ⟨t, ht, o, ho, rfl⟩
      exact ⟨_, ⟨t, ht, rfl⟩, List.mem_map.2 ⟨o, (hg o).2 ho, rfl⟩⟩
    · rintro ⟨_, ⟨t, ht, rfl⟩, hm⟩
      obtain ⟨o, ho, rfl⟩ := List.mem_map.1 hm
      exact ⟨t, ht, o, (hg o).1 ho, rfl⟩
  have hcard : T.length = ls.length := by
    rw [hTl, hranks]
    simp [tiles]
  have hlen : ls.flatten.length = ls.length * g.length := by
    rw [hflat, List.length_flatten, List.map_map]
    have : (List.length ∘ fun t => g.map (copy G diff t)) = fun _ => g.length := by funext t; simp
    rw [this, List.map_const', List.sum_replicate, hcard, smul_eq_mul]
  have hlp : 0 < ls.length := by
    rw [hranks]
    exact Finset.prod_pos fun k _ => hn k
  have hgp : 0 < g.length := by
    by_contra hc
    have : ls.flatten.length = 0 := by rw [hlen]; simp at hc; simp [hc]
    have h2 : ls.flatten = [] := List.eq_nil_of_length_eq_zero this
    rw [List.flatten_eq_nil_iff] at h2
    apply h0
    rcases ls with _ | ⟨l, ls⟩
    · rfl
    · exact h2 l (by simp)
  have hN' := copies_tiling hG.toPos hn diff per hN
  have hL' : ∀ b ∈ copies G nrep diff N, b.level ≤ L + diff := by
    intro b hb
    obtain ⟨t, -, o, ho, rfl⟩ := mem_copies.1 hb
    have := hL o ho
    change o.level + diff ≤ _
    omega
  have hsz : ls.length ≤ ls.flatten.length := by rw [hlen]; exact Nat.le_mul_of_pos_right _ hgp
  obtain ⟨ls', I, e1, l1, f1, -⟩ := C16_loadBalance_permutes hG' hN' hde hL' h64 hdis h0 hsz 0
  obtain ⟨ls'', I', e2, ev⟩ := C17_even_without_compaction hG' hN' hde hL' h64 hdis h0 hsz
  have : ls'' = ls' := by rw [e1] at e2; simp at e2; exact e2.1.symm
  subst this
  have hev : ∀ l ∈ ls'', l.length = g.length := by
    intro l hl
    obtain ⟨a1, a2⟩ := ev l hl
    rw [hlen, Nat.mul_div_cancel_left _ hlp] at a1
    rw [hlen, show ls.length * g.length + ls.length - 1 = ls.length * g.length + (ls.length - 1) by omega,
      Nat.mul_add_div hlp, Nat.div_eq_of_lt (by omega : ls.length - 1 < ls.length)] at a2
    omega
  have hls : ls'' = T.map fun t => g.map (copy G diff t) := by
    rw [List.eq_iff_flatten_eq]
    refine ⟨by rw [f1, hflat], ?_⟩
    have b1 : ls''.map List.length = List.replicate ls.length g.length := by
      rw [List.eq_replicate_iff]
      refine ⟨by rw [List.length_map, l1], ?_⟩
      intro x hx
      obtain ⟨l, hl, rfl⟩ := List.mem_map.1 hx
      exact hev l hl
    have b2 : (T.map fun t => g.map (copy G diff t)).map List.length = List.replicate ls.length g.length := by
      rw [List.eq_replicate_iff]
      refine ⟨by rw [List.length_map, List.length_map, hcard], ?_⟩
      intro x hx
      obtain ⟨l, hl, rfl⟩ := List.mem_map.1 hx
      obtain ⟨t, -, rfl⟩ := List.mem_map.1 hl
      rw [List.length_map]
    rw [b1, b2]
  refine ⟨ls'', I, e1, f1, l1, ?_⟩
  intro l hl i t o ht ho hi
  rw [hls] at hl
  obtain ⟨s, hs, rfl⟩ := List.mem_map.1 hl
  obtain ⟨hil, -⟩ := List.getElem?_eq_some_iff.1 hi
  rw [tiledCopy_get (by simp) hil]
  rw [List.getElem?_map, Option.map_eq_some_iff] at hi
  obtain ⟨c, hc, hcopy⟩ := hi
  have hcm : c ∈ g := List.mem_of_getElem? hc
  obtain ⟨-, rfl⟩ := copy_inj (hgv c hcm).1 (hN.valid o ho) hcopy
  rw [List.getElem?_map, hc]
  rfl

/-- A column of two octants. -/
def column : Grid 2 := ⟨1, ![1, 2], fun _ => false⟩

def columnMesh : List (Oct 2) := [⟨1, ![0, 0]⟩, ⟨1, ![0, 1]⟩]

/-- **C67** (disagreement) Two copies of a column of two octants, side by side. In Z-order the copies alternate. The second octant
of the first rank is a copy of the lower octant, it is given the values of the upper one. -/
theorem C67_fields_fails :
    ∃ ls, (loadBalance 3 2 0 [[(⟨2, ![0, 0]⟩ : Oct 2), ⟨2, ![1, 0]⟩, ⟨2, ![0, 1]⟩, ⟨2, ![1, 1]⟩], []]).map Prod.fst = some ls ∧
      Distributed 3 2 (copies column ![2, 1] 1 columnMesh.toFinset) ls ∧
      ∃ l ∈ ls, l[1]? = some (copy column 1 ![1, 0] ⟨1, ![0, 0]⟩) ∧
        (tiledCopy (columnMesh.map fun o => o.pos 1) l)[1]? = some (some 1) := by
  refine ⟨[[⟨2, ![0, 0]⟩, ⟨2, ![1, 0]⟩], [⟨2, ![0, 1]⟩, ⟨2, ![1, 1]⟩]],
    by decide +kernel, ⟨?_, by decide +kernel⟩, _, List.mem_cons_self, by decide +kernel, by decide +kernel⟩
  intro a
  rw [← List.mem_toFinset]
  exact Finset.ext_iff.1 (by decide +kernel) a

/-! ### Examples -/

/-- The refined mesh of seven octants, two copies side by side. -/
example : tiledMesh (tileGrid exGrid ![2, 1] 1 ![false, false]) ![2, 1] exMesh.toFinset 3
    (fun _ => (⟨fun _ => 0, fun _ => ∅⟩ : Dist 2 1)) = some (copies exGrid ![2, 1] 1 exMesh.toFinset) :=
  C67_mesh_partial exGrid_wf (nrep := ![2, 1]) (per := ![false, false]) (by decide) ⟨⟨by decide⟩, by decide⟩ exMesh_tiling
    (balanced_of_check (G := { exGrid with periodic := fun k => decide (1 < ![2, 1] k) || ![false, false] k })
      ⟨⟨by decide⟩, by decide⟩ exMesh 2 (by decide +kernel)) (by decide) 3 (by decide) (by decide) (by norm_num) (by decide) _
    fun M _ => oneRank_ghost _ M

example : (copies exGrid ![2, 1] 1 exMesh.toFinset).card = 14 := by decide +kernel

/-- Two ranks get the values of the seven octants each. -/
example : ∃ ls' I, loadBalance 3 3 0 [exMesh.map (copy exGrid 1 ![0, 0]) ++ exMesh.map (copy exGrid 1 ![1, 0]), []] = some (ls', I) ∧
    ls'.length = 2 ∧ ∀ l ∈ ls', ∀ (i : ℕ) (t : Fin 2 → ℕ) (o : Oct 2), (∀ k, t k < ![2, 1] k) → o ∈ exMesh.toFinset →
      l[i]? = some (copy exGrid 1 t o) → (tiledCopy (exMesh.map fun o => o.pos) l)[i]? = some (some o.pos) := by
  obtain ⟨ls', I, h1, -, h2, h3⟩ := C67_fields_partial exGrid_wf (p := 1) (by decide) (nrep := ![2, 1]) (by decide) (diff := 1)
    (per := ![false, false]) ⟨⟨by decide⟩, by decide⟩ exMesh_tiling (e := 3) (L := 2) (by decide) (by decide) (by decide) (by decide)
    (g := exMesh) (fun o => by simp) (by decide +kernel)
    (ls := [exMesh.map (copy exGrid 1 ![0, 0]) ++ exMesh.map (copy exGrid 1 ![1, 0]), []])
    ⟨fun a => by rw [← List.mem_toFinset]; exact Finset.ext_iff.1 (by decide +kernel) a, by decide +kernel⟩ (by decide) (by decide)
    (fun o => o.pos)
  exact ⟨ls', I, h1, h2, h3⟩

end Verif.Restart
