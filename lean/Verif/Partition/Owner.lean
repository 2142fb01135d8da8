import Verif.Partition.Props
import Mathlib.Tactic.FinCases

/-!
# Owner of a position (C07), and intervals after mesh adaptation
-/

namespace Verif.Partition

open Verif.Octree Verif.Morton Verif.Adapt

variable {d : ℕ}

theorem scanIntervals_owner {P : ℕ} {J : ℕ → ℕ} (h : ∀ r < P, J r ≤ J (r + 1)) {r m : ℕ} (hr : r < P)
    (ho : Owns J r m) : scanIntervals J P m = r := by
  have hm := mono_of_step h
  unfold scanIntervals
  have hfind : (List.range (P + 1)).find? (fun i => decide (m < J i)) = some (r + 1) := by
    rw [List.find?_range_eq_some]
    refine ⟨decide_eq_true ho.2, List.mem_range.2 (by omega), ?_⟩
    intro j hj
    have := hm j r (by omega) (by omega)
    have := ho.1
    simp only [Bool.not_eq_true', decide_eq_false_iff_not]
    omega
  rw [hfind]
  simp

/-- Key of the first octant as computed from its corner, on a full cube. -/
theorem firstMorton_eq {G : Grid d} (hfull : ∀ i, G.coarse i = 2 ^ G.lmin) {e L : ℕ} {o : Oct d}
    (hv : Valid G o) (hL : o.level ≤ L) : firstMorton e L G o = okey e L o := by
  unfold firstMorton okey
  congr 1
  funext i
  have hc : G.count i o.level = 2 ^ o.level := by
    unfold Grid.count
    rw [hfull i, ← pow_add]
    congr 1
    have := hv.1
    omega
  rw [cellCount_eq, hc]
  have h1 : ((o.pos i : ℚ) * (1 / ((2 ^ o.level : ℕ) : ℚ))) / (1 / (2 : ℚ) ^ L) =
      ((o.pos i * 2 ^ (L - o.level) : ℕ) : ℚ) := by
    push_cast
    have h2 : (2 : ℚ) ^ L = 2 ^ o.level * 2 ^ (L - o.level) := by
      rw [← pow_add]; congr 1; omega
    rw [h2]
    field_simp
  rw [h1, Nat.floor_natCast]

/-- The key of a position lies in the interval of the leaf that covers it. -/
theorem posMorton_mem {G : Grid d} (hG : G.WF) {e L : ℕ} (hde : d ≤ e) {a : Oct d} (ha : Valid G a)
    (hL : a.level ≤ L) {x : Fin d → ℚ} (hx : ∀ i, 0 ≤ x i ∧ x i < 1) (hcov : Covers G a x) :
    okey e L a ≤ posMorton e L G x ∧ posMorton e L G x < oend e L a := by
  let c : Oct d := ⟨L, fun i => ⌊x i / (1 / (cellCount G i L : ℚ))⌋₊⟩
  have hcc : Covers G c x := by
    intro i
    have h0 : (0 : ℚ) < G.count i L := by exact_mod_cast count_pos hG i _
    have h1 : x i / (1 / (cellCount G i L : ℚ)) = x i * G.count i L := by
      rw [cellCount_eq]; field_simp
    have h2 : (c.pos i : ℚ) ≤ x i * G.count i L := by
      show ((⌊x i / (1 / (cellCount G i L : ℚ))⌋₊ : ℕ) : ℚ) ≤ _
      rw [h1]
      exact Nat.floor_le (mul_nonneg (hx i).1 (le_of_lt h0))
    have h3 : x i * G.count i L < (c.pos i : ℚ) + 1 := by
      show _ < ((⌊x i / (1 / (cellCount G i L : ℚ))⌋₊ : ℕ) : ℚ) + 1
      rw [h1]
      exact Nat.lt_floor_add_one _
    constructor
    · unfold lo
      rw [div_le_iff₀ h0]
      exact h2
    · unfold hi
      rw [lt_div_iff₀ h0]
      exact h3
  have hanc : Anc a c := anc_of_covers hG ha hL hcov hcc
  have hk : okey e L c = posMorton e L G x := okey_level e c
  have h4 := hanc.okey_le (e := e) hde (L := L) (le_refl _)
  rw [hk] at h4
  have h5 := okey_lt_oend e L c
  rw [hk] at h5
  omega

/-- **C07.** On a mesh whose coarse grid is the full cube, if every rank holds octants, the rank
returned for a position is the rank that stores the leaf containing this position.
Partial: for other coarse grids the property fails, see `C07_partial_coarse_grid_fails`. -/
theorem C07_owner_of_position_partial {G : Grid d} (hG : G.WF)
    (hfull : ∀ i, G.coarse i = 2 ^ G.lmin) {M : Finset (Oct d)} (hM : Tiling G M) {e L : ℕ}
    (hde : d ≤ e) (hL : ∀ b ∈ M, b.level ≤ L) (h64 : e * L < 64) {ls : List (List (Oct d))}
    (hd : Distributed e L M ls) (hne : ∀ l ∈ ls, l ≠ []) (J : ℕ → ℕ)
    (hJ : ∀ i ≤ ls.length, lightIntervals e L G ls i = some (J i))
    (x : Fin d → ℚ) (hx : ∀ i, 0 ≤ x i ∧ x i < 1) :
    ∃ (r : ℕ) (h : r < ls.length), scanIntervals J ls.length (posMorton e L G x) = r ∧
      ∃ a ∈ ls[r], Covers G a x := by
  have hs := sorted_of_distributed hG hM hde hL h64 hd
  have hNpos := hs.first.1
  have hP : 0 < ls.length := by
    by_contra hc
    have : ls = [] := List.eq_nil_of_length_eq_zero (by omega)
    rw [this] at hNpos
    simp at hNpos
  have hgetD : ∀ r (h : r < ls.length), ls.getD r [] = ls[r] := fun r h => by simp [h]
  have hJe : ∀ r ≤ ls.length, J r = keyAt e L (2 ^ 64 - 1) ls.flatten (firstIdx ls r) := by
    intro r hr
    have h1 := hJ r hr
    unfold lightIntervals at h1
    by_cases h : r < ls.length
    · rw [dif_pos h] at h1
      have hne' := hne _ (List.getElem_mem h)
      cases hc : ls[r] with
      | nil => exact absurd hc hne'
      | cons a t =>
        have hge := getElem_flatten ls h (j := 0) (by rw [hgetD r h, hc]; simp)
        rw [hgetD r h, hc, Nat.add_zero, List.getElem?_cons_zero] at hge
        rw [hc] at h1
        have haM : a ∈ M := by rw [← hd.mem]; exact List.mem_of_getElem? hge
        have h2 : firstMorton e L G a = J r := by simpa using h1
        unfold keyAt
        rw [hge, ← h2, firstMorton_eq hfull (hM.valid a haM) (hL a haM)]
        rfl
    · have : r = ls.length := by omega
      rw [dif_neg h] at h1
      rw [this, firstIdx_length, keyAt_of_ge (le_refl _), ← this]
      exact (Option.some.inj h1).symm
  have hcuts : Cuts e L M ls.length J := hs.cuts (firstIdx_zero ls)
    (fun r hr => firstIdx_le ls (Nat.le_succ r) hr) (firstIdx_length ls) hJe
  obtain ⟨a, ⟨haM, hcov⟩, -⟩ := hM.cover x hx
  obtain ⟨j, hj, hja⟩ := List.mem_iff_getElem.1 ((hd.mem a).2 haM)
  obtain ⟨r, hr, h1, h2⟩ := exists_rank ls hj
  have hown : Owns J r (okey e L a) := by
    rw [← hja, hs.owns_iff hJe hr hj]
    exact ⟨h1, h2⟩
  obtain ⟨h3, h4⟩ := posMorton_mem hG hde (hM.valid a haM) (hL a haM) hx hcov
  refine ⟨r, hr, scanIntervals_owner hcuts.mono hr (hcuts.owns_of_mem hr haM hown h3 h4), a, ?_, hcov⟩
  rw [firstIdx_succ ls hr] at h2
  have h5 := getElem_flatten ls hr (j := j - firstIdx ls r) (by omega)
  rw [Nat.add_sub_cancel' h1, List.getElem?_eq_getElem hj, hja, hgetD r hr] at h5
  exact List.mem_of_getElem? h5.symm

/-! ### Examples -/

/-- The example mesh of `Verif.Octree.Check`, on three ranks. -/
def exSorted : List (Oct 2) :=
  [⟨2, ![0, 0]⟩, ⟨2, ![1, 0]⟩, ⟨2, ![0, 1]⟩, ⟨2, ![1, 1]⟩, ⟨1, ![1, 0]⟩, ⟨1, ![0, 1]⟩, ⟨1, ![1, 1]⟩]

def exLists : List (List (Oct 2)) := [exSorted.take 1, (exSorted.drop 1).take 5, exSorted.drop 6]

theorem exLists_distributed : Distributed 3 2 exMesh.toFinset exLists where
  mem := by
    intro a
    have : exLists.flatten.Perm exMesh := by decide +kernel
    rw [List.mem_toFinset, this.mem_iff]
  order := by decide +kernel

/-- The hypotheses of C07, C16 and C17 are met by this mesh. -/
example : exGrid.WF ∧ (∀ i, exGrid.coarse i = 2 ^ exGrid.lmin) ∧ Tiling exGrid exMesh.toFinset ∧
    (∀ b ∈ exMesh.toFinset, b.level ≤ 2) ∧ Distributed 3 2 exMesh.toFinset exLists ∧
    exLists.getD 0 [] ≠ [] ∧ exLists.length ≤ exLists.flatten.length ∧ (∀ l ∈ exLists, l ≠ []) ∧
    lightIntervals 3 2 exGrid exLists 1 = some 1 :=
  ⟨exGrid_wf, by decide, exMesh_tiling, by decide, exLists_distributed, by decide, by decide, by decide,
    by decide +kernel⟩

/-- The octant (0,1) of level 2 held by rank 1 touches octants of ranks 0 and 2 (the latter through the
periodic boundary). -/
example : ∀ k, k ∈ ghostRanks 3 2 exGrid (fun i => [0, 1, 24, 2 ^ 64 - 1].getD i 0) 3 1 ⟨2, ![0, 1]⟩ ↔
      k = 0 ∨ k = 2 := by
  have h : (ghostRanks 3 2 exGrid (fun i => [0, 1, 24, 2 ^ 64 - 1].getD i 0) 3 1
      ⟨2, ![0, 1]⟩).dedup = [0, 2] := by decide +kernel
  intro k
  rw [← List.mem_dedup, h]
  simp

/-! ### Disagreement: coarse grids that are not a full cube -/

/-- A 2x1 coarse grid of level 1, refined once: 4x2 octants of level 2. -/
def wideGrid : Grid 2 := ⟨1, ![2, 1], fun _ => false⟩

def wideLists : List (List (Oct 2)) :=
  [[⟨2, ![0, 0]⟩, ⟨2, ![1, 0]⟩], [⟨2, ![0, 1]⟩, ⟨2, ![1, 1]⟩],
   [⟨2, ![2, 0]⟩, ⟨2, ![3, 0]⟩], [⟨2, ![2, 1]⟩, ⟨2, ![3, 1]⟩]]

theorem wideLists_tiling : Tiling wideGrid wideLists.flatten.toFinset :=
  tiling_of_check ⟨⟨by decide⟩, by decide⟩ _ 2 (by decide +kernel)

theorem wideLists_distributed : Distributed 3 2 wideLists.flatten.toFinset wideLists where
  mem := fun a => by rw [List.mem_toFinset]
  order := by decide +kernel

/-- **C07**, disagreement. On a 2x1 coarse grid the intervals of `getDomainFromPos` are computed on a
grid of `2^max_level` octants per direction and the position on a grid of `cell_count` octants. The
point (3/8, 3/4) is in an octant of rank 1, but the function returns rank 0. -/
theorem C07_partial_coarse_grid_fails :
    wideGrid.WF ∧ Tiling wideGrid wideLists.flatten.toFinset ∧
    Distributed 3 2 wideLists.flatten.toFinset wideLists ∧
    (∀ i ≤ 4, lightIntervals 3 2 wideGrid wideLists i =
      some ([0, 16, 8, 24, 2 ^ 64 - 1].getD i 0)) ∧
    scanIntervals (fun i => [0, 16, 8, 24, 2 ^ 64 - 1].getD i 0) 4
      (posMorton 3 2 wideGrid ![3 / 8, 3 / 4]) = 0 ∧
    (⟨2, ![1, 1]⟩ : Oct 2) ∈ wideLists.getD 1 [] ∧
    Covers wideGrid ⟨2, ![1, 1]⟩ ![3 / 8, 3 / 4] := by
  refine ⟨⟨⟨by decide⟩, by decide⟩, wideLists_tiling, wideLists_distributed, ?_, by decide +kernel,
    by decide +kernel, ?_⟩
  · intro i hi
    have : ∀ i < 5, lightIntervals 3 2 wideGrid wideLists i =
      some ([0, 16, 8, 24, 2 ^ 64 - 1].getD i 0) := by decide +kernel
    exact this i (by omega)
  · intro i
    fin_cases i <;> constructor <;> norm_num [lo, hi, Grid.count, wideGrid]

/-! ### Intervals after mesh adaptation -/

/-- **C18.** After `adapt` the intervals cut the new mesh and describe its distribution, provided that
rank 0 has octants and no rank loses all its octants. Partial: see
`C18_rank_emptied_by_adapt_fails` and `C18_empty_rank0_fails` for the other cases. -/
theorem C18_adapt_intervals_partial {G : Grid d} (hG : G.WF) {M : Finset (Oct d)} (hM : Tiling G M)
    {e L : ℕ} (hde : d ≤ e) (hL : ∀ b ∈ M, b.level ≤ L) (h64 : e * L < 64)
    {old new : List (List (Oct d))} (hd : Distributed e L M new) (h0 : new.getD 0 [] ≠ [])
    (hsame : ∀ r, old.getD r [] = [] ↔ new.getD r [] = []) :
    ∃ I, adaptIntervals e L old new = some I ∧ Cuts e L M new.length I ∧ Describes e L new I := by
  have hs := sorted_of_distributed hG hM hde hL h64 hd
  unfold adaptIntervals
  rw [if_pos (by
    rw [List.all_eq_true]
    intro r _
    by_cases h : old.getD r [] = []
    · rw [h]; rfl
    · have : new.getD r [] ≠ [] := fun hc => h ((hsame r).2 hc)
      cases hc : new.getD r [] with
      | nil => exact absurd hc this
      | cons a t => simp)]
  refine ⟨_, rfl, ?_⟩
  have hv : (fun r => if (old.getD r []).isEmpty then 0 else beginKey e L (new.getD r [])) =
      fun r => beginKey e L (new.getD r []) := by
    funext r
    split
    · rename_i h
      rw [List.isEmpty_iff] at h
      rw [(hsame r).1 h]; rfl
    · rfl
  rw [hv]
  have hI : ∀ r ≤ new.length, oldIntervals e L new r =
      keyAt e L (2 ^ 64 - 1) new.flatten (firstIdx new r) := fun r hr => oldIntervals_eq hs h0 hr
  refine ⟨hs.cuts (firstIdx_zero new) (fun r hr => firstIdx_le new (Nat.le_succ r) hr)
    (firstIdx_length new) hI, ?_⟩
  intro r hr a ha
  obtain ⟨j, hj, hja⟩ := List.mem_iff_getElem.1 ha
  have hgetD : new.getD r [] = new[r] := by simp [hr]
  have h1 := getElem_flatten new hr (j := j) (by rw [hgetD]; exact hj)
  rw [hgetD, List.getElem?_eq_getElem hj, hja] at h1
  obtain ⟨hlt, hget⟩ := List.getElem?_eq_some_iff.1 h1
  have h2 := (hs.owns_iff hI hr hlt (j := firstIdx new r + j)).2
    ⟨by omega, by rw [firstIdx_succ new hr, hgetD]; omega⟩
  rwa [hget] at h2

/-- **C18**, disagreement. Rank 1 holds three of four siblings (not the first); all four are
coarsened. Rank 1 has no octant afterwards, but since it had octants before, the key of its octant 0 is
read from empty storage. -/
theorem C18_rank_emptied_by_adapt_fails :
    let old : List (List (Oct 2)) :=
      [[⟨2, ![0, 0]⟩], [⟨2, ![1, 0]⟩, ⟨2, ![0, 1]⟩, ⟨2, ![1, 1]⟩],
       [⟨1, ![1, 0]⟩, ⟨1, ![0, 1]⟩, ⟨1, ![1, 1]⟩]]
    let mk : Oct 2 → ℤ := fun o => if o.level = 2 then -1 else 0
    Distributed 3 2 exMesh.toFinset old ∧ LeastCorrection exGrid exMesh.toFinset mk mk ∧
    old.map (fun l => newLeaves mk l) =
      [[⟨1, ![0, 0]⟩], [], [⟨1, ![1, 0]⟩, ⟨1, ![0, 1]⟩, ⟨1, ![1, 1]⟩]] ∧
    adaptIntervals 3 2 old (old.map fun l => newLeaves mk l) = none := by
  intro old mk
  have hnew : old.map (fun l => newLeaves mk l) =
      [[⟨1, ![0, 0]⟩], [], [⟨1, ![1, 0]⟩, ⟨1, ![0, 1]⟩, ⟨1, ![1, 1]⟩]] := by decide +kernel
  refine ⟨⟨?_, by decide +kernel⟩, ⟨fun a _ => le_refl _, ?_, fun mk' _ h => h⟩, hnew, ?_⟩
  · intro a
    have : old.flatten.Perm exMesh := by decide +kernel
    rw [List.mem_toFinset, this.mem_iff]
  · constructor
    · intro a ha b hb _
      have : ∀ a ∈ exMesh, ∀ b ∈ exMesh, (b.level : ℤ) + mk b ≤ a.level + mk a + 1 := by
        decide +kernel
      exact this a (List.mem_toFinset.1 ha) b (List.mem_toFinset.1 hb)
    · intro a ha hma s hsib
      rw [List.mem_toFinset] at ha
      have h1 : ∀ a ∈ exMesh, mk a = -1 → a.level = 2 ∧ ∀ i, a.pos i / 2 = 0 := by
        decide +kernel
      obtain ⟨h2, h3⟩ := h1 a ha hma
      have h4 : s.level = 2 := by rw [hsib.1, h2]
      have h5 : ∀ i, s.pos i / 2 = 0 := fun i => by rw [hsib.2 i, h3 i]
      have e0 : s.pos 0 / 2 = 0 := h5 0
      have e1 : s.pos 1 / 2 = 0 := h5 1
      refine ⟨?_, by simp [mk, h4]⟩
      rw [List.mem_toFinset]
      have hx : s.pos 0 = 0 ∨ s.pos 0 = 1 := by omega
      have hy : s.pos 1 = 0 ∨ s.pos 1 = 1 := by omega
      have hs : s = ⟨2, ![s.pos 0, s.pos 1]⟩ := by
        refine Oct.ext' h4 (fun i => ?_)
        fin_cases i <;> rfl
      rw [hs]
      rcases hx with hx | hx <;> rcases hy with hy | hy <;> rw [hx, hy] <;> decide +kernel
  · rw [hnew]
    decide +kernel

/-- **C18**, disagreement. With fewer coarse octants than ranks, rank 0 starts empty and rank 1 holds the
octant of key 0. After a refinement the key 0 of rank 1 is taken for an empty rank: its octants are
attributed to rank 0. -/
theorem C18_empty_rank0_fails :
    let G : Grid 2 := ⟨0, fun _ => 1, fun _ => false⟩
    let old : List (List (Oct 2)) := [[], [⟨0, ![0, 0]⟩]]
    let new := old.map fun l => newLeaves (fun _ => 1) l
    initLocal G 2 0 = some [] ∧ (initLocal G 2 1).map List.length = some 1 ∧
    (new.map List.length = [0, 4]) ∧
    ∃ I, adaptIntervals 3 1 old new = some I ∧ ¬ Describes 3 1 new I ∧
      ∀ a ∈ new.flatten, Owns I 0 (okey 3 1 a) := by
  intro G old new
  have hI : (adaptIntervals 3 1 old new).isSome = true := by decide +kernel
  obtain ⟨I, hI⟩ := Option.isSome_iff_exists.1 hI
  have h0 : I 0 = 0 := by
    have : (adaptIntervals 3 1 old new).map (fun I => I 0) = some 0 := by decide +kernel
    rw [hI] at this
    exact Option.some.inj this
  have h1 : I 1 = 2 ^ 64 - 1 := by
    have : (adaptIntervals 3 1 old new).map (fun I => I 1) = some (2 ^ 64 - 1) := by decide +kernel
    rw [hI] at this
    exact Option.some.inj this
  have hall : ∀ a ∈ new.flatten, okey 3 1 a < 2 ^ 64 - 1 := by decide +kernel
  refine ⟨by decide +kernel, by decide +kernel, by decide +kernel, I, hI, ?_, ?_⟩
  · intro h
    have hmem : (⟨1, ![0, 0]⟩ : Oct 2) ∈ new[1]'(by decide) := by decide +kernel
    have := (h 1 (by decide) _ hmem).1
    rw [h1] at this
    have hk : okey 3 1 (⟨1, ![0, 0]⟩ : Oct 2) = 0 := by decide +kernel
    rw [hk] at this
    omega
  · intro a ha
    have := hall a ha
    refine ⟨by rw [h0]; exact Nat.zero_le _, ?_⟩
    show okey 3 1 a < I 1
    rw [h1]
    exact this

end Verif.Partition
