import Verif.Partition.Ghost
import Mathlib.Data.List.Basic
import Mathlib.Data.Nat.Count

/-!
# Cutting the Z-ordered list of leaves
-/

namespace Verif.Partition

open Verif.Octree Verif.Morton Verif.Adapt

variable {d : ℕ}

/-- Key of the leaf of index `i`, or `T` past the end. -/
def keyAt (e L T : ℕ) (g : List (Oct d)) (i : ℕ) : ℕ := (g[i]?).elim T (okey e L)

/-- `g` lists the leaves of the tiling `M` in Z-order; keys end before `T`. -/
structure Sorted (e L T : ℕ) (G : Grid d) (M : Finset (Oct d)) (g : List (Oct d)) : Prop where
  wf : G.WF
  dim : d ≤ e
  tiling : Tiling G M
  level : ∀ a ∈ M, a.level ≤ L
  mem : ∀ a, a ∈ g ↔ a ∈ M
  order : g.Pairwise fun a b => okey e L a < okey e L b
  top : ∀ a ∈ M, oend e L a ≤ T

section
variable {e L T : ℕ} {G : Grid d} {M : Finset (Oct d)} {g : List (Oct d)}

theorem keyAt_of_lt {i : ℕ} (h : i < g.length) : keyAt e L T g i = okey e L g[i] := by
  simp [keyAt, List.getElem?_eq_getElem h]

theorem keyAt_of_ge {i : ℕ} (h : g.length ≤ i) : keyAt e L T g i = T := by
  simp [keyAt, List.getElem?_eq_none h]

theorem Sorted.lt_iff (hs : Sorted e L T G M g) {i j : ℕ} (hi : i < g.length) (hj : j < g.length) :
    okey e L g[i] < okey e L g[j] ↔ i < j := by
  have h := List.pairwise_iff_getElem.1 hs.order
  constructor
  · intro hlt
    by_contra hc
    rcases Nat.lt_or_ge j i with h1 | h1
    · have := h j i hj hi h1
      omega
    · have : i = j := by omega
      subst this
      omega
  · exact h i j hi hj

theorem Sorted.key_lt_top (hs : Sorted e L T G M g) {j : ℕ} (hj : j < g.length) :
    okey e L g[j] < T := by
  have h1 := hs.top g[j] ((hs.mem _).1 (List.getElem_mem hj))
  have h2 := okey_lt_oend e L g[j]
  omega

theorem Sorted.keyAt_le_iff (hs : Sorted e L T G M g) {i j : ℕ} (hj : j < g.length) :
    keyAt e L T g i ≤ okey e L g[j] ↔ i ≤ j := by
  rcases Nat.lt_or_ge i g.length with hi | hi
  · rw [keyAt_of_lt hi, ← not_lt, hs.lt_iff hj hi, not_lt]
  · rw [keyAt_of_ge hi]
    have := hs.key_lt_top hj
    omega

theorem Sorted.lt_keyAt_iff (hs : Sorted e L T G M g) {i j : ℕ} (hj : j < g.length) :
    okey e L g[j] < keyAt e L T g i ↔ j < i := by
  rw [← not_le, hs.keyAt_le_iff hj, not_le]

theorem Sorted.keyAt_mono (hs : Sorted e L T G M g) {i j : ℕ} (hij : i ≤ j) :
    keyAt e L T g i ≤ keyAt e L T g j := by
  rcases Nat.lt_or_ge j g.length with hj | hj
  · rw [keyAt_of_lt hj, hs.keyAt_le_iff hj]; exact hij
  · rw [keyAt_of_ge hj]
    rcases Nat.lt_or_ge i g.length with hi | hi
    · rw [keyAt_of_lt hi]; exact le_of_lt (hs.key_lt_top hi)
    · rw [keyAt_of_ge hi]

theorem Sorted.zOrdered (hs : Sorted e L T G M g) : ZOrdered e L g :=
  zOrdered_of_sorted hs.wf hs.tiling hs.dim hs.level (fun a ha => (hs.mem a).1 ha) hs.order

theorem zkey_zero (e n : ℕ) : zkey d e n (fun _ => 0) = 0 := by
  induction n with
  | zero => rfl
  | succ n ih =>
    show 2 ^ e * zkey d e n (fun _ => 0 / 2) + digit (fun _ => 0) = 0
    simp [ih, digit]

/-- The first leaf has key 0. -/
theorem Sorted.first (hs : Sorted e L T G M g) : 0 < g.length ∧ keyAt e L T g 0 = 0 := by
  obtain ⟨c, ⟨hc, hcov⟩, -⟩ := hs.tiling.cover (fun _ => 0) (fun i => ⟨le_refl _, zero_lt_one⟩)
  have hpos : ∀ i, c.pos i = 0 := by
    intro i
    have h0 : (0 : ℚ) < G.count i c.level := by exact_mod_cast count_pos hs.wf i _
    have := (hcov i).1
    unfold lo at this
    rw [div_le_iff₀ h0, zero_mul] at this
    have h1 : (0 : ℚ) ≤ c.pos i := Nat.cast_nonneg _
    exact_mod_cast le_antisymm this h1
  have hk : okey e L c = 0 := by
    unfold okey
    have : (fun i => c.pos i * 2 ^ (L - c.level)) = fun _ => 0 := by
      funext i; rw [hpos i, Nat.zero_mul]
    rw [this, zkey_zero]
  obtain ⟨j, hj, hgj⟩ := List.mem_iff_getElem.1 ((hs.mem c).2 hc)
  refine ⟨by omega, ?_⟩
  have h1 : keyAt e L T g 0 ≤ okey e L g[j] := (hs.keyAt_le_iff hj).2 (Nat.zero_le _)
  rw [hgj, hk] at h1
  omega

/-- Cutting the list at increasing indices gives an admissible decomposition. -/
theorem Sorted.cuts (hs : Sorted e L T G M g) {P : ℕ} {F I : ℕ → ℕ} (h0 : F 0 = 0)
    (hm : ∀ r < P, F r ≤ F (r + 1)) (hP : F P = g.length)
    (hI : ∀ r ≤ P, I r = keyAt e L T g (F r)) : Cuts e L M P I where
  zero := by rw [hI 0 (Nat.zero_le _), h0]; exact hs.first.2
  mono := fun r hr => by
    rw [hI r (by omega), hI (r + 1) (by omega)]
    exact hs.keyAt_mono (hm r hr)
  cut := by
    intro r hr a ha hlt
    obtain ⟨j, hj, rfl⟩ := List.mem_iff_getElem.1 ((hs.mem a).2 ha)
    rw [hI r hr] at hlt ⊢
    have hjr := (hs.lt_keyAt_iff hj).1 hlt
    rcases Nat.lt_or_ge (F r) g.length with hi | hi
    · rw [keyAt_of_lt hi]
      exact List.pairwise_iff_getElem.1 hs.zOrdered j (F r) hj hi hjr
    · rw [keyAt_of_ge hi]
      exact hs.top _ ha
  top := by
    intro a ha
    obtain ⟨j, hj, rfl⟩ := List.mem_iff_getElem.1 ((hs.mem a).2 ha)
    rw [hI P (le_refl _), hs.lt_keyAt_iff hj, hP]
    exact hj

theorem Sorted.owns_iff (hs : Sorted e L T G M g) {P : ℕ} {F I : ℕ → ℕ}
    (hI : ∀ r ≤ P, I r = keyAt e L T g (F r)) {r j : ℕ} (hr : r < P) (hj : j < g.length) :
    Owns I r (okey e L g[j]) ↔ F r ≤ j ∧ j < F (r + 1) := by
  unfold Owns
  rw [hI r (by omega), hI (r + 1) (by omega), hs.keyAt_le_iff hj, hs.lt_keyAt_iff hj]

end

/-! ### Indices in the concatenated list -/

theorem firstIdx_zero (ls : List (List (Oct d))) : firstIdx ls 0 = 0 := by simp [firstIdx]

theorem firstIdx_succ (ls : List (List (Oct d))) {r : ℕ} (hr : r < ls.length) :
    firstIdx ls (r + 1) = firstIdx ls r + (ls.getD r []).length := by
  unfold firstIdx
  rw [List.take_succ_eq_append_getElem hr]
  simp [hr]

theorem firstIdx_length (ls : List (List (Oct d))) : firstIdx ls ls.length = ls.flatten.length := by
  simp [firstIdx]

theorem firstIdx_le (ls : List (List (Oct d))) {r s : ℕ} (h : r ≤ s) (hs : s ≤ ls.length) :
    firstIdx ls r ≤ firstIdx ls s :=
  mono_of_step (P := ls.length) (fun r hr => by rw [firstIdx_succ ls hr]; omega) r s h hs

theorem firstIdx_le_length (ls : List (List (Oct d))) {r : ℕ} (h : r ≤ ls.length) :
    firstIdx ls r ≤ ls.flatten.length := by
  rw [← firstIdx_length]
  exact firstIdx_le ls h (le_refl _)

theorem getElem_flatten (ls : List (List (Oct d))) {r : ℕ} (hr : r < ls.length) {j : ℕ}
    (hj : j < (ls.getD r []).length) :
    ls.flatten[firstIdx ls r + j]? = (ls.getD r [])[j]? := by
  have h : ls.flatten = (ls.take r).flatten ++ (ls.drop r).flatten := by
    rw [← List.flatten_append, List.take_append_drop]
  rw [h, List.getElem?_append_right (by unfold firstIdx; omega)]
  unfold firstIdx
  rw [Nat.add_sub_cancel_left, List.drop_eq_getElem_cons hr, List.flatten_cons,
    List.getElem?_append_left (by simpa [hr] using hj)]
  simp [hr]

/-- The rank that holds a global index. -/
theorem exists_rank (ls : List (List (Oct d))) {x : ℕ} (hx : x < ls.flatten.length) :
    ∃ r < ls.length, firstIdx ls r ≤ x ∧ x < firstIdx ls (r + 1) :=
  exists_owns (I := firstIdx ls) (firstIdx_zero ls) (by rw [firstIdx_length]; exact hx)

/-- A local list is a part of the concatenated list. -/
theorem local_eq (ls : List (List (Oct d))) {r : ℕ} (hr : r < ls.length) :
    ls.getD r [] = (ls.flatten.drop (firstIdx ls r)).take (ls.getD r []).length := by
  apply List.ext_getElem?
  intro j
  rcases Nat.lt_or_ge j (ls.getD r []).length with hj | hj
  · rw [List.getElem?_take_of_lt hj, List.getElem?_drop, getElem_flatten ls hr hj]
  · rw [List.getElem?_eq_none hj, List.getElem?_eq_none]
    simp only [List.length_take]
    omega

/-! ### Intervals of an existing distribution -/

theorem backfill_go {e L : ℕ} {G : Grid d} {M : Finset (Oct d)} {ls : List (List (Oct d))}
    (hs : Sorted e L (2 ^ 64 - 1) G M ls.flatten) (h0 : (ls.getD 0 []) ≠ []) :
    ∀ k i, i + k = ls.length → 1 ≤ i →
      backfill.go (fun r => beginKey e L (ls.getD r [])) (2 ^ 64 - 1) k i =
        keyAt e L (2 ^ 64 - 1) ls.flatten (firstIdx ls i) := by
  intro k
  induction k with
  | zero =>
    intro i hi _
    have : i = ls.length := by omega
    rw [this, firstIdx_length, keyAt_of_ge (le_refl _)]
    rfl
  | succ k ih =>
    intro i hi h1
    have hil : i < ls.length := by omega
    rw [backfill.go]
    have hsucc := firstIdx_succ ls hil
    cases hc : ls.getD i [] with
    | nil =>
      rw [if_pos (by rfl), ih (i + 1) (by omega) (by omega)]
      rw [hc, List.length_nil] at hsucc
      rw [hsucc]
      rfl
    | cons a t =>
      have hge := getElem_flatten ls hil (j := 0) (by rw [hc]; simp)
      rw [hc, Nat.add_zero, List.getElem?_cons_zero] at hge
      obtain ⟨hlt, hget⟩ := List.getElem?_eq_some_iff.1 hge
      have hk : beginKey e L (a :: t) = okey e L a := by
        show mkey e L a = _
        apply mkey_eq
        apply hs.level
        rw [← hs.mem, ← hget]
        exact List.getElem_mem hlt
      rw [hk]
      have hpos : firstIdx ls 1 ≤ firstIdx ls i := firstIdx_le ls h1 (by omega)
      rw [firstIdx_succ ls (by omega : 0 < ls.length), firstIdx_zero] at hpos
      have h2 : 0 < (ls.getD 0 []).length := List.length_pos_of_ne_nil h0
      have h3 : okey e L ls.flatten[0] < okey e L ls.flatten[firstIdx ls i] :=
        (hs.lt_iff (by omega) hlt).2 (by omega)
      rw [hget] at h3
      rw [if_neg (by omega), keyAt_of_lt hlt, hget]

/-- Intervals computed from the first octant of each rank, when rank 0 has octants. -/
theorem oldIntervals_eq {e L : ℕ} {G : Grid d} {M : Finset (Oct d)} {ls : List (List (Oct d))}
    (hs : Sorted e L (2 ^ 64 - 1) G M ls.flatten) (h0 : (ls.getD 0 []) ≠ []) {r : ℕ}
    (hr : r ≤ ls.length) :
    oldIntervals e L ls r = keyAt e L (2 ^ 64 - 1) ls.flatten (firstIdx ls r) := by
  unfold oldIntervals
  rcases Nat.lt_or_ge r ls.length with h | h
  · rw [if_pos h]
    unfold backfill
    by_cases hr0 : r = 0
    · subst hr0
      rw [if_pos rfl, firstIdx_zero]
      cases hc : ls.getD 0 [] with
      | nil => exact absurd hc h0
      | cons a t =>
        have hge := getElem_flatten ls h (j := 0) (by rw [hc]; simp)
        rw [hc, firstIdx_zero, List.getElem?_cons_zero] at hge
        unfold keyAt
        rw [hge]
        simp only [hc]
        show mkey e L a = okey e L a
        apply mkey_eq
        apply hs.level
        rw [← hs.mem]
        exact List.mem_of_getElem? hge
    · rw [if_neg hr0]
      exact backfill_go hs h0 _ _ (by omega) (by omega)
  · have : r = ls.length := by omega
    rw [if_neg (by omega), this, firstIdx_length, keyAt_of_ge (le_refl _)]

end Verif.Partition
