import Verif.Adapt.Check
import Verif.Octree.Props
import Mathlib.Data.List.Flatten

/-!
# C66: neighbour search with indices, and the table of neighbours

The octree of one rank: `core/src/amr/LightOctree_hashmap.h` L74-98 (the hash map from octants to indices) and L140-218, and
`core/src/amr/LightOctree_hashmap_precompute.h` (all neighbours of the local octants in one array).
-/

namespace Verif.Octree

variable {d : ℕ}

/-! ### Model: the hash map -/

/-- `LightOctree_storage.h`: the octants that a rank stores, its own and its ghosts. -/
structure RankOcts (d : ℕ) where
  locals : List (Oct d)
  ghosts : List (Oct d)

/-- `storage.get_logical_coords(iOct)`, `storage.getLevel(iOct)`. `none`: outside of the arrays. -/
def octAt (R : RankOcts d) (i : OctantIndex) : Option (Oct d) := if i.isGhost then R.ghosts[i.iOct]? else R.locals[i.iOct]?

/-- `LightOctree_hashmap.h` L74-98 (`private_init`) and `oct_map.find`: octant number `j` in storage is inserted with its index.
`insert` does not replace a value, so the first of several equal octants counts (the kernel is parallel: any of them). -/
def octMap (R : RankOcts d) (key : Oct d) : Option OctantIndex :=
  ((R.locals ++ R.ghosts).idxOf? key).map fun j => ofLocal j R.locals.length

/-- `LightOctree_hashmap.h` L140-218, `findNeighbors`, with indices. The last `mapM` is L201-213. -/
def findIdx (G : Grid d) (R : RankOcts d) (i : OctantIndex) (off : Fin d → SignType) : Option (List OctantIndex) :=
  (octAt R i).bind fun o =>
    if ∀ k, off k = 0 then some [i]
    else if isBoundary G o off then some []
    else
      let p := neighborPos G o off
      match octMap R ⟨o.level, p⟩ with
      | some j => some [j]
      | none =>
        match (if 1 ≤ o.level then octMap R ⟨o.level - 1, fun k => p k >>> 1⟩ else none) with
        | some j => some [j]
        | none => (finerNeighbors o.level p off).mapM (octMap R)

/-! ### Model: the table -/

/-- The components of an offset that do not exist in 2D are 0. -/
def comp (off : Fin d → SignType) (k : ℕ) : ℤ := if h : k < d then (off ⟨k, h⟩ : ℤ) else 0

/-- `LightOctree_hashmap_precompute.h` L9-12. -/
def offsetToIndex (off : Fin d → SignType) : ℕ :=
  (comp off 0 + 1 + 3 * (comp off 1 + 1) + (if d = 3 then 1 else 0) * 3 * 3 * (comp off 2 + 1)).toNat

/-- A difference of 0, 1 or 2 to 1 as an offset. -/
def toSign (i : ℕ) : SignType := SignType.sign ((i : ℤ) - 1)

/-- `LightOctree_hashmap_precompute.h` L14-22. -/
def indexToOffset (index : ℕ) (k : Fin d) : SignType :=
  let iz := index / (3 * 3)
  match k.val with
  | 0 => toSign (index % 3)
  | 1 => toSign ((index - 3 * 3 * iz) / 3)
  | _ => toSign iz

/-- L33. -/
def nbOffsets (d : ℕ) : ℕ := if d = 2 then 3 * 3 else 3 * 3 * 3

/-- The three views. `count` and `start` are given by `iOct` and the index of the offset. -/
structure Table where
  count : ℕ → ℕ → ℕ
  start : ℕ → ℕ → ℕ
  nbrs : List ℕ

/-- L68-71: the entries from `pos` on. `none`: outside of the view. -/
def write (a : List ℕ) : ℕ → List ℕ → Option (List ℕ)
  | _, [] => some a
  | pos, v :: vs => if pos < a.length then write (a.set pos v) (pos + 1) vs else none

/-- L54-77: the scan, iteration by iteration; `ns` is the result of `findNeighbors` at L65 as numbers in storage, `count` the view
filled by L38-50. The result is the array, the offsets and the running sum. -/
def scan (nn : ℕ) (ns : ℕ → ℕ → List ℕ) (count : ℕ → ℕ → ℕ) (a : List ℕ) : ℕ → Option (List ℕ × (ℕ → ℕ → ℕ) × ℕ)
  | 0 => some (a, fun _ _ => 0, 0)
  | index + 1 =>
    (scan nn ns count a index).bind fun (a, start, pos) =>
      let iOct := index / nn
      let k := index % nn
      (write a pos ((ns iOct k).take (count iOct k))).map fun a =>
        (a, Function.update start iOct (Function.update (start iOct) k pos), (pos + count iOct k) % 2 ^ 32)

/-- L24-78, `LightOctree_hashmap_precompute_init`. Views start as zeros. `none`: undefined behaviour in `findNeighbors` or in a
write. -/
def tableInit (G : Grid d) (R : RankOcts d) : Option Table :=
  let n := R.locals.length
  let nn := nbOffsets d
  let find := fun iOct k => findIdx G R ⟨iOct, false⟩ (indexToOffset k)
  if ∀ iOct < n, ∀ k < nn, (find iOct k).isSome then
    let ns := fun iOct k => ((find iOct k).getD []).map fun j => toLocal j n
    let count := fun iOct k => (ns iOct k).length % 2 ^ 8
    let total := ((List.range (n * nn)).map fun index => (ns (index % n) (index / n)).length).sum % 2 ^ 32
    (scan nn ns count (List.replicate total 0) (n * nn)).map fun (a, start, _) => ⟨count, start, a⟩
  else none

/-- L92-119, `findNeighbors` of the class with the table. -/
def tableFind (G : Grid d) (R : RankOcts d) (T : Table) (i : OctantIndex) (off : Fin d → SignType) : Option (List OctantIndex) :=
  if i.isGhost then findIdx G R i off
  else
    let k := offsetToIndex off
    (List.range (T.count i.iOct k)).mapM fun j => (T.nbrs[T.start i.iOct k + j]?).map fun v => ofLocal v R.locals.length

/-! ### Neighbour search with indices -/

theorem octAt_ofLocal (R : RankOcts d) (j : ℕ) : octAt R (ofLocal j R.locals.length) = (R.locals ++ R.ghosts)[j]? := by
  unfold octAt ofLocal
  by_cases h : j ≥ R.locals.length
  · simp only [if_pos h, if_true]
    rw [List.getElem?_append_right h]
  · simp only [if_neg h]
    rw [List.getElem?_append_left (by omega)]
    rfl

theorem octMap_eq_some {R : RankOcts d} {b : Oct d} {j : OctantIndex} (h : octMap R b = some j) : octAt R j = some b := by
  unfold octMap at h
  rw [Option.map_eq_some_iff] at h
  obtain ⟨m, h1, rfl⟩ := h
  rw [octAt_ofLocal]
  rw [List.idxOf?_eq_some_iff] at h1
  obtain ⟨hm, h2, -⟩ := h1
  rw [List.getElem?_eq_getElem hm]
  simpa using h2

theorem octMap_eq_none {R : RankOcts d} {b : Oct d} : octMap R b = none ↔ b ∉ R.locals ++ R.ghosts := by
  unfold octMap
  rw [Option.map_eq_none_iff, List.idxOf?_eq_none_iff]

theorem mapM_octMap (R : RankOcts d) : ∀ l : List (Oct d),
    (l.mapM (octMap R)).map (List.map (octAt R)) = if ∀ b ∈ l, b ∈ R.locals ++ R.ghosts then some (l.map some) else none
  | [] => by simp
  | b :: l => by
    have ih := mapM_octMap R l
    rw [List.mapM_cons]
    cases hb : octMap R b with
    | none =>
      have := octMap_eq_none.1 hb
      rw [if_neg (fun h => this (h b (List.mem_cons_self ..)))]
      rfl
    | some j =>
      have hb' : b ∈ R.locals ++ R.ghosts := by
        by_contra h
        rw [octMap_eq_none.2 h] at hb
        cases hb
      have e : (∀ c ∈ b :: l, c ∈ R.locals ++ R.ghosts) ↔ ∀ c ∈ l, c ∈ R.locals ++ R.ghosts := by
        simp only [List.forall_mem_cons]
        exact and_iff_right hb'
      rw [if_congr e rfl rfl]
      cases hl : l.mapM (octMap R) with
      | none =>
        rw [hl] at ih
        by_cases h : ∀ c ∈ l, c ∈ R.locals ++ R.ghosts
        · rw [if_pos h] at ih; cases ih
        · rw [if_neg h]; rfl
      | some js =>
        rw [hl] at ih
        by_cases h : ∀ c ∈ l, c ∈ R.locals ++ R.ghosts
        · rw [if_pos h] at ih ⊢
          simp only [Option.map_some, Option.some.injEq] at ih
          simp [octMap_eq_some hb, ih]
        · rw [if_neg h] at ih; cases ih

/-- **C66** The search on indices returns the indices of the octants that the search on octants returns. -/
theorem C66_search (G : Grid d) (R : RankOcts d) {i : OctantIndex} {o : Oct d} (hi : octAt R i = some o) (off : Fin d → SignType) :
    (findIdx G R i off).map (List.map (octAt R)) =
      (findNeighbors G (R.locals ++ R.ghosts).toFinset o off).map (List.map some) := by
  unfold findIdx findNeighbors
  rw [hi, Option.bind_some]
  by_cases h0 : ∀ k, off k = 0
  · simp [if_pos h0, hi]
  rw [if_neg h0, if_neg h0]
  by_cases hb : isBoundary G o off = true
  · rw [if_pos hb, if_pos hb]; rfl
  rw [if_neg hb, if_neg hb]
  simp only
  cases h1 : octMap R ⟨o.level, neighborPos G o off⟩ with
  | some j =>
    have : (⟨o.level, neighborPos G o off⟩ : Oct d) ∈ (R.locals ++ R.ghosts).toFinset := by
      rw [List.mem_toFinset]
      by_contra h
      rw [octMap_eq_none.2 h] at h1
      cases h1
    rw [if_pos this]
    simp [octMap_eq_some h1]
  | none =>
    have : (⟨o.level, neighborPos G o off⟩ : Oct d) ∉ (R.locals ++ R.ghosts).toFinset := by
      rw [List.mem_toFinset]
      exact octMap_eq_none.1 h1
    rw [if_neg this]
    simp only
    by_cases hl : 1 ≤ o.level
    · rw [if_pos hl]
      cases h2 : octMap R ⟨o.level - 1, fun k => neighborPos G o off k >>> 1⟩ with
      | some j =>
        have : (⟨o.level - 1, fun k => neighborPos G o off k >>> 1⟩ : Oct d) ∈ (R.locals ++ R.ghosts).toFinset := by
          rw [List.mem_toFinset]
          by_contra h
          rw [octMap_eq_none.2 h] at h2
          cases h2
        rw [if_pos ⟨hl, this⟩]
        simp [octMap_eq_some h2]
      | none =>
        have : (⟨o.level - 1, fun k => neighborPos G o off k >>> 1⟩ : Oct d) ∉ (R.locals ++ R.ghosts).toFinset := by
          rw [List.mem_toFinset]
          exact octMap_eq_none.1 h2
        rw [if_neg (fun h => this h.2)]
        simp only
        rw [mapM_octMap]
        simp only [List.mem_toFinset]
        split <;> rfl
    · rw [if_neg hl, if_neg (fun h => hl h.1)]
      simp only
      rw [mapM_octMap]
      simp only [List.mem_toFinset]
      split <;> rfl

/-- **C66** On every rank of a balanced mesh: if the octants of the rank and its ghosts contain the leaves that touch octant `i`,
then the search from `i` returns, without repetition, indices of exactly the leaves of the whole mesh adjacent in this direction. -/
theorem C66_rank {G : Grid d} (hG : G.WF) {M : Finset (Oct d)} (hM : Tiling G M) (hB : Balanced G M) {R : RankOcts d}
    (hsub : ∀ b ∈ R.locals ++ R.ghosts, b ∈ M) {i : OctantIndex} {o : Oct d} (hi : octAt R i = some o) (ho : o ∈ M)
    (hcomp : ∀ b ∈ M, Touch G o b → b ∈ R.locals ++ R.ghosts) (off : Fin d → SignType) (hoff : ¬ ∀ k, off k = 0) :
    ∃ js, findIdx G R i off = some js ∧ js.Nodup ∧ js.length ≤ 2 ^ (d - 1) ∧ (∀ j ∈ js, ∃ b, octAt R j = some b) ∧
      ∀ b, (∃ j ∈ js, octAt R j = some b) ↔ b ∈ M ∧ DirAdj G o off b := by
  obtain ⟨ns, h1, h2, h3, h4⟩ := C05_findNeighbors_exact hG hM hB ho off hoff
  have hcg := Verif.Adapt.findNeighbors_congr hG hM (Mr := (R.locals ++ R.ghosts).toFinset)
    (fun b hb => hsub b (List.mem_toFinset.1 hb)) ho (fun b hb ht => List.mem_toFinset.2 (hcomp b hb ht)) off
  have h := C66_search G R hi off
  rw [hcg, h1] at h
  cases hf : findIdx G R i off with
  | none => rw [hf] at h; cases h
  | some js =>
    rw [hf] at h
    simp only [Option.map_some, Option.some.injEq] at h
    refine ⟨js, rfl, ?_, ?_, ?_, ?_⟩
    · refine List.Nodup.of_map (octAt R) ?_
      rw [h]
      exact h2.map (Option.some_injective _)
    · rw [← List.length_map (f := octAt R), h, List.length_map]
      exact h3
    · intro j hj
      have := List.mem_map_of_mem (f := octAt R) hj
      rw [h, List.mem_map] at this
      obtain ⟨b, -, hb⟩ := this
      exact ⟨b, hb.symm⟩
    · intro b
      rw [← h4, ← List.mem_map, h, List.mem_map]
      simp

/-! ### The table -/

theorem write_spec : ∀ (vs a : List ℕ) (pos : ℕ), pos + vs.length ≤ a.length →
    ∃ a', write a pos vs = some a' ∧ a'.length = a.length ∧
      ∀ m, a'[m]? = if pos ≤ m ∧ m < pos + vs.length then vs[m - pos]? else a[m]?
  | [], a, pos, _ => ⟨a, rfl, rfl, fun m => by
      rw [if_neg]
      simp only [List.length_nil]
      omega⟩
  | v :: vs, a, pos, h => by
    rw [List.length_cons] at h
    obtain ⟨a', h1, h2, h3⟩ := write_spec vs (a.set pos v) (pos + 1) (by rw [List.length_set]; omega)
    refine ⟨a', ?_, by rw [h2, List.length_set], fun m => ?_⟩
    · rw [write, if_pos (by omega), h1]
    · rw [h3, List.length_cons]
      by_cases e : m = pos
      · subst e
        rw [if_neg (by omega), if_pos (by omega), List.getElem?_set_self (by omega), Nat.sub_self]
        rfl
      · by_cases e2 : pos + 1 ≤ m ∧ m < pos + 1 + vs.length
        · rw [if_pos e2, if_pos (by omega), show m - pos = (m - (pos + 1)) + 1 by omega]
          rfl
        · rw [if_neg e2, if_neg (by omega), List.getElem?_set_ne (Ne.symm e)]

theorem scan_spec (nn : ℕ) (hnn : 0 < nn) (ns : ℕ → ℕ → List ℕ) (count : ℕ → ℕ → ℕ) (a : List ℕ) (n : ℕ)
    (hcount : ∀ i < n, ∀ k < nn, count i k = (ns i k).length)
    (hlen : ∑ x ∈ Finset.range (n * nn), (ns (x / nn) (x % nn)).length ≤ a.length) (h32 : a.length < 2 ^ 32) :
    ∀ m ≤ n * nn, ∃ a' start, scan nn ns count a m =
        some (a', start, ∑ x ∈ Finset.range m, (ns (x / nn) (x % nn)).length) ∧ a'.length = a.length ∧
      ∀ x < m, start (x / nn) (x % nn) = ∑ y ∈ Finset.range x, (ns (y / nn) (y % nn)).length ∧
        ∀ j < (ns (x / nn) (x % nn)).length,
          a'[(∑ y ∈ Finset.range x, (ns (y / nn) (y % nn)).length) + j]? = (ns (x / nn) (x % nn))[j]? := by
  have mono : ∀ {x y : ℕ}, x ≤ y → ∑ z ∈ Finset.range x, (ns (z / nn) (z % nn)).length ≤
      ∑ z ∈ Finset.range y, (ns (z / nn) (z % nn)).length := fun h => Finset.sum_le_sum_of_subset (Finset.range_mono h)
  intro m
  induction m with
  | zero => exact fun _ => ⟨a, fun _ _ => 0, rfl, rfl, fun x hx => absurd hx (by omega)⟩
  | succ m ih =>
    intro hm
    obtain ⟨a', start, h1, h2, h3⟩ := ih (by omega)
    have hc := hcount (m / nn) ((Nat.div_lt_iff_lt_mul hnn).2 (by omega)) (m % nn) (Nat.mod_lt _ hnn)
    have hS := mono hm
    rw [Finset.sum_range_succ] at hS
    obtain ⟨a'', w1, w2, w3⟩ := write_spec (ns (m / nn) (m % nn)) a' (∑ x ∈ Finset.range m, (ns (x / nn) (x % nn)).length)
      (by rw [h2]; omega)
    refine ⟨a'', Function.update start (m / nn) (Function.update (start (m / nn)) (m % nn)
      (∑ x ∈ Finset.range m, (ns (x / nn) (x % nn)).length)), ?_, by rw [w2, h2], ?_⟩
    · have hlt : (∑ x ∈ Finset.range m, (ns (x / nn) (x % nn)).length) + (ns (m / nn) (m % nn)).length < 2 ^ 32 := by omega
      rw [scan, h1, Option.bind_some]
      simp only
      rw [hc, List.take_length, w1, Option.map_some, Finset.sum_range_succ, Nat.mod_eq_of_lt hlt]
    · intro x hx
      rcases Nat.lt_succ_iff_lt_or_eq.1 hx with h | h
      · have hne : x / nn ≠ m / nn ∨ x % nn ≠ m % nn := by
          by_contra hcon
          push Not at hcon
          rw [← Nat.div_add_mod x nn, ← Nat.div_add_mod m nn, hcon.1, hcon.2] at h
          omega
        obtain ⟨p1, p2⟩ := h3 x h
        constructor
        · rw [← p1]
          by_cases e : x / nn = m / nn
          · rw [e, Function.update_self, Function.update_of_ne (hne.resolve_left (not_not.2 e))]
          · rw [Function.update_of_ne e]
        · intro j hj
          rw [w3, if_neg, p2 j hj]
          have := mono (show x + 1 ≤ m by omega)
          rw [Finset.sum_range_succ] at this
          omega
      · subst h
        constructor
        · rw [Function.update_self, Function.update_self]
        · intro j hj
          rw [w3, if_pos (by omega), Nat.add_sub_cancel_left]

/-- A sum over pairs, numbered row by row. -/
theorem sum_rows (f : ℕ → ℕ → ℕ) (n nn : ℕ) : ∑ x ∈ Finset.range (n * nn), f (x / nn) (x % nn) =
    ∑ i ∈ Finset.range n, ∑ k ∈ Finset.range nn, f i k := by
  induction n with
  | zero => simp
  | succ n ih =>
    rw [Nat.succ_mul, Finset.sum_range_add, ih, Finset.sum_range_succ]
    congr 1
    refine Finset.sum_congr rfl fun k hk => ?_
    rw [Finset.mem_range] at hk
    rw [Nat.mul_comm n nn, Nat.mul_add_div (by omega), Nat.div_eq_of_lt hk, Nat.add_zero, Nat.mul_add_mod, Nat.mod_eq_of_lt hk]

/-- The two kernels number the pairs differently and count the same. -/
theorem sum_columns (f : ℕ → ℕ → ℕ) (n nn : ℕ) : ((List.range (n * nn)).map fun x => f (x % n) (x / n)).sum =
    ∑ x ∈ Finset.range (n * nn), f (x / nn) (x % nn) := by
  rw [sum_rows, Finset.sum_comm, ← sum_rows (fun k i => f i k), Nat.mul_comm n nn]
  rfl

/-- **C66** The numbering of offsets and its inverse, in 2D and 3D. -/
theorem C66_offsets : (∀ off : Fin 2 → SignType, offsetToIndex off < nbOffsets 2 ∧ indexToOffset (offsetToIndex off) = off) ∧
    (∀ off : Fin 3 → SignType, offsetToIndex off < nbOffsets 3 ∧ indexToOffset (offsetToIndex off) = off) ∧
    (∀ k < nbOffsets 2, offsetToIndex (d := 2) (indexToOffset k) = k) ∧
    ∀ k < nbOffsets 3, offsetToIndex (d := 3) (indexToOffset k) = k := by
  decide +kernel

theorem findIdx_octAt {G : Grid d} {R : RankOcts d} {i : OctantIndex} {off : Fin d → SignType} {js : List OctantIndex}
    (h : findIdx G R i off = some js) {j : OctantIndex} (hj : j ∈ js) : (octAt R j).isSome := by
  cases hi : octAt R i with
  | none =>
    unfold findIdx at h
    rw [hi] at h
    cases h
  | some o =>
    have hs := C66_search G R hi off
    rw [h, Option.map_some] at hs
    cases hf : findNeighbors G (R.locals ++ R.ghosts).toFinset o off with
    | none => rw [hf] at hs; cases hs
    | some ns =>
      rw [hf] at hs
      simp only [Option.map_some, Option.some.injEq] at hs
      have := List.mem_map_of_mem (f := octAt R) hj
      rw [hs, List.mem_map] at this
      obtain ⟨b, -, hb⟩ := this
      rw [← hb]
      rfl

theorem ofLocal_toLocal {R : RankOcts d} {j : OctantIndex} (h : (octAt R j).isSome) :
    ofLocal (toLocal j R.locals.length) R.locals.length = j := by
  obtain ⟨k, g⟩ := j
  cases g
  · have hk : k < R.locals.length := by
      unfold octAt at h
      simpa using h
    unfold ofLocal toLocal
    simp only [Bool.false_eq_true, if_false, Nat.zero_mul, Nat.zero_add]
    rw [if_neg (by omega)]
  · unfold ofLocal toLocal
    simp

theorem mapM_range {α : Type} (f : ℕ → Option α) (l : List α) (h : ∀ j (hj : j < l.length), f j = some l[j]) :
    (List.range l.length).mapM f = some l := by
  induction l using List.reverseRecOn with
  | nil => rfl
  | append_singleton l a ih =>
    rw [List.length_append, List.length_singleton, List.range_succ, List.mapM_append, ih]
    · have := h l.length (by simp)
      rw [List.getElem_concat_length rfl] at this
      simp [this]
    · intro j hj
      rw [h j (by simp; omega), List.getElem_append_left hj]

/-- **C66** (table) If the search is defined for all local octants and directions, finds at most four octants each time (the size of
`NeighborList`), and fewer than `2^32` in all, then the table is built without an access out of range, and the search in the table
gives the results of the search in the hash map, in the same order. -/
theorem C66_table (hd : d = 2 ∨ d = 3) (G : Grid d) (R : RankOcts d)
    (hdef : ∀ i < R.locals.length, ∀ off : Fin d → SignType, ∃ js, findIdx G R ⟨i, false⟩ off = some js ∧ js.length ≤ 4)
    (h32 : ∑ i ∈ Finset.range R.locals.length, ∑ k ∈ Finset.range (nbOffsets d),
      ((findIdx G R ⟨i, false⟩ (indexToOffset k)).getD []).length < 2 ^ 32) :
    ∃ T, tableInit G R = some T ∧ ∀ i : OctantIndex, (i.isGhost = false → i.iOct < R.locals.length) →
      ∀ off, tableFind G R T i off = findIdx G R i off := by
  have hidx : ∀ off : Fin d → SignType, offsetToIndex off < nbOffsets d ∧ indexToOffset (offsetToIndex off) = off := by
    rcases hd with rfl | rfl
    · exact C66_offsets.1
    · exact C66_offsets.2.1
  have hnn : 0 < nbOffsets d := by unfold nbOffsets; split <;> decide
  have hall : ∀ iOct < R.locals.length, ∀ k < nbOffsets d, (findIdx G R ⟨iOct, false⟩ (indexToOffset k)).isSome := by
    intro i hi k _
    obtain ⟨js, h, -⟩ := hdef i hi (indexToOffset k)
    rw [h]
    rfl
  have htot : ∑ x ∈ Finset.range (R.locals.length * nbOffsets d),
      (((findIdx G R ⟨x / nbOffsets d, false⟩ (indexToOffset (x % nbOffsets d))).getD []).map
        fun j => toLocal j R.locals.length).length < 2 ^ 32 := by
    rw [sum_rows (fun i k => (((findIdx G R ⟨i, false⟩ (indexToOffset k)).getD []).map fun j => toLocal j R.locals.length).length)]
    simpa only [List.length_map] using h32
  have hlen := sum_columns (fun i k => (((findIdx G R ⟨i, false⟩ (indexToOffset k)).getD []).map
    fun j => toLocal j R.locals.length).length) R.locals.length (nbOffsets d)
  obtain ⟨a, start, h1, h2, h3⟩ := scan_spec (nbOffsets d) hnn
    (fun i k => ((findIdx G R ⟨i, false⟩ (indexToOffset k)).getD []).map fun j => toLocal j R.locals.length)
    (fun i k => (((findIdx G R ⟨i, false⟩ (indexToOffset k)).getD []).map fun j => toLocal j R.locals.length).length % 2 ^ 8)
    (List.replicate (((List.range (R.locals.length * nbOffsets d)).map fun x =>
      (((findIdx G R ⟨x % R.locals.length, false⟩ (indexToOffset (x / R.locals.length))).getD []).map
        fun j => toLocal j R.locals.length).length).sum % 2 ^ 32) 0) R.locals.length
    (by
      intro i hi k _
      obtain ⟨js, h, h4⟩ := hdef i hi (indexToOffset k)
      simp only [h, Option.getD_some, List.length_map]
      omega)
    (by
      rw [List.length_replicate, hlen, Nat.mod_eq_of_lt htot])
    (by
      rw [List.length_replicate]
      exact Nat.mod_lt _ (by decide))
    _ le_rfl
  refine ⟨⟨fun i k => (((findIdx G R ⟨i, false⟩ (indexToOffset k)).getD []).map fun j => toLocal j R.locals.length).length % 2 ^ 8,
    start, a⟩, ?_, ?_⟩
  · unfold tableInit
    simp only
    rw [if_pos hall, h1]
    rfl
  · rintro ⟨i, g⟩ hi off
    cases g
    · have hi := hi rfl
      simp only at hi
      unfold tableFind
      simp only [Bool.false_eq_true, if_false]
      obtain ⟨js, hjs, h4⟩ := hdef i hi off
      obtain ⟨k1, k2⟩ := hidx off
      have hx : i * nbOffsets d + offsetToIndex off < R.locals.length * nbOffsets d := by
        calc i * nbOffsets d + offsetToIndex off < i * nbOffsets d + nbOffsets d := by omega
          _ = (i + 1) * nbOffsets d := by ring
          _ ≤ _ := Nat.mul_le_mul_right _ hi
      have e1 : (i * nbOffsets d + offsetToIndex off) / nbOffsets d = i := by
        rw [Nat.mul_comm, Nat.mul_add_div hnn, Nat.div_eq_of_lt k1, Nat.add_zero]
      have e2 : (i * nbOffsets d + offsetToIndex off) % nbOffsets d = offsetToIndex off := by
        rw [Nat.mul_comm, Nat.mul_add_mod, Nat.mod_eq_of_lt k1]
      obtain ⟨p1, p2⟩ := h3 _ hx
      rw [e1, e2] at p1 p2
      simp only [k2, hjs, Option.getD_some, List.length_map] at p1 p2 ⊢
      rw [Nat.mod_eq_of_lt (by omega)]
      refine mapM_range _ js fun j hj => ?_
      rw [p1, p2 j hj, List.getElem?_map, List.getElem?_eq_getElem hj]
      simp only [Option.map_some, Option.some.injEq]
      exact ofLocal_toLocal (findIdx_octAt hjs (List.getElem_mem hj))
    · rfl

/-- **C66** (table) On every rank of a balanced mesh whose ghosts contain the leaves that touch its own, with at most
`2^32 / 108` octants, the search in the table and the search in the hash map agree. -/
theorem C66_table_mesh (hd : d = 2 ∨ d = 3) {G : Grid d} (hG : G.WF) {M : Finset (Oct d)} (hM : Tiling G M) (hB : Balanced G M)
    {R : RankOcts d} (hsub : ∀ b ∈ R.locals ++ R.ghosts, b ∈ M)
    (hcomp : ∀ a ∈ R.locals, ∀ b ∈ M, Touch G a b → b ∈ R.locals ++ R.ghosts) (hn : R.locals.length * 108 < 2 ^ 32) :
    ∃ T, tableInit G R = some T ∧ ∀ i : OctantIndex, (i.isGhost = false → i.iOct < R.locals.length) →
      ∀ off, tableFind G R T i off = findIdx G R i off := by
  have hdef : ∀ i < R.locals.length, ∀ off : Fin d → SignType, ∃ js, findIdx G R ⟨i, false⟩ off = some js ∧ js.length ≤ 4 := by
    intro i hi off
    have hio : octAt R ⟨i, false⟩ = some R.locals[i] := by
      unfold octAt
      simp [hi]
    by_cases hoff : ∀ k, off k = 0
    · refine ⟨[⟨i, false⟩], ?_, by simp⟩
      unfold findIdx
      rw [hio, Option.bind_some, if_pos hoff]
    · obtain ⟨js, h1, -, h3, -⟩ := C66_rank hG hM hB hsub hio (hsub _ (List.mem_append_left _ (List.getElem_mem hi)))
        (hcomp _ (List.getElem_mem hi)) off hoff
      refine ⟨js, h1, h3.trans ?_⟩
      rcases hd with rfl | rfl <;> decide
  refine C66_table hd G R hdef (lt_of_le_of_lt ?_ hn)
  have hnn : nbOffsets d ≤ 27 := by unfold nbOffsets; split <;> decide
  calc _ ≤ ∑ _i ∈ Finset.range R.locals.length, ∑ _k ∈ Finset.range (nbOffsets d), 4 := by
        refine Finset.sum_le_sum fun i hi => Finset.sum_le_sum fun k _ => ?_
        obtain ⟨js, h, h4⟩ := hdef i (Finset.mem_range.1 hi) (indexToOffset k)
        rw [h]
        exact h4
    _ ≤ _ := by
        simp only [Finset.sum_const, Finset.card_range, smul_eq_mul]
        exact Nat.mul_le_mul_left _ (by omega)

/-! ### Examples -/

/-- The first three octants of the example mesh on a rank, the others as ghosts. -/
def exRank : RankOcts 2 := ⟨exMesh.take 3, exMesh.drop 3⟩

example : exRank.locals.length = 3 ∧ exRank.ghosts.length = 4 ∧
    findIdx exGrid exRank ⟨0, false⟩ ![1, 0] = some [⟨1, false⟩] ∧
    findIdx exGrid exRank ⟨1, false⟩ ![1, 0] = some [⟨1, true⟩] ∧
    (findIdx exGrid exRank ⟨1, true⟩ ![-1, 0]).map List.length = some 2 := by decide +kernel

/-- The hypotheses are met, and the table is not empty. -/
example : ∃ T, tableInit exGrid exRank = some T ∧ ∀ i : OctantIndex, (i.isGhost = false → i.iOct < 3) →
    ∀ off, tableFind exGrid exRank T i off = findIdx exGrid exRank i off :=
  C66_table_mesh (Or.inl rfl) exGrid_wf exMesh_tiling exMesh_balanced
    (fun b hb => by rw [List.mem_toFinset]; simpa [exRank, List.take_append_drop] using hb)
    (fun a _ b hb _ => by rw [List.mem_toFinset] at hb; simpa [exRank, List.take_append_drop] using hb) (by decide)

/-- The array of neighbours; the neighbour of octant 1 in direction x is its entry 8. -/
example : (tableInit exGrid exRank).map (fun T => (T.nbrs, T.count 1 5, T.start 1 5)) =
    some ([4, 0, 1, 4, 2, 3, 0, 1, 4, 2, 3, 4, 4, 0, 1, 4, 2, 3, 6, 5, 5], 1, 8) := by decide +kernel

end Verif.Octree
