import Verif.Particles.ShareProps

/-!
# C112: clouds that reach no smaller cells

In `Share.lean` no cell around the cell of a particle is smaller. Here smaller cells may be around it, if the cloud of the
particle has no part in them. For offsets at which the cloud has no part the code adds 0 to smaller cells, which it has to
find: blocks have even sizes or one cell.
-/

namespace Verif.Particles

open Verif.Octree Verif.Cells Verif.Flux Verif.Hydro

/-- Specification: all cells in which the cloud of a particle at `x` has a part are at least as large as the cloud. -/
def ReachesNoSmaller {d : ℕ} (D : Domain d) (G : Grid d) (M : Finset (Oct d)) (b : Fin d → ℕ) (h x : Fin d → ℚ) : Prop :=
  ∀ o ∈ M, ∀ y : Fin d → ℕ, (∀ k, y k < b k) → inCloud D G b h x o y ≠ 0 →
    ∀ k, h k ≤ cellSize D (cellGrid G b) (cellOct b o y) k

/-! ### Cells that are reached -/

/-- A place inside of the part of the cloud at one offset. -/
theorem room {p : ℚ} {e : ℤ} (hp : |p| ≤ 1 / 2) (he : e ∈ [0, sgn p]) (hf : (if e = 0 then 1 - |p| else |p|) ≠ 0) :
    ∃ w : ℚ, 0 < w ∧ w < 1 ∧ p < e + w ∧ e + w < p + 1 := by
  have h1 := abs_le.1 hp
  by_cases h0 : e = 0
  · subst h0
    refine ⟨1 / 2 + p / 2, ?_, ?_, ?_, ?_⟩ <;> push_cast <;> linarith
  · rw [if_neg h0, abs_ne_zero] at hf
    have he' : e = sgn p := by simpa [h0] using he
    unfold sgn at he'
    rcases lt_or_gt_of_ne hf with h | h
    · rw [if_neg (show ¬ p ≥ 0 from not_le.2 h)] at he'
      subst he'
      refine ⟨1 + p / 2, ?_, ?_, ?_, ?_⟩ <;> push_cast <;> linarith
    · rw [if_pos h.le] at he'
      subst he'
      refine ⟨p / 2, ?_, ?_, ?_, ?_⟩ <;> push_cast <;> linarith

variable {d : ℕ}

theorem covered_nonneg (D : Domain d) (G : Grid d) (b : Fin d → ℕ) (o : Oct d) (y : Fin d → ℕ) (h x : Fin d → ℚ)
    (k : Fin d) : 0 ≤ covered D G b o y h x k :=
  Finset.sum_nonneg fun _ _ => le_max_left _ _

/-- A cell with a point of the inner part of the cloud is covered. -/
theorem covered_pos {G : Grid d} (hG : G.Pos) {D : Domain d} (hD : Domain.Ok D) {c : CellIndex d} (hb : ∀ k, 0 < c.b k)
    {x : Fin d → ℚ} {o : Oct d} {y : Fin d → ℕ} {k : Fin d} {P : ℕ} {e t : ℤ} {w : ℚ} (ht : t = 0 ∨ t = 1 ∨ t = -1)
    (h : (P : ℤ) + t * (cellGrid G c.b).count k c.oct.level = (cellOct c.b c.oct c.idx).pos k + e)
    (h1 : relPos D G c x k < e + w) (h2 : e + w < relPos D G c x k + 1)
    (hz : lo (cellGrid G c.b) (cellOct c.b o y) k ≤ (P + w) / (cellGrid G c.b).count k c.oct.level ∧
      (P + w) / (cellGrid G c.b).count k c.oct.level < hi (cellGrid G c.b) (cellOct c.b o y) k) :
    0 < covered D G c.b o y (cellSize D (cellGrid G c.b) (cellOct c.b c.oct c.idx)) x k := by
  have hs := cellSize_pos (cellGrid_pos hG hb) hD (cellOct c.b c.oct c.idx) k
  have hN : (0 : ℚ) < (cellGrid G c.b).count k c.oct.level := by exact_mod_cast count_pos (cellGrid_pos hG hb) k _
  have h' : (P : ℚ) + t * (cellGrid G c.b).count k c.oct.level = (cellOct c.b c.oct c.idx).pos k + e := by exact_mod_cast h
  unfold covered
  refine Finset.sum_pos' (fun _ _ => le_max_left _ _) ⟨-t, by simp only [Finset.mem_insert, Finset.mem_singleton]; omega, ?_⟩
  rw [lt_max_iff]
  right
  rw [pos_eq hG hD hb x k, size_eq hG hb D k]
  generalize cellSize D (cellGrid G c.b) (cellOct c.b c.oct c.idx) k = s at *
  generalize ((cellGrid G c.b).count k c.oct.level : ℚ) = N at *
  generalize relPos D G c x k = p at *
  have hZ : (P + w) / N * (N * s) = s * ((cellOct c.b c.oct c.idx).pos k + e + w) - t * (N * s) := by
    rw [show (P + w) / N * (N * s) = (P + w) * s by field_simp, show (P : ℚ) = (cellOct c.b c.oct c.idx).pos k + e - t * N by linarith]
    ring
  have a1 := mul_lt_mul_of_pos_left h1 hs
  have a2 := mul_lt_mul_of_pos_left h2 hs
  have a3 := mul_le_mul_of_nonneg_right hz.1 (mul_pos hN hs).le
  have a4 := mul_lt_mul_of_pos_right hz.2 (mul_pos hN hs)
  rw [hZ] at a3 a4
  push_cast
  rw [sub_pos]
  refine lt_of_le_of_lt (b := D.xmin k + (s * ((cellOct c.b c.oct c.idx).pos k + e + w) - t * (N * s)))
    (max_le ?_ (by linarith)) (lt_min ?_ (by linarith))
  · linarith
  · linarith

/-- If a cell at an offset of the cloud is smaller, the cloud has a part in a smaller cell. -/
theorem reached {G : Grid d} {M : Finset (Oct d)} (hG : G.Pos) (hM : Tiling G M)
    {D : Domain d} (hD : Domain.Ok D) {c : CellIndex d} (hb : ∀ k, 0 < c.b k) {x : Fin d → ℚ}
    (hc : ∀ k, |relPos D G c x k| ≤ 1 / 2) (hlc : G.lmin ≤ c.oct.level) {e : Fin d → ℤ} (he : e ∈ offsets (relPos D G c x))
    (hf : fraction (relPos D G c x) e ≠ 0) {P : Fin d → ℕ}
    (hW : Wraps (cellGrid G c.b) c.oct.level (target c.b c.oct c.idx e) P) {q : Oct d} (hq : q ∈ cellMesh c.b M)
    (hA : Anc ⟨c.oct.level, P⟩ q) (hlt : c.oct.level < q.level) :
    ∃ o ∈ M, ∃ y : Fin d → ℕ, (∀ k, y k < c.b k) ∧ c.oct.level < o.level ∧
      0 < ∏ k, covered D G c.b o y (cellSize D (cellGrid G c.b) (cellOct c.b c.oct c.idx)) x k := by
  have hG' := cellGrid_pos hG hb
  have hM' := cellMesh_tiling hG hb hM
  have hr : ∀ k, ∃ w : ℚ, 0 < w ∧ w < 1 ∧ relPos D G c x k < e k + w ∧ e k + w < relPos D G c x k + 1 := fun k =>
    room (hc k) ((mem_loops _ _).1 he k) (Finset.prod_ne_zero_iff.1 hf k (Finset.mem_univ k))
  choose w w1 w2 w3 w4 using hr
  have hN : ∀ k, (0 : ℚ) < (cellGrid G c.b).count k c.oct.level := fun k => by exact_mod_cast count_pos hG' k _
  have hz : ∀ k, (P k : ℚ) / (cellGrid G c.b).count k c.oct.level ≤ (P k + w k) / (cellGrid G c.b).count k c.oct.level ∧
      (P k + w k) / (cellGrid G c.b).count k c.oct.level < ((P k : ℚ) + 1) / (cellGrid G c.b).count k c.oct.level := fun k => by
    have := w1 k
    have := w2 k
    exact ⟨div_le_div_of_nonneg_right (by linarith) (hN k).le, div_lt_div_of_pos_right (by linarith) (hN k)⟩
  have hv : Valid (cellGrid G c.b) ⟨c.oct.level, P⟩ := ⟨hlc, fun k => (hW k).1⟩
  have hcov : Covers (cellGrid G c.b) ⟨c.oct.level, P⟩ fun k => (P k + w k) / (cellGrid G c.b).count k c.oct.level := hz
  obtain ⟨r, ⟨hr, hrc⟩, -⟩ := hM'.cover (fun k => (P k + w k) / (cellGrid G c.b).count k c.oct.level) fun k =>
    ⟨le_trans (lo_nonneg _ k) (hcov k).1, lt_of_lt_of_le (hcov k).2 (hi_le_one hG' hv k)⟩
  have hlev : c.oct.level < r.level := by
    by_contra hle
    have hA2 := anc_of_covers (b := ⟨c.oct.level, P⟩) hG' (hM'.valid _ hr) (not_lt.1 hle) hrc hcov
    have := hM'.eq_of_anc hG' hr hq (hA2.trans hA)
    subst this
    exact hle hlt
  obtain ⟨o, ho, y, hy, rfl⟩ := mem_cellMesh.1 hr
  refine ⟨o, ho, y, hy, hlev, Finset.prod_pos fun k _ => ?_⟩
  obtain ⟨-, t, ht, hk⟩ := hW k
  refine covered_pos hG hD hb (P := P k) (e := e k) (t := t) (w := w k) ?_ hk (w3 k) (w4 k) (hrc k)
  rcases ht with h | ⟨-, h | h⟩
  · exact Or.inl h
  · exact Or.inr (Or.inl h)
  · exact Or.inr (Or.inr h)

/-- Cells of higher levels are smaller. -/
theorem size_lt {G : Grid d} (hG : G.Pos) {D : Domain d} (hD : Domain.Ok D) {b : Fin d → ℕ} (hb : ∀ k, 0 < b k) {o o' : Oct d}
    (y y' : Fin d → ℕ) (hl : G.lmin ≤ o.level) (hlt : o.level < o'.level) (k : Fin d) :
    cellSize D (cellGrid G b) (cellOct b o' y') k < cellSize D (cellGrid G b) (cellOct b o y) k := by
  have hG' := cellGrid_pos hG hb
  have h1 := size_eq hG (c := ⟨o, y, b, .localToBlock⟩) hb D k
  have h2 := size_eq hG (c := ⟨o', y', b, .localToBlock⟩) hb D k
  have hs := cellSize_pos hG' hD (cellOct b o' y') k
  have hs' := cellSize_pos hG' hD (cellOct b o y) k
  have hN : (0 : ℚ) < (cellGrid G b).count k o.level := by exact_mod_cast count_pos hG' k _
  have h3 := count_add (cellGrid G b) k (o'.level - o.level) (n := o.level) hl
  rw [show o.level + (o'.level - o.level) = o'.level by omega] at h3
  have h4 : (2 : ℚ) ≤ 2 ^ (o'.level - o.level) := by
    calc (2 : ℚ) = 2 ^ 1 := by norm_num
      _ ≤ _ := pow_le_pow_right₀ (by norm_num) (by omega)
  dsimp only at h1 h2
  rw [h1, h3] at h2
  push_cast at h2
  have h5 : cellSize D (cellGrid G b) (cellOct b o y) k =
      2 ^ (o'.level - o.level) * cellSize D (cellGrid G b) (cellOct b o' y') k := by
    apply mul_left_cancel₀ hN.ne'
    rw [h2]; ring
  rw [h5]
  nlinarith

/-! ### One particle -/

/-- What is added for one offset, if the cloud reaches no smaller cell. -/
theorem contrib_reach {G : Grid 3} {M : Finset (Oct 3)} (hG : G.Pos) (hM : Tiling G M) (hB : Balanced G M)
    (hper : ∀ k, G.periodic k = true) {D : Domain 3} (hD : Domain.Ok D) {c : CellIndex 3} (hc : c.oct ∈ M)
    (hx : ∀ k, c.idx k < c.b k) (hst : c.status = .localToBlock) (hb : (∀ k, 2 ∣ c.b k) ∨ ∀ k, c.b k = 1)
    {x : Fin 3 → ℚ} (hhalf : ∀ k, |relPos D G c x k| ≤ 1 / 2)
    (hs : ReachesNoSmaller D G M c.b (cellSize D (cellGrid G c.b) (cellOct c.b c.oct c.idx)) x)
    {e : Fin 3 → ℤ} (he : e ∈ offsets (relPos D G c x)) (mass : ℚ) :
    ∃ (l : List (CellIndex 3 × ℚ)) (r : CellIndex 3) (P : Fin 3 → ℕ),
      contrib G M c mass (cellVolume D G c) (relPos D G c x) e = some l ∧
      (∀ o y, (l.map fun w => if w.1.oct = o ∧ w.1.idx = y then w.2 else 0).sum = if r.oct = o ∧ r.idx = y then
        mass * fraction (relPos D G c x) e / volume D (cellGrid G c.b) (cellOct c.b o y) else 0) ∧
      (fraction (relPos D G c x) e ≠ 0 → r.oct ∈ M ∧ (∀ k, r.idx k < c.b k) ∧
        Anc (cellOct c.b r.oct r.idx) ⟨c.oct.level, P⟩ ∧
        Wraps (cellGrid G c.b) c.oct.level (target c.b c.oct c.idx e) P) := by
  have hb0 : ∀ k, 0 < c.b k := fun k => by have := hx k; omega
  have hG' := cellGrid_pos hG hb0
  have hlc : G.lmin ≤ c.oct.level := (hM.valid _ hc).1
  by_cases hf : fraction (relPos D G c x) e = 0
  · obtain ⟨sh, h1, -, -, h4, h5⟩ := shares_spec hG hM hB hper hD hc hx hst hb (fun k => offsets_abs he k) (relPos D G c x)
    refine ⟨_, c, fun _ => 0, h1 mass, fun o y => ?_, fun h => absurd hf h⟩
    rw [hf, zero_mul] at h4
    have h6 := h5 hf.ge
    have hz : ∀ w ∈ sh, w.2 = 0 := by
      clear h1 h5
      induction sh with
      | nil => intro w hw; cases hw
      | cons a l ih =>
        rw [List.map_cons, List.sum_cons] at h4
        have n1 := h6 a List.mem_cons_self
        have n2 : 0 ≤ (l.map Prod.snd).sum := List.sum_nonneg fun v hv => by
          obtain ⟨u, hu, rfl⟩ := List.mem_map.1 hv
          exact h6 u (List.mem_cons_of_mem _ hu)
        intro w hw
        rcases List.mem_cons.1 hw with rfl | hw
        · linarith
        · exact ih (by linarith) (fun u hu => h6 u (List.mem_cons_of_mem _ hu)) w hw
    rw [hf, mul_zero, zero_div, ite_self, List.map_map]
    refine List.sum_eq_zero fun v hv => ?_
    obtain ⟨w, hw, rfl⟩ := List.mem_map.1 hv
    simp [hz w hw]
  · have hns : ∀ P, Wraps (cellGrid G c.b) c.oct.level (target c.b c.oct c.idx e) P → ∀ q ∈ cellMesh c.b M,
        Anc ⟨c.oct.level, P⟩ q → q.level ≤ c.oct.level := by
      intro P hP q hq hA
      by_contra hlt
      obtain ⟨o, ho, y, hy, hl, hpos⟩ := reached hG hM hD hb0 hhalf hlc he hf hP hq hA (not_le.1 hlt)
      have hn : inCloud D G c.b (cellSize D (cellGrid G c.b) (cellOct c.b c.oct c.idx)) x o y ≠ 0 :=
        (div_pos hpos (Finset.prod_pos fun k _ => cellSize_pos hG' hD _ k)).ne'
      exact absurd (hs o ho y hy hn 0) (not_le.2 (size_lt hG hD hb0 _ _ hlc hl 0))
    obtain ⟨r, P, h1, -, h3, h4, h5, h6⟩ := contrib_one hG hM hB hper hD hc hx hst (fun k => offsets_abs he k) hns
      (relPos D G c x)
    refine ⟨_, r, P, h1 mass, fun o y => ?_, fun _ => ⟨h3, h4, h5, h6⟩⟩
    rw [List.map_singleton, List.sum_singleton]
    dsimp only
    split
    · rename_i hw
      rw [hw.1, hw.2]
    · rfl

/-- One particle, every cell. -/
theorem cic_at_reach {G : Grid 3} {M : Finset (Oct 3)} (hG : G.WF) (hM : Tiling G M) (hB : Balanced G M)
    (hper : ∀ k, G.periodic k = true) {D : Domain 3} (hD : Domain.Ok D) (minLevel maxLevel : ℕ)
    (hlev : ∀ o ∈ M, minLevel ≤ o.level ∧ o.level ≤ maxLevel) {b : Fin 3 → ℕ} (hb0 : ∀ k, 0 < b k)
    (hb : (∀ k, 2 ∣ b k) ∨ ∀ k, b k = 1) (q : Particle 3) (hq : InBox D q.pos) {h : Fin 3 → ℚ}
    (hh : SizeAt D G M b q.pos h) (hs : ReachesNoSmaller D G M b h q.pos) :
    ∃ ws : List (CellIndex 3 × ℚ), cic D G M minLevel maxLevel b q = some ws ∧ ∀ o ∈ M, ∀ y : Fin 3 → ℕ, (∀ k, y k < b k) →
      (ws.map fun w => if w.1.oct = o ∧ w.1.idx = y then w.2 else 0).sum =
        q.mass * inCloud D G b h q.pos o y / volume D (cellGrid G b) (cellOct b o y) := by
  classical
  obtain ⟨c, h1, h2, h3, h4, h5, h6, h7⟩ := C26_cell_of_pos hG hM D hD minLevel maxLevel hlev b hb0 q.pos hq
  obtain ⟨o', ho', y', hy', hin, rfl⟩ := hh
  obtain ⟨rfl, rfl⟩ := h7 _ ho' _ hy' hin
  clear h7
  subst h4
  have hGp : G.Pos := hG
  have hG' := cellGrid_pos hGp hb0
  have hM' := cellMesh_tiling hGp hb0 hM
  have hlc : G.lmin ≤ c.oct.level := (hM.valid _ h2).1
  have hhalf' : ∀ k, |relPos D G c q.pos k| ≤ 1 / 2 := fun k => relPos_half hGp hD hb0 h6 k
  have hc := fun e he => contrib_reach hGp hM hB hper hD h2 h3 h5 hb hhalf' hs (e := e) he q.mass
  generalize hp : relPos D G c q.pos = p at hhalf' hc
  have : Nonempty (CellIndex 3) := ⟨c⟩
  choose! ls f P hf1 hg hf using hc
  have hcic : cic D G M minLevel maxLevel c.b q = some ((offsets p).map ls).flatten := by
    unfold cic
    rw [h1, Option.bind_some]
    dsimp only
    rw [hp, OneNeighbor.loops_mapM_some _ _ ls fun e he => hf1 e he, Option.map_some]
  refine ⟨_, hcic, fun o ho y hy => ?_⟩
  unfold inCloud
  have hom : cellOct c.b o y ∈ cellMesh c.b M := mem_cellMesh.2 ⟨_, ho, _, hy, rfl⟩
  have hlo : G.lmin ≤ o.level := (hM.valid _ ho).1
  set V := volume D (cellGrid G c.b) (cellOct c.b o y) with hV
  have hflat : (((offsets p).map ls).flatten.map fun w => if w.1.oct = o ∧ w.1.idx = y then w.2 else 0).sum =
      ((offsets p).map fun e => if (f e).oct = o ∧ (f e).idx = y then q.mass * fraction p e / V else 0).sum := by
    rw [List.map_flatten, List.sum_flatten, List.map_map, List.map_map]
    exact congrArg List.sum (List.map_congr_left fun e he => hg e he o y)
  rw [hflat]
  rcases lt_or_ge c.oct.level o.level with hl | hl
  · -- smaller cells
    have hz : inCloud D G c.b (cellSize D (cellGrid G c.b) (cellOct c.b c.oct c.idx)) q.pos o y = 0 := by
      by_contra hn
      exact absurd (hs o ho y hy hn 0) (not_le.2 (size_lt hGp hD hb0 _ _ hlc hl 0))
    unfold inCloud at hz
    rw [hz, List.sum_eq_zero]
    · simp
    · intro v hv
      obtain ⟨e, he, rfl⟩ := List.mem_map.1 hv
      by_cases h0 : fraction p e = 0
      · rw [h0]; simp
      rw [if_neg]
      rintro ⟨h7, -⟩
      have h8 : (f e).oct.level ≤ c.oct.level := (hf e he h0).2.2.1.1
      rw [h7] at h8
      omega
  · have hm : 0 < 2 ^ (c.oct.level - o.level) := by positivity
    have hQ : ∀ k, ((cellOct c.b o y).pos k + 1) * 2 ^ (c.oct.level - o.level) ≤ (cellGrid G c.b).count k c.oct.level :=
      fun k => by
      have h7 : (cellOct c.b o y).pos k < (cellGrid G c.b).count k o.level := (hM'.valid _ hom).2 k
      have h8 := count_add (cellGrid G c.b) k (c.oct.level - o.level) (n := o.level) hlo
      rw [show o.level + (c.oct.level - o.level) = c.oct.level by omega] at h8
      rw [h8]
      exact Nat.mul_le_mul_right _ h7
    have hterm : ∀ e ∈ offsets p, (if (f e).oct = o ∧ (f e).idx = y then q.mass * fraction p e / V else 0) =
        q.mass / V * ∏ k, ((if e k = 0 then 1 - |p k| else |p k|) * ∑ s ∈ ({-1, 0, 1} : Finset ℤ),
          ∑ i ∈ Finset.range (2 ^ (c.oct.level - o.level)),
            if (((cellOct c.b o y).pos k * 2 ^ (c.oct.level - o.level) + i : ℕ) : ℤ) - (cellOct c.b c.oct c.idx).pos k -
              s * (cellGrid G c.b).count k c.oct.level = e k then (1 : ℚ) else 0) := by
      intro e he
      by_cases h0 : fraction p e = 0
      · rw [Finset.prod_mul_distrib, show (∏ k, if e k = 0 then 1 - |p k| else |p k|) = 0 from h0, h0]
        simp
      obtain ⟨hf2, hf3, hf4, hw⟩ := hf e he h0
      have key : ∀ k, (∑ s ∈ ({-1, 0, 1} : Finset ℤ), ∑ i ∈ Finset.range (2 ^ (c.oct.level - o.level)),
          if (((cellOct c.b o y).pos k * 2 ^ (c.oct.level - o.level) + i : ℕ) : ℤ) - (cellOct c.b c.oct c.idx).pos k -
            s * (cellGrid G c.b).count k c.oct.level = e k then (1 : ℚ) else 0) =
          if P e k / 2 ^ (c.oct.level - o.level) = (cellOct c.b o y).pos k then 1 else 0 := by
        intro k
        obtain ⟨w1, t, w2, w3⟩ := hw k
        refine dir_sum (hQ k) hm w1 (t := t) ?_ w3
        rcases w2 with h | ⟨-, h | h⟩
        · exact Or.inl h
        · exact Or.inr (Or.inl h)
        · exact Or.inr (Or.inr h)
      simp only [key]
      rw [Finset.prod_mul_distrib]
      by_cases heq : (f e).oct = o ∧ (f e).idx = y
      · rw [if_pos heq, Finset.prod_eq_one (s := Finset.univ) (f := fun k =>
          if P e k / 2 ^ (c.oct.level - o.level) = (cellOct c.b o y).pos k then (1 : ℚ) else 0)]
        · unfold fraction; ring
        · intro k _
          rw [if_pos]
          have := (hf4).2 k
          rw [heq.1, heq.2] at this
          exact this
      · rw [if_neg heq]
        have : ∃ k, P e k / 2 ^ (c.oct.level - o.level) ≠ (cellOct c.b o y).pos k := by
          by_contra hall
          push Not at hall
          have hA : Anc (cellOct c.b o y) ⟨c.oct.level, P e⟩ := ⟨hl, hall⟩
          have hv : Valid (cellGrid G c.b) ⟨c.oct.level, P e⟩ := ⟨hlc, fun k => (hw k).1⟩
          obtain ⟨z, -, hz⟩ := hM'.cover (lo (cellGrid G c.b) ⟨c.oct.level, P e⟩)
            fun i => ⟨lo_nonneg _ i, lo_lt_one hG' hv i⟩
          have hrm : cellOct c.b (f e).oct (f e).idx ∈ cellMesh c.b M := mem_cellMesh.2 ⟨_, hf2, _, hf3, rfl⟩
          have q1 := hz _ ⟨hom, hA.covers hG' (hM'.valid _ hom).1 (covers_lo hG' _)⟩
          have q2 := hz _ ⟨hrm, (hf4).covers hG' (hM'.valid _ hrm).1 (covers_lo hG' _)⟩
          exact heq (cellOct_inj (hf3) hy (q2.trans q1.symm))
        obtain ⟨k, hk⟩ := this
        rw [Finset.prod_eq_zero (Finset.mem_univ k) (f := fun k =>
          if P e k / 2 ^ (c.oct.level - o.level) = (cellOct c.b o y).pos k then (1 : ℚ) else 0) (if_neg hk)]
        ring
    rw [← Finset.prod_div_distrib, List.map_congr_left hterm, List.sum_map_mul_left]
    unfold offsets
    rw [sum_loops _ fun k z => (if z = 0 then 1 - |p k| else |p k|) * ∑ s ∈ ({-1, 0, 1} : Finset ℤ),
          ∑ i ∈ Finset.range (2 ^ (c.oct.level - o.level)),
            if (((cellOct c.b o y).pos k * 2 ^ (c.oct.level - o.level) + i : ℕ) : ℤ) - (cellOct c.b c.oct c.idx).pos k -
              s * (cellGrid G c.b).count k c.oct.level = z then (1 : ℚ) else 0]
    rw [Finset.prod_congr rfl (g := fun k => covered D G c.b o y (cellSize D (cellGrid G c.b) (cellOct c.b c.oct c.idx)) q.pos k /
            cellSize D (cellGrid G c.b) (cellOct c.b c.oct c.idx) k)]
    · ring
    · intro k _
      have hs' := cellSize_pos hG' hD (cellOct c.b c.oct c.idx) k
      rw [covered_eq hGp hD hb0 hlo hl, mul_div_cancel_left₀ _ hs'.ne', hp]
      simp only [overlap_offsets (hhalf' k), List.map_cons, List.map_nil, List.sum_cons, List.sum_nil, add_zero,
        Finset.mul_sum, Finset.sum_add_distrib]

/-- C112: where the cloud of a particle reaches no cell that is smaller than the cell of the particle, the projection adds to
the density of every cell the mass of each particle, times the part of the cloud of the particle that is in the cell,
divided by the volume of the cell. -/
theorem C112_density_reach_partial {G : Grid 3} {M : Finset (Oct 3)} (hG : G.WF) (hM : Tiling G M) (hB : Balanced G M)
    (hper : ∀ k, G.periodic k = true) {D : Domain 3} (hD : Domain.Ok D) (minLevel maxLevel : ℕ)
    (hlev : ∀ o ∈ M, minLevel ≤ o.level ∧ o.level ≤ maxLevel) {b : Fin 3 → ℕ} (hb0 : ∀ k, 0 < b k)
    (hb : (∀ k, 2 ∣ b k) ∨ ∀ k, b k = 1) (ps : List (Particle 3)) (hps : ∀ p ∈ ps, InBox D p.pos)
    (h : Particle 3 → Fin 3 → ℚ) (hh : ∀ p ∈ ps, SizeAt D G M b p.pos (h p))
    (hs : ∀ p ∈ ps, ReachesNoSmaller D G M b (h p) p.pos) :
    ∃ ws, ps.mapM (cic D G M minLevel maxLevel b) = some ws ∧ ∀ rho, ∀ o ∈ M, ∀ y : Fin 3 → ℕ, (∀ k, y k < b k) →
      project rho ws.flatten o y = rho o y +
        (ps.map fun p => p.mass * inCloud D G b (h p) p.pos o y).sum / volume D (cellGrid G b) (cellOct b o y) := by
  have key := fun p hp => cic_at_reach hG hM hB hper hD minLevel maxLevel hlev hb0 hb p (hps p hp) (hh p hp) (hs p hp)
  choose! f hf1 hf2 using key
  refine ⟨_, OneNeighbor.loops_mapM_some _ _ f hf1, fun rho o ho y hy => ?_⟩
  rw [project_at, List.map_flatten, List.sum_flatten, List.map_map, List.map_map,
    List.map_congr_left (g := fun p => p.mass * inCloud D G b (h p) p.pos o y / volume D (cellGrid G b) (cellOct b o y))]
  · congr 1
    simp only [div_eq_mul_inv, List.sum_map_mul_right]
  · intro p hp
    exact hf2 p hp o ho y hy

/-- C112 (acceleration): there, the acceleration of a particle is the mean, over its cloud, of the acceleration of the
cells. -/
theorem C112_acceleration_reach_partial {G : Grid 3} {M : Finset (Oct 3)} (hG : G.WF) (hM : Tiling G M) (hB : Balanced G M)
    (hper : ∀ k, G.periodic k = true) {D : Domain 3} (hD : Domain.Ok D) (minLevel maxLevel : ℕ)
    (hlev : ∀ o ∈ M, minLevel ≤ o.level ∧ o.level ≤ maxLevel) {b : Fin 3 → ℕ} (hb0 : ∀ k, 0 < b k)
    (hb : (∀ k, 2 ∣ b k) ∨ ∀ k, b k = 1) (x : Fin 3 → ℚ) (hx : InBox D x) {h : Fin 3 → ℚ} (hh : SizeAt D G M b x h)
    (hs : ReachesNoSmaller D G M b h x) (g : Oct 3 → (Fin 3 → ℕ) → ℚ) :
    cicAcc D G M minLevel maxLevel b g x = some (cellSum b M fun o y => inCloud D G b h x o y * g o y) := by
  have hG' := cellGrid_pos (show G.Pos from hG) hb0
  obtain ⟨ws, h1, h2⟩ := cic_at_reach hG hM hB hper hD minLevel maxLevel hlev hb0 hb ⟨x, 1⟩ hx hh hs
  obtain ⟨c, sh, -, -, -, -, -, -, -, a1, a2, a3, -, -⟩ := acc_spec hG hM hB hper hD minLevel maxLevel hlev hb0 hb x hx
  rw [a2 g, sum_cells a3]
  congr 1
  unfold cellSum
  refine Finset.sum_congr rfl fun o ho => Finset.sum_congr rfl fun y hy => ?_
  have hy' : ∀ k, y k < b k := by simpa using hy
  have hV := volume_pos hG' hD (cellOct b o y)
  have e := h2 o ho y hy'
  rw [a1 1] at h1
  rw [← Option.some.inj h1, List.map_map, List.map_congr_left (g := fun w =>
    (if w.1.oct = o ∧ w.1.idx = y then w.2 else 0) * (volume D (cellGrid G b) (cellOct b o y))⁻¹)] at e
  · rw [List.sum_map_mul_right, div_eq_mul_inv, one_mul] at e
    dsimp only
    rw [mul_right_cancel₀ (inv_ne_zero hV.ne') e]
  · intro w _
    simp only [Function.comp_apply]
    split
    · rename_i hw
      rw [hw.1, hw.2, one_mul, div_eq_mul_inv]
    · ring

/-- The hypothesis of `C112_density_partial` is stronger. -/
theorem reaches_of_around {G : Grid 3} {M : Finset (Oct 3)} (hG : G.WF) (hM : Tiling G M)
    (hper : ∀ k, G.periodic k = true) {D : Domain 3} (hD : Domain.Ok D) {b : Fin 3 → ℕ} (hb0 : ∀ k, 0 < b k) {x h : Fin 3 → ℚ}
    (hh : SizeAt D G M b x h) (hs : NoSmallerAround D G M b x) : ReachesNoSmaller D G M b h x := by
  obtain ⟨o', ho', y', hy', hin, rfl⟩ := hh
  have hGp : G.Pos := hG
  intro o ho y hy hn k
  have hl' : G.lmin ≤ o'.level := (hM.valid _ ho').1
  rcases lt_or_ge o'.level o.level with hl | hl
  · exfalso
    apply hn
    unfold inCloud
    rw [covered_zero (c := ⟨o', y', b, .localToBlock⟩) hGp hM hper hD hb0
      (fun k => relPos_half (c := ⟨o', y', b, .localToBlock⟩) hGp hD hb0 hin k) hl' (hs _ ho' _ hy' hin) ho hy hl, zero_div]
  · rcases eq_or_lt_of_le hl with he | hlt
    · refine le_of_eq ?_
      have h1 := size_eq hGp (c := ⟨o', y', b, .localToBlock⟩) hb0 D k
      have h2 := size_eq hGp (c := ⟨o, y, b, .localToBlock⟩) hb0 D k
      dsimp only at h1 h2
      have hN : (0 : ℚ) < (cellGrid G b).count k o'.level := by exact_mod_cast count_pos (cellGrid_pos hGp hb0) k _
      rw [h1, he] at h2
      exact mul_left_cancel₀ (he ▸ hN.ne') h2
    · exact (size_lt hGp hD hb0 _ _ (hM.valid _ ho).1 hlt k).le

/-- A particle beside the face of a refined octant, not in the middle of the face. -/
def atFace : Particle 3 := ⟨![7 / 16, 11 / 16, 5 / 8], 1⟩

/-- Disagreement: across a face, where no mass is lost, the shares are not those of the cloud either. All four smaller cells
at the face get the same mass. The one farther from the particle holds 1/32 of the cloud and gets 3/64, the one nearer to it
holds 1/16 and gets 3/64. -/
theorem C112_face_fails : SizeAt cubeDomain cube cubeMesh.toFinset ![2, 2, 2] atFace.pos ![1 / 4, 1 / 4, 1 / 4] ∧
    (∀ i : Fin 2, (cic cubeDomain cube cubeMesh.toFinset 1 2 ![2, 2, 2] atFace).map (fun ws => project (fun _ _ => 0) ws
      ⟨2, ![2, 2, 2]⟩ ![0, i, 0] * volume cubeDomain (cellGrid cube ![2, 2, 2]) (cellOct ![2, 2, 2] ⟨2, ![2, 2, 2]⟩ ![0, i, 0])) =
      some (3 / 64)) ∧
    (∀ i : Fin 2, atFace.mass * inCloud cubeDomain cube ![2, 2, 2] ![1 / 4, 1 / 4, 1 / 4] atFace.pos ⟨2, ![2, 2, 2]⟩
      ![0, i, 0] = (![1 / 32, 1 / 16] : Fin 2 → ℚ) i) := by
  refine ⟨⟨⟨1, ![0, 1, 1]⟩, by decide, ![1, 0, 0], by decide, by unfold InCell; decide +kernel, by decide +kernel⟩, ?_, ?_⟩
  · decide +kernel
  · decide +kernel

/-! ### Examples -/

/-- In a coarse cell that touches a refined octant at a corner, on the other side of its middle. -/
def turned : Particle 3 := ⟨![5 / 16, 5 / 16, 5 / 16], 2⟩

/-- In the middle of the same cell: here the code goes through the smaller cells, with shares of 0. -/
def middle : Particle 3 := ⟨![3 / 8, 3 / 8, 3 / 8], 3⟩

theorem turned_reach : ∀ p ∈ [turned, middle], InBox cubeDomain p.pos ∧
    SizeAt cubeDomain cube cubeMesh.toFinset ![2, 2, 2] p.pos ![1 / 4, 1 / 4, 1 / 4] ∧
    ReachesNoSmaller cubeDomain cube cubeMesh.toFinset ![2, 2, 2] ![1 / 4, 1 / 4, 1 / 4] p.pos ∧
    ¬ NoSmallerAround cubeDomain cube cubeMesh.toFinset ![2, 2, 2] p.pos := by
  have i1 : ∀ p ∈ [turned, middle], InCell cubeDomain cube ![2, 2, 2] ⟨1, ![0, 0, 0]⟩ ![1, 1, 1] p.pos := by
    unfold InCell; decide +kernel
  intro p hp
  refine ⟨?_, ⟨⟨1, ![0, 0, 0]⟩, by decide, ![1, 1, 1], by decide, i1 p hp, by decide +kernel⟩, ?_, fun h => ?_⟩
  · revert p
    unfold InBox
    decide +kernel
  · have key : ∀ p ∈ [turned, middle], ∀ o ∈ cubeMesh.toFinset, ∀ z : Fin 3 → Fin 2,
        inCloud cubeDomain cube ![2, 2, 2] ![1 / 4, 1 / 4, 1 / 4] p.pos o (fun k => (z k : ℕ)) ≠ 0 →
          ∀ k, (![1 / 4, 1 / 4, 1 / 4] : Fin 3 → ℚ) k ≤
            cellSize cubeDomain (cellGrid cube ![2, 2, 2]) (cellOct ![2, 2, 2] o fun k => (z k : ℕ)) k := by
      decide +kernel
    intro o ho y hy
    have hy' : ∀ k, y k < 2 := fun k => by have := hy k; fin_cases k <;> exact this
    exact key p hp o ho fun k => ⟨y k, hy' k⟩
  · have := h ⟨1, ![0, 0, 0]⟩ (by decide) ![1, 1, 1] (by decide) (i1 p hp) ![1, 1, 1] (by decide) ![2, 2, 2]
      (by intro k; exact ⟨by revert k; decide, 0, Or.inl rfl, by revert k; decide⟩)
      (cellOct ![2, 2, 2] ⟨2, ![2, 2, 2]⟩ ![0, 0, 0]) (mem_cellMesh.2 ⟨⟨2, ![2, 2, 2]⟩, by decide, ![0, 0, 0], by decide, rfl⟩)
      ⟨by decide, by decide⟩
    exact absurd this (by decide)

/-- The hypotheses are met by particles for which those of `C112_density_partial` are not. -/
example : ∃ ws, [turned, middle].mapM (cic cubeDomain cube cubeMesh.toFinset 1 2 ![2, 2, 2]) = some ws ∧
    ∀ o ∈ cubeMesh.toFinset, ∀ y : Fin 3 → ℕ, (∀ k, y k < (![2, 2, 2] : Fin 3 → ℕ) k) →
      project (fun _ _ => 1) ws.flatten o y = 1 +
        ([turned, middle].map fun p => p.mass * inCloud cubeDomain cube ![2, 2, 2] ![1 / 4, 1 / 4, 1 / 4] p.pos o y).sum /
          volume cubeDomain (cellGrid cube ![2, 2, 2]) (cellOct ![2, 2, 2] o y) := by
  obtain ⟨ws, h1, h2⟩ := C112_density_reach_partial cube_wf cube_tiling cube_balanced (by decide) (D := cubeDomain)
    (by unfold Domain.Ok; decide) 1 2 cube_levels (b := ![2, 2, 2]) (by decide) (Or.inl (by decide)) [turned, middle]
    (fun p hp => (turned_reach p hp).1) (fun _ => ![1 / 4, 1 / 4, 1 / 4]) (fun p hp => (turned_reach p hp).2.1)
    (fun p hp => (turned_reach p hp).2.2.1)
  exact ⟨ws, h1, fun o ho y hy => h2 _ o ho y hy⟩

example (g : Oct 3 → (Fin 3 → ℕ) → ℚ) : cicAcc cubeDomain cube cubeMesh.toFinset 1 2 ![2, 2, 2] g turned.pos =
    some (cellSum ![2, 2, 2] cubeMesh.toFinset fun o y =>
      inCloud cubeDomain cube ![2, 2, 2] ![1 / 4, 1 / 4, 1 / 4] turned.pos o y * g o y) :=
  C112_acceleration_reach_partial cube_wf cube_tiling cube_balanced (by decide) (by unfold Domain.Ok; decide) 1 2 cube_levels
    (by decide) (Or.inl (by decide)) _ (turned_reach _ (by simp)).1 (turned_reach _ (by simp)).2.1
    (turned_reach _ (by simp)).2.2.1 g

end Verif.Particles
