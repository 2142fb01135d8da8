import Verif.Octree.Symm

/-!
# Executable checks of the specifications, used only for concrete examples

Each check is proved to imply the specification it stands for.
-/

namespace Verif.Octree

variable {d : ℕ}

/-- Decidable version of `Anc`. -/
def ancB (a b : Oct d) : Bool :=
  decide (a.level ≤ b.level) &&
    (List.finRange d).all fun i => b.pos i / 2 ^ (b.level - a.level) == a.pos i

theorem ancB_iff (a b : Oct d) : ancB a b = true ↔ Anc a b := by
  simp [ancB, Anc]

/-- Decidable version of `Valid`. -/
def validB (G : Grid d) (o : Oct d) : Bool :=
  decide (G.lmin ≤ o.level) && (List.finRange d).all fun i => decide (o.pos i < G.count i o.level)

theorem validB_iff (G : Grid d) (o : Oct d) : validB G o = true ↔ Valid G o := by
  simp [validB, Valid]

/-- All octants are valid, no finer than `L`, and each cell of level `L` is in exactly one of them. -/
def tilingB (G : Grid d) (M : List (Oct d)) (L : ℕ) : Bool :=
  decide (G.lmin ≤ L) && M.all (validB G) && M.all (fun o => decide (o.level ≤ L)) &&
    (loops fun i => List.range (G.count i L)).all fun q =>
      (M.filter fun b => ancB b ⟨L, q⟩).length == 1

theorem tiling_of_check {G : Grid d} (hG : G.WF) (M : List (Oct d)) (L : ℕ)
    (h : tilingB G M L = true) : Tiling G M.toFinset := by
  simp only [tilingB, Bool.and_eq_true, decide_eq_true_eq, List.all_eq_true, validB_iff,
    beq_iff_eq] at h
  obtain ⟨⟨⟨h1, h2⟩, h3⟩, h4⟩ := h
  apply tiling_of_anc hG (fun o ho => h2 o (List.mem_toFinset.1 ho)) L h1
    (fun o ho => h3 o (List.mem_toFinset.1 ho))
  intro v hv hl
  have hq : v.pos ∈ loops fun i => List.range (G.count i L) := by
    rw [mem_loops]; intro i; rw [List.mem_range, ← hl]; exact hv.2 i
  have h5 := h4 _ hq
  have ev : (⟨L, v.pos⟩ : Oct d) = v := by cases v; simp at hl ⊢; exact hl.symm
  rw [ev] at h5
  obtain ⟨b, hb⟩ := List.length_eq_one_iff.1 h5
  have hmem : ∀ c, c ∈ M.filter (fun b => ancB b v) ↔ c = b := by
    intro c; rw [hb]; simp
  refine ⟨b, ?_, ?_⟩
  · have := (hmem b).2 rfl
    rw [List.mem_filter, ancB_iff] at this
    exact ⟨List.mem_toFinset.2 this.1, this.2⟩
  · rintro c ⟨hc1, hc2⟩
    apply (hmem c).1
    rw [List.mem_filter, ancB_iff]
    exact ⟨List.mem_toFinset.1 hc1, hc2⟩

/-- Closed boxes meet in direction `i` with shift `s`, in units of `1/count` at level `L`. -/
def touch1B (G : Grid d) (L : ℕ) (a b : Oct d) (i : Fin d) (s : ℤ) : Bool :=
  decide ((a.pos i * 2 ^ (L - a.level) : ℤ) ≤
      (b.pos i + 1) * 2 ^ (L - b.level) + s * G.count i L) &&
    decide ((b.pos i * 2 ^ (L - b.level) : ℤ) + s * G.count i L ≤
      (a.pos i + 1) * 2 ^ (L - a.level))

def touchB (G : Grid d) (L : ℕ) (a b : Oct d) : Bool :=
  (List.finRange d).all fun i => touch1B G L a b i 0 ||
    (G.periodic i && (touch1B G L a b i 1 || touch1B G L a b i (-1)))

theorem touch1B_iff {G : Grid d} (hG : G.WF) {L : ℕ} {a b : Oct d} (ha : G.lmin ≤ a.level)
    (hb : G.lmin ≤ b.level) (hla : a.level ≤ L) (hlb : b.level ≤ L) (i : Fin d) (s : ℤ) :
    touch1B G L a b i s = true ↔
      (lo G a i ≤ hi G b i + s ∧ lo G b i + s ≤ hi G a i) := by
  have h0 : (0 : ℚ) < G.count i L := by exact_mod_cast count_pos hG i _
  rw [lo_scale a i (L - a.level) ha, hi_scale a i (L - a.level) ha,
    lo_scale b i (L - b.level) hb, hi_scale b i (L - b.level) hb]
  rw [show a.level + (L - a.level) = L by omega, show b.level + (L - b.level) = L by omega]
  have e : ∀ x : ℚ, x / G.count i L + s = (x + s * G.count i L) / G.count i L := by
    intro x; field_simp
  rw [e, e, div_le_div_iff_of_pos_right h0, div_le_div_iff_of_pos_right h0]
  simp only [touch1B, Bool.and_eq_true, decide_eq_true_eq]
  push_cast
  norm_cast

theorem touchB_iff {G : Grid d} (hG : G.WF) {L : ℕ} {a b : Oct d} (ha : G.lmin ≤ a.level)
    (hb : G.lmin ≤ b.level) (hla : a.level ≤ L) (hlb : b.level ≤ L) :
    touchB G L a b = true ↔ Touch G a b := by
  unfold touchB Touch
  simp only [List.all_eq_true, List.mem_finRange, forall_const, Bool.or_eq_true, Bool.and_eq_true,
    touch1B_iff hG ha hb hla hlb]
  refine forall_congr' fun i => ?_
  unfold Shift
  constructor
  · rintro (h | ⟨hp, h | h⟩)
    · exact ⟨0, Or.inl rfl, h⟩
    · exact ⟨1, Or.inr ⟨hp, Or.inl rfl⟩, h⟩
    · exact ⟨-1, Or.inr ⟨hp, Or.inr rfl⟩, h⟩
  · rintro ⟨s, rfl | ⟨hp, rfl | rfl⟩, h⟩
    · exact Or.inl h
    · exact Or.inr ⟨hp, Or.inl h⟩
    · exact Or.inr ⟨hp, Or.inr h⟩

def balancedB (G : Grid d) (M : List (Oct d)) (L : ℕ) : Bool :=
  M.all fun a => M.all fun b =>
    decide (G.lmin ≤ a.level) && decide (a.level ≤ L) &&
    (!touchB G L a b || decide (a.level ≤ b.level + 1))

theorem balanced_of_check {G : Grid d} (hG : G.WF) (M : List (Oct d)) (L : ℕ)
    (h : balancedB G M L = true) : Balanced G M.toFinset := by
  simp only [balancedB, List.all_eq_true, Bool.and_eq_true, decide_eq_true_eq, Bool.or_eq_true,
    Bool.not_eq_true'] at h
  intro a ha b hb ht
  rw [List.mem_toFinset] at ha hb
  obtain ⟨⟨h1, h2⟩, h3⟩ := h a ha b hb
  obtain ⟨⟨h4, h5⟩, -⟩ := h b hb b hb
  rcases h3 with h3 | h3
  · rw [(touchB_iff hG h1 h4 h2 h5).2 ht] at h3
    exact Bool.noConfusion h3
  · exact h3

/-- A 2D periodic grid with 2×2 coarse octants, the first of which is refined. -/
def exGrid : Grid 2 := ⟨1, ![2, 2], ![true, false]⟩

def exMesh : List (Oct 2) :=
  [⟨2, ![0, 0]⟩, ⟨2, ![1, 0]⟩, ⟨2, ![0, 1]⟩, ⟨2, ![1, 1]⟩,
    ⟨1, ![1, 0]⟩, ⟨1, ![0, 1]⟩, ⟨1, ![1, 1]⟩]

theorem exGrid_wf : exGrid.WF := ⟨⟨by decide⟩, by decide⟩

theorem exMesh_tiling : Tiling exGrid exMesh.toFinset :=
  tiling_of_check exGrid_wf exMesh 2 (by decide)

theorem exMesh_balanced : Balanced exGrid exMesh.toFinset :=
  balanced_of_check exGrid_wf exMesh 2 (by decide)

end Verif.Octree
