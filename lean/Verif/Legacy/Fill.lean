import Verif.Legacy.Fetch

/-!
# The block after the two loops over the ghost cells
-/

namespace Verif.Legacy

open Verif.Octree Verif.Cells Verif.Legacy.Spec

variable {d : ℕ}

/-- The block with the cells of `S` taken from `T` and the others from `B`. -/
noncomputable def mix (B T : Block d) (S : Set (Fin d → ℤ)) : Block d := fun q =>
  open Classical in if q ∈ S then T q else B q

/-- Ghost cells visited by a list of loop iterations. -/
def visited (P : Par d) (l : List (Fin d × ℕ)) : Set (Fin d → ℤ) :=
  {p | ∃ ki ∈ l, (getPos P ki.1 ki.2).map (·.inLocal) = some p}

theorem foldlM_mix {P : Par d} {f : Fin d → ℕ → Block d → Option (Block d)} {B T : Block d}
    (h : ∀ S k i, f k i (mix B T S) =
      some (mix B T (S ∪ {p | (getPos P k i).map (·.inLocal) = some p})))
    (l : List (Fin d × ℕ)) (S : Set (Fin d → ℤ)) :
    l.foldlM (fun B ki => f ki.1 ki.2 B) (mix B T S) = some (mix B T (S ∪ visited P l)) := by
  induction l generalizing S with
  | nil =>
    simp [visited]
  | cons a l ih =>
    rw [List.foldlM_cons, h]
    simp only [Option.bind_eq_bind, Option.bind_some]
    rw [ih]
    congr 2
    ext p
    simp only [visited, Set.mem_union, Set.mem_ofPred_eq, List.mem_cons, exists_eq_or_imp]
    tauto

theorem overBorders_mix {P : Par d} {f : Fin d → ℕ → Block d → Option (Block d)} {B T : Block d}
    (h : ∀ S k i, f k i (mix B T S) =
      some (mix B T (S ∪ {p | (getPos P k i).map (·.inLocal) = some p}))) :
    overBorders P f B = some (mix B T {p | IsGhost P.b P.w p}) := by
  have e : B = mix B T ∅ := by funext q; simp [mix]
  unfold overBorders
  conv_lhs => rw [e]
  rw [foldlM_mix h]
  congr 2
  rw [Set.empty_union]
  ext p
  simp only [visited, Set.mem_ofPred_eq]
  constructor
  · rintro ⟨ki, -, hk⟩
    obtain ⟨q, hq, rfl⟩ := Option.map_eq_some_iff.1 hk
    exact isGhost_of_getPos hq
  · intro hp
    obtain ⟨ki, ⟨h1, h2⟩, -⟩ := getPos_exists_unique hp
    refine ⟨ki, ?_, h2⟩
    simp only [List.mem_flatMap, List.mem_range, List.mem_map, List.mem_finRange, true_and]
    exact ⟨ki.2, h1, ki.1, rfl⟩

theorem mix_union {B T : Block d} {S : Set (Fin d → ℤ)} {p : Fin d → ℤ} :
    mix B T (S ∪ {q | some p = some q}) = fun q => if q = p then T q else mix B T S q := by
  funext q
  by_cases hq : q = p
  · subst hq; simp [mix]
  · have h : q ∈ S ∪ {q | some p = some q} ↔ q ∈ S := by
      simp only [Set.mem_union, Set.mem_ofPred_eq, Option.some.injEq]
      exact or_iff_left fun h => hq h.symm
    rw [if_neg hq]
    unfold mix
    by_cases hS : q ∈ S
    · rw [if_pos hS, if_pos (h.2 hS)]
    · rw [if_neg hS, if_neg fun hS' => hS (h.1 hS')]

theorem mix_none {B T : Block d} {S : Set (Fin d → ℤ)} :
    mix B T (S ∪ {q | none = some q}) = mix B T S := by
  congr 1
  ext q
  simp

/-- What `writeCell` leaves in the cell. -/
def written (P : Par d) (old new : Cell d) : Cell d
  | .grav k => if P.copyGravity ∧ (k : ℕ) < 2 then new (.grav k) else old (.grav k)
  | .rho => new .rho
  | .etot => new .etot
  | .mom k => new (.mom k)

theorem writeCell_eq (P : Par d) (B : Block d) (p : Fin d → ℤ) (c : Cell d) :
    writeCell P B p c = fun q => if q = p then written P (B q) c else B q := by
  funext q v
  unfold writeCell
  by_cases h : q = p
  · rw [if_pos h, if_pos h]
    cases v <;> rfl
  · rw [if_neg h, if_neg h]

theorem written_written (P : Par d) (old c : Cell d) : written P (written P old c) c = written P old c := by
  funext v
  cases v with
  | grav k =>
    simp only [written]
    split <;> rfl
  | _ => rfl

/-! ### First loop -/

theorem firstLoop {P : Par d} {M : Finset (Oct d)} {U : Mesh d} {o : Oct d} {B : Block d}
    {V : (Fin d → ℤ) → Cell d}
    (h : ∀ p, IsGhost P.b P.w p →
      getCellData P M U o ⟨p, neighborOf P p, inNeighborOf P p⟩ = some (V p)) :
    overBorders P (fillGhostFace P M U o) B =
      some (mix B (fun p => written P (B p) (V p)) {p | IsGhost P.b P.w p}) := by
  refine overBorders_mix fun S k i => ?_
  unfold fillGhostFace
  rcases hq : getPos P k i with _ | q
  · simp only [Option.map_none]
    rw [mix_none]
  · have hg := isGhost_of_getPos hq
    obtain ⟨e, -⟩ := getPos_eq_some hq
    generalize q.inLocal = p at *
    subst e
    simp only [Option.map_some]
    rw [mix_union, h p hg, Option.map_some, writeCell_eq]
    congr 1
    funext q
    by_cases hqp : q = p
    · subst hqp
      rw [if_pos rfl, if_pos rfl]
      by_cases hS : q ∈ S
      · simp only [mix, hS, if_true, written_written]
      · simp only [mix, hS, if_false]
    · rw [if_neg hqp, if_neg hqp]

/-! ### Second loop -/

/-- What the second loop leaves in a ghost cell outside the domain, made from the result `B` of the
first loop. -/
noncomputable def mirrored (P : Par d) (o : Oct d) (B : Block d) : Block d := fun p =>
  let cp := cellPos P o p
  written P (B p) fun
    | .rho => B (coordIn P p cp) .rho
    | .etot => B (coordIn P p cp) .etot
    | .mom k => B (coordIn P p cp) (.mom k) * signOf P cp k
    | .grav k => B (coordIn P p cp) (.grav k) * signOf P cp k

/-- Cell outside the domain, periodic directions included. -/
def Outside (P : Par d) (o : Oct d) (p : Fin d → ℤ) : Prop :=
  ∃ i, cellPos P o p i < 0 ∨ 1 < cellPos P o p i

theorem secondLoop {P : Par d} {o : Oct d} {B : Block d}
    (hr : ∀ p, IsGhost P.b P.w p → Outside P o p →
      ∀ i, -(P.w : ℤ) ≤ coordIn P p (cellPos P o p) i ∧
        coordIn P p (cellPos P o p) i < P.b i + P.w)
    (hid : ∀ p, IsGhost P.b P.w p → Outside P o p → Outside P o (coordIn P p (cellPos P o p)) →
      mirrored P o B (coordIn P p (cellPos P o p)) = B (coordIn P p (cellPos P o p))) :
    overBorders P (fillBoundaryFace P o) B =
      some (mix B (mirrored P o B) {p | IsGhost P.b P.w p ∧ Outside P o p}) := by
  classical
  have key : overBorders P (fillBoundaryFace P o) B =
      some (mix B (mix B (mirrored P o B) {p | Outside P o p}) {p | IsGhost P.b P.w p}) := by
    refine overBorders_mix fun S k i => ?_
    unfold fillBoundaryFace
    rcases hq : getPos P k i with _ | q
    · simp only [Option.map_none]
      rw [mix_none]
    · have hg := isGhost_of_getPos hq
      obtain ⟨p, nb, pn⟩ := q
      simp only [Option.map_some] at hg ⊢
      rw [mix_union]
      by_cases ho : Outside P o p
      · have ho' : ∃ i, cellPos P o p i < 0 ∨ 1 < cellPos P o p i := ho
        rw [if_pos ho']
        have hc := hr p hg ho
        have hB : mix B (mix B (mirrored P o B) {p | Outside P o p}) S
            (coordIn P p (cellPos P o p)) = B (coordIn P p (cellPos P o p)) := by
          by_cases h1 : coordIn P p (cellPos P o p) ∈ S
          · by_cases h2 : Outside P o (coordIn P p (cellPos P o p))
            · simp only [mix, h1, if_true, Set.mem_ofPred_eq, h2, hid p hg ho h2]
            · simp only [mix, h1, if_true, Set.mem_ofPred_eq, h2, if_false]
          · simp only [mix, h1, if_false]
        unfold getCellDataBorder
        simp only
        rw [if_pos hc, Option.map_some, hB, writeCell_eq]
        congr 1
        funext q
        by_cases hqp : q = p
        · subst hqp
          rw [if_pos rfl, if_pos rfl]
          have e : mix B (mirrored P o B) {p | Outside P o p} q = mirrored P o B q := by
            simp only [mix, Set.mem_ofPred_eq, ho, if_true]
          rw [e]
          by_cases hS : q ∈ S
          · have e2 : mix B (mix B (mirrored P o B) {p | Outside P o p}) S q = mirrored P o B q := by
              simp only [mix, hS, if_true, Set.mem_ofPred_eq, ho]
            rw [e2]
            funext v
            unfold mirrored
            cases v with
            | grav k =>
              simp only [written]
              split <;> rfl
            | _ => rfl
          · have e2 : mix B (mix B (mirrored P o B) {p | Outside P o p}) S q = B q := by
              simp only [mix, hS, if_false]
            rw [e2]
            rfl
        · rw [if_neg hqp, if_neg hqp]
      · have ho' : ¬ ∃ i, cellPos P o p i < 0 ∨ 1 < cellPos P o p i := ho
        rw [if_neg ho']
        congr 1
        funext q
        by_cases hqp : q = p
        · subst hqp
          rw [if_pos rfl]
          simp only [mix, Set.mem_ofPred_eq, ho, if_false]
          split <;> rfl
        · rw [if_neg hqp]
  rw [key]
  congr 1
  funext q
  by_cases h1 : IsGhost P.b P.w q <;> by_cases h2 : Outside P o q <;>
    simp [mix, h1, h2]

/-! ### Mirror images on the lattice -/

/-- Boundary conditions as walls. -/
def wall : BC → Wall
  | .reflecting => .mirror
  | .absorbing => .copy
  | .periodic => .none
  | .user => .none

section image

variable {P : Par d} {o : Oct d} {p : Fin d → ℤ}

theorem cp_neg_iff (hG : P.G.Pos) (hb : ∀ i, 0 < P.b i) (i : Fin d) :
    cellPos P o p i < 0 ↔ lattice P.b o p i < 0 := by
  rw [cellPos_eq hG hb, half_lt_zero (cell_count_pos hG hb i _)]

theorem cp_gt_iff (hG : P.G.Pos) (hb : ∀ i, 0 < P.b i) (i : Fin d) :
    1 < cellPos P o p i ↔ ((cellGrid P.G P.b).count i o.level : ℤ) ≤ lattice P.b o p i := by
  rw [cellPos_eq hG hb, one_lt_half (cell_count_pos hG hb i _)]

/-- A position of the block below (above) the domain belongs to the first (last) octant. -/
theorem lattice_ends (ho : Valid P.G o) (hw : ∀ i, P.w ≤ P.b i)
    (hp : ∀ i, -(P.w : ℤ) ≤ p i ∧ p i < P.b i + P.w) (i : Fin d) :
    (lattice P.b o p i < 0 → lattice P.b o p i = p i) ∧
    (((cellGrid P.G P.b).count i o.level : ℤ) ≤ lattice P.b o p i →
      lattice P.b o p i + P.b i = (cellGrid P.G P.b).count i o.level + p i) ∧
    (P.b i : ℤ) ≤ (cellGrid P.G P.b).count i o.level := by
  have h1 := hw i
  have h2 := hp i
  have h3 := ho.2 i
  rw [count_cell]
  unfold lattice
  push_cast
  generalize P.G.count i o.level = N at *
  obtain ⟨r, rfl⟩ : ∃ r, N = o.pos i + 1 + r := ⟨N - (o.pos i + 1), by omega⟩
  generalize P.b i = b at *
  generalize o.pos i = q at *
  have e : ((q + 1 + r : ℕ) : ℤ) * (b : ℤ) = q * b + b + r * b := by push_cast; ring
  have e4 : (((q : ℕ) : ℤ) + 1 + (r : ℤ)) * (b : ℤ) = q * b + b + r * b := by ring
  have hq : (0 : ℤ) ≤ (q : ℤ) * b := by positivity
  have hr : (0 : ℤ) ≤ (r : ℤ) * b := by positivity
  have hq1 : (q : ℤ) * b = 0 ∨ (b : ℤ) ≤ q * b := by
    rcases Nat.eq_zero_or_pos q with h | h
    · left; rw [h]; simp
    · right; exact_mod_cast Nat.le_mul_of_pos_left b h
  have hr1 : (r : ℤ) * b = 0 ∨ (b : ℤ) ≤ r * b := by
    rcases Nat.eq_zero_or_pos r with h | h
    · left; rw [h]; simp
    · right; exact_mod_cast Nat.le_mul_of_pos_left b h
  push_cast
  rw [e4]
  generalize (q : ℤ) * b = A at *
  generalize (r : ℤ) * b = C at *
  omega

/-- `coordIn` is the mirror image. -/
theorem coordIn_image (hG : P.G.Pos) (hb : ∀ i, 0 < P.b i) (ho : Valid P.G o)
    (hw : ∀ i, P.w ≤ P.b i)
    (hp : ∀ i, -(P.w : ℤ) ≤ p i ∧ p i < P.b i + P.w) (i : Fin d) :
    lattice P.b o (coordIn P p (cellPos P o p)) i =
      image (wall (P.bcMin i)) (wall (P.bcMax i)) ((cellGrid P.G P.b).count i o.level)
        (lattice P.b o p i) ∧
    signOf P (cellPos P o p) i = imageSign (wall (P.bcMin i)) (wall (P.bcMax i))
      ((cellGrid P.G P.b).count i o.level) (lattice P.b o p i) ∧
    (-(P.w : ℤ) ≤ coordIn P p (cellPos P o p) i ∧ coordIn P p (cellPos P o p) i < P.b i + P.w) ∧
    (coordIn P p (cellPos P o p) i = p i ∧ signOf P (cellPos P o p) i = 1 ∨
      0 ≤ lattice P.b o (coordIn P p (cellPos P o p)) i ∧
      lattice P.b o (coordIn P p (cellPos P o p)) i < (cellGrid P.G P.b).count i o.level) := by
  obtain ⟨l1, l2, l3⟩ := lattice_ends ho hw hp i
  have hwi := hw i
  have hbi := hb i
  have hpi := hp i
  have hc : ∀ y : ℤ, lattice P.b o (fun _ => y) i = lattice P.b o p i - p i + y := by
    intro y; unfold lattice; ring
  have hc' : lattice P.b o (coordIn P p (cellPos P o p)) i =
      lattice P.b o p i - p i + coordIn P p (cellPos P o p) i := by
    unfold lattice; ring
  rw [hc']
  unfold coordIn signOf
  simp only [cp_neg_iff hG hb, cp_gt_iff hG hb]
  unfold image imageSign
  generalize lattice P.b o p i = X at *
  have hN : (0 : ℤ) < (cellGrid P.G P.b).count i o.level := by omega
  generalize ((cellGrid P.G P.b).count i o.level : ℤ) = N at *
  clear hc hc'
  by_cases h1 : X < 0
  · have h2 : ¬ N ≤ X := by omega
    have := l1 h1
    simp only [h1, h2, and_true, and_false, if_true, if_false, true_and, false_and, or_false]
    rcases e1 : P.bcMin i with _ | _ | _ | _ <;> simp [wall] <;> omega
  · by_cases h2 : N ≤ X
    · have := l2 h2
      simp only [h1, h2, and_true, and_false, if_true, if_false, true_and, false_and, false_or]
      rcases e1 : P.bcMax i with _ | _ | _ | _ <;> simp [wall] <;> omega
    · simp only [h1, h2, and_false, if_false, false_and, or_false]
      refine ⟨by omega, trivial, hpi, Or.inl ⟨trivial, trivial⟩⟩

theorem coordIn_congr {c : Fin d → ℤ} {i : Fin d} (h : c i = p i) :
    coordIn P c (cellPos P o c) i = coordIn P p (cellPos P o p) i ∧
      signOf P (cellPos P o c) i = signOf P (cellPos P o p) i := by
  have e : cellPos P o c i = cellPos P o p i := by unfold cellPos; rw [h]
  unfold coordIn signOf
  rw [e, h]
  exact ⟨rfl, rfl⟩

theorem coordIn_inside (hG : P.G.Pos) (hb : ∀ i, 0 < P.b i) {c : Fin d → ℤ} {i : Fin d}
    (h : 0 ≤ lattice P.b o c i ∧ lattice P.b o c i < (cellGrid P.G P.b).count i o.level) :
    coordIn P c (cellPos P o c) i = c i ∧ signOf P (cellPos P o c) i = 1 := by
  unfold coordIn signOf
  simp only [cp_neg_iff hG hb, cp_gt_iff hG hb]
  have g1' : ¬ lattice P.b o c i < 0 := by omega
  have g2' : ¬ ((cellGrid P.G P.b).count i o.level : ℤ) ≤ lattice P.b o c i := by omega
  simp [g1', g2']

/-- The mirror image of a mirror image is itself. -/
theorem coordIn_idem (hG : P.G.Pos) (hb : ∀ i, 0 < P.b i) (ho : Valid P.G o)
    (hw : ∀ i, P.w ≤ P.b i)
    (hp : ∀ i, -(P.w : ℤ) ≤ p i ∧ p i < P.b i + P.w) :
    coordIn P (coordIn P p (cellPos P o p)) (cellPos P o (coordIn P p (cellPos P o p))) =
      coordIn P p (cellPos P o p) ∧
    ∀ i, signOf P (cellPos P o (coordIn P p (cellPos P o p))) i = 1 := by
  have key : ∀ i, coordIn P (coordIn P p (cellPos P o p))
      (cellPos P o (coordIn P p (cellPos P o p))) i = coordIn P p (cellPos P o p) i ∧
      signOf P (cellPos P o (coordIn P p (cellPos P o p))) i = 1 := by
    intro i
    obtain ⟨-, -, -, hin⟩ := coordIn_image hG hb ho hw hp i
    rcases hin with ⟨e1, e2⟩ | h
    · obtain ⟨c1, c2⟩ := coordIn_congr (P := P) (o := o) e1
      exact ⟨c1, c2.trans e2⟩
    · exact coordIn_inside hG hb h
  exact ⟨funext fun i => (key i).1, fun i => (key i).2⟩

end image

/-! ### The whole -/

/-- Sign with which the variables appear in a mirror image. -/
def varSign (s : Fin d → ℝ) : Var d → ℝ
  | .rho => 1
  | .etot => 1
  | .mom k => s k
  | .grav k => s k

/-- Variables that are copied to ghost cells. -/
def Copied (P : Par d) : Var d → Prop
  | .grav k => P.copyGravity = true ∧ (k : ℕ) < 2
  | _ => True

theorem written_copied {P : Par d} {old new : Cell d} {v : Var d} (hv : Copied P v) :
    written P old new v = new v := by
  cases v with
  | grav k => exact if_pos hv
  | _ => rfl

theorem written_not_copied {P : Par d} {old new : Cell d} {v : Var d} (hv : ¬ Copied P v) :
    written P old new v = old v := by
  cases v with
  | grav k => exact if_neg hv
  | _ => exact absurd trivial hv

section main

variable {P : Par d} {M : Finset (Oct d)} {o : Oct d}

theorem not_outside_inner (hG : P.G.Pos) (hb : ∀ i, 0 < P.b i) (ho : Valid P.G o) {p : Fin d → ℤ}
    (hp : ∀ i, 0 ≤ p i ∧ p i < P.b i) : ¬ Outside P o p := by
  rintro ⟨i, hi⟩
  rw [cp_neg_iff hG hb, cp_gt_iff hG hb, count_cell] at hi
  have h1 := hp i
  have h2 := ho.2 i
  unfold lattice at hi
  have h3 : (o.pos i + 1) * P.b i ≤ P.G.count i o.level * P.b i := Nat.mul_le_mul_right _ h2
  rw [Nat.add_mul] at h3
  have h4 : ((o.pos i : ℕ) : ℤ) * (P.b i : ℤ) = ((o.pos i * P.b i : ℕ) : ℤ) := by push_cast; rfl
  rw [h4] at hi
  omega

theorem not_outside_of_getBound (hG : P.G.Pos) (hb : ∀ i, 0 < P.b i) (ho : Valid P.G o)
    (hw : ∀ i, P.w ≤ P.b i) (h : getBound P.G o = false) {p : Fin d → ℤ}
    (hp : ∀ i, -(P.w : ℤ) ≤ p i ∧ p i < P.b i + P.w) : ¬ Outside P o p := by
  rintro ⟨i, hi⟩
  rw [cp_neg_iff hG hb, cp_gt_iff hG hb] at hi
  unfold getBound at h
  simp only [decide_eq_false_iff_not, not_or, not_exists] at h
  obtain ⟨h1, h2⟩ := h.2 i
  rw [cellCount_eq] at h2
  have h3 := hw i
  have h4 := hp i
  have h5 := ho.2 i
  rw [count_cell] at hi
  unfold lattice at hi
  have h6 : 1 * P.b i ≤ o.pos i * P.b i := Nat.mul_le_mul_right _ (by omega)
  have h7 : (o.pos i + 2) * P.b i ≤ P.G.count i o.level * P.b i := Nat.mul_le_mul_right _ (by omega)
  rw [Nat.add_mul] at h7
  have h8 : ((o.pos i : ℕ) : ℤ) * (P.b i : ℤ) = ((o.pos i * P.b i : ℕ) : ℤ) := by push_cast; rfl
  rw [h8] at hi
  omega

/-- The mesh over an inner cell. -/
theorem inner_mean (ho : o ∈ M) (hv : Valid P.G o) (U : Mesh d) {p : Fin d → ℤ}
    (hp : ∀ i, 0 ≤ p i ∧ p i < P.b i) (v : Var d) :
    IsMean P.b M (fun o x => U o x v) o.level (wrapped P o p) (U o (fun i => (p i).toNat) v) := by
  refine isMean_single (f := fun o x => U o x v) ho (fun i => by have := hp i; omega) fun s => ?_
  refine ⟨by simp [cellOct], fun i => ?_⟩
  have h0 : neighborOf P p i = 0 := by
    have := hp i
    unfold neighborOf
    rw [if_neg (by omega), if_neg (by omega)]
  have h1 : inNeighborOf P p i = p i := by
    have := hp i
    unfold inNeighborOf
    rw [if_neg (by omega), if_neg (by omega)]
  have h2 := (neighborPos_cases hv (neighborOf P p) i).1 h0
  have := (s i).is_lt
  simp only [cellOct, wrapped, h1, h2]
  rw [show o.level + 1 - o.level = 1 by omega, pow_one]
  omega

/-- After `fill_ghosts` every cell of the block contains the mean of the mesh over it, or over its
mirror image when the cell is outside the domain. -/
theorem fillGhosts_spec (hG : P.G.Pos) (hM : Tiling P.G M) (hB : Balanced P.G M) (ho : o ∈ M)
    (hb : ∀ i, 0 < P.b i) (hev : ∀ i, 2 ∣ P.b i) (hw : ∀ i, P.w ≤ P.b i)
    (hsm : ∀ n ∈ M, Touch P.G o n → o.level < n.level → ∀ i, 2 * P.w ≤ P.b i)
    (hper : PeriodicOk P) (U : Mesh d) (B : Block d) :
    ∃ B', fillGhosts P M U o B = some B' ∧
      (∀ p : Fin d → ℤ, (∀ i, -(P.w : ℤ) ≤ p i ∧ p i < P.b i + P.w) →
        InDomain (cellGrid P.G P.b) o.level (fun i => image (wall (P.bcMin i)) (wall (P.bcMax i))
          ((cellGrid P.G P.b).count i o.level) (lattice P.b o p i)) →
        ∃ W, Wraps (cellGrid P.G P.b) o.level
            (fun i => image (wall (P.bcMin i)) (wall (P.bcMax i))
              ((cellGrid P.G P.b).count i o.level) (lattice P.b o p i)) W ∧
          ∀ v, Copied P v → IsMean P.b M (fun o x => U o x v) o.level W
            (varSign (fun i => imageSign (wall (P.bcMin i)) (wall (P.bcMax i))
              ((cellGrid P.G P.b).count i o.level) (lattice P.b o p i)) v * B' p v)) ∧
      (∀ p : Fin d → ℤ, (∀ i, 0 ≤ p i ∧ p i < P.b i) → ∀ v, (∀ k, v = .grav k → P.copyGravity = true) →
        B' p v = U o (fun i => (p i).toNat) v) ∧
      (∀ p, IsGhost P.b P.w p → ∀ v, ¬ Copied P v → B' p v = B p v) ∧
      (∀ p : Fin d → ℤ, (∀ i, -(P.w : ℤ) ≤ p i ∧ p i < P.b i + P.w) →
        ¬ InDomain (cellGrid P.G P.b) o.level (fun i => image (wall (P.bcMin i))
          (wall (P.bcMax i)) ((cellGrid P.G P.b).count i o.level) (lattice P.b o p i)) →
        ∀ v, Copied P v → varSign (fun i => imageSign (wall (P.bcMin i)) (wall (P.bcMax i))
              ((cellGrid P.G P.b).count i o.level) (lattice P.b o p i)) v * B' p v = outside v) := by
  classical
  have hv := hM.valid _ ho
  -- values of the first loop
  have hex : ∀ p, ∃ V : Cell d, IsGhost P.b P.w p →
      getCellData P M U o ⟨p, neighborOf P p, inNeighborOf P p⟩ = some V ∧
      (InDomain (cellGrid P.G P.b) o.level (lattice P.b o p) →
        ∀ v, IsMean P.b M (fun o x => U o x v) o.level (wrapped P o p) (V v)) := by
    intro p
    by_cases hp : IsGhost P.b P.w p
    · by_cases hin : InDomain (cellGrid P.G P.b) o.level (lattice P.b o p)
      · obtain ⟨V, h1, h2⟩ := getCellData_inside hG hM hB ho hb hev hw hsm hper U hp hin
        exact ⟨V, fun _ => ⟨h1, fun _ => h2⟩⟩
      · exact ⟨outside, fun _ => ⟨getCellData_outside hG hb hper U hin, fun h => absurd h hin⟩⟩
    · exact ⟨outside, fun h => absurd h hp⟩
  choose V hV using hex
  set B1 : Block d := mix (copyInner P U o B) (fun p => written P (copyInner P U o B p) (V p))
    {p | IsGhost P.b P.w p} with hB1
  have hfirst : overBorders P (fillGhostFace P M U o) (copyInner P U o B) = some B1 :=
    firstLoop fun p hp => (hV p hp).1
  have hghost : ∀ p, IsGhost P.b P.w p → B1 p = written P (B p) (V p) := by
    intro p hp
    have e : copyInner P U o B p = B p := by
      obtain ⟨i, hi⟩ := hp.2
      have hn : ¬ ∀ i, 0 ≤ p i ∧ p i < P.b i := fun h => by have := h i; omega
      funext v
      unfold copyInner
      rw [if_neg hn]
    rw [hB1]
    simp only [mix, Set.mem_ofPred_eq, hp, if_true]
    rw [e]
  have hinner : ∀ p : Fin d → ℤ, (∀ i, 0 ≤ p i ∧ p i < P.b i) → ∀ v,
      (∀ k, v = .grav k → P.copyGravity = true) → B1 p v = U o (fun i => (p i).toNat) v := by
    intro p hp v hcv
    have hn : ¬ IsGhost P.b P.w p := by
      rintro ⟨-, i, hi⟩
      have := hp i
      omega
    rw [hB1]
    simp only [mix, Set.mem_ofPred_eq, hn, if_false]
    unfold copyInner
    rw [if_pos hp]
    cases v with
    | grav k => simp only [hcv k rfl, if_true]
    | _ => rfl
  have hA : ∀ p : Fin d → ℤ, (∀ i, -(P.w : ℤ) ≤ p i ∧ p i < P.b i + P.w) →
      InDomain (cellGrid P.G P.b) o.level (lattice P.b o p) → ∀ v, Copied P v →
      IsMean P.b M (fun o x => U o x v) o.level (wrapped P o p) (B1 p v) := by
    intro p hp hin v hcv
    by_cases hi : ∀ i, 0 ≤ p i ∧ p i < P.b i
    · rw [hinner p hi v]
      · exact inner_mean ho hv U hi v
      · rintro k rfl
        exact hcv.1
    · have hg : IsGhost P.b P.w p := by
        refine ⟨hp, ?_⟩
        push Not at hi
        obtain ⟨i, hi⟩ := hi
        exact ⟨i, by
          by_cases h : p i < 0
          · exact Or.inl h
          · exact Or.inr (hi (by omega))⟩
      rw [hghost p hg, written_copied hcv]
      exact (hV p hg).2 hin v
  -- second loop
  have hsecond : ∃ B', fillGhosts P M U o B = some B' ∧
      B' = mix B1 (mirrored P o B1) {p | IsGhost P.b P.w p ∧ Outside P o p} := by
    refine ⟨_, ?_, rfl⟩
    unfold fillGhosts
    rw [hfirst, Option.bind_some]
    by_cases hbo : getBound P.G o = true
    · rw [if_pos hbo]
      refine secondLoop (fun p hp _ i => (coordIn_image hG hb hv hw hp.1 i).2.2.1) ?_
      intro p hp _ _
      obtain ⟨e1, e2⟩ := coordIn_idem hG hb hv hw hp.1
      funext v
      unfold mirrored
      simp only [e1]
      cases v with
      | grav k =>
        simp only [written, e2 k, mul_one]
        split <;> rfl
      | mom k => simp only [written, e2 k, mul_one]
      | _ => rfl
    · rw [if_neg hbo]
      have : {p | IsGhost P.b P.w p ∧ Outside P o p} = ∅ := by
        ext p
        simp only [Set.mem_ofPred_eq, Set.mem_empty_iff_false, iff_false, not_and]
        intro hp
        exact not_outside_of_getBound hG hb hv hw (by simpa using hbo) hp.1
      rw [this]
      congr 1
      funext q
      simp [mix]
  obtain ⟨B', hB', e⟩ := hsecond
  have hout : ∀ p, IsGhost P.b P.w p → Outside P o p → B' p = mirrored P o B1 p := by
    intro p h1 h2
    rw [e]
    simp only [mix, Set.mem_ofPred_eq, h1, h2, and_self, if_true]
  have hins : ∀ p, ¬ (IsGhost P.b P.w p ∧ Outside P o p) → B' p = B1 p := by
    intro p h
    rw [e]
    simp only [mix, Set.mem_ofPred_eq, h, if_false]
  have hgo : ∀ p : Fin d → ℤ, (∀ i, -(P.w : ℤ) ≤ p i ∧ p i < P.b i + P.w) → Outside P o p →
      IsGhost P.b P.w p := by
    intro p hp hpo
    refine ⟨hp, ?_⟩
    by_contra hn
    push Not at hn
    exact not_outside_inner hG hb hv (fun i => ⟨(hn i).1, (hn i).2⟩) hpo
  have hmir : ∀ p : Fin d → ℤ, (∀ i, -(P.w : ℤ) ≤ p i ∧ p i < P.b i + P.w) → Outside P o p →
      ∀ v, Copied P v → varSign (signOf P (cellPos P o p)) v * B' p v =
        B1 (coordIn P p (cellPos P o p)) v := by
    intro p hp hpo v hcv
    rw [hout p (hgo p hp hpo) hpo]
    have hs : ∀ k, signOf P (cellPos P o p) k * signOf P (cellPos P o p) k = 1 := by
      intro k
      unfold signOf
      split_ifs <;> norm_num
    unfold mirrored
    rw [written_copied hcv]
    cases v with
    | rho => exact one_mul _
    | etot => exact one_mul _
    | mom k => simp only [varSign]; rw [mul_comm, mul_assoc, hs, mul_one]
    | grav k => simp only [varSign]; rw [mul_comm, mul_assoc, hs, mul_one]
  refine ⟨B', hB', fun p hp hin0 => ?_, fun p hp v hcv => ?_, fun p hp v hcv => ?_,
    fun p hp hin0 v hcv => ?_⟩
  · by_cases hpo : Outside P o p
    · have h0 := coordIn_image hG hb hv hw hp
      have hin : InDomain (cellGrid P.G P.b) o.level
          (lattice P.b o (coordIn P p (cellPos P o p))) := by
        rw [funext fun i => (h0 i).1]
        exact hin0
      have hbox := fun i => (h0 i).2.2.1
      refine ⟨wrapped P o (coordIn P p (cellPos P o p)), ?_, fun v hcv => ?_⟩
      · have := wrapped_wraps hG hv hw hb hbox hin
        rw [funext fun i => (h0 i).1] at this
        exact this
      · rw [← funext fun i => (h0 i).2.1, hmir p hp hpo v hcv]
        exact hA _ hbox hin v hcv
    · have h0 : ∀ i, 0 ≤ lattice P.b o p i ∧
          lattice P.b o p i < (cellGrid P.G P.b).count i o.level := by
        intro i
        unfold Outside at hpo
        push Not at hpo
        have := hpo i
        rw [← not_lt, ← not_lt, cp_neg_iff hG hb, cp_gt_iff hG hb] at this
        omega
      have hin : InDomain (cellGrid P.G P.b) o.level (lattice P.b o p) := fun i => Or.inr (h0 i)
      refine ⟨wrapped P o p, ?_, fun v hcv => ?_⟩
      · have := wrapped_wraps hG hv hw hb hp hin
        have e1 : (fun i => image (wall (P.bcMin i)) (wall (P.bcMax i))
            ((cellGrid P.G P.b).count i o.level) (lattice P.b o p i)) = lattice P.b o p := by
          funext i
          have := h0 i
          unfold image
          rw [if_neg (by omega), if_neg (by omega)]
        rw [e1]
        exact this
      · have e1 : (fun i => imageSign (wall (P.bcMin i)) (wall (P.bcMax i))
            ((cellGrid P.G P.b).count i o.level) (lattice P.b o p i)) = fun _ => 1 := by
          funext i
          have := h0 i
          unfold imageSign
          rw [if_neg]
          rintro (⟨h, -⟩ | ⟨h, -⟩) <;> omega
        have e2 : varSign (fun _ : Fin d => (1 : ℝ)) v = 1 := by cases v <;> rfl
        rw [e1, e2, one_mul, hins p (fun h => hpo h.2)]
        exact hA p hp hin v hcv
  · rw [hins p fun h => not_outside_inner hG hb hv hp h.2]
    exact hinner p hp v hcv
  · have h1 : B1 p v = B p v := by rw [hghost p hp, written_not_copied hcv]
    by_cases hpo : Outside P o p
    · rw [hout p hp hpo]
      unfold mirrored
      rw [written_not_copied hcv, h1]
    · rw [hins p (fun h => hpo h.2), h1]
  · have h0 := coordIn_image hG hb hv hw hp
    rw [← funext fun i => (h0 i).1] at hin0
    have hpo : Outside P o p := by
      by_contra hpo
      refine hin0 fun i => Or.inr ?_
      unfold Outside at hpo
      push Not at hpo
      have := hpo i
      rw [← not_lt, ← not_lt, cp_neg_iff hG hb, cp_gt_iff hG hb] at this
      rcases (h0 i).2.2.2 with ⟨e, -⟩ | h
      · unfold lattice at this ⊢
        rw [e]
        omega
      · exact h
    have hco : Outside P o (coordIn P p (cellPos P o p)) := by
      unfold InDomain at hin0
      push Not at hin0
      obtain ⟨i, -, hi⟩ := hin0
      refine ⟨i, ?_⟩
      rw [cp_neg_iff hG hb, cp_gt_iff hG hb]
      by_cases h : lattice P.b o (coordIn P p (cellPos P o p)) i < 0
      · exact Or.inl h
      · exact Or.inr (hi (by omega))
    have hg := hgo _ (fun i => (h0 i).2.2.1) hco
    rw [← funext fun i => (h0 i).2.1, hmir p hp hpo v hcv, hghost _ hg, written_copied hcv]
    have h1 := (hV _ hg).1
    rw [getCellData_outside hG hb hper U hin0] at h1
    rw [← Option.some.inj h1]

end main

end Verif.Legacy
