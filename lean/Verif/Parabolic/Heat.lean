import Verif.Parabolic.Conduction
import Verif.Cells.Sibling

/-!
# C50: energy is conserved, heat flows from hot to cold
-/

namespace Verif.Parabolic

open Verif.Octree Verif.Cells Verif.Flux Verif.Hydro Verif.Gravity

variable {d : ℕ} {K V : Type} [Field K]
variable {G : Grid d} {M : Finset (Oct d)} {b : Fin d → ℕ} {H : Conduction d K V} {I : Source d V}

/-! ### Sums over the mesh -/

open Classical in
/-- The heat received by all cells, weighted with a field. -/
theorem sum_inflow (hG : G.Pos) (hM : Tiling G M) (hb : ∀ k, 0 < b k) (D : Domain d)
    (T : Oct d → (Fin d → ℕ) → K) (w : Oct d → K) :
    ∑ c ∈ cellMesh b M, w c * inflow H D G M b T c =
      ∑ j, ∑ c ∈ cellMesh b M, ∑ q ∈ nbrs (cellGrid G b) (cellMesh b M) c j 1,
        (w c * heat H D G M b T j 1 c q + w q * heat H D G M b T j (-1) q c) := by
  have hG' := cellGrid_pos hG hb
  have hM' := cellMesh_tiling hG hb hM
  unfold inflow
  simp only [Finset.mul_sum]
  rw [Finset.sum_comm]
  refine Finset.sum_congr rfl fun j _ => ?_
  simp only [mul_add, Finset.sum_add_distrib, Finset.mul_sum]
  rw [sum_faces hG' hM' j fun c q => w q * heat H D G M b T j (-1) q c]

/-- Heat flows with the sign of the difference of temperatures, and the two cells of a face agree. -/
theorem heat_symm (D : Domain d) (T : Oct d → (Fin d → ℕ) → K) {j : Fin d} {c q : Oct d}
    (h : cond H D (cellGrid G b) j 1 c q = cond H D (cellGrid G b) j (-1) q c) :
    heat H D G M b T j (-1) q c = -heat H D G M b T j 1 c q := by
  unfold heat
  rw [h, weight_symm D (cellGrid G b) j q c]
  ring

section
variable [CharZero K]

open Classical in
/-- C50 (budget): the step is defined in every cell. The total energy changes by `dt` times a sum over the faces
that measures by how much the conductivities used by the two cells differ. -/
theorem C50_budget (hd : d = 2 ∨ d = 3) (hG : G.Pos) (hM : Tiling G M) (hB : Balanced G M) {D : Domain d}
    (hD : Domain.Ok D) (hb2 : ∀ k, 2 ≤ b k) (hI : Insulated H I G M b) (dt : K) (eout : Oct d → (Fin d → ℕ) → K) :
    ∃ e' : Oct d → (Fin d → ℕ) → K,
      (∀ o ∈ M, ∀ x : Fin d → ℕ, (∀ k, x k < b k) → stepCell H I D G M b dt eout o x = some (e' o x)) ∧
      cellSum b M (fun o x => (volume D (cellGrid G b) (cellOct b o x) : K) * e' o x) =
        cellSum b M (fun o x => (volume D (cellGrid G b) (cellOct b o x) : K) * eout o x) +
        dt * ∑ j, ∑ c ∈ cellMesh b M, ∑ q ∈ nbrs (cellGrid G b) (cellMesh b M) c j 1,
          (weight D (cellGrid G b) j c q : K) *
            (cond H D (cellGrid G b) j 1 c q - cond H D (cellGrid G b) j (-1) q c) *
            (onBox b M (temps H I) q - onBox b M (temps H I) c) := by
  have hb : ∀ k, 0 < b k := fun k => by have := hb2 k; omega
  have h := fun o (ho : o ∈ M) x hx => C50_rhs hd hG hM hB hD hb2 hI (o := o) ho (x := x) hx
  choose! r h1 h2 using h
  refine ⟨fun o x => eout o x + dt * r o x, fun o ho x hx => ?_, ?_⟩
  · unfold stepCell
    rw [h1 o ho x hx, Option.map_some]
  · have e1 : cellSum b M (fun o x => (volume D (cellGrid G b) (cellOct b o x) : K) * (eout o x + dt * r o x)) =
        cellSum b M (fun o x => (volume D (cellGrid G b) (cellOct b o x) : K) * eout o x +
          dt * inflow H D G M b (temps H I) (cellOct b o x)) := by
      refine cellSum_congr fun o ho x hx => ?_
      rw [← h2 o ho x hx]
      ring
    rw [e1, cellSum_add]
    congr 1
    rw [cellSum_box b fun c => dt * inflow H D G M b (temps H I) c, ← Finset.mul_sum]
    have e2 := sum_inflow (H := H) hG hM hb D (temps H I) (fun _ => 1)
    simp only [one_mul] at e2
    rw [e2]
    congr 1
    refine Finset.sum_congr rfl fun j _ => Finset.sum_congr rfl fun c _ => Finset.sum_congr rfl fun q _ => ?_
    unfold heat
    rw [weight_symm D (cellGrid G b) j q c]
    ring

/-- C50 (conservation), for conductivities on which both sides of every face agree. Missing from the full
statement: conductivities that depend on the position next to a change of level or through a periodic
boundary, see `C50_analytic_fails`. -/
theorem C50_conserves_partial (hd : d = 2 ∨ d = 3) (hG : G.Pos) (hM : Tiling G M) (hB : Balanced G M) {D : Domain d}
    (hD : Domain.Ok D) (hb2 : ∀ k, 2 ≤ b k) (hI : Insulated H I G M b) (hK : Matching H D G M b) (dt : K)
    (eout : Oct d → (Fin d → ℕ) → K) :
    ∃ e' : Oct d → (Fin d → ℕ) → K,
      (∀ o ∈ M, ∀ x : Fin d → ℕ, (∀ k, x k < b k) → stepCell H I D G M b dt eout o x = some (e' o x)) ∧
      cellSum b M (fun o x => (volume D (cellGrid G b) (cellOct b o x) : K) * e' o x) =
        cellSum b M (fun o x => (volume D (cellGrid G b) (cellOct b o x) : K) * eout o x) := by
  obtain ⟨e', h1, h2⟩ := C50_budget hd hG hM hB hD hb2 hI dt eout
  refine ⟨e', h1, ?_⟩
  rw [h2, Finset.sum_eq_zero, mul_zero, add_zero]
  refine fun j _ => Finset.sum_eq_zero fun c hc => Finset.sum_eq_zero fun q hq => ?_
  rw [hK j c hc q hq, sub_self, mul_zero, zero_mul]

end

/-! ### When both sides of a face agree -/

/-- `diffusivity_mode` is `constant`. -/
theorem C50_constant (D : Domain d) (h : ∀ p p', H.kappa p = H.kappa p') : Matching H D G M b := by
  intro j c _ q _
  have e : ∀ j s (c q : Oct d), cond H D (cellGrid G b) j s c q = 1 / 2 * (H.kappa D.xmin + H.kappa D.xmin) := by
    intro j s c q
    unfold cond
    rw [h (mid D (cellGrid G b) c) D.xmin]
    split
    · exact congrArg (fun t => 1 / 2 * (H.kappa D.xmin + t)) (h _ _)
    · rw [h (mid D (cellGrid G b) q) D.xmin]
  rw [e, e]

/-- The middle of the neighbour on a mesh of one level without periodic boundaries. -/
theorem mid_next (hG : G.Pos) (hper : ∀ k, G.periodic k = false) (D : Domain d) {C : Finset (Oct d)} (j : Fin d)
    {c q : Oct d} (hl : q.level = c.level) (hq : q ∈ nbrs G C c j 1) (k : Fin d) :
    mid D G q k = mid D G c k + faceOff j 1 k * cellSize D G c k := by
  obtain ⟨t, ht, hs⟩ := (mem_nbrs.1 hq).2 k
  have ht0 : t = 0 := by
    rcases ht with ht | ht
    · exact ht
    · rw [hper k] at ht; exact absurd ht.1 (by decide)
  have hN : (0 : ℚ) < G.count k c.level := by exact_mod_cast count_pos hG k _
  have hpos : (q.pos k : ℤ) = c.pos k + faceOff j 1 k := by
    rw [ht0, Int.cast_zero, add_zero, add_zero] at hs
    unfold lo hi at hs
    rw [hl] at hs
    by_cases hk : k = j
    · subst hk
      rw [faceOff_self]
      rw [show dirOf (faceOff k 1) k = SignType.pos by unfold dirOf; rw [faceOff_self]; rfl] at hs
      obtain ⟨a1, a2⟩ := hs
      rw [div_le_div_iff_of_pos_right hN] at a1
      rw [div_lt_div_iff_of_pos_right hN] at a2
      have b1 : q.pos k ≤ c.pos k + 1 := by exact_mod_cast a1
      have b2 : c.pos k + 1 < q.pos k + 1 := by exact_mod_cast a2
      omega
    · rw [faceOff_ne _ hk]
      rw [dirOf_zero _ hk] at hs
      obtain ⟨a1, a2⟩ := hs
      rw [div_lt_div_iff_of_pos_right hN] at a1 a2
      have b1 : q.pos k < c.pos k + 1 := by exact_mod_cast a1
      have b2 : c.pos k < q.pos k + 1 := by exact_mod_cast a2
      omega
  have hpos' : (q.pos k : ℚ) = c.pos k + faceOff j 1 k := by exact_mod_cast hpos
  unfold mid cellSize lo hi
  rw [hl, hpos']
  field_simp
  ring

/-- Any conductivity, on a mesh of one level without periodic boundaries. -/
theorem C50_one_level (hG : G.Pos) (hb : ∀ k, 0 < b k) (hper : ∀ k, G.periodic k = false) (D : Domain d) (l : ℕ)
    (hl : ∀ o ∈ M, o.level = l) : Matching H D G M b := by
  have hG' := cellGrid_pos hG hb
  have hlev : ∀ c ∈ cellMesh b M, c.level = l := by
    intro c hc
    obtain ⟨o, ho, x, hx, rfl⟩ := mem_cellMesh.1 hc
    exact hl o ho
  intro j c hc q hq
  have hqc : q.level = c.level := by rw [hlev c hc, hlev q (mem_nbrs.1 hq).1]
  have hm := mid_next hG' (fun k => hper k) D j hqc hq
  unfold cond
  rw [if_pos (le_of_eq hqc), if_pos (le_of_eq hqc.symm)]
  have e1 : (fun k => mid D (cellGrid G b) c k + faceOff j 1 k * cellSize D (cellGrid G b) c k) =
      mid D (cellGrid G b) q := funext fun k => (hm k).symm
  have e2 : (fun k => mid D (cellGrid G b) q k + faceOff j (-1) k * cellSize D (cellGrid G b) q k) =
      mid D (cellGrid G b) c := funext fun k => by
    rw [hm k]
    have e3 : cellSize D (cellGrid G b) q k = cellSize D (cellGrid G b) c k := by
      rw [cellSize_eq, cellSize_eq, hqc]
    rw [e3]
    unfold faceOff
    split
    · push_cast; ring
    · push_cast; ring
  rw [e1, e2]
  ring

/-! ### From hot to cold -/

section
variable {F : Type} [Field F] [LinearOrder F] [IsStrictOrderedRing F] {H : Conduction d F V} {I : Source d V}

theorem cond_nonneg (hκ : ∀ p, 0 ≤ H.kappa p) (D : Domain d) (G : Grid d) (j : Fin d) (s : ℤ) (c q : Oct d) :
    0 ≤ cond H D G j s c q := by
  unfold cond
  have h1 := hκ (mid D G c)
  split
  · have h2 := hκ fun k => mid D G c k + faceOff j s k * cellSize D G c k
    linarith
  · have h2 := hκ (mid D G q)
    linarith

/-- C50 (direction): on every face the heat that enters a cell has the sign of the temperature of the
neighbour minus its own. -/
theorem C50_hot_to_cold (hG : G.Pos) (hb : ∀ k, 0 < b k) {D : Domain d} (hD : Domain.Ok D)
    (hκ : ∀ p, 0 ≤ H.kappa p) (T : Oct d → (Fin d → ℕ) → F) (j : Fin d) (s : ℤ) (c q : Oct d) :
    0 ≤ heat H D G M b T j s c q * (onBox b M T q - onBox b M T c) ∧
      ((∀ p, 0 < H.kappa p) → (0 < heat H D G M b T j s c q ↔ onBox b M T c < onBox b M T q)) := by
  have hw : (0 : F) < (weight D (cellGrid G b) j c q : F) := by
    exact_mod_cast weight_pos (cellGrid_pos hG hb) hD j c q
  unfold heat
  constructor
  · rw [mul_assoc]
    exact mul_nonneg (mul_nonneg hw.le (cond_nonneg hκ D _ j s c q)) (mul_self_nonneg _)
  · intro hκ'
    have hc : 0 < cond H D (cellGrid G b) j s c q := by
      unfold cond
      have h1 := hκ' (mid D (cellGrid G b) c)
      split
      · have h2 := hκ' fun k => mid D (cellGrid G b) c k + faceOff j s k * cellSize D (cellGrid G b) c k
        linarith
      · have h2 := hκ' (mid D (cellGrid G b) q)
        linarith
    rw [mul_pos_iff_of_pos_left (mul_pos hw hc), sub_pos]

/-- C50 (extrema): the hottest cell does not gain energy and the coldest does not lose energy. -/
theorem C50_extrema (hd : d = 2 ∨ d = 3) (hG : G.Pos) (hM : Tiling G M) (hB : Balanced G M) {D : Domain d}
    (hD : Domain.Ok D) (hb2 : ∀ k, 2 ≤ b k) (hI : Insulated H I G M b) (hκ : ∀ p, 0 ≤ H.kappa p) {o : Oct d}
    (ho : o ∈ M) {x : Fin d → ℕ} (hx : ∀ k, x k < b k) :
    ∃ r, rhs H I D G M b o x = some r ∧
      ((∀ o' ∈ M, ∀ y : Fin d → ℕ, (∀ k, y k < b k) → H.temp (I.U o' y) ≤ H.temp (I.U o x)) → r ≤ 0) ∧
      ((∀ o' ∈ M, ∀ y : Fin d → ℕ, (∀ k, y k < b k) → H.temp (I.U o x) ≤ H.temp (I.U o' y)) → 0 ≤ r) := by
  have hb : ∀ k, 0 < b k := fun k => by have := hb2 k; omega
  have hG' := cellGrid_pos hG hb
  obtain ⟨r, h1, h2⟩ := C50_rhs hd hG hM hB hD hb2 hI ho hx
  have hv : (0 : F) < (volume D (cellGrid G b) (cellOct b o x) : F) := by exact_mod_cast volume_pos hG' hD _
  have hw : ∀ j s q, (0 : F) ≤ (weight D (cellGrid G b) j (cellOct b o x) q : F) *
      cond H D (cellGrid G b) j s (cellOct b o x) q := fun j s q =>
    mul_nonneg (by exact_mod_cast (weight_pos hG' hD j _ q).le) (cond_nonneg hκ D _ j s _ q)
  have hq : ∀ j s, ∀ q ∈ nbrs (cellGrid G b) (cellMesh b M) (cellOct b o x) j s, ∃ o' ∈ M, ∃ y : Fin d → ℕ,
      (∀ k, y k < b k) ∧ onBox b M (temps H I) q = H.temp (I.U o' y) := by
    intro j s q hq
    obtain ⟨o', ho', y, hy, rfl⟩ := mem_cellMesh.1 (mem_nbrs.1 hq).1
    exact ⟨o', ho', y, hy, onBox_cell ho' hy _⟩
  refine ⟨r, h1, fun hmax => ?_, fun hmin => ?_⟩
  · by_contra hr
    have hpos := mul_pos hv (not_le.1 hr)
    rw [h2] at hpos
    refine absurd hpos (not_lt.2 (Finset.sum_nonpos fun j _ => add_nonpos ?_ ?_)) <;>
    · refine Finset.sum_nonpos fun q hqm => ?_
      obtain ⟨o', ho', y, hy, e⟩ := hq j _ q hqm
      unfold heat
      rw [e, onBox_cell ho hx]
      exact mul_nonpos_of_nonneg_of_nonpos (hw j _ q) (sub_nonpos.2 (hmax o' ho' y hy))
  · by_contra hr
    have hneg := mul_neg_of_pos_of_neg hv (not_le.1 hr)
    rw [h2] at hneg
    refine absurd hneg (not_lt.2 (Finset.sum_nonneg fun j _ => add_nonneg ?_ ?_)) <;>
    · refine Finset.sum_nonneg fun q hqm => ?_
      obtain ⟨o', ho', y, hy, e⟩ := hq j _ q hqm
      unfold heat
      rw [e, onBox_cell ho hx]
      exact mul_nonneg (hw j _ q) (sub_nonneg.2 (hmin o' ho' y hy))

/-- C50 (dissipation): differences of temperature decay; the energies given to the cells, weighted with their
temperatures, sum to at most 0. -/
theorem C50_dissipates (hd : d = 2 ∨ d = 3) (hG : G.Pos) (hM : Tiling G M) (hB : Balanced G M) {D : Domain d}
    (hD : Domain.Ok D) (hb2 : ∀ k, 2 ≤ b k) (hI : Insulated H I G M b) (hκ : ∀ p, 0 ≤ H.kappa p)
    (hK : Matching H D G M b) :
    ∃ r : Oct d → (Fin d → ℕ) → F,
      (∀ o ∈ M, ∀ x : Fin d → ℕ, (∀ k, x k < b k) → rhs H I D G M b o x = some (r o x)) ∧
      cellSum b M (fun o x => H.temp (I.U o x) * ((volume D (cellGrid G b) (cellOct b o x) : F) * r o x)) ≤ 0 := by
  have hb : ∀ k, 0 < b k := fun k => by have := hb2 k; omega
  have hG' := cellGrid_pos hG hb
  have h := fun o (ho : o ∈ M) x hx => C50_rhs hd hG hM hB hD hb2 hI (o := o) ho (x := x) hx
  choose! r h1 h2 using h
  refine ⟨r, h1, ?_⟩
  have e1 : cellSum b M (fun o x => H.temp (I.U o x) * ((volume D (cellGrid G b) (cellOct b o x) : F) * r o x)) =
      cellSum b M (fun o x => onBox b M (temps H I) (cellOct b o x) *
        inflow H D G M b (temps H I) (cellOct b o x)) := by
    refine cellSum_congr fun o ho x hx => ?_
    rw [h2 o ho x hx, onBox_cell ho hx]
    rfl
  rw [e1, cellSum_box b fun c => onBox b M (temps H I) c * inflow H D G M b (temps H I) c,
    sum_inflow hG hM hb D (temps H I) (onBox b M (temps H I))]
  refine Finset.sum_nonpos fun j _ => Finset.sum_nonpos fun c hc => Finset.sum_nonpos fun q hq => ?_
  rw [heat_symm D _ (hK j c hc q hq)]
  have := (C50_hot_to_cold (M := M) hG hb hD hκ (temps H I) j 1 c q).1
  linarith

end

/-! ### Closed boundaries -/

theorem mirror_temp (dim : ℕ) (γ : K) (k : Fin 3) (u : Cons K) :
    (consToPrim dim γ (u.mirror k)).p / (consToPrim dim γ (u.mirror k)).rho =
      (consToPrim dim γ u).p / (consToPrim dim γ u).rho := by
  have h : (consToPrim dim γ (u.mirror k)).p = (consToPrim dim γ u).p := by
    unfold consToPrim Cons.mirror
    fin_cases k <;> simp
  rw [h]
  rfl

/-- C50 (boundaries): the hydro states with reflecting or absorbing boundaries are insulated. -/
theorem C50_closed (hG : G.Pos) (hM : Tiling G M) (B : Boundary d K) {I : Source d (Cons K)}
    {H : Conduction d K (Cons K)} {γ : K} (hb2 : ∀ k, 2 ≤ b k)
    (hT : ∀ u, H.temp u = (consToPrim d γ (getCons d u)).p / (consToPrim d γ (getCons d u)).rho)
    (hI : ∀ r v, getBoundaryValue B I.U r = some v → I.bval r = v)
    (hBC : ∀ j, G.periodic j = true ∨ (B.bcMin j = .reflecting ∨ B.bcMin j = .absorbing) ∧
      (B.bcMax j = .reflecting ∨ B.bcMax j = .absorbing))
    (hu : ∀ j s, H.user j s = none) : Insulated H I G M b := by
  intro o ho x hx j s hs hbd
  refine ⟨hu j s, ?_⟩
  have hbj := hx j
  obtain ⟨r, y, h1, h2, h3, h4, h5, h6, h7, h8⟩ := boundary_face hG hM B I.U ho hx j (m := 1) hs one_pos
    (by omega) (by rw [mul_one]; exact hbd)
  have hyx : y = x := by
    funext k
    by_cases hk : k = j
    · subst hk
      unfold mirrorCoord at h5
      rcases h6 with ⟨h6, rfl⟩ | ⟨h6, rfl⟩
      · rw [if_pos h6] at h5; omega
      · rw [if_neg (by omega), if_pos h6] at h5; omega
    · exact h4 k hk
  subst hyx
  rw [mul_one] at h1
  have hper := onBoundary_not_periodic hM ho hx hbd
  have hat : B.at j (-s) = .reflecting ∨ B.at j (-s) = .absorbing := by
    rcases hBC j with h | ⟨h, h'⟩
    · exact absurd h hper
    · unfold Boundary.at; split <;> assumption
  refine ⟨I.bval r, patchRead_boundary hb2 hx hs h1 h2, ?_⟩
  have gg : ∀ u : Cons K, getCons d (getCons d u) = getCons d u := fun u => by
    unfold getCons; split <;> rfl
  have gm : ∀ (u : Cons K) k, getCons d ((getCons d u).mirror k) = (getCons d u).mirror k := fun u k => by
    unfold getCons Cons.mirror
    by_cases hd : d = 3
    · simp [hd]
    · simp [hd]
  rcases hat with h | h
  · rw [hI r _ (h7 h), hT, hT, gm, mirror_temp]
  · rw [hI r _ (h8 h), hT, hT, gg]

/-! ### Examples -/

/-- Reflecting walls. -/
def wall : Boundary 2 ℚ := ⟨fun _ => .reflecting, fun _ => .reflecting, fun _ _ _ => ⟨1, 1, 0, 0, 0⟩⟩

/-- Hot on the left and in one corner, with some motion. -/
def warm (o : Oct 2) (x : Fin 2 → ℕ) : Cons ℚ :=
  ⟨1, if o.level = 1 then 5 + x 0 else 2, if o.pos 1 = 0 then 1 else 0, 0, 0⟩

def warmSource : Source 2 (Cons ℚ) :=
  ⟨warm, fun r => (getBoundaryValue wall warm r).getD ⟨1, 1, 0, 0, 0⟩, fun _ => ⟨1, 1, 0, 0, 0⟩⟩

def hydroTemp (γ : ℚ) (u : Cons ℚ) : ℚ :=
  (consToPrim 2 γ (getCons 2 u)).p / (consToPrim 2 γ (getCons 2 u)).rho

/-- A conductivity of 1/2 everywhere. -/
def steady : Conduction 2 ℚ (Cons ℚ) := { temp := hydroTemp 2, kappa := fun _ => 1 / 2 }

/-- A conductivity that grows from left to right. -/
def varying : Conduction 2 ℚ (Cons ℚ) := { temp := hydroTemp 2, kappa := fun p => p 0 * p 0 }

def box : Domain 2 := ⟨fun _ => 0, fun _ => 8⟩

theorem box_ok : Domain.Ok box := fun _ => by change (0 : ℚ) < 8; decide

def two : Fin 2 → ℕ := fun _ => 2

theorem warm_closed (H : Conduction 2 ℚ (Cons ℚ)) (hT : H.temp = hydroTemp 2) (hu : H.user = fun _ _ => none) :
    Insulated H warmSource quadGrid quad.toFinset two :=
  C50_closed (γ := 2) quadGrid_pos quad_tiling wall (fun _ => le_rfl) (fun u => by rw [hT]; rfl)
    (fun r v h => by change (getBoundaryValue wall warmSource.U r).getD _ = v; rw [h]; rfl)
    (fun _ => Or.inr ⟨Or.inl rfl, Or.inl rfl⟩) (fun j s => by rw [hu])

/-- The hypotheses of the theorems are met on a mesh with a level jump and walls. -/
example : ∃ e' : Oct 2 → (Fin 2 → ℕ) → ℚ,
    (∀ o ∈ quad.toFinset, ∀ x : Fin 2 → ℕ, (∀ k, x k < two k) →
      stepCell steady warmSource box quadGrid quad.toFinset two (1 / 10) (fun o x => (warm o x).e) o x = some (e' o x)) ∧
    cellSum two quad.toFinset (fun o x => (volume box (cellGrid quadGrid two) (cellOct two o x) : ℚ) * e' o x) =
      cellSum two quad.toFinset (fun o x => (volume box (cellGrid quadGrid two) (cellOct two o x) : ℚ) * (warm o x).e) :=
  C50_conserves_partial (Or.inl rfl) quadGrid_pos quad_tiling quad_balanced box_ok (fun _ => le_rfl)
    (warm_closed steady rfl rfl) (C50_constant _ fun _ _ => rfl) _ _

/-- The same in numbers: a cell next to smaller ones loses energy. -/
example : rhs steady warmSource box quadGrid quad.toFinset two ⟨1, ![0, 0]⟩ ![1, 0] = some (-19 / 24) := by
  decide +kernel

example : ∃ r : Oct 2 → (Fin 2 → ℕ) → ℚ,
    (∀ o ∈ quad.toFinset, ∀ x : Fin 2 → ℕ, (∀ k, x k < two k) →
      rhs steady warmSource box quadGrid quad.toFinset two o x = some (r o x)) ∧
    cellSum two quad.toFinset (fun o x => hydroTemp 2 (warm o x) *
      ((volume box (cellGrid quadGrid two) (cellOct two o x) : ℚ) * r o x)) ≤ 0 :=
  C50_dissipates (Or.inl rfl) quadGrid_pos quad_tiling quad_balanced box_ok (fun _ => le_rfl)
    (warm_closed steady rfl rfl) (fun _ => by change (0 : ℚ) ≤ 1 / 2; norm_num) (C50_constant _ fun _ _ => rfl)

/-- A mesh of one level, where the conductivity may vary. -/
example : Matching varying box quadGrid {⟨1, ![0, 0]⟩, ⟨1, ![0, 1]⟩, ⟨1, ![1, 0]⟩, ⟨1, ![1, 1]⟩} two :=
  C50_one_level quadGrid_pos (fun _ => two_pos) (by decide) _ 1 (by decide)

/-- The hottest cell. -/
example : ∃ r, rhs varying warmSource box quadGrid quad.toFinset two ⟨1, ![0, 1]⟩ ![1, 0] = some r ∧
    ((∀ o' ∈ quad.toFinset, ∀ y : Fin 2 → ℕ, (∀ k, y k < two k) →
      varying.temp (warmSource.U o' y) ≤ varying.temp (warmSource.U ⟨1, ![0, 1]⟩ ![1, 0])) → r ≤ 0) ∧
    ((∀ o' ∈ quad.toFinset, ∀ y : Fin 2 → ℕ, (∀ k, y k < two k) →
      varying.temp (warmSource.U ⟨1, ![0, 1]⟩ ![1, 0]) ≤ varying.temp (warmSource.U o' y)) → 0 ≤ r) :=
  C50_extrema (Or.inl rfl) quadGrid_pos quad_tiling quad_balanced box_ok (fun _ => le_rfl)
    (warm_closed varying rfl rfl) (fun _ => mul_self_nonneg _) (by decide) (by decide)

/-- Without a step of time: the energy all cells would receive. -/
theorem varying_total : cellSum two quad.toFinset (fun o x =>
    (volume box (cellGrid quadGrid two) (cellOct two o x) : ℚ) *
      (rhs varying warmSource box quadGrid quad.toFinset two o x).getD 0) = 209 / 12 := by
  decide +kernel

/-- C50 (disagreement): with a conductivity that depends on the position (`diffusivity_mode` is `analytical`) and
a change of level, a closed box does not keep its energy. -/
theorem C50_analytic_fails : Insulated varying warmSource quadGrid quad.toFinset two ∧ (∀ p, 0 ≤ varying.kappa p) ∧
    ∀ (dt : ℚ) (eout : Oct 2 → (Fin 2 → ℕ) → ℚ), dt ≠ 0 → ∃ e' : Oct 2 → (Fin 2 → ℕ) → ℚ,
      (∀ o ∈ quad.toFinset, ∀ x : Fin 2 → ℕ, (∀ k, x k < two k) →
        stepCell varying warmSource box quadGrid quad.toFinset two dt eout o x = some (e' o x)) ∧
      cellSum two quad.toFinset (fun o x => (volume box (cellGrid quadGrid two) (cellOct two o x) : ℚ) * e' o x) ≠
        cellSum two quad.toFinset (fun o x => (volume box (cellGrid quadGrid two) (cellOct two o x) : ℚ) * eout o x) := by
  refine ⟨warm_closed varying rfl rfl, fun p => mul_self_nonneg _, fun dt eout hdt => ?_⟩
  obtain ⟨e', h1, -⟩ := C50_budget (b := two) (Or.inl rfl) quadGrid_pos quad_tiling quad_balanced box_ok (fun _ => le_rfl)
    (warm_closed varying rfl rfl) dt eout
  refine ⟨e', h1, ?_⟩
  have e : cellSum two quad.toFinset (fun o x => (volume box (cellGrid quadGrid two) (cellOct two o x) : ℚ) * e' o x) =
      cellSum two quad.toFinset (fun o x => (volume box (cellGrid quadGrid two) (cellOct two o x) : ℚ) * eout o x) +
      cellSum two quad.toFinset (fun o x => dt * ((volume box (cellGrid quadGrid two) (cellOct two o x) : ℚ) *
        (rhs varying warmSource box quadGrid quad.toFinset two o x).getD 0)) := by
    rw [← cellSum_add]
    refine cellSum_congr fun o ho x hx => ?_
    have h := h1 o ho x hx
    unfold stepCell at h
    obtain ⟨r, hr, hr'⟩ := Option.map_eq_some_iff.1 h
    rw [← hr', hr]
    simp only [Option.getD_some]
    ring
  rw [e, cellSum_mul, varying_total]
  intro h
  have : dt * (209 / 12) = 0 := by linarith
  rcases mul_eq_zero.1 this with h | h
  · exact hdt h
  · norm_num at h

end Verif.Parabolic
