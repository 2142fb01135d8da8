import Verif.Gravity.CG
import Verif.Flux.Connect
import Verif.Flux.Volume
import Mathlib.LinearAlgebra.Dimension.Constructions
import Mathlib.LinearAlgebra.Dimension.StrongRankCondition
import Mathlib.LinearAlgebra.Dimension.Finite

/-!
# C49: the conjugate gradient iteration never divides by zero and ends
-/

namespace Verif.Gravity

open Verif.Octree Verif.Cells Verif.Flux

variable {d : ℕ} {F : Type} [Field F] [LinearOrder F] [IsStrictOrderedRing F]
variable {G : Grid d} {M : Finset (Oct d)} {b : Fin d → ℕ}

/-! ### Model: the right-hand side of cosmological runs -/

/-- L214-217, `b_cosmo`. -/
def rhsCosmo (D : Domain d) (G : Grid d) (b : Fin d → ℕ) (aexp mean : F) (rho : Fld d F) : Fld d F := fun o x =>
  -6 * aexp * (rho o x / mean - 1) * (cellVolume D G b o x : F)

/-! ### Specification -/

/-- The Poisson problem has a solution: the sources cancel, or the potential is fixed on some boundary. -/
def Solvable (absorbing : Fin d → Bool) (G : Grid d) (M : Finset (Oct d)) (b : Fin d → ℕ) (f : Fld d F) : Prop :=
  cellSum b M f = 0 ∨ ∃ j, absorbing j = false ∧ G.periodic j = false

/-! ### The kernel of the operator -/

theorem exists_lower_boundary (hG : G.Pos) (hM : Tiling G M) (hb : ∀ k, 0 < b k) {j : Fin d}
    (hj : G.periodic j = false) : ∃ o ∈ M, ∃ x : Fin d → ℕ, (∀ k, x k < b k) ∧ OnBoundary G b o x j (-1) := by
  have hG' := cellGrid_pos hG hb
  have hM' := cellMesh_tiling hG hb hM
  obtain ⟨c, ⟨hc, hcov⟩, -⟩ := hM'.cover (fun _ => 0) (fun _ => ⟨le_rfl, zero_lt_one⟩)
  obtain ⟨o, ho, x, hx, rfl⟩ := (mem_cellMesh).1 hc
  refine ⟨o, ho, x, hx, ?_⟩
  unfold OnBoundary InDomain
  intro h
  have h2 := (hcov j).1
  unfold lo at h2
  have h3 : (0 : ℚ) < (cellGrid G b).count j (cellOct b o x).level := by exact_mod_cast count_pos hG' j _
  have h4 : ((cellOct b o x).pos j : ℚ) ≤ 0 := by
    rw [div_le_iff₀ h3, zero_mul] at h2
    exact h2
  have h5 : o.pos j * b j + x j = 0 := by
    have : (cellOct b o x).pos j ≤ 0 := by exact_mod_cast h4
    exact Nat.le_zero.1 this
  rcases h j with h1 | h1
  · have h1 : G.periodic j = true := h1
    rw [hj] at h1
    cases h1
  · have := h1.1
    unfold target at this
    rw [h5, faceOff_self] at this
    exact absurd this (by decide)

/-- A potential of energy 0 is constant, and 0 if it is fixed on some boundary. -/
theorem const_of_form (hG : G.Pos) (hM : Tiling G M) {D : Domain d} (hD : Domain.Ok D) (hb : ∀ k, 0 < b k)
    (absorbing : Fin d → Bool) {p : Fld d F} (h : form absorbing D G M b p p = 0) :
    ∃ a, Agree M b p (fun _ _ => a) ∧ ((∃ j, absorbing j = false ∧ G.periodic j = false) → a = 0) := by
  have hG' := cellGrid_pos hG hb
  have hM' := cellMesh_tiling hG hb hM
  have hk := form_eq_zero hG hD hb absorbing p h
  obtain ⟨c, ⟨hc, -⟩, -⟩ := hM'.cover (fun _ => 0) (fun _ => ⟨le_rfl, zero_lt_one⟩)
  have hconst : ∀ o ∈ M, ∀ x : Fin d → ℕ, (∀ k, x k < b k) → p o x = onBox b M p c := by
    intro o ho x hx
    rw [← onBox_cell ho hx p]
    exact const_of_adj hG' hM' (onBox b M p) (fun j => (hk j).1) (mem_cellMesh.2 ⟨o, ho, x, hx, rfl⟩) hc
  refine ⟨onBox b M p c, hconst, ?_⟩
  rintro ⟨j, hj1, hj2⟩
  obtain ⟨o, ho, x, hx, hbd⟩ := exists_lower_boundary hG hM hb hj2
  rw [← hconst o ho x hx]
  exact (hk j).2 hj1 o ho x hx (-1) (Or.inr rfl) hbd

/-- A potential of energy 0 is in the kernel. -/
theorem form_of_form (hG : G.Pos) {D : Domain d} (hD : Domain.Ok D) (hb : ∀ k, 0 < b k) (absorbing : Fin d → Bool)
    {p : Fld d F} (h : form absorbing D G M b p p = 0) (φ : Fld d F) : form absorbing D G M b φ p = 0 := by
  have hk := form_eq_zero hG hD hb absorbing p h
  unfold form cellSum
  refine Finset.sum_eq_zero fun j _ => ?_
  rw [Finset.sum_eq_zero fun c hc => Finset.sum_eq_zero fun q hq => ?_, zero_add]
  · refine Finset.sum_eq_zero fun o ho => Finset.sum_eq_zero fun x hx => Finset.sum_eq_zero fun s hs => ?_
    split
    · rename_i hc
      rw [(hk j).2 hc.1 o ho x (fun k => Finset.mem_range.1 (Fintype.mem_piFinset.1 hx k)) s
        (by simpa using hs) hc.2, mul_zero, mul_zero]
    · rfl
  · rw [(hk j).1 c hc q hq, sub_self, mul_zero, mul_zero]

omit [LinearOrder F] [IsStrictOrderedRing F] in
theorem cellVolume_eq (hG : G.Pos) (hb : ∀ k, 0 < b k) (D : Domain d) (o : Oct d) (x : Fin d → ℕ) :
    cellVolume D G b o x = volume D (cellGrid G b) (cellOct b o x) :=
  Finset.prod_congr rfl fun k _ => getCellSize_eq hG D ⟨o, x, b, .localToBlock⟩ hb k

theorem diag_pos (hG : G.Pos) (hb : ∀ k, 0 < b k) (hd : 0 < d) {D : Domain d} (hD : Domain.Ok D) (o : Oct d)
    (x : Fin d → ℕ) : 0 < (diag D G b o x : F) := by
  unfold diag
  have hs : ∀ k, 0 < getCellSize D G ⟨o, x, b, .localToBlock⟩ k := fun k => by
    rw [getCellSize_eq hG D _ hb k]; exact cellSize_pos (cellGrid_pos hG hb) hD _ k
  have h1 : 0 < cellVolume D G b o x := Finset.prod_pos fun k _ => hs k
  have h2 : 0 < ∑ k, 2 / (getCellSize D G ⟨o, x, b, .localToBlock⟩ k *
      getCellSize D G ⟨o, x, b, .localToBlock⟩ k) :=
    Finset.sum_pos (fun k _ => div_pos (by norm_num) (mul_pos (hs k) (hs k))) ⟨⟨0, hd⟩, Finset.mem_univ _⟩
  exact_mod_cast mul_pos h1 h2

/-- Product weighted by the preconditioner. -/
theorem dot_diag_pos (hG : G.Pos) (hb : ∀ k, 0 < b k) (hd : 0 < d) {D : Domain d} (hD : Domain.Ok D) {r : Fld d F}
    (hr : ¬ Agree M b r fun _ _ => 0) : 0 < dot M b r fun o x => r o x / diag D G b o x := by
  have h0 : ∀ o x, 0 ≤ r o x * (r o x / diag D G b o x) := fun o x => by
    rw [← mul_div_assoc]; exact div_nonneg (mul_self_nonneg _) (diag_pos hG hb hd hD o x).le
  unfold Agree at hr
  push Not at hr
  obtain ⟨o, ho, x, hx, hne⟩ := hr
  unfold dot cellSum
  refine Finset.sum_pos' (fun o _ => Finset.sum_nonneg fun x _ => h0 o x) ⟨o, ho, ?_⟩
  refine Finset.sum_pos' (fun x _ => h0 o x) ⟨x, Fintype.mem_piFinset.2 fun k => Finset.mem_range.2 (hx k), ?_⟩
  beta_reduce
  rw [← mul_div_assoc]
  exact div_pos (mul_self_pos.2 hne) (diag_pos hG hb hd hD o x)

/-- With a residual that is not 0, an iteration has no division by 0. -/
theorem step_defined (hG : G.Pos) (hM : Tiling G M) (hB : Balanced G M) (hd : 0 < d) {D : Domain d} (hD : Domain.Ok D)
    (hb : ∀ k, 0 < b k) (absorbing : Fin d → Bool) {f : Fld d F} (hf : Solvable absorbing G M b f) {st : CG d F}
    (hi : Inv absorbing D G M b f st) (hr : ¬ Agree M b st.r fun _ _ => 0) :
    ∃ st', CG.step absorbing D G M b st = some st' := by
  have hrz : 0 < st.rz := by rw [hi.rz]; exact dot_diag_pos hG hb hd hD hr
  obtain ⟨A, h1, h2⟩ := sweep_matprod (b := b) hG hM hB hD absorbing st.p
  have hp : (cellSum b M fun o x => st.p o x * A o x) = form absorbing D G M b st.p st.p := by
    rw [← sum_op hG hM hb]
    exact cellSum_congr fun o ho x hx => by rw [h2 o ho x hx]
  have hne : form absorbing D G M b st.p st.p ≠ 0 := by
    intro h0
    obtain ⟨a, ha1, ha2⟩ := const_of_form hG hM hD hb absorbing h0
    have e1 : dot M b st.r st.p = dot M b f st.p - dot M b st.p (op absorbing D G M b st.phi) := by
      unfold dot
      rw [← cellSum_sub]
      refine cellSum_congr fun o ho x hx => ?_
      rw [hi.res o ho x hx]
      ring
    have e2 : dot M b st.p (op absorbing D G M b st.phi) = 0 := by
      unfold dot
      rw [sum_op hG hM hb]
      exact form_of_form hG hD hb absorbing h0 st.phi
    have e3 : dot M b f st.p = 0 := by
      rw [dot_congr (fun _ _ _ _ => rfl) ha1]
      rcases hf with hf | hf
      · have : dot M b f (fun _ _ => a) = a * cellSum b M f := by
          rw [← cellSum_mul]
          exact cellSum_congr fun o _ x _ => mul_comm _ _
        rw [this, hf, mul_zero]
      · rw [ha2 hf]
        exact Finset.sum_eq_zero fun o _ => Finset.sum_eq_zero fun x _ => mul_zero _
    rw [hi.rp, e2, e3, sub_zero] at e1
    exact hrz.ne' e1
  unfold CG.step
  rw [h1, Option.bind_some]
  simp only
  rw [hp, if_neg (by rw [not_or]; exact ⟨hne, hrz.ne'⟩)]
  exact ⟨_, rfl⟩

/-- The states of the iteration. -/
def traj (absorbing : Fin d → Bool) (D : Domain d) (G : Grid d) (M : Finset (Oct d)) (b : Fin d → ℕ)
    (f phi0 : Fld d F) (n : ℕ) : Option (CG d F) :=
  (fun s : Option (CG d F) => s.bind (CG.step absorbing D G M b))^[n] (CG.init absorbing D G M b f phi0)

omit [IsStrictOrderedRing F] in
theorem traj_succ (absorbing : Fin d → Bool) (D : Domain d) (f phi0 : Fld d F) (n : ℕ) :
    traj absorbing D G M b f phi0 (n + 1) = (traj absorbing D G M b f phi0 n).bind (CG.step absorbing D G M b) := by
  unfold traj
  rw [Function.iterate_succ_apply']

theorem traj_inv (hG : G.Pos) (hM : Tiling G M) (hB : Balanced G M) {D : Domain d} (hD : Domain.Ok D)
    (absorbing : Fin d → Bool) (f phi0 : Fld d F) (n : ℕ) {st : CG d F}
    (h : traj absorbing D G M b f phi0 n = some st) : Inv absorbing D G M b f st := by
  induction n generalizing st with
  | zero =>
    obtain ⟨s0, h1, h2, -⟩ := init_inv (b := b) hG hM hB hD absorbing f phi0
    have h : CG.init absorbing D G M b f phi0 = some st := h
    rw [h1] at h
    rwa [← Option.some.inj h]
  | succ n ih =>
    rw [traj_succ] at h
    obtain ⟨s1, h1, h2⟩ := Option.bind_eq_some_iff.1 h
    exact (step_inv hG hM hB hD absorbing f (ih h1) h2).1

/-! ### Conjugate directions -/

/-- The residual seen by the preconditioner. -/
def precond (D : Domain d) (G : Grid d) (b : Fin d → ℕ) (r : Fld d F) : Fld d F := fun o x => r o x / diag D G b o x

omit [LinearOrder F] [IsStrictOrderedRing F] in
theorem dot_precond_comm (D : Domain d) (r s : Fld d F) :
    dot M b r (precond D G b s) = dot M b s (precond D G b r) := by
  unfold dot precond
  exact cellSum_congr fun o _ x _ => by ring

/-- Everything a defined iteration computes. -/
theorem step_detail (hG : G.Pos) (hM : Tiling G M) (hB : Balanced G M) {D : Domain d} (hD : Domain.Ok D)
    (absorbing : Fin d → Bool) {st st' : CG d F} (h : CG.step absorbing D G M b st = some st') :
    ∃ alpha beta, alpha * dot M b st.p (op absorbing D G M b st.p) = st.rz ∧ alpha ≠ 0 ∧ beta * st.rz = st'.rz ∧
      st.rz ≠ 0 ∧ Agree M b st'.r (fun o x => st.r o x + -alpha * op absorbing D G M b st.p o x) ∧
      st'.p = fun o x => precond D G b st'.r o x + beta * st.p o x := by
  obtain ⟨A, h1, h2⟩ := sweep_matprod (b := b) hG hM hB hD absorbing st.p
  unfold CG.step at h
  rw [h1, Option.bind_some] at h
  simp only at h
  have hp : (cellSum b M fun o x => st.p o x * A o x) = dot M b st.p (op absorbing D G M b st.p) :=
    dot_congr (fun _ _ _ _ => rfl) h2
  rw [hp] at h
  set pAp := dot M b st.p (op absorbing D G M b st.p) with hpAp
  split at h
  · cases h
  · rename_i hne
    rw [not_or] at hne
    have h := (Option.some.inj h).symm
    subst h
    refine ⟨st.rz / pAp, _, div_mul_cancel₀ _ hne.1, div_ne_zero hne.2 hne.1, ?_, hne.2, fun o ho x hx => ?_, rfl⟩
    · exact div_mul_cancel₀ _ hne.2
    · simp only
      rw [h2 o ho x hx]
      ring

/-- Residuals are orthogonal for the preconditioner and directions are conjugate. -/
theorem conjugate (hG : G.Pos) (hM : Tiling G M) (hB : Balanced G M) {D : Domain d} (hD : Domain.Ok D)
    (hb : ∀ k, 0 < b k) (absorbing : Fin d → Bool) (f phi0 : Fld d F) (s : ℕ → CG d F) (n : ℕ)
    (h : ∀ k ≤ n, traj absorbing D G M b f phi0 k = some (s k)) :
    ∀ k ≤ n, ∀ i < k, dot M b (s k).r (precond D G b (s i).r) = 0 ∧
      dot M b (s k).p (op absorbing D G M b (s i).p) = 0 := by
  have hstep : ∀ k, k + 1 ≤ n → CG.step absorbing D G M b (s k) = some (s (k + 1)) := by
    intro k hk
    have := h (k + 1) hk
    rwa [traj_succ, h k (by omega), Option.bind_some] at this
  have hp0 : (s 0).p = precond D G b (s 0).r := by
    have h0 : CG.init absorbing D G M b f phi0 = some (s 0) := h 0 (Nat.zero_le _)
    unfold CG.init at h0
    obtain ⟨A, -, hA⟩ := Option.map_eq_some_iff.1 h0
    rw [← hA]
    rfl
  have hsym := fun φ ψ => dot_op_symm hG hM hb D absorbing φ (ψ : Fld d F)
  -- the preconditioned residual in terms of directions
  have hz : ∀ i ≤ n, ∀ v : Fld d F, (∀ i', i' < i → dot M b v (op absorbing D G M b (s i').p) = 0) →
      dot M b (precond D G b (s i).r) (op absorbing D G M b v) = dot M b (s i).p (op absorbing D G M b v) := by
    intro i hi v hv
    cases i with
    | zero => rw [hp0]
    | succ i =>
      obtain ⟨α, β, -, -, -, -, -, e⟩ := step_detail hG hM hB hD absorbing (hstep i hi)
      rw [e, dot_comm (fun o x => precond D G b (s (i + 1)).r o x + β * (s i).p o x), dot_add_mul,
        dot_comm _ (s i).p, hsym v (s i).p, hv i (Nat.lt_succ_self i), mul_zero, add_zero, dot_comm]
  intro k
  induction k with
  | zero => intro _ i hi; exact absurd hi (Nat.not_lt_zero i)
  | succ k ih =>
    intro hk
    have ih := ih (by omega)
    obtain ⟨α, β, hα, hα0, hβ, hrz, hr, hp⟩ := step_detail hG hM hB hD absorbing (hstep k hk)
    have hinv := traj_inv hG hM hB hD absorbing f phi0 k (h k (by omega))
    have hinv' := traj_inv hG hM hB hD absorbing f phi0 (k + 1) (h (k + 1) hk)
    -- residuals
    have hres : ∀ i, i < k + 1 → dot M b (s (k + 1)).r (precond D G b (s i).r) = 0 := by
      intro i hi
      rw [dot_congr hr (fun _ _ _ _ => rfl), dot_comm, dot_add_mul,
        hz i (by omega) (s k).p (fun i' hi' => (ih i' (by omega)).2)]
      rcases Nat.lt_succ_iff_lt_or_eq.1 hi with hi | rfl
      · rw [dot_comm, (ih i hi).1, hsym, (ih i hi).2, mul_zero, add_zero]
      · rw [dot_comm, neg_mul, hα, hinv.rz]
        exact add_neg_cancel _
    intro i hi
    refine ⟨hres i hi, ?_⟩
    -- directions
    obtain ⟨αi, βi, hαi, hαi0, -, -, hri, -⟩ := step_detail hG hM hB hD absorbing (hstep i (by omega))
    have hAp : αi * dot M b (precond D G b (s (k + 1)).r) (op absorbing D G M b (s i).p) =
        dot M b (precond D G b (s (k + 1)).r) (s i).r - dot M b (precond D G b (s (k + 1)).r) (s (i + 1)).r := by
      rw [dot_congr (fun _ _ _ _ => rfl) hri, dot_add_mul]
      ring
    have e1 : dot M b (precond D G b (s (k + 1)).r) (s i).r = 0 := by
      rw [dot_comm, dot_precond_comm]; exact hres i hi
    rw [e1, zero_sub] at hAp
    rw [hp, dot_comm, dot_add_mul, dot_comm, dot_comm _ (s k).p]
    rcases Nat.lt_succ_iff_lt_or_eq.1 hi with hi' | rfl
    · rw [(ih i hi').2, mul_zero, add_zero]
      have e2 : dot M b (precond D G b (s (k + 1)).r) (s (i + 1)).r = 0 := by
        rw [dot_comm, dot_precond_comm]; exact hres (i + 1) (by omega)
      rw [e2, neg_zero] at hAp
      exact (mul_eq_zero.1 hAp).resolve_left hαi0
    · have e2 : dot M b (precond D G b (s (i + 1)).r) (s (i + 1)).r = (s (i + 1)).rz := by
        rw [dot_comm, hinv'.rz]; rfl
      rw [e2] at hAp
      have : αi * (dot M b (precond D G b (s (i + 1)).r) (op absorbing D G M b (s i).p) +
          β * dot M b (s i).p (op absorbing D G M b (s i).p)) = 0 := by
        rw [mul_add, hAp, mul_left_comm, hαi, hβ]
        ring
      exact (mul_eq_zero.1 this).resolve_left hαi0

/-! ### There are at most as many orthogonal residuals as cells -/

/-- The cells of the mesh. -/
abbrev cells (M : Finset (Oct d)) (b : Fin d → ℕ) : Finset (Oct d × (Fin d → ℕ)) :=
  M ×ˢ Fintype.piFinset fun k => Finset.range (b k)

omit [LinearOrder F] [IsStrictOrderedRing F] in
theorem cellSum_cells (f : Fld d F) : cellSum b M f = ∑ c : cells M b, f c.1.1 c.1.2 := by
  unfold cellSum
  rw [Finset.sum_coe_sort (cells M b) fun c => f c.1 c.2, Finset.sum_product]

theorem residual_zero (hG : G.Pos) (hb : ∀ k, 0 < b k) (hd : 0 < d) {D : Domain d} (hD : Domain.Ok D) (r : ℕ → Fld d F)
    (h : ∀ k ≤ (cells M b).card, ∀ i < k, dot M b (r k) (precond D G b (r i)) = 0) :
    ∃ k ≤ (cells M b).card, Agree M b (r k) fun _ _ => 0 := by
  by_contra hno
  push Not at hno
  set N := (cells M b).card with hN
  let v : Fin (N + 1) → (cells M b → F) := fun k c => r k c.1.1 c.1.2
  have hort : ∀ k i : Fin (N + 1), k ≠ i → dot M b (r k) (precond D G b (r i)) = 0 := by
    intro k i hne
    rcases lt_or_gt_of_ne (fun e => hne (Fin.ext e) : (k : ℕ) ≠ i) with hlt | hlt
    · rw [dot_precond_comm]
      exact h i (by omega) k hlt
    · exact h k (by omega) i hlt
  have hli : LinearIndependent F v := by
    rw [Fintype.linearIndependent_iff]
    intro g hg i
    have h1 : ∑ k, g k * dot M b (r k) (precond D G b (r i)) = 0 := by
      have : ∀ k, g k * dot M b (r k) (precond D G b (r i)) =
          ∑ c : cells M b, g k * v k c * precond D G b (r i) c.1.1 c.1.2 := by
        intro k
        unfold dot
        rw [cellSum_cells, Finset.mul_sum]
        exact Finset.sum_congr rfl fun c _ => by ring
      rw [Finset.sum_congr rfl fun k _ => this k, Finset.sum_comm]
      refine Finset.sum_eq_zero fun c _ => ?_
      rw [← Finset.sum_mul]
      have := congrFun hg c
      simp only [Finset.sum_apply, Pi.smul_apply, smul_eq_mul, Pi.zero_apply] at this
      rw [this, zero_mul]
    rw [Finset.sum_eq_single i (fun k _ hk => by rw [hort k i hk, mul_zero])
      (fun hi => absurd (Finset.mem_univ i) hi)] at h1
    exact (mul_eq_zero.1 h1).resolve_right (dot_diag_pos hG hb hd hD (hno i (by omega))).ne'
  have := hli.fintype_card_le_finrank
  rw [Fintype.card_fin, Module.finrank_fintype_fun_eq_card, Fintype.card_coe] at this
  omega

/-! ### Theorems -/

/-- C49 (solvability): with the mean density subtracted the sources cancel, so the periodic problem has a solution;
likewise in cosmological runs. -/
theorem C49_compatible (hG : G.Pos) (hM : Tiling G M) (hb : ∀ k, 0 < b k) {D : Domain d} (hD : Domain.Ok D)
    (fourPiG aexp : F) (rho : Fld d F) :
    cellSum b M (rhs D G b fourPiG (rhoMean D G M b rho) rho) = 0 ∧
      (rhoMean D G M b rho ≠ 0 → cellSum b M (rhsCosmo D G b aexp (rhoMean D G M b rho) rho) = 0) := by
  have hV : cellSum b M (fun o x => (cellVolume D G b o x : F)) = ((∏ k, (D.xmax k - D.xmin k) : ℚ) : F) := by
    rw [← sum_volume (cellGrid_pos hG hb) (cellMesh_tiling hG hb hM) D, Rat.cast_sum,
      ← cellSum_box b fun c => (volume D (cellGrid G b) c : F)]
    exact cellSum_congr fun o _ x _ => by rw [cellVolume_eq hG hb]
  have hV0 : ((∏ k, (D.xmax k - D.xmin k) : ℚ) : F) ≠ 0 := by
    have : (∏ k, (D.xmax k - D.xmin k) : ℚ) ≠ 0 := (Finset.prod_pos fun k _ => sub_pos.2 (hD k)).ne'
    exact_mod_cast this
  have hm : rhoMean D G M b rho * cellSum b M (fun o x => (cellVolume D G b o x : F)) =
      cellSum b M fun o x => rho o x * (cellVolume D G b o x : F) := by
    rw [hV]
    exact div_mul_cancel₀ _ hV0
  generalize rhoMean D G M b rho = m at hm ⊢
  have key : cellSum b M (fun o x => (rho o x - m) * (cellVolume D G b o x : F)) = 0 := by
    have : cellSum b M (fun o x => (rho o x - m) * (cellVolume D G b o x : F)) =
        cellSum b M (fun o x => rho o x * (cellVolume D G b o x : F)) -
          m * cellSum b M (fun o x => (cellVolume D G b o x : F)) := by
      rw [← cellSum_mul, ← cellSum_sub]
      exact cellSum_congr fun o _ x _ => by ring
    rw [this, hm, sub_self]
  constructor
  · have : cellSum b M (rhs D G b fourPiG m rho) =
        -fourPiG * cellSum b M (fun o x => (rho o x - m) * (cellVolume D G b o x : F)) := by
      rw [← cellSum_mul]
      exact cellSum_congr fun o _ x _ => by unfold rhs; ring
    rw [this, key, mul_zero]
  · intro hm0
    have : cellSum b M (rhsCosmo D G b aexp m rho) =
        -6 * aexp / m * cellSum b M (fun o x => (rho o x - m) * (cellVolume D G b o x : F)) := by
      rw [← cellSum_mul]
      refine cellSum_congr fun o _ x _ => ?_
      unfold rhsCosmo
      field_simp
    rw [this, key, mul_zero]

/-- C49 (no division by 0): as long as the loop goes on, its next iteration is defined. -/
theorem C49_defined (hG : G.Pos) (hM : Tiling G M) (hB : Balanced G M) (hd : 0 < d) {D : Domain d} (hD : Domain.Ok D)
    (hb : ∀ k, 0 < b k) (absorbing : Fin d → Bool) {f : Fld d F} (hf : Solvable absorbing G M b f) (phi0 : Fld d F)
    (eps : F) (n : ℕ) {st : CG d F} (h : traj absorbing D G M b f phi0 n = some st)
    (hc : continues eps (cellSum b M fun o x => st.r o x * st.r o x) (cellSum b M fun o x => f o x * f o x) = true) :
    ∃ st', traj absorbing D G M b f phi0 (n + 1) = some st' := by
  rw [traj_succ, h, Option.bind_some]
  refine step_defined hG hM hB hd hD hb absorbing hf (traj_inv hG hM hB hD absorbing f phi0 n h) fun h0 => ?_
  have e : (cellSum b M fun o x => st.r o x * st.r o x) = 0 :=
    Finset.sum_eq_zero fun o ho => Finset.sum_eq_zero fun x hx => by
      beta_reduce
      rw [h0 o ho x fun k => Finset.mem_range.1 (Fintype.mem_piFinset.1 hx k), mul_zero]
  rw [e] at hc
  unfold continues at hc
  split at hc
  · exact lt_irrefl _ (of_decide_eq_true hc)
  · rw [zero_div] at hc
    exact absurd (of_decide_eq_true hc) (not_lt.2 (mul_self_nonneg eps))

/-- C49 (termination): in exact arithmetic the loop ends after at most as many iterations as there are cells. -/
theorem C49_terminates (hG : G.Pos) (hM : Tiling G M) (hB : Balanced G M) (hd : 0 < d) {D : Domain d}
    (hD : Domain.Ok D) (hb : ∀ k, 0 < b k) (absorbing : Fin d → Bool) {f : Fld d F}
    (hf : Solvable absorbing G M b f) (phi0 : Fld d F) (eps : F) :
    ∃ phi, solve absorbing D G M b eps (M.card * (∏ k, b k) + 1) f phi0 = some phi := by
  have hcard : (cells M b).card = M.card * ∏ k, b k := by
    rw [Finset.card_product, Fintype.card_piFinset]
    simp
  rw [← hcard]
  set N := (cells M b).card with hN
  obtain ⟨s0, h0, -, -⟩ := init_inv (b := b) hG hM hB hD absorbing f phi0
  unfold solve
  rw [h0, Option.bind_some]
  by_contra hnone
  have hnone : CG.loop absorbing D G M b eps (cellSum b M fun o x => f o x * f o x) (N + 1) s0 = none := by
    by_contra h
    obtain ⟨st, h⟩ := Option.ne_none_iff_exists'.1 h
    exact hnone ⟨st.phi, by rw [h]; rfl⟩
  -- the loop would use up all its iterations
  have key : ∀ k ≤ N + 1, ∃ st, traj absorbing D G M b f phi0 k = some st ∧
      CG.loop absorbing D G M b eps (cellSum b M fun o x => f o x * f o x) (N + 1 - k) st = none := by
    intro k
    induction k with
    | zero => intro _; exact ⟨s0, h0, hnone⟩
    | succ k ih =>
      intro hk
      obtain ⟨st, h1, h2⟩ := ih (by omega)
      rw [show N + 1 - k = (N + 1 - (k + 1)) + 1 by omega] at h2
      unfold CG.loop at h2
      split at h2
      · rename_i hc
        obtain ⟨st', h3⟩ := C49_defined hG hM hB hd hD hb absorbing hf phi0 eps k h1 hc
        refine ⟨st', h3, ?_⟩
        rw [traj_succ, h1, Option.bind_some] at h3
        rwa [h3, Option.bind_some] at h2
      · cases h2
  have : Nonempty (CG d F) := ⟨s0⟩
  choose! s hs using fun k (hk : k ≤ N + 1) => key k hk
  have hs : ∀ k ≤ N + 1, traj absorbing D G M b f phi0 k = some (s k) := fun k hk => (hs k hk).1
  have hconj := conjugate hG hM hB hD hb absorbing f phi0 s (N + 1) hs
  obtain ⟨k, hk, hzero⟩ := residual_zero hG hb hd hD (fun k => (s k).r)
    (fun k hk i hi => (hconj k (by omega) i hi).1)
  have hnext := hs (k + 1) (by omega)
  rw [traj_succ, hs k (by omega), Option.bind_some] at hnext
  obtain ⟨α, β, -, -, -, hrz, -, -⟩ := step_detail hG hM hB hD absorbing hnext
  apply hrz
  rw [(traj_inv hG hM hB hD absorbing f phi0 k (hs k (by omega))).rz]
  exact Finset.sum_eq_zero fun o ho => Finset.sum_eq_zero fun x hx => by
    beta_reduce
    rw [hzero o ho x fun k => Finset.mem_range.1 (Fintype.mem_piFinset.1 hx k), zero_mul]

end Verif.Gravity
