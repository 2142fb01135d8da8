import Verif.Gravity.Operator

/-!
# C49: the conjugate gradient iteration of `GravitySolver_cg`

Model of `Aii`, `b` and the loop in `update_gravity_field` (`core/src/gravity/GravitySolver_cg.cpp` L181-202,
L243-365) on the whole mesh: ghost exchange and the reductions over ranks are those of C20 and of the sums over all
cells. Arithmetic is exact; a division by zero is an undefined result (NaN or infinity in the code).
-/

namespace Verif.Gravity

open Verif.Octree Verif.Cells Verif.Flux

variable {d : ℕ} {F : Type} [Field F] [LinearOrder F]

/-- A field on the cells of the mesh. -/
abbrev Fld (d : ℕ) (F : Type) := Oct d → (Fin d → ℕ) → F

/-! ### Model -/

/-- Volume of a cell as the code computes it from its sizes. -/
def cellVolume (D : Domain d) (G : Grid d) (b : Fin d → ℕ) (o : Oct d) (x : Fin d → ℕ) : ℚ :=
  ∏ k, getCellSize D G ⟨o, x, b, .localToBlock⟩ k

/-- L181-184, `Aii`. -/
def diag (D : Domain d) (G : Grid d) (b : Fin d → ℕ) (o : Oct d) (x : Fin d → ℕ) : F :=
  ((cellVolume D G b o x * ∑ k, 2 / (getCellSize D G ⟨o, x, b, .localToBlock⟩ k *
    getCellSize D G ⟨o, x, b, .localToBlock⟩ k) : ℚ) : F)

/-- L198-202, `b`, the right-hand side. -/
def rhs (D : Domain d) (G : Grid d) (b : Fin d → ℕ) (fourPiG mean : F) (rho : Fld d F) : Fld d F := fun o x =>
  -fourPiG * (rho o x - mean) * (cellVolume D G b o x : F)

/-- L260-269: the mean density. -/
def rhoMean (D : Domain d) (G : Grid d) (M : Finset (Oct d)) (b : Fin d → ℕ) (rho : Fld d F) : F :=
  cellSum b M (fun o x => rho o x * (cellVolume D G b o x : F)) / ((∏ k, (D.xmax k - D.xmin k) : ℚ) : F)

/-- A kernel over all cells: undefined if it is undefined in one of them. -/
def sweep (M : Finset (Oct d)) (b : Fin d → ℕ) (f : Oct d → (Fin d → ℕ) → Option F) : Option (Fld d F) :=
  if ∀ o ∈ M, ∀ x ∈ Fintype.piFinset fun k => Finset.range (b k), (f o x).isSome then
    some fun o x => (f o x).getD 0
  else none

structure CG (d : ℕ) (F : Type) where
  phi : Fld d F
  p : Fld d F
  r : Fld d F
  rz : F

/-- L277-302: residual and first direction. -/
def CG.init (absorbing : Fin d → Bool) (D : Domain d) (G : Grid d) (M : Finset (Oct d)) (b : Fin d → ℕ)
    (f phi0 : Fld d F) : Option (CG d F) :=
  (sweep M b (matprod absorbing phi0 D G M b)).map fun Ax =>
    let r := fun o x => f o x - Ax o x
    let z := fun o x => r o x / diag D G b o x
    ⟨phi0, z, r, cellSum b M fun o x => r o x * z o x⟩

/-- L313-364: one iteration. -/
def CG.step (absorbing : Fin d → Bool) (D : Domain d) (G : Grid d) (M : Finset (Oct d)) (b : Fin d → ℕ)
    (st : CG d F) : Option (CG d F) :=
  (sweep M b (matprod absorbing st.p D G M b)).bind fun Ap =>
    let pAp := cellSum b M fun o x => st.p o x * Ap o x
    if pAp = 0 ∨ st.rz = 0 then none else
    let alpha := st.rz / pAp
    let phi := fun o x => st.phi o x + alpha * st.p o x
    let r := fun o x => st.r o x - alpha * Ap o x
    let rz := cellSum b M fun o x => r o x * (r o x / diag D G b o x)
    let beta := rz / st.rz
    some ⟨phi, fun o x => r o x / diag D G b o x + beta * st.p o x, r, rz⟩

/-- L308, the condition of the loop: `R/B > eps*eps` with the conventions of division by zero (0/0 is not greater,
a positive number over 0 is). -/
def continues (eps R B : F) : Bool := if B = 0 then decide (0 < R) else decide (R / B > eps * eps)

/-- L308-365: the loop, for at most `n` iterations. -/
def CG.loop (absorbing : Fin d → Bool) (D : Domain d) (G : Grid d) (M : Finset (Oct d)) (b : Fin d → ℕ) (eps B : F) :
    ℕ → CG d F → Option (CG d F)
  | 0, _ => none
  | n + 1, st =>
    if continues eps (cellSum b M fun o x => st.r o x * st.r o x) B then
      (CG.step absorbing D G M b st).bind (CG.loop absorbing D G M b eps B n)
    else some st

/-- L243-365: the potential the solver ends with. -/
def solve (absorbing : Fin d → Bool) (D : Domain d) (G : Grid d) (M : Finset (Oct d)) (b : Fin d → ℕ) (eps : F)
    (n : ℕ) (f phi0 : Fld d F) : Option (Fld d F) :=
  (CG.init absorbing D G M b f phi0).bind fun st =>
    (CG.loop absorbing D G M b eps (cellSum b M fun o x => f o x * f o x) n st).map CG.phi

/-! ### Linear algebra -/

variable {G : Grid d} {M : Finset (Oct d)} {b : Fin d → ℕ}

/-- Two fields agree on the cells of the mesh. -/
def Agree (M : Finset (Oct d)) (b : Fin d → ℕ) (f g : Fld d F) : Prop :=
  ∀ o ∈ M, ∀ x : Fin d → ℕ, (∀ k, x k < b k) → f o x = g o x

/-- Sum over cells of the product. -/
def dot (M : Finset (Oct d)) (b : Fin d → ℕ) (f g : Fld d F) : F := cellSum b M fun o x => f o x * g o x

omit [LinearOrder F] in
theorem op_linear (absorbing : Fin d → Bool) (D : Domain d) (φ p : Fld d F) (a : F) (o : Oct d) (x : Fin d → ℕ) :
    op absorbing D G M b (fun o x => φ o x + a * p o x) o x =
      op absorbing D G M b φ o x + a * op absorbing D G M b p o x := by
  unfold op
  rw [Finset.mul_sum, ← Finset.sum_add_distrib]
  refine Finset.sum_congr rfl fun j _ => ?_
  have h : ∀ s, sideOp absorbing D G M b (fun o x => φ o x + a * p o x) j s o x =
      sideOp absorbing D G M b φ j s o x + a * sideOp absorbing D G M b p j s o x := by
    intro s
    unfold sideOp onBox
    rw [mul_add a, Finset.mul_sum]
    have : ∀ A B C D' E E' : F, A = B + C → E = D' + E' → A + E = B + D' + (C + E') := by
      intro A B C D' E E' h1 h2; rw [h1, h2]; ring
    refine this _ _ _ _ _ _ ?_ ?_
    · rw [← Finset.sum_add_distrib]
      exact Finset.sum_congr rfl fun q _ => by ring
    · split <;> ring
  rw [h, h]
  ring

omit [LinearOrder F] in
theorem sweep_eq {f : Oct d → (Fin d → ℕ) → Option F} {g : Fld d F}
    (h : ∀ o ∈ M, ∀ x : Fin d → ℕ, (∀ k, x k < b k) → f o x = some (g o x)) :
    ∃ A, sweep M b f = some A ∧ Agree M b A g := by
  unfold sweep
  rw [if_pos]
  · exact ⟨_, rfl, fun o ho x hx => by rw [h o ho x hx]; rfl⟩
  · intro o ho x hx
    rw [h o ho x fun k => Finset.mem_range.1 (Fintype.mem_piFinset.1 hx k)]
    rfl

variable [IsStrictOrderedRing F]

/-- The operator over all cells. -/
theorem sweep_matprod (hG : G.Pos) (hM : Tiling G M) (hB : Balanced G M) {D : Domain d} (hD : Domain.Ok D)
    (absorbing : Fin d → Bool) (φ : Fld d F) :
    ∃ A, sweep M b (matprod absorbing φ D G M b) = some A ∧ Agree M b A (op absorbing D G M b φ) :=
  sweep_eq fun _ ho _ hx => matprod_eq hG hM hB hD absorbing φ ho hx

omit [LinearOrder F] [IsStrictOrderedRing F] in
theorem dot_congr {f f' g g' : Fld d F} (h : Agree M b f f') (h' : Agree M b g g') : dot M b f g = dot M b f' g' :=
  cellSum_congr fun o ho x hx => by rw [h o ho x hx, h' o ho x hx]

omit [LinearOrder F] [IsStrictOrderedRing F] in
theorem dot_comm (f g : Fld d F) : dot M b f g = dot M b g f := cellSum_congr fun _ _ _ _ => mul_comm _ _

omit [LinearOrder F] [IsStrictOrderedRing F] in
theorem dot_add_mul (f g h : Fld d F) (a : F) :
    dot M b f (fun o x => g o x + a * h o x) = dot M b f g + a * dot M b f h := by
  unfold dot
  rw [← cellSum_mul, ← cellSum_add]
  exact cellSum_congr fun o _ x _ => by ring

omit [LinearOrder F] [IsStrictOrderedRing F] in
theorem dot_op_symm (hG : G.Pos) (hM : Tiling G M) (hb : ∀ k, 0 < b k) (D : Domain d) (absorbing : Fin d → Bool)
    (φ ψ : Fld d F) : dot M b ψ (op absorbing D G M b φ) = dot M b φ (op absorbing D G M b ψ) := by
  unfold dot
  rw [sum_op hG hM hb, sum_op hG hM hb, form_symm]

/-- What holds after any number of iterations. -/
structure Inv (absorbing : Fin d → Bool) (D : Domain d) (G : Grid d) (M : Finset (Oct d)) (b : Fin d → ℕ) (f : Fld d F)
    (st : CG d F) : Prop where
  res : Agree M b st.r fun o x => f o x - op absorbing D G M b st.phi o x
  rz : st.rz = dot M b st.r fun o x => st.r o x / diag D G b o x
  rp : dot M b st.r st.p = st.rz

theorem init_inv (hG : G.Pos) (hM : Tiling G M) (hB : Balanced G M) {D : Domain d} (hD : Domain.Ok D)
    (absorbing : Fin d → Bool) (f phi0 : Fld d F) :
    ∃ st, CG.init absorbing D G M b f phi0 = some st ∧ Inv absorbing D G M b f st ∧ st.phi = phi0 := by
  obtain ⟨A, h1, h2⟩ := sweep_matprod (b := b) hG hM hB hD absorbing phi0
  unfold CG.init
  rw [h1]
  refine ⟨_, rfl, ⟨fun o ho x hx => ?_, rfl, rfl⟩, rfl⟩
  simp only
  rw [h2 o ho x hx]

theorem step_inv (hG : G.Pos) (hM : Tiling G M) (hB : Balanced G M) {D : Domain d} (hD : Domain.Ok D)
    (absorbing : Fin d → Bool) (f : Fld d F) {st st' : CG d F} (hi : Inv absorbing D G M b f st)
    (h : CG.step absorbing D G M b st = some st') :
    Inv absorbing D G M b f st' ∧ ∃ pAp, pAp = dot M b st.p (op absorbing D G M b st.p) ∧ pAp ≠ 0 ∧ st.rz ≠ 0 ∧
      st'.phi = fun o x => st.phi o x + st.rz / pAp * st.p o x := by
  obtain ⟨A, h1, h2⟩ := sweep_matprod (b := b) hG hM hB hD absorbing st.p
  unfold CG.step at h
  rw [h1, Option.bind_some] at h
  simp only at h
  have hp : (cellSum b M fun o x => st.p o x * A o x) = dot M b st.p (op absorbing D G M b st.p) :=
    dot_congr (fun _ _ _ _ => rfl) h2
  rw [hp] at h
  set pAp := dot M b st.p (op absorbing D G M b st.p) with hpAp
  split at h
  · cases h
  · rename_i hne
    rw [not_or] at hne
    have h := (Option.some.inj h).symm
    subst h
    refine ⟨⟨fun o ho x hx => ?_, rfl, ?_⟩, pAp, rfl, hne.1, hne.2, rfl⟩
    · simp only
      rw [op_linear, hi.res o ho x hx, h2 o ho x hx]
      ring
    · simp only
      rw [dot_add_mul]
      have e : dot M b (fun o x => st.r o x - st.rz / pAp * A o x) st.p = 0 := by
        rw [dot_comm]
        have : dot M b st.p (fun o x => st.r o x - st.rz / pAp * A o x) =
            dot M b st.p (fun o x => st.r o x + -(st.rz / pAp) * A o x) :=
          dot_congr (fun _ _ _ _ => rfl) fun o _ x _ => by ring
        rw [this, dot_add_mul, dot_comm, hi.rp, show dot M b st.p A = pAp from hp, neg_mul,
          div_mul_cancel₀ _ hne.1, add_neg_cancel]
      rw [e, mul_zero, add_zero]
      rfl

/-! ### Theorems -/

/-- C49 (residual): after any number of iterations the updated residual is the true residual of the potential. -/
theorem C49_residual (hG : G.Pos) (hM : Tiling G M) (hB : Balanced G M) {D : Domain d} (hD : Domain.Ok D)
    (absorbing : Fin d → Bool) (f phi0 : Fld d F) (n : ℕ) {st : CG d F}
    (h : (fun s : Option (CG d F) => s.bind (CG.step absorbing D G M b))^[n] (CG.init absorbing D G M b f phi0) = some st)
    {o : Oct d} (ho : o ∈ M) {x : Fin d → ℕ} (hx : ∀ k, x k < b k) :
    ∃ Aφ, matprod absorbing st.phi D G M b o x = some Aφ ∧ st.r o x = f o x - Aφ := by
  have key : Inv absorbing D G M b f st := by
    induction n generalizing st with
    | zero =>
      obtain ⟨s0, h1, h2, -⟩ := init_inv (b := b) hG hM hB hD absorbing f phi0
      rw [Function.iterate_zero, id, h1] at h
      rwa [← Option.some.inj h]
    | succ n ih =>
      rw [Function.iterate_succ_apply'] at h
      obtain ⟨s1, h1, h2⟩ := Option.bind_eq_some_iff.1 h
      exact (step_inv hG hM hB hD absorbing f (ih h1) h2).1
  exact ⟨_, matprod_eq hG hM hB hD absorbing st.phi ho hx, key.res o ho x hx⟩

theorem loop_spec (hG : G.Pos) (hM : Tiling G M) (hB : Balanced G M) {D : Domain d} (hD : Domain.Ok D)
    (absorbing : Fin d → Bool) (f : Fld d F) (eps B : F) (n : ℕ) {st st' : CG d F} (hi : Inv absorbing D G M b f st)
    (h : CG.loop absorbing D G M b eps B n st = some st') :
    Inv absorbing D G M b f st' ∧ continues eps (dot M b st'.r st'.r) B = false := by
  induction n generalizing st with
  | zero => cases h
  | succ n ih =>
    unfold CG.loop at h
    split at h
    · obtain ⟨s1, h1, h2⟩ := Option.bind_eq_some_iff.1 h
      exact ih (step_inv hG hM hB hD absorbing f hi h1).1 h2
    · rename_i hc
      rw [← Option.some.inj h]
      exact ⟨hi, by simpa [dot] using hc⟩

/-- C49 (accuracy): if the solver ends, its potential solves the discrete Poisson equation up to the requested
accuracy: the norm of the true residual is at most `eps` times that of the right-hand side. -/
theorem C49_accuracy (hG : G.Pos) (hM : Tiling G M) (hB : Balanced G M) {D : Domain d} (hD : Domain.Ok D)
    (absorbing : Fin d → Bool) (f phi0 : Fld d F) (eps : F) (n : ℕ) {phi : Fld d F}
    (h : solve absorbing D G M b eps n f phi0 = some phi) :
    ∃ Aφ : Fld d F,
      (∀ o ∈ M, ∀ x : Fin d → ℕ, (∀ k, x k < b k) → matprod absorbing phi D G M b o x = some (Aφ o x)) ∧
      cellSum b M (fun o x => (f o x - Aφ o x) ^ 2) ≤ eps ^ 2 * cellSum b M (fun o x => f o x ^ 2) := by
  obtain ⟨s0, h1, h2, -⟩ := init_inv (b := b) hG hM hB hD absorbing f phi0
  unfold solve at h
  rw [h1, Option.bind_some] at h
  obtain ⟨st, h3, rfl⟩ := Option.map_eq_some_iff.1 h
  obtain ⟨h4, h5⟩ := loop_spec hG hM hB hD absorbing f eps _ n h2 h3
  refine ⟨op absorbing D G M b st.phi, fun o ho x hx => matprod_eq hG hM hB hD absorbing st.phi ho hx, ?_⟩
  have e1 : cellSum b M (fun o x => (f o x - op absorbing D G M b st.phi o x) ^ 2) = dot M b st.r st.r :=
    cellSum_congr fun o ho x hx => by rw [h4.res o ho x hx, sq]
  have e2 : cellSum b M (fun o x => f o x ^ 2) = cellSum b M fun o x => f o x * f o x :=
    cellSum_congr fun o _ x _ => sq _
  rw [e1, e2]
  have hB0 : 0 ≤ cellSum b M fun o x => f o x * f o x :=
    Finset.sum_nonneg fun o _ => Finset.sum_nonneg fun x _ => mul_self_nonneg _
  generalize (cellSum b M fun o x => f o x * f o x) = B at h5 hB0
  unfold continues at h5
  split at h5
  · rename_i hb
    rw [hb, mul_zero]
    simpa using h5
  · rename_i hb
    have hB1 : 0 < B := lt_of_le_of_ne hB0 (Ne.symm hb)
    have := not_lt.1 (of_decide_eq_false h5)
    rw [div_le_iff₀ hB1] at this
    rw [sq]
    exact this

/-- Energy of a potential, whose minimum solves the equation. -/
noncomputable def energy (absorbing : Fin d → Bool) (D : Domain d) (G : Grid d) (M : Finset (Oct d)) (b : Fin d → ℕ)
    (f φ : Fld d F) : F :=
  form absorbing D G M b φ φ / 2 - cellSum b M fun o x => f o x * φ o x

/-- C49 (descent): each iteration that changes the potential lowers its energy, so no potential comes back. -/
theorem C49_descent (hG : G.Pos) (hM : Tiling G M) (hB : Balanced G M) {D : Domain d} (hD : Domain.Ok D)
    (hb : ∀ k, 0 < b k) (absorbing : Fin d → Bool) (f phi0 : Fld d F) (n : ℕ) {st st' : CG d F}
    (h : (fun s : Option (CG d F) => s.bind (CG.step absorbing D G M b))^[n] (CG.init absorbing D G M b f phi0) = some st)
    (h' : CG.step absorbing D G M b st = some st') :
    energy absorbing D G M b f st'.phi < energy absorbing D G M b f st.phi := by
  have key : Inv absorbing D G M b f st := by
    induction n generalizing st st' with
    | zero =>
      obtain ⟨s0, h1, h2, -⟩ := init_inv (b := b) hG hM hB hD absorbing f phi0
      rw [Function.iterate_zero, id, h1] at h
      rwa [← Option.some.inj h]
    | succ n ih =>
      rw [Function.iterate_succ_apply'] at h
      obtain ⟨s1, h1, h2⟩ := Option.bind_eq_some_iff.1 h
      exact (step_inv hG hM hB hD absorbing f (ih h1 h2) h2).1
  obtain ⟨-, pAp, e0, e1, e2, e3⟩ := step_inv hG hM hB hD absorbing f key h'
  have hpos : 0 < pAp := by
    refine lt_of_le_of_ne ?_ (Ne.symm e1)
    rw [e0]
    unfold dot
    rw [sum_op hG hM hb]
    exact form_nonneg hG hD hb absorbing st.p
  have hexp : energy absorbing D G M b f st'.phi = energy absorbing D G M b f st.phi - st.rz ^ 2 / (2 * pAp) := by
    set a := st.rz / pAp with ha
    have q1 : form absorbing D G M b st'.phi st'.phi =
        form absorbing D G M b st.phi st.phi + 2 * a * dot M b st.p (op absorbing D G M b st.phi) + a ^ 2 * pAp := by
      rw [← sum_op hG hM hb, ← sum_op hG hM hb, e3]
      have : (cellSum b M fun o x => (st.phi o x + a * st.p o x) *
          op absorbing D G M b (fun o x => st.phi o x + a * st.p o x) o x) =
          dot M b st.phi (op absorbing D G M b st.phi) + a * dot M b st.phi (op absorbing D G M b st.p) +
            (a * dot M b st.p (op absorbing D G M b st.phi) + a ^ 2 * dot M b st.p (op absorbing D G M b st.p)) := by
        unfold dot
        rw [← cellSum_mul, ← cellSum_mul, ← cellSum_mul, ← cellSum_add, ← cellSum_add, ← cellSum_add]
        refine cellSum_congr fun o _ x _ => ?_
        rw [op_linear]
        ring
      rw [this, dot_op_symm hG hM hb D absorbing st.p st.phi, ← e0]
      unfold dot
      ring
    have q2 : (cellSum b M fun o x => f o x * st'.phi o x) =
        (cellSum b M fun o x => f o x * st.phi o x) + a * dot M b f st.p := by
      rw [e3]
      exact dot_add_mul f st.phi st.p a
    have q3 : dot M b f st.p - dot M b st.p (op absorbing D G M b st.phi) = st.rz := by
      rw [← key.rp]
      unfold dot
      rw [← cellSum_sub]
      refine cellSum_congr fun o ho x hx => ?_
      rw [key.res o ho x hx]
      ring
    unfold energy
    rw [q1, q2]
    have q4 : dot M b f st.p = st.rz + dot M b st.p (op absorbing D G M b st.phi) := by rw [← q3]; ring
    rw [q4, ha]
    field_simp
    ring
  rw [hexp]
  have : 0 < st.rz ^ 2 / (2 * pAp) := by positivity
  linarith

end Verif.Gravity
