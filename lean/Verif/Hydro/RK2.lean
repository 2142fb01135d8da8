import Verif.Hydro.Euler
import Verif.Hydro.State
import Verif.Flux.Face

/-!
# C62: the two-stage update of `HydroUpdate_RK2`

Model of `core/src/hydro/HydroUpdate_RK2.cpp` L136-265 for `HydroState`, on top of the model of `euler_update`
(`Verif.Hydro.Euler`, without the well-balanced option). Arithmetic is exact, the ghost cells of the
intermediate array (L163) are those of its owners (C19), and in 2D, where the third momentum is neither read
nor written, it is 0.
-/

namespace Verif.Hydro.RK2

open Verif.Octree Verif.Cells Verif.Flux Verif.Hydro

variable {d : ℕ} {K ι : Type} [Field K] [LinearOrder K]

/-! ### Model -/

/-- The arrays of the conserved variables. -/
abbrev State (d : ℕ) (K : Type) : Type := Oct d → (Fin d → ℕ) → Cons K

/-- The five conserved variables. -/
def part (n : Fin 5) (u : Cons K) : K := ![u.rho, u.e, u.ru, u.rv, u.rw] n

/-- What an update is configured with: the scheme of each variable (conversion, floor and Riemann solver are
common to them, but this is not needed), the values beyond the boundary as a function of the arrays, the mean of
smaller cells, the acceleration if there is gravity, and L244 the constants of the repair. -/
structure Setup (d : ℕ) (K ι : Type) where
  scheme : Fin 5 → Euler.Scheme d K ι (Cons K)
  bval : State d K → CellIndex d → Cons K
  avg : List (Cons K) → Cons K
  gravity : Option (Oct d → (Fin d → ℕ) → Fin 3 → K)
  gamma : K
  smallr : K
  smallp : K

/-- The arrays and boundary conditions as the patches see them (L213-220). -/
def Setup.source (P : Setup d K ι) (U : State d K) : Source d (Cons K) := ⟨U, P.bval U, P.avg⟩

/-- L229-236, the calls of `euler_update` in all directions for one cell. -/
def eulerCell (P : Setup d K ι) (D : Domain d) (G : Grid d) (M : Finset (Oct d)) (b : Fin d → ℕ) (dt : K) (U : State d K)
    (o : Oct d) (x : Fin d → ℕ) : Option (Cons K) :=
  let u := getCons d (U o x)
  (Euler.updateCell (P.scheme 0) (P.source U) D G M b dt u.rho o x).bind fun rho =>
  (Euler.updateCell (P.scheme 1) (P.source U) D G M b dt u.e o x).bind fun e =>
  (Euler.updateCell (P.scheme 2) (P.source U) D G M b dt u.ru o x).bind fun ru =>
  (Euler.updateCell (P.scheme 3) (P.source U) D G M b dt u.rv o x).bind fun rv =>
  (Euler.updateCell (P.scheme 4) (P.source U) D G M b dt u.rw o x).map fun rw =>
    ⟨rho, e, ru, rv, if d = 3 then rw else 0⟩

/-- L238-240, the gravity correction; L28-77 is the code of C48. -/
def accelerate (P : Setup d K ι) (dt : K) (U : State d K) (o : Oct d) (x : Fin d → ℕ) (u : Cons K) : Cons K :=
  match P.gravity with
  | some g => gravityCorrection d dt (U o x).rho (g o x) u
  | none => u

/-- `rk_update` L172-246: every cell of the output, or nothing if a cell is not defined. -/
def stage (P : Setup d K ι) (D : Domain d) (G : Grid d) (M : Finset (Oct d)) (b : Fin d → ℕ) (dt : K) (U : State d K) :
    Option (State d K) :=
  if ∀ o ∈ M, ∀ x ∈ Fintype.piFinset fun k => Finset.range (b k), (eulerCell P D G M b dt U o x).isSome then
    some fun o x => match eulerCell P D G M b dt U o x with
      | some u => cleanNegative d P.gamma P.smallr P.smallp (accelerate P dt U o x u)
      | none => U o x
  else none

/-- `rk_correct` L248-265 for one cell; `State_Ops.h` for the operators. -/
def correct (uin uout : Cons K) : Cons K :=
  ⟨1 / 2 * (uin.rho + uout.rho), 1 / 2 * (uin.e + uout.e), 1 / 2 * (uin.ru + uout.ru), 1 / 2 * (uin.rv + uout.rv),
    1 / 2 * (uin.rw + uout.rw)⟩

/-- `update_aux` L136-168. -/
def update (P : Setup d K ι) (D : Domain d) (G : Grid d) (M : Finset (Oct d)) (b : Fin d → ℕ) (dt : K) (U : State d K) :
    Option (State d K) :=
  (stage P D G M b dt U).bind fun Ustar => (stage P D G M b dt Ustar).map fun Uout =>
    fun o x => correct (getCons d (U o x)) (getCons d (Uout o x))

/-! ### Specification -/

/-- A cell has a positive density and no negative pressure. -/
def Valid (d : ℕ) (gamma : K) (u : Cons K) : Prop := 0 < u.rho ∧ 0 ≤ pressure d gamma u

/-- The total of a conserved variable over the mesh. -/
def total (D : Domain d) (G : Grid d) (M : Finset (Oct d)) (b : Fin d → ℕ) (n : Fin 5) (U : State d K) : K :=
  cellSum b M fun o x => (volume D (cellGrid G b) (cellOct b o x) : K) * part n (getCons d (U o x))

/-- The single steps leave valid states, so that nothing has to be repaired. -/
def Sound (P : Setup d K ι) (D : Domain d) (G : Grid d) (M : Finset (Oct d)) (b : Fin d → ℕ) (dt : K) (U : State d K) : Prop :=
  ∀ o ∈ M, ∀ x : Fin d → ℕ, (∀ k, x k < b k) → ∀ u, eulerCell P D G M b dt U o x = some u → Valid d P.gamma u

/-- What leaves the domain per unit of time in state `U`. -/
noncomputable def loss (P : Setup d K ι) (D : Domain d) (G : Grid d) (M : Finset (Oct d)) (b : Fin d → ℕ) (n : Fin 5)
    (U : State d K) : K :=
  outflow D G M b (Euler.boundaryFlux (P.scheme n) (P.source U) G M b)

/-! ### Proofs -/

variable [IsStrictOrderedRing K] {G : Grid d} {M : Finset (Oct d)} {b : Fin d → ℕ}

theorem euler_balance (hG : G.Pos) (hM : Tiling G M) (hB : Balanced G M) (hd : d = 2 ∨ d = 3) {D : Domain d}
    (hD : Domain.Ok D) (hb : ∀ k, 4 ≤ b k ∧ 2 ∣ b k) (P : Setup d K ι) (hP : ∀ n, (P.scheme n).shift = none) (dt : K)
    (U : State d K) :
    ∃ E : State d K, (∀ o ∈ M, ∀ x : Fin d → ℕ, (∀ k, x k < b k) → eulerCell P D G M b dt U o x = some (E o x)) ∧
      (∀ o x, getCons d (E o x) = E o x) ∧
      ∀ n, (n = 4 → d = 3) → total D G M b n E = total D G M b n U - dt * loss P D G M b n U := by
  have key := fun n => Euler.C45_euler_balance_partial hG hM hB hd hD hb (P.scheme n) (hP n) (P.source U) dt
    fun o x => part n (getCons d (U o x))
  choose V hV hT using key
  refine ⟨fun o x => ⟨V 0 o x, V 1 o x, V 2 o x, V 3 o x, if d = 3 then V 4 o x else 0⟩, ?_, ?_, ?_⟩
  · intro o ho x hx
    have h := fun n => hV n o ho x hx
    unfold eulerCell
    have h0 := h 0
    have h1 := h 1
    have h2 := h 2
    have h3 := h 3
    have h4 := h 4
    simp only [part, Matrix.cons_val_zero, Matrix.cons_val_one, Matrix.cons_val] at h0 h1 h2 h3 h4
    dsimp only
    rw [h0, h1, h2, h3, h4]
    rfl
  · intro o x
    unfold getCons
    split <;> rfl
  · intro n hn
    unfold total loss
    rw [← hT n]
    refine cellSum_congr fun o ho x hx => ?_
    congr 1
    fin_cases n
    · rfl
    · rfl
    · rfl
    · rfl
    · have h3 := hn rfl
      subst h3
      rfl

omit [IsStrictOrderedRing K] in
theorem stage_eq {P : Setup d K ι} {D : Domain d} {dt : K} {U E : State d K}
    (h : ∀ o ∈ M, ∀ x : Fin d → ℕ, (∀ k, x k < b k) → eulerCell P D G M b dt U o x = some (E o x)) :
    ∃ V, stage P D G M b dt U = some V ∧ ∀ o ∈ M, ∀ x : Fin d → ℕ, (∀ k, x k < b k) →
      V o x = cleanNegative d P.gamma P.smallr P.smallp (accelerate P dt U o x (E o x)) := by
  unfold stage
  rw [if_pos]
  · refine ⟨_, rfl, fun o ho x hx => ?_⟩
    rw [h o ho x hx]
  · intro o ho x hx
    rw [h o ho x fun k => Finset.mem_range.1 (Fintype.mem_piFinset.1 hx k)]
    rfl

omit [IsStrictOrderedRing K] in
theorem update_eq {P : Setup d K ι} {D : Domain d} {dt : K} {U Us U2 : State d K} (h1 : stage P D G M b dt U = some Us)
    (h2 : stage P D G M b dt Us = some U2) :
    update P D G M b dt U = some fun o x => correct (getCons d (U o x)) (getCons d (U2 o x)) := by
  unfold update
  rw [h1, Option.bind_some, h2]
  rfl

omit [LinearOrder K] [IsStrictOrderedRing K] in
theorem part_getCons {n : Fin 5} (hn : n = 4 → d = 3) (u : Cons K) : part n (getCons d u) = part n u := by
  fin_cases n
  · rfl
  · rfl
  · rfl
  · rfl
  · have h := hn rfl
    subst h
    rfl

omit [LinearOrder K] [IsStrictOrderedRing K] in
theorem part_correct (n : Fin 5) (u v : Cons K) : part n (correct u v) = 1 / 2 * (part n u + part n v) := by
  fin_cases n <;> rfl

omit [LinearOrder K] [IsStrictOrderedRing K] in
theorem getCons_correct (u v : Cons K) :
    getCons d (correct (getCons d u) (getCons d v)) = correct (getCons d u) (getCons d v) := by
  unfold getCons correct
  split
  · rfl
  · simp

omit [LinearOrder K] [IsStrictOrderedRing K] in
/-- The total after the correction is the mean of the totals. -/
theorem total_correct (D : Domain d) (n : Fin 5) (U U2 : State d K) :
    total D G M b n (fun o x => correct (getCons d (U o x)) (getCons d (U2 o x))) =
      1 / 2 * (total D G M b n U + total D G M b n U2) := by
  unfold total
  rw [← cellSum_add, ← cellSum_mul]
  refine cellSum_congr fun o _ x _ => ?_
  rw [getCons_correct, part_correct]
  ring

omit [LinearOrder K] [IsStrictOrderedRing K] in
theorem total_congr (D : Domain d) (n : Fin 5) {U V : State d K}
    (h : ∀ o ∈ M, ∀ x : Fin d → ℕ, (∀ k, x k < b k) → U o x = V o x) : total D G M b n U = total D G M b n V :=
  cellSum_congr fun o ho x hx => by rw [h o ho x hx]

/-- A valid state is still valid after the gravity correction, so it is not repaired. -/
theorem accelerate_valid (hd : d = 2 ∨ d = 3) (P : Setup d K ι) (dt : K) (U : State d K) (o : Oct d) (x : Fin d → ℕ)
    {u : Cons K} (hu : Valid d P.gamma u) : Valid d P.gamma (accelerate P dt U o x u) := by
  unfold accelerate
  split
  · rename_i g _
    obtain ⟨h1, -, -, -, -, h6⟩ := C48_gravity_correction d hd dt (U o x).rho P.gamma (g o x) u hu.1.ne'
    exact ⟨by rw [h1]; exact hu.1, by rw [h6]; exact hu.2⟩
  · exact hu

/-- One stage, when nothing has to be repaired. -/
theorem stage_sound (hG : G.Pos) (hM : Tiling G M) (hB : Balanced G M) (hd : d = 2 ∨ d = 3) {D : Domain d}
    (hD : Domain.Ok D) (hb : ∀ k, 4 ≤ b k ∧ 2 ∣ b k) (P : Setup d K ι) (hP : ∀ n, (P.scheme n).shift = none) (dt : K)
    (U : State d K) (hU : Sound P D G M b dt U) :
    ∃ E V : State d K, stage P D G M b dt U = some V ∧
      (∀ o ∈ M, ∀ x : Fin d → ℕ, (∀ k, x k < b k) → V o x = accelerate P dt U o x (E o x)) ∧
      ∀ n, (n = 4 → d = 3) → total D G M b n E = total D G M b n U - dt * loss P D G M b n U := by
  obtain ⟨E, hE, -, hT⟩ := euler_balance hG hM hB hd hD hb P hP dt U
  obtain ⟨V, hV, hV'⟩ := stage_eq hE
  refine ⟨E, V, hV, fun o ho x hx => ?_, hT⟩
  have hv := accelerate_valid hd P dt U o x (hU o ho x hx _ (hE o ho x hx))
  rw [hV' o ho x hx]
  exact C51_valid_unchanged d hd P.gamma P.smallr P.smallp _ hv.1 hv.2

/-- Kinetic energy is convex. -/
theorem kinetic_convex {u v : Cons K} (hu : 0 < u.rho) (hv : 0 < v.rho) :
    kinetic d (correct u v) ≤ 1 / 2 * (kinetic d u + kinetic d v) := by
  have key : ∀ a c : K, (1 / 2 * (a + c)) ^ 2 / (2 * (1 / 2 * (u.rho + v.rho))) ≤
      1 / 2 * (a ^ 2 / (2 * u.rho) + c ^ 2 / (2 * v.rho)) := by
    intro a c
    have hs : 0 < u.rho + v.rho := add_pos hu hv
    rw [div_add_div _ _ (by positivity) (by positivity), mul_div_assoc', div_le_div_iff₀ (by positivity) (by positivity)]
    have h0 : 0 ≤ (a * v.rho - c * u.rho) ^ 2 := sq_nonneg _
    have h1 : 0 < u.rho * v.rho := mul_pos hu hv
    nlinarith
  unfold kinetic correct
  have h1 := key u.ru v.ru
  have h2 := key u.rv v.rv
  have h3 := key u.rw v.rw
  simp only [add_div] at *
  split
  · linarith
  · simp only [zero_div, add_zero]
    linarith

omit [LinearOrder K] [IsStrictOrderedRing K] in
theorem pressure_getCons (gamma : K) (u : Cons K) : pressure d gamma (getCons d u) = pressure d gamma u := by
  unfold pressure kinetic getCons
  split <;> rfl

/-- The valid states are convex. -/
theorem valid_correct {gamma : K} (hg : 1 < gamma) {u v : Cons K} (hu : Valid d gamma u) (hv : Valid d gamma v) :
    Valid d gamma (correct u v) := by
  have hk := kinetic_convex (d := d) hu.1 hv.1
  have h0 : 0 < gamma - 1 := sub_pos.2 hg
  have h1 := hu.2
  have h2 := hv.2
  unfold pressure at h1 h2
  have h1' := nonneg_of_mul_nonneg_right h1 h0
  have h2' := nonneg_of_mul_nonneg_right h2 h0
  refine ⟨?_, mul_nonneg h0.le ?_⟩
  · have : 0 < u.rho + v.rho := add_pos hu.1 hv.1
    change 0 < 1 / 2 * (u.rho + v.rho)
    linarith
  · change 0 ≤ 1 / 2 * (u.e + v.e) - _
    linarith

/-! ### Theorems -/

/-- **C62** The update is defined in every case (blocks of even size, at least 4, without the well-balanced option). -/
theorem C62_defined (hG : G.Pos) (hM : Tiling G M) (hB : Balanced G M) (hd : d = 2 ∨ d = 3) {D : Domain d}
    (hD : Domain.Ok D) (hb : ∀ k, 4 ≤ b k ∧ 2 ∣ b k) (P : Setup d K ι) (hP : ∀ n, (P.scheme n).shift = none) (dt : K)
    (U : State d K) : ∃ U', update P D G M b dt U = some U' := by
  obtain ⟨E, hE, -, -⟩ := euler_balance hG hM hB hd hD hb P hP dt U
  obtain ⟨V, hV, -⟩ := stage_eq hE
  obtain ⟨E', hE', -, -⟩ := euler_balance hG hM hB hd hD hb P hP dt V
  obtain ⟨V', hV', -⟩ := stage_eq hE'
  exact ⟨_, update_eq hV hV'⟩

/-- **C62** The update is the explicit trapezoidal rule (Heun's method): the new value is the old one plus the time
step times the mean of the rate of change at the old state and at the state after one Euler step. -/
theorem C62_heun {P : Setup d K ι} {D : Domain d} {dt : K} (hdt : dt ≠ 0) {U U' : State d K}
    (h : update P D G M b dt U = some U') :
    ∃ Us U2 : State d K, stage P D G M b dt U = some Us ∧ stage P D G M b dt Us = some U2 ∧
      ∀ o x n, (n = 4 → d = 3) → part n (U' o x) = part n (U o x) +
        dt * (((part n (Us o x) - part n (U o x)) / dt + (part n (U2 o x) - part n (Us o x)) / dt) / 2) := by
  unfold update at h
  obtain ⟨Us, h1, h⟩ := Option.bind_eq_some_iff.1 h
  obtain ⟨U2, h2, rfl⟩ := Option.map_eq_some_iff.1 h
  refine ⟨Us, U2, h1, h2, fun o x n hn => ?_⟩
  rw [part_correct, part_getCons hn, part_getCons hn]
  field_simp
  ring

/-- **C62** Balance: if nothing has to be repaired, the total of each variable changes by the mean of what leaves
the domain in both stages. -/
theorem C62_balance (hG : G.Pos) (hM : Tiling G M) (hB : Balanced G M) (hd : d = 2 ∨ d = 3) {D : Domain d}
    (hD : Domain.Ok D) (hb : ∀ k, 4 ≤ b k ∧ 2 ∣ b k) (P : Setup d K ι) (hP : ∀ n, (P.scheme n).shift = none)
    (hg : P.gravity = none) (dt : K) (U : State d K) (hU : Sound P D G M b dt U)
    (hS : ∀ Us, stage P D G M b dt U = some Us → Sound P D G M b dt Us) :
    ∃ Us U', stage P D G M b dt U = some Us ∧ update P D G M b dt U = some U' ∧ ∀ n, (n = 4 → d = 3) →
      total D G M b n U' = total D G M b n U - dt * ((loss P D G M b n U + loss P D G M b n Us) / 2) := by
  obtain ⟨E, Us, h1, h2, h3⟩ := stage_sound hG hM hB hd hD hb P hP dt U hU
  obtain ⟨E', U2, h1', h2', h3'⟩ := stage_sound hG hM hB hd hD hb P hP dt Us (hS Us h1)
  have ha : ∀ V o x u, accelerate P dt V o x u = u := by
    intro V o x u
    unfold accelerate
    rw [hg]
  simp only [ha] at h2 h2'
  refine ⟨Us, _, h1, update_eq h1 h1', fun n hn => ?_⟩
  rw [total_correct, total_congr D n h2', h3' n hn, total_congr D n h2, h3 n hn]
  ring

/-- **C62** Conservation: on a periodic domain the totals do not change. -/
theorem C62_conservation (hG : G.Pos) (hM : Tiling G M) (hB : Balanced G M) (hd : d = 2 ∨ d = 3)
    (hper : ∀ k, G.periodic k = true) {D : Domain d} (hD : Domain.Ok D) (hb : ∀ k, 4 ≤ b k ∧ 2 ∣ b k) (P : Setup d K ι)
    (hP : ∀ n, (P.scheme n).shift = none) (hg : P.gravity = none) (dt : K) (U : State d K) (hU : Sound P D G M b dt U)
    (hS : ∀ Us, stage P D G M b dt U = some Us → Sound P D G M b dt Us) :
    ∃ U', update P D G M b dt U = some U' ∧ ∀ n, (n = 4 → d = 3) → total D G M b n U' = total D G M b n U := by
  obtain ⟨Us, U', -, h2, h3⟩ := C62_balance hG hM hB hd hD hb P hP hg dt U hU hS
  refine ⟨U', h2, fun n hn => ?_⟩
  rw [h3 n hn]
  unfold loss
  rw [outflow_periodic hper, outflow_periodic hper]
  ring

/-- **C62** Constant gravity on a periodic domain: the mass does not change and the momentum grows by mass times
acceleration times time step, although the correction is applied in both stages. -/
theorem C62_gravity (hG : G.Pos) (hM : Tiling G M) (hB : Balanced G M) (hd : d = 2 ∨ d = 3)
    (hper : ∀ k, G.periodic k = true) {D : Domain d} (hD : Domain.Ok D) (hb : ∀ k, 4 ≤ b k ∧ 2 ∣ b k) (P : Setup d K ι)
    (hP : ∀ n, (P.scheme n).shift = none) (g : Fin 3 → K) (hg : P.gravity = some fun _ _ => g) (dt : K) (U : State d K)
    (hU : Sound P D G M b dt U) (hS : ∀ Us, stage P D G M b dt U = some Us → Sound P D G M b dt Us) :
    ∃ U', update P D G M b dt U = some U' ∧ total D G M b 0 U' = total D G M b 0 U ∧
      total D G M b 2 U' = total D G M b 2 U + dt * g 0 * total D G M b 0 U ∧
      total D G M b 3 U' = total D G M b 3 U + dt * g 1 * total D G M b 0 U ∧
      (d = 3 → total D G M b 4 U' = total D G M b 4 U + dt * g 2 * total D G M b 0 U) := by
  have hone : ∀ U : State d K, Sound P D G M b dt U → ∃ V, stage P D G M b dt U = some V ∧
      total D G M b 0 V = total D G M b 0 U ∧ total D G M b 2 V = total D G M b 2 U + dt * g 0 * total D G M b 0 U ∧
      total D G M b 3 V = total D G M b 3 U + dt * g 1 * total D G M b 0 U ∧
      (d = 3 → total D G M b 4 V = total D G M b 4 U + dt * g 2 * total D G M b 0 U) := by
    intro U hU
    obtain ⟨E, V, h1, h2, h3⟩ := stage_sound hG hM hB hd hD hb P hP dt U hU
    have h3' : ∀ n, (n = 4 → d = 3) → total D G M b n E = total D G M b n U := by
      intro n hn
      rw [h3 n hn]
      unfold loss
      rw [outflow_periodic hper]
      ring
    have ha : ∀ o x u, accelerate P dt U o x u = gravityCorrection d dt (U o x).rho g u := by
      intro o x u
      unfold accelerate
      rw [hg]
    have hrho : total D G M b 0 V = total D G M b 0 U := by
      rw [← h3' 0 (fun h => absurd h (by decide))]
      refine cellSum_congr fun o ho x hx => ?_
      rw [h2 o ho x hx, ha]
      rfl
    have hmom : ∀ (n : Fin 5) (i : Fin 3), (n = 4 → d = 3) → (∀ o x, part n (gravityCorrection d dt (U o x).rho g (E o x)) =
        part n (E o x) + 1 / 2 * dt * g i * ((U o x).rho + (E o x).rho)) →
        total D G M b n V = total D G M b n U + dt * g i * total D G M b 0 U := by
      intro n i hn hpart
      have e : total D G M b n V = total D G M b n E +
          1 / 2 * dt * g i * (total D G M b 0 U + total D G M b 0 E) := by
        unfold total
        rw [← cellSum_add, ← cellSum_mul, ← cellSum_add]
        refine cellSum_congr fun o ho x hx => ?_
        rw [h2 o ho x hx, ha, part_getCons hn, part_getCons hn, hpart o x]
        have r : ∀ u : Cons K, part 0 (getCons d u) = u.rho := fun u => rfl
        rw [r, r]
        ring
      rw [e, h3' n hn, h3' 0 (fun h => absurd h (by decide))]
      ring
    refine ⟨V, h1, hrho, hmom 2 0 (fun h => absurd h (by decide)) fun o x => rfl, hmom 3 1 (fun h => absurd h (by decide)) fun o x => rfl, fun h => ?_⟩
    refine hmom 4 2 (fun _ => h) fun o x => ?_
    subst h
    rfl
  obtain ⟨Us, h1, a0, a2, a3, a4⟩ := hone U hU
  obtain ⟨U2, h2, c0, c2, c3, c4⟩ := hone Us (hS Us h1)
  refine ⟨_, update_eq h1 h2, ?_, ?_, ?_, fun h => ?_⟩
  · rw [total_correct, c0, a0]; ring
  · rw [total_correct, c2, a2, a0]; ring
  · rw [total_correct, c3, a3, a0]; ring
  · rw [total_correct, c4 h, a4 h, a0]; ring

/-- **C62** Valid states stay valid: whatever the fluxes and the time step are, density and pressure after the
update are not negative. The repair is only done in the stages; the mean at the end needs none, because the
valid states are convex. (Densities of exactly 0 have no pressure and are excluded.) -/
theorem C62_valid (hG : G.Pos) (hM : Tiling G M) (hB : Balanced G M) (hd : d = 2 ∨ d = 3) {D : Domain d}
    (hD : Domain.Ok D) (hb : ∀ k, 4 ≤ b k ∧ 2 ∣ b k) (P : Setup d K ι) (hP : ∀ n, (P.scheme n).shift = none)
    (hgam : 1 < P.gamma) (hr : 0 < P.smallr) (hp : 0 < P.smallp) (dt : K) (U : State d K)
    (hU : ∀ o ∈ M, ∀ x : Fin d → ℕ, (∀ k, x k < b k) → Valid d P.gamma (U o x))
    (hS : ∀ Us, stage P D G M b dt U = some Us → ∀ o ∈ M, ∀ x : Fin d → ℕ, (∀ k, x k < b k) → ∀ u,
      eulerCell P D G M b dt Us o x = some u → u.rho ≠ 0) :
    ∃ U', update P D G M b dt U = some U' ∧
      ∀ o ∈ M, ∀ x : Fin d → ℕ, (∀ k, x k < b k) → Valid d P.gamma (U' o x) := by
  obtain ⟨E, hE, -, -⟩ := euler_balance hG hM hB hd hD hb P hP dt U
  obtain ⟨V, hV, -⟩ := stage_eq hE
  obtain ⟨E', hE', -, -⟩ := euler_balance hG hM hB hd hD hb P hP dt V
  obtain ⟨V', hV', hv⟩ := stage_eq hE'
  refine ⟨_, update_eq hV hV', fun o ho x hx => ?_⟩
  have hget : ∀ u : Cons K, Valid d P.gamma u → Valid d P.gamma (getCons d u) := fun u hu =>
    ⟨hu.1, by rw [pressure_getCons]; exact hu.2⟩
  refine valid_correct hgam (hget _ (hU o ho x hx)) (hget _ ?_)
  rw [hv o ho x hx]
  refine C51_repaired d hd hgam.ne' hr hp _ ?_
  have hne := hS V hV o ho x hx _ (hE' o ho x hx)
  have hrho : ∀ u, (accelerate P dt V o x u).rho = u.rho := by
    intro u
    unfold accelerate
    split <;> rfl
  rw [hrho]
  exact hne

/-! ### The hypotheses are met -/

/-- Bounded fluxes change a cell by a bounded amount. -/
theorem euler_close (hG : G.Pos) (hM : Tiling G M) (hB : Balanced G M) (hd : d = 2 ∨ d = 3) {D : Domain d}
    (hD : Domain.Ok D) (hb : ∀ k, 4 ≤ b k ∧ 2 ∣ b k) {V : Type} (E : Euler.Scheme d K ι V) (hE : E.shift = none)
    (I : Source d V) {o : Oct d} (ho : o ∈ M) {x : Fin d → ℕ} (hx : ∀ k, x k < b k) (dt u : K) {m : K}
    (hm : ∀ j q q', |E.flux j q q'| ≤ m) {a : K} (ha : Euler.updateCell E I D G M b dt u o x = some a) :
    |a - u| ≤ |dt| * ∑ j, 2 * m / (cellSize D (cellGrid G b) (cellOct b o x) j : K) := by
  obtain ⟨a', h1, h2⟩ := Euler.updateCell_eq hG hM hB hd hD hb E hE I ho hx dt u
  obtain rfl : a' = a := Option.some.inj (h1.symm.trans ha)
  have hb0 : ∀ k, 0 < b k := fun k => by have := (hb k).1; omega
  have hG' := cellGrid_pos hG hb0
  have hv : (0 : K) < (volume D (cellGrid G b) (cellOct b o x) : K) := by exact_mod_cast volume_pos hG' hD (cellOct b o x)
  have hs : ∀ (j : Fin d) {s : ℤ}, s = 1 ∨ s = -1 →
      |sideSum D G M b (Euler.pairFlux E I G M b) (Euler.boundaryFlux E I G M b) j s o x| ≤
        (faceArea D (cellGrid G b) j (cellOct b o x) : K) * m := by
    intro j s hs
    refine sideSum_bound hG hM hB hD ho hx j hs (fun c q => hm _ _ _) ?_
    unfold Euler.boundaryFlux Euler.orient
    split
    · exact hm _ _ _
    · exact hm _ _ _
  have hsum : |∑ j, (sideSum D G M b (Euler.pairFlux E I G M b) (Euler.boundaryFlux E I G M b) j 1 o x -
      sideSum D G M b (Euler.pairFlux E I G M b) (Euler.boundaryFlux E I G M b) j (-1) o x)| ≤
      (volume D (cellGrid G b) (cellOct b o x) : K) *
        ∑ j, 2 * m / (cellSize D (cellGrid G b) (cellOct b o x) j : K) := by
    rw [Finset.mul_sum]
    refine (Finset.abs_sum_le_sum_abs _ _).trans (Finset.sum_le_sum fun j _ => ?_)
    have e : (volume D (cellGrid G b) (cellOct b o x) : K) * (2 * m / (cellSize D (cellGrid G b) (cellOct b o x) j : K)) =
        (faceArea D (cellGrid G b) j (cellOct b o x) : K) * m + (faceArea D (cellGrid G b) j (cellOct b o x) : K) * m := by
      have hc : (0 : K) < (cellSize D (cellGrid G b) (cellOct b o x) j : K) := by
        exact_mod_cast cellSize_pos hG' hD (cellOct b o x) j
      rw [← faceArea_mul (G := cellGrid G b) D (cellOct b o x) j]
      push_cast
      field_simp
      ring
    rw [e]
    exact (abs_sub _ _).trans (add_le_add (hs j (Or.inl rfl)) (hs j (Or.inr rfl)))
  have h3 : (volume D (cellGrid G b) (cellOct b o x) : K) * (a' - u) =
      -(dt * ∑ j, (sideSum D G M b (Euler.pairFlux E I G M b) (Euler.boundaryFlux E I G M b) j 1 o x -
        sideSum D G M b (Euler.pairFlux E I G M b) (Euler.boundaryFlux E I G M b) j (-1) o x)) := by
    rw [mul_sub, h2]; ring
  have h4 : (volume D (cellGrid G b) (cellOct b o x) : K) * |a' - u| ≤ (volume D (cellGrid G b) (cellOct b o x) : K) *
      (|dt| * ∑ j, 2 * m / (cellSize D (cellGrid G b) (cellOct b o x) j : K)) := by
    rw [← abs_of_pos hv, ← abs_mul, h3, abs_neg, abs_mul, abs_of_pos hv]
    refine (mul_le_mul_of_nonneg_left hsum (abs_nonneg dt)).trans (le_of_eq ?_)
    ring
  exact le_of_mul_le_mul_left h4 hv

/-- Upwind advection with limited fluxes, with gravity or without. -/
def exSetup (g : Option (Oct 2 → (Fin 2 → ℕ) → Fin 3 → ℚ)) : Setup 2 ℚ (Fin 5) :=
  { scheme := fun n => ⟨fun u i => part i u, fun q => q, fun _ l _ => max (-1) (min 1 (l 2 * l n)), none⟩
    bval := fun _ _ => ⟨1, 1, 0, 0, 0⟩
    avg := fun l => (l.head?).getD ⟨1, 1, 0, 0, 0⟩
    gravity := g
    gamma := 5 / 3
    smallr := 1 / 100
    smallp := 1 / 100 }

def exState : State 2 ℚ := fun o x => ⟨if x 0 = 3 then 1 else 2, 10, if o.pos 0 = 1 then 1 else 1 / 2, -1 / 2, 0⟩

/-- Density, energy and momentum have a margin. -/
def Tame (r e m : ℚ) (U : State 2 ℚ) : Prop := ∀ o ∈ quad.toFinset, ∀ x : Fin 2 → ℕ, (∀ k, x k < ![4, 4] k) →
  r ≤ (U o x).rho ∧ (U o x).rho ≤ 3 - r ∧ e ≤ (U o x).e ∧ |(U o x).ru| ≤ m ∧ |(U o x).rv| ≤ m

theorem exSize {o : Oct 2} (ho : o ∈ quad.toFinset) (x : Fin 2 → ℕ) :
    ∑ j, 2 * (1 : ℚ) / ((cellSize torusDomain (cellGrid torus ![4, 4]) (cellOct ![4, 4] o x) j : ℚ) : ℚ) ≤ 24 := by
  have hl : o.level = 1 ∨ o.level = 2 := by
    have : ∀ o ∈ quad.toFinset, o.level = 1 ∨ o.level = 2 := by decide
    exact this o ho
  rw [Fin.sum_univ_two, cellSize_eq, cellSize_eq]
  have hlev : (cellOct ![4, 4] o x).level = o.level := rfl
  rw [hlev]
  rcases hl with h | h <;> rw [h] <;> simp [torusDomain, Grid.count, cellGrid, torus] <;> norm_num

theorem exEuler (g : Option (Oct 2 → (Fin 2 → ℕ) → Fin 3 → ℚ)) {r e m : ℚ} {U : State 2 ℚ} (hU : Tame r e m U) {o : Oct 2}
    (ho : o ∈ quad.toFinset) {x : Fin 2 → ℕ} (hx : ∀ k, x k < ![4, 4] k) {u : Cons ℚ}
    (hu : eulerCell (exSetup g) torusDomain torus quad.toFinset ![4, 4] (1 / 300) U o x = some u) :
    r - 2 / 25 ≤ u.rho ∧ u.rho ≤ 3 - r + 2 / 25 ∧ e - 2 / 25 ≤ u.e ∧ |u.ru| ≤ m + 2 / 25 ∧ |u.rv| ≤ m + 2 / 25 := by
  have hclose : ∀ (n : Fin 5) (v a : ℚ), Euler.updateCell ((exSetup g).scheme n) ((exSetup g).source U) torusDomain torus
      quad.toFinset ![4, 4] (1 / 300) v o x = some a → |a - v| ≤ 2 / 25 := by
    intro n v a ha
    have h := euler_close torus_pos torus_tiling torus_balanced (Or.inl rfl) torusDomain_ok (by decide)
      ((exSetup g).scheme n) rfl _ ho hx (1 / 300) v (m := 1) (fun j q q' => ?_) ha
    · have h24 := exSize ho x
      refine h.trans ?_
      rw [abs_of_pos (by norm_num)]
      simp only [Rat.cast_id] at h24 ⊢
      linarith
    · change |max (-1) (min 1 _)| ≤ (1 : ℚ)
      rw [abs_le]
      exact ⟨le_max_left _ _, max_le (by norm_num) (min_le_left _ _)⟩
  obtain ⟨t1, t2, t3, t4, t5⟩ := hU o ho x hx
  unfold eulerCell at hu
  dsimp only at hu
  obtain ⟨rho, h0, hu⟩ := Option.bind_eq_some_iff.1 hu
  obtain ⟨e', h1, hu⟩ := Option.bind_eq_some_iff.1 hu
  obtain ⟨ru, h2, hu⟩ := Option.bind_eq_some_iff.1 hu
  obtain ⟨rv, h3, hu⟩ := Option.bind_eq_some_iff.1 hu
  obtain ⟨rw', h4, rfl⟩ := Option.map_eq_some_iff.1 hu
  have c0 := abs_le.1 (hclose _ _ _ h0)
  have c1 := abs_le.1 (hclose _ _ _ h1)
  have c2 := abs_le.1 (hclose _ _ _ h2)
  have c3 := abs_le.1 (hclose _ _ _ h3)
  rw [abs_le] at t4 t5
  simp only [getCons] at c0 c1 c2 c3
  refine ⟨?_, ?_, ?_, abs_le.2 ⟨?_, ?_⟩, abs_le.2 ⟨?_, ?_⟩⟩ <;> simp only <;> linarith [c0.1, c0.2, c1.1, c1.2, c2.1, c2.2, c3.1, c3.2, t4.1, t4.2, t5.1, t5.2]

theorem exKinetic {u : Cons ℚ} (h1 : 4 / 5 ≤ u.rho) (h2 : |u.ru| ≤ 7 / 5) (h3 : |u.rv| ≤ 7 / 5) : kinetic 2 u ≤ 5 / 2 := by
  have a := sq_le_sq' (abs_le.1 h2).1 (abs_le.1 h2).2
  have c := sq_le_sq' (abs_le.1 h3).1 (abs_le.1 h3).2
  unfold kinetic
  rw [if_neg (by decide), div_le_iff₀ (by linarith)]
  nlinarith

theorem exSound (g : Option (Oct 2 → (Fin 2 → ℕ) → Fin 3 → ℚ)) {U : State 2 ℚ} (hU : Tame (9 / 10) 5 (6 / 5) U) :
    Sound (exSetup g) torusDomain torus quad.toFinset ![4, 4] (1 / 300) U := by
  intro o ho x hx u hu
  obtain ⟨h1, h2, h3, h4, h5⟩ := exEuler g hU ho hx hu
  have hk := exKinetic (u := u) (by linarith) (by linarith) (by linarith)
  refine ⟨by linarith, mul_nonneg ?_ (by linarith)⟩
  change (0 : ℚ) ≤ 5 / 3 - 1
  norm_num

theorem exTame : Tame 1 10 1 exState := by
  intro o ho x hx
  unfold exState
  refine ⟨?_, ?_, ?_, ?_, ?_⟩ <;> dsimp only
  · split <;> norm_num
  · split <;> norm_num
  · norm_num
  · split <;> norm_num
  · norm_num

theorem exStage (g : Option (Oct 2 → (Fin 2 → ℕ) → Fin 3 → ℚ)) (hg : g = none ∨ g = some fun _ _ => ![0, -1, 0])
    {Us : State 2 ℚ} (h : stage (exSetup g) torusDomain torus quad.toFinset ![4, 4] (1 / 300) exState = some Us) :
    Tame (9 / 10) 5 (6 / 5) Us := by
  have hw : Tame (9 / 10) 5 (6 / 5) exState := fun o ho x hx => by
    obtain ⟨t1, t2, t3, t4, t5⟩ := exTame o ho x hx
    exact ⟨by linarith, by linarith, by linarith, by linarith, by linarith⟩
  have hS := exSound g hw
  obtain ⟨E, hE, -, -⟩ := euler_balance torus_pos torus_tiling torus_balanced (Or.inl rfl) torusDomain_ok
    (b := ![4, 4]) (by decide) (exSetup g) (fun _ => rfl) (1 / 300) exState
  obtain ⟨V, hV, hV'⟩ := stage_eq hE
  obtain rfl : V = Us := Option.some.inj (hV.symm.trans h)
  intro o ho x hx
  obtain ⟨h1, h2, h3, h4, h5⟩ := exEuler g exTame ho hx (hE o ho x hx)
  obtain ⟨t1, t2, t3, t4, t5⟩ := exTame o ho x hx
  have hv := accelerate_valid (Or.inl rfl) (exSetup g) (1 / 300) exState o x (hS o ho x hx _ (hE o ho x hx))
  rw [hV' o ho x hx, C51_valid_unchanged 2 (Or.inl rfl) _ _ _ _ hv.1 hv.2]
  have hk := exKinetic (u := E o x) (by linarith) (by linarith) (by linarith)
  rcases hg with rfl | rfl
  · change _ ≤ (E o x).rho ∧ (E o x).rho ≤ _ ∧ _ ≤ (E o x).e ∧ |(E o x).ru| ≤ _ ∧ |(E o x).rv| ≤ _
    exact ⟨by linarith, by linarith, by linarith, by linarith, by linarith⟩
  · change _ ≤ (gravityCorrection 2 _ _ _ _).rho ∧ (gravityCorrection 2 _ _ _ _).rho ≤ _ ∧
      _ ≤ (gravityCorrection 2 _ _ _ _).e ∧ |(gravityCorrection 2 _ _ _ _).ru| ≤ _ ∧ |(gravityCorrection 2 _ _ _ _).rv| ≤ _
    obtain ⟨g1, g2, g3, -, g5, -⟩ := C48_gravity_correction 2 (Or.inl rfl) (1 / 300) (exState o x).rho (5 / 3) ![0, -1, 0]
      (E o x) (by linarith)
    have hk0 : 0 ≤ kinetic 2 (gravityCorrection 2 (1 / 300) (exState o x).rho ![0, -1, 0] (E o x)) := by
      have : 0 ≤ 2 * (gravityCorrection 2 (1 / 300) (exState o x).rho ![0, -1, 0] (E o x)).rho := by rw [g1]; linarith
      unfold kinetic
      rw [if_neg (by decide)]
      positivity
    rw [g1, g2, g3]
    simp only [Matrix.cons_val_zero, Matrix.cons_val_one]
    rw [abs_le] at h4 h5
    refine ⟨by linarith, by linarith, by linarith, abs_le.2 ⟨by linarith, by linarith⟩, abs_le.2 ⟨by linarith, by linarith⟩⟩

/-- `C62_conservation` on a mesh with two levels. -/
example : ∃ U', update (exSetup none) torusDomain torus quad.toFinset ![4, 4] (1 / 300) exState = some U' ∧
    total torusDomain torus quad.toFinset ![4, 4] 0 U' = total torusDomain torus quad.toFinset ![4, 4] 0 exState := by
  obtain ⟨U', h1, h2⟩ := C62_conservation torus_pos torus_tiling torus_balanced (Or.inl rfl) torus_periodic torusDomain_ok
    (b := ![4, 4]) (by decide) (exSetup none) (fun _ => rfl) rfl (1 / 300) exState
    (exSound none fun o ho x hx => by
      obtain ⟨t1, t2, t3, t4, t5⟩ := exTame o ho x hx
      exact ⟨by linarith, by linarith, by linarith, by linarith, by linarith⟩)
    fun Us hUs => exSound none (exStage none (Or.inl rfl) hUs)
  exact ⟨U', h1, h2 0 fun h => absurd h (by decide)⟩

/-- `C62_gravity` on the same mesh. -/
example : ∃ U', update (exSetup (some fun _ _ => ![0, -1, 0])) torusDomain torus quad.toFinset ![4, 4] (1 / 300) exState = some U' ∧
    total torusDomain torus quad.toFinset ![4, 4] 3 U' = total torusDomain torus quad.toFinset ![4, 4] 3 exState +
      1 / 300 * -1 * total torusDomain torus quad.toFinset ![4, 4] 0 exState := by
  obtain ⟨U', h1, -, -, h3, -⟩ := C62_gravity torus_pos torus_tiling torus_balanced (Or.inl rfl) torus_periodic torusDomain_ok
    (b := ![4, 4]) (by decide) (exSetup _) (fun _ => rfl) ![0, -1, 0] rfl (1 / 300) exState
    (exSound _ fun o ho x hx => by
      obtain ⟨t1, t2, t3, t4, t5⟩ := exTame o ho x hx
      exact ⟨by linarith, by linarith, by linarith, by linarith, by linarith⟩)
    fun Us hUs => exSound _ (exStage _ (Or.inr rfl) hUs)
  exact ⟨U', h1, h3⟩

/-- `C62_valid` on the same mesh. -/
example : ∃ U', update (exSetup none) torusDomain torus quad.toFinset ![4, 4] (1 / 300) exState = some U' ∧
    ∀ o ∈ quad.toFinset, ∀ x : Fin 2 → ℕ, (∀ k, x k < ![4, 4] k) → Valid 2 (5 / 3) (U' o x) := by
  have hw : Tame (9 / 10) 5 (6 / 5) exState := fun o ho x hx => by
    obtain ⟨t1, t2, t3, t4, t5⟩ := exTame o ho x hx
    exact ⟨by linarith, by linarith, by linarith, by linarith, by linarith⟩
  refine C62_valid torus_pos torus_tiling torus_balanced (Or.inl rfl) torusDomain_ok (b := ![4, 4]) (by decide)
    (exSetup none) (fun _ => rfl) (show (1 : ℚ) < 5 / 3 by norm_num) (show (0 : ℚ) < 1 / 100 by norm_num)
    (show (0 : ℚ) < 1 / 100 by norm_num) (1 / 300) exState ?_ ?_
  · intro o ho x hx
    obtain ⟨t1, t2, t3, t4, t5⟩ := hw o ho x hx
    have hk := exKinetic (u := exState o x) (by linarith) (by linarith) (by linarith)
    exact ⟨by linarith, mul_nonneg (show (0 : ℚ) ≤ 5 / 3 - 1 by norm_num) (by linarith)⟩
  · intro Us hUs o ho x hx u hu
    exact (exSound none (exStage none (Or.inl rfl) hUs) o ho x hx u hu).1.ne'

/-- The cells on both sides of the jump in refinement do change. -/
example : eulerCell (exSetup none) torusDomain torus quad.toFinset ![4, 4] (1 / 300) exState ⟨1, ![0, 0]⟩ ![3, 0] ≠
      some (exState ⟨1, ![0, 0]⟩ ![3, 0]) ∧
    eulerCell (exSetup none) torusDomain torus quad.toFinset ![4, 4] (1 / 300) exState ⟨2, ![2, 0]⟩ ![0, 0] ≠
      some (exState ⟨2, ![2, 0]⟩ ![0, 0]) := by
  decide +kernel

end Verif.Hydro.RK2
