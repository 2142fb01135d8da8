import Mathlib.Tactic.Ring
import Verif.Legacy.Props
import Verif.Legacy.Torus

/-!
# Blocks of a mesh with octants of one level

Proofs for C84: the ghosted blocks contain pieces of one field on the lattice of cells, which is the
mesh continued periodically or by mirror images.
-/

namespace Verif.Legacy

open Verif.Octree Verif.Cells Verif.Legacy.Spec

noncomputable section

variable {d : ℕ}

/-- A mean over a box that is a cell of the mesh is its value. -/
theorem isMean_uniform {b : Fin d → ℕ} {M : Finset (Oct d)} {l : ℕ}
    (hl : ∀ o ∈ M, o.level = l) {f : Oct d → (Fin d → ℕ) → ℝ} {W : Fin d → ℕ} {V : ℝ}
    (h : IsMean b M f l W V) : V = f ⟨l, fun i => W i / b i⟩ (fun i => W i % b i) := by
  obtain ⟨c, hc, rfl⟩ := h
  have e : ∀ s, f (c s).1 (c s).2 = f ⟨l, fun i => W i / b i⟩ (fun i => W i % b i) := by
    intro s
    obtain ⟨h1, h2, h3⟩ := hc s
    rcases hcs : c s with ⟨⟨m, a⟩, x⟩
    rw [hcs] at h1 h2 h3
    have hm : m = l := hl _ h1
    subst hm
    obtain ⟨-, h4⟩ := h3
    have h5 : ∀ i, a i * b i + x i = W i := by
      intro i
      have := h4 i
      simp only [cellOct, Nat.add_sub_cancel_left, pow_one] at this
      have hs := (s i).isLt
      omega
    simp only
    congr 1
    · congr 1
      funext i
      rw [← h5 i, Nat.mul_comm, Nat.mul_add_div (by have := h2 i; simp only at this; omega),
        Nat.div_eq_of_lt (h2 i), Nat.add_zero]
    · funext i
      rw [← h5 i, Nat.mul_comm, Nat.mul_add_mod, Nat.mod_eq_of_lt (h2 i)]
  rw [Finset.sum_congr rfl fun s _ => e s]
  simp

/-- Number of cells of the mesh in direction `i`. -/
def cells (P : Par d) (l : ℕ) (i : Fin d) : ℕ := (cellGrid P.G P.b).count i l

/-- The mesh as a field on the whole lattice of level `l`. -/
def ext (P : Par d) (U : Mesh d) (l : ℕ) (X : Fin d → ℤ) : State d := fun v =>
  let W : Fin d → ℕ := fun i =>
    (image (wall (P.bcMin i)) (wall (P.bcMax i)) (cells P l i) (X i) % (cells P l i : ℤ)).toNat
  varSign (fun i => imageSign (wall (P.bcMin i)) (wall (P.bcMax i)) (cells P l i) (X i)) v.var *
    U ⟨l, fun i => W i / P.b i⟩ (fun i => W i % P.b i) v.var

theorem imageSign_sq (lo hi : Wall) (N X : ℤ) : imageSign lo hi N X * imageSign lo hi N X = 1 := by
  unfold imageSign
  split <;> norm_num

theorem varSign_sq {s : Fin d → ℝ} (hs : ∀ i, s i * s i = 1) (v : Var d) :
    varSign s v * varSign s v = 1 := by
  cases v <;> simp [varSign, hs]

theorem balanced_of_uniform {G : Grid d} {M : Finset (Oct d)} {l : ℕ}
    (hl : ∀ o ∈ M, o.level = l) : Balanced G M := by
  intro a ha b hb _
  rw [hl a ha, hl b hb]
  omega

/-- The ghosted block of an octant is a piece of the continued mesh. -/
theorem fillGhosts_uniform {P : Par d} {M : Finset (Oct d)} {o : Oct d} {l : ℕ} (hG : P.G.Pos)
    (hM : Tiling P.G M) (hl : ∀ o ∈ M, o.level = l) (ho : o ∈ M)
    (hb : ∀ i, 0 < P.b i) (hev : ∀ i, 2 ∣ P.b i) (hw : ∀ i, P.w ≤ P.b i)
    (hper : PeriodicOk P) (hu : ∀ i, P.bcMin i ≠ .user ∧ P.bcMax i ≠ .user)
    (U : Mesh d) (B : Block d) :
    ∃ B', fillGhosts P M U o B = some B' ∧
      Holds P B' (ext P U l) (fun i => (o.pos i : ℤ) * P.b i) := by
  obtain ⟨B', h1, h2, -⟩ := C83_ghost_values_partial hG hM (balanced_of_uniform hl) ho hb hev hw
    (fun n hn _ h => by rw [hl o ho, hl n hn] at h; omega) hper hu U B
  refine ⟨B', h1, fun q hq => ?_⟩
  obtain ⟨W, hW, hm⟩ := h2 q hq
  rw [hl o ho] at hW hm
  funext v
  have hv : Copied P v.var := by cases v <;> trivial
  have e := isMean_uniform hl (hm v.var hv)
  have hWe : ∀ i, (image (wall (P.bcMin i)) (wall (P.bcMax i)) (cells P l i)
      ((o.pos i : ℤ) * P.b i + q i) % (cells P l i : ℤ)).toNat = W i := by
    intro i
    obtain ⟨h3, t, -, h4⟩ := hW i
    have h5 : image (wall (P.bcMin i)) (wall (P.bcMax i)) (cells P l i)
        ((o.pos i : ℤ) * P.b i + q i) = W i + t * (cells P l i : ℤ) := h4.symm
    rw [h5, Int.add_mul_emod_self_right, Int.emod_eq_of_lt (by omega) (by exact_mod_cast h3)]
    rfl
  have hs := varSign_sq (s := fun i => imageSign (wall (P.bcMin i)) (wall (P.bcMax i))
    (cells P l i) ((o.pos i : ℤ) * P.b i + q i)) (fun i => imageSign_sq _ _ _ _) v.var
  unfold ext
  simp only [hWe]
  rw [← e]
  unfold getCons
  change _ = varSign (fun i => imageSign (wall (P.bcMin i)) (wall (P.bcMax i))
    (cells P l i) ((o.pos i : ℤ) * P.b i + q i)) v.var * (varSign (fun i => imageSign
      (wall (P.bcMin i)) (wall (P.bcMax i)) (cells P l i) ((o.pos i : ℤ) * P.b i + q i)) v.var * _)
  rw [← mul_assoc, hs, one_mul]

/-- Inside the domain the continued mesh is the mesh. -/
theorem ext_inside {P : Par d} {U : Mesh d} {l : ℕ} {X : Fin d → ℕ} (hX : ∀ i, X i < cells P l i)
    (v : HV d) : ext P U l (fun i => (X i : ℤ)) v =
      U ⟨l, fun i => X i / P.b i⟩ (fun i => X i % P.b i) v.var := by
  have h1 : ∀ i, image (wall (P.bcMin i)) (wall (P.bcMax i)) (cells P l i) (X i : ℤ) = X i := by
    intro i
    have := hX i
    unfold image
    rw [if_neg (by omega), if_neg (by omega)]
  have h2 : ∀ i, imageSign (wall (P.bcMin i)) (wall (P.bcMax i)) (cells P l i) (X i : ℤ) = 1 := by
    intro i
    have := hX i
    unfold imageSign
    rw [if_neg]
    rintro (⟨h, -⟩ | ⟨h, -⟩) <;> omega
  have h3 : ∀ i, ((X i : ℤ) % (cells P l i : ℤ)).toNat = X i := by
    intro i
    have := hX i
    rw [Int.emod_eq_of_lt (by omega) (by omega)]
    rfl
  unfold ext
  simp only [h1, h2, h3]
  cases v <;> simp [varSign, HV.var]

/-! ### Periodic directions -/

theorem image_none (N X : ℤ) : image .none .none N X = X := by
  unfold image
  split
  · rfl
  · split <;> rfl

theorem ext_periodic {P : Par d} {U : Mesh d} {l : ℕ} {k : Fin d} (h1 : P.bcMin k = .periodic)
    (h2 : P.bcMax k = .periodic) (X : Fin d → ℤ) :
    ext P U l (X + Pi.single k (cells P l k : ℤ)) = ext P U l X := by
  have e1 : ∀ i, image (wall (P.bcMin i)) (wall (P.bcMax i)) (cells P l i)
      ((X + Pi.single k (cells P l k : ℤ) : Fin d → ℤ) i) % (cells P l i : ℤ) =
      image (wall (P.bcMin i)) (wall (P.bcMax i)) (cells P l i) (X i) % (cells P l i : ℤ) := by
    intro i
    by_cases h : i = k
    · subst h
      rw [h1, h2]
      simp only [wall, image_none, Pi.add_apply, Pi.single_eq_same]
      rw [Int.add_emod_right]
    · simp only [Pi.add_apply, Pi.single_eq_of_ne h, add_zero]
  have e2 : ∀ i, imageSign (wall (P.bcMin i)) (wall (P.bcMax i)) (cells P l i)
      ((X + Pi.single k (cells P l k : ℤ) : Fin d → ℤ) i) =
      imageSign (wall (P.bcMin i)) (wall (P.bcMax i)) (cells P l i) (X i) := by
    intro i
    by_cases h : i = k
    · subst h
      rw [h1, h2]
      simp [wall, imageSign]
    · simp only [Pi.add_apply, Pi.single_eq_of_ne h, add_zero]
  funext v
  unfold ext
  simp only [e1, e2]

theorem faceFlux_periodic {RS : State d → State d → State d} {UP : UPar d} {r : Fin d → ℝ}
    {f : (Fin d → ℤ) → State d} {s : Fin d → ℤ} (hf : ∀ X, f (X + s) = f X) (k : Fin d)
    (X : Fin d → ℤ) : faceFlux RS UP r f k (X + s) = faceFlux RS UP r f k X := by
  have a1 : ∀ (Y t : Fin d → ℤ), f (Y + s + t) = f (Y + t) := by
    intro Y t
    rw [show Y + s + t = Y + t + s by ring, hf]
  have a2 : ∀ (Y t : Fin d → ℤ), f (Y + s - t) = f (Y - t) := by
    intro Y t
    rw [show Y + s - t = Y - t + s by ring, hf]
  have a3 : ∀ j Y, fieldSlope UP f j (Y + s) = fieldSlope UP f j Y := by
    intro j Y
    unfold fieldSlope
    rw [hf, a1, a2]
  have a4 : ∀ σ Y, faceState UP r f k σ (Y + s) = faceState UP r f k σ Y := by
    intro σ Y
    unfold faceState
    simp only [hf, a3]
  unfold faceFlux
  rw [a4, show X + s - Pi.single k 1 = X - Pi.single k 1 + s by ring, a4]

/-! ### Walls -/

/-- Mirror image of a state. -/
def mirrorState (k : Fin d) (q : State d) : State d
  | .mom j => if j = k then -q (.mom j) else q (.mom j)
  | v => q v

theorem toPrim_mirror (Q : Hydro.Params) (k : Fin d) (u : State d) :
    toPrim Q (mirrorState k u) = mirrorState k (toPrim Q u) := by
  have h : ∀ j, (mirrorState k u) (.mom j) / max (u .rho) Q.smallr *
      ((mirrorState k u) (.mom j) / max (u .rho) Q.smallr) =
      u (.mom j) / max (u .rho) Q.smallr * (u (.mom j) / max (u .rho) Q.smallr) := by
    intro j
    unfold mirrorState
    simp only
    split
    · ring
    · rfl
  funext v
  cases v with
  | rho => rfl
  | e =>
    change max _ _ = max _ _
    have e1 : (mirrorState k u) .rho = u .rho := rfl
    have e2 : (mirrorState k u) .e = u .e := rfl
    simp only [e1, e2, h]
  | mom j =>
    simp only [toPrim, mirrorState]
    split
    · ring
    · rfl

theorem signed_min_neg {m c : ℝ} (hm : 0 ≤ m) :
    (if 0 ≤ -c then (1 : ℝ) else -1) * min m |-c| = -((if 0 ≤ c then (1 : ℝ) else -1) * min m |c|) := by
  rw [abs_neg]
  rcases lt_trichotomy c 0 with h | h | h
  · rw [if_pos (by linarith), if_neg (by linarith)]
    ring
  · subst h
    simp [hm]
  · rw [if_neg (by linarith), if_pos h.le]
    ring

/-- The limiter of two differences. -/
def dlim (a b : ℝ) : ℝ := if a * b ≤ 0 then 0 else min |a| |b|

theorem dlim_nonneg (a b : ℝ) : 0 ≤ dlim a b := by
  unfold dlim
  split
  · exact le_rfl
  · exact le_min (abs_nonneg _) (abs_nonneg _)

theorem dlim_comm (a b : ℝ) : dlim a b = dlim b a := by
  unfold dlim
  rw [mul_comm, min_comm]

theorem dlim_neg (a b : ℝ) : dlim (-a) (-b) = dlim a b := by
  unfold dlim
  rw [neg_mul_neg, abs_neg, abs_neg]

theorem slopeScalar_eq (t : ℤ) (q a b : ℝ) : slopeScalar t q a b = if t = 1 ∨ t = 2 then
    (if 0 ≤ 1 / 2 * (a - b) then (1 : ℝ) else -1) *
      min (dlim (t * (q - b)) (t * (a - q))) |1 / 2 * (a - b)| else 0 := rfl

theorem slopeScalar_swap (t : ℤ) (q a b : ℝ) : slopeScalar t q b a = -slopeScalar t q a b := by
  rw [slopeScalar_eq, slopeScalar_eq]
  split
  · rw [← signed_min_neg (dlim_nonneg _ _), dlim_comm, ← dlim_neg]
    rw [show -(1 / 2 * (a - b)) = 1 / 2 * (b - a) by ring,
      show -((t : ℝ) * (b - q)) = t * (q - b) by ring,
      show -((t : ℝ) * (q - a)) = t * (a - q) by ring]
  · simp

theorem slopeScalar_neg (t : ℤ) (q a b : ℝ) :
    slopeScalar t (-q) (-a) (-b) = -slopeScalar t q a b := by
  rw [slopeScalar_eq, slopeScalar_eq]
  split
  · rw [← signed_min_neg (dlim_nonneg _ _), ← dlim_neg ((t : ℝ) * (q - b))]
    rw [show -(1 / 2 * (a - b)) = 1 / 2 * (-a - -b) by ring,
      show -((t : ℝ) * (q - b)) = t * (-q - -b) by ring,
      show -((t : ℝ) * (a - q)) = t * (-a - -q) by ring]
  · simp

/-- The position on the other side of the lower face of the cells with coordinate `a`. -/
def mirrorPos (k : Fin d) (a : ℤ) (Y : Fin d → ℤ) : Fin d → ℤ :=
  Function.update Y k (2 * a - 1 - Y k)

theorem mirrorPos_add_of_ne {k j : Fin d} (h : j ≠ k) (a : ℤ) (Y : Fin d → ℤ) (s : ℤ) :
    mirrorPos k a (Y + Pi.single j s) = mirrorPos k a Y + Pi.single j s := by
  funext i
  unfold mirrorPos
  by_cases hi : i = k
  · subst hi
    simp [Pi.single_eq_of_ne h.symm]
  · simp [Function.update_of_ne hi]

theorem mirrorPos_add_same (k : Fin d) (a : ℤ) (Y : Fin d → ℤ) (s : ℤ) :
    mirrorPos k a (Y + Pi.single k s) = mirrorPos k a Y - Pi.single k s := by
  funext i
  unfold mirrorPos
  by_cases hi : i = k
  · subst hi
    simp
    ring
  · simp [Function.update_of_ne hi, Pi.single_eq_of_ne hi]

/-- The field `f` is its own mirror image, two cells around the lower faces of the cells at `a`. -/
def Mirrored (f : (Fin d → ℤ) → State d) (k : Fin d) (a : ℤ) : Prop :=
  ∀ Y : Fin d → ℤ, a ≤ Y k → Y k ≤ a + 1 → f (mirrorPos k a Y) = mirrorState k (f Y)

theorem mirrorState_invol (k : Fin d) (q : State d) : mirrorState k (mirrorState k q) = q := by
  funext v
  cases v with
  | mom j =>
    simp only [mirrorState]
    split <;> simp
  | _ => rfl

theorem slope_mirrorState_ne {UP : UPar d} {k : Fin d} (q a b : State d) (v : HV d) :
    slopeScalar UP.slopeType (mirrorState k q v) (mirrorState k a v) (mirrorState k b v) =
      mirrorState k (fun v => slopeScalar UP.slopeType (q v) (a v) (b v)) v := by
  cases v with
  | mom j =>
    simp only [mirrorState]
    split
    · rw [slopeScalar_neg]
    · rfl
  | _ => rfl

/-- Slopes at the mirror image of a cell next to the wall. -/
theorem fieldSlope_mirror {UP : UPar d} {f : (Fin d → ℤ) → State d} {k : Fin d} {a : ℤ}
    (hf : Mirrored f k a) (j : Fin d) {X : Fin d → ℤ} (hX : X k = a) :
    fieldSlope UP f j (mirrorPos k a X) = fun v =>
      if j = k then -(mirrorState k (fieldSlope UP f j X) v)
      else mirrorState k (fieldSlope UP f j X) v := by
  have h0 : f (mirrorPos k a X) = mirrorState k (f X) := hf X (by omega) (by omega)
  funext v
  by_cases h : j = k
  · subst h
    rw [if_pos rfl]
    have h1 : f (mirrorPos j a X + Pi.single j 1) = mirrorState j (f (X - Pi.single j 1)) := by
      -- the cell on the other side of the wall
      have e : X - Pi.single j 1 = mirrorPos j a X := by
        funext i
        unfold mirrorPos
        by_cases hi : i = j
        · subst hi
          simp [hX]
          ring
        · simp [Function.update_of_ne hi, Pi.single_eq_of_ne hi]
      have e' : mirrorPos j a X + Pi.single j 1 = X := by rw [← e]; ring
      rw [e', e, h0, mirrorState_invol]
    have h2 : f (mirrorPos j a X - Pi.single j 1) = mirrorState j (f (X + Pi.single j 1)) := by
      rw [← mirrorPos_add_same]
      exact hf _ (by simp [hX]) (by simp [hX])
    unfold fieldSlope
    rw [h0, h1, h2, toPrim_mirror, toPrim_mirror, toPrim_mirror, slopeScalar_swap,
      slope_mirrorState_ne]
  · rw [if_neg h]
    have h1 : f (mirrorPos k a X + Pi.single j 1) = mirrorState k (f (X + Pi.single j 1)) := by
      rw [← mirrorPos_add_of_ne h]
      have : (X + Pi.single j 1 : Fin d → ℤ) k = a := by
        simp [Pi.single_eq_of_ne (Ne.symm h), hX]
      exact hf _ (by omega) (by omega)
    have h2 : f (mirrorPos k a X - Pi.single j 1) = mirrorState k (f (X - Pi.single j 1)) := by
      have e : ∀ Y : Fin d → ℤ, Y - Pi.single j 1 = Y + Pi.single j (-1) := fun Y => by
        rw [Pi.single_neg]
        ring
      rw [e, e, ← mirrorPos_add_of_ne h]
      have : (X + Pi.single j (-1) : Fin d → ℤ) k = a := by
        simp [Pi.single_eq_of_ne (Ne.symm h), hX]
      exact hf _ (by omega) (by omega)
    unfold fieldSlope
    rw [h0, h1, h2, toPrim_mirror, toPrim_mirror, toPrim_mirror, slope_mirrorState_ne]

/-- Reconstruction commutes with mirror images. -/
theorem reconstruct_mirror (Q : Hydro.Params) (r : Fin d → ℝ) (q : State d) (dq : Fin d → State d)
    (k : Fin d) (s : ℝ) :
    reconstruct Q r (mirrorState k q)
      (fun j v => if j = k then -(mirrorState k (dq j) v) else mirrorState k (dq j) v)
      (Pi.single k (-s)) = mirrorState k (reconstruct Q r q dq (Pi.single k s)) := by
  funext v
  cases v with
  | rho =>
    change max _ _ = max _ _
    congr 2
    · congr 1
      refine Finset.sum_congr rfl fun j _ => ?_
      by_cases h : j = k
      · subst h
        simp [mirrorState]
      · simp [mirrorState, h]
    · refine Finset.sum_congr rfl fun j _ => ?_
      by_cases h : j = k
      · subst h
        simp [mirrorState]
      · simp [Pi.single_eq_of_ne h]
  | e =>
    change _ + _ + _ = _ + _ + _
    congr 1
    · congr 1
      refine Finset.sum_congr rfl fun j _ => ?_
      by_cases h : j = k
      · subst h
        simp [mirrorState]
      · simp [mirrorState, h]
    · refine Finset.sum_congr rfl fun j _ => ?_
      by_cases h : j = k
      · subst h
        simp [mirrorState]
      · simp [Pi.single_eq_of_ne h]
  | mom i =>
    by_cases hi : i = k
    · subst hi
      change _ + _ + _ = if i = i then -(_ + _ + _) else _
      rw [if_pos rfl, neg_add, neg_add, ← Finset.sum_neg_distrib, ← Finset.sum_neg_distrib]
      congr 1
      · congr 1
        · simp [mirrorState]
        · refine Finset.sum_congr rfl fun j _ => ?_
          by_cases h : j = i
          · subst h
            simp [mirrorState]
            ring
          · simp [mirrorState, h, Ne.symm h]
      · refine Finset.sum_congr rfl fun j _ => ?_
        by_cases h : j = i
        · subst h
          simp [mirrorState]
        · simp [Pi.single_eq_of_ne h]
    · change _ + _ + _ = if i = k then _ else (_ + _ + _)
      rw [if_neg hi]
      congr 1
      · congr 1
        · simp [mirrorState, hi]
        · refine Finset.sum_congr rfl fun j _ => ?_
          by_cases h : j = k
          · subst h
            simp [mirrorState, hi]
          · simp [mirrorState, h, hi]
      · refine Finset.sum_congr rfl fun j _ => ?_
        by_cases h : j = k
        · subst h
          simp [mirrorState, hi]
        · simp [Pi.single_eq_of_ne h]

theorem mirrorPos_face {k : Fin d} {a : ℤ} {X : Fin d → ℤ} (hX : X k = a) :
    X - Pi.single k 1 = mirrorPos k a X := by
  funext i
  unfold mirrorPos
  by_cases hi : i = k
  · subst hi
    simp [hX]
    ring
  · simp [Function.update_of_ne hi, Pi.single_eq_of_ne hi]

/-- The states on both sides of a wall are mirror images. -/
theorem faceState_mirror {UP : UPar d} {r : Fin d → ℝ} {f : (Fin d → ℤ) → State d} {k : Fin d}
    {a : ℤ} (hf : Mirrored f k a) {X : Fin d → ℤ} (hX : X k = a) :
    faceState UP r f k 1 (X - Pi.single k 1) = mirrorState k (faceState UP r f k (-1) X) := by
  unfold faceState
  rw [mirrorPos_face hX, hf X (by omega) (by omega), toPrim_mirror, ← reconstruct_mirror, neg_neg]
  congr 1
  funext j
  exact fieldSlope_mirror hf j hX

/-- Variables that do not pass through walls normal to `k`. -/
def StaysAt (k : Fin d) : HV d → Prop
  | .mom j => j ≠ k
  | _ => True

theorem toHydro_mirror (k : Fin d) (q : State d) :
    toHydro (swapDir k (mirrorState k q)) = (toHydro (swapDir k q)).mirror 0 := by
  have h0 : 0 < d := k.pos
  have hc : ∀ j : Fin d, swapDir k (mirrorState k q) (.mom j) =
      if j = ⟨0, h0⟩ then -swapDir k q (.mom j) else swapDir k q (.mom j) := by
    intro j
    simp only [swapDir, mirrorState]
    have e : Equiv.swap ⟨0, h0⟩ k j = k ↔ j = ⟨0, h0⟩ := by
      rw [Equiv.swap_apply_eq_iff, Equiv.swap_apply_right]
    simp only [e]
  unfold toHydro Hydro.Prim.mirror
  simp only [hc]
  have e1 : swapDir k (mirrorState k q) .rho = swapDir k q .rho := rfl
  have e2 : swapDir k (mirrorState k q) .e = swapDir k q .e := rfl
  rw [e1, e2]
  simp [h0]

/-- Nothing but normal momentum passes through a wall. -/
theorem wall_flux {Q : Hydro.Params} (hQ : Q.Ok) (k : Fin d) (q : State d) {v : HV d}
    (hv : StaysAt k v) :
    swapDir k (riemannHydro Q (swapDir k (mirrorState k q)) (swapDir k q)) v = 0 := by
  unfold riemannHydro
  rw [toHydro_mirror]
  obtain ⟨h1, h2, h3⟩ := Hydro.C47_wall_flux_left hQ 0 (toHydro (swapDir k q))
  change (Hydro.hllc Q _ _).rho = 0 at h1
  change (Hydro.hllc Q _ _).e = 0 at h2
  change ∀ k, k ≠ 0 → (Hydro.hllc Q _ _).mom k = 0 at h3
  cases v with
  | rho => exact h1
  | e => exact h2
  | mom j =>
    change ofFlux _ (.mom _) = 0
    have hne : (Equiv.swap (⟨0, k.pos⟩ : Fin d) k j : Fin d) ≠ ⟨0, k.pos⟩ := by
      intro h
      rw [Equiv.swap_apply_eq_iff, Equiv.swap_apply_left] at h
      exact hv h
    have hne' : ((Equiv.swap (⟨0, k.pos⟩ : Fin d) k j : Fin d) : ℕ) ≠ 0 := by
      intro h
      exact hne (Fin.ext h)
    unfold ofFlux
    simp only
    rw [if_neg hne']
    split
    · exact h3 1 (by decide)
    · exact h3 2 (by decide)

/-- The continued mesh near a lower wall. -/
theorem ext_mirror_lower {P : Par d} {U : Mesh d} {l : ℕ} {k : Fin d} (h1 : P.bcMin k = .reflecting)
    (hN : 2 ≤ cells P l k) : Mirrored (ext P U l) k 0 := by
  intro Y h2 h3
  have e1 : ∀ i, image (wall (P.bcMin i)) (wall (P.bcMax i)) (cells P l i) (mirrorPos k 0 Y i) =
      image (wall (P.bcMin i)) (wall (P.bcMax i)) (cells P l i) (Y i) := by
    intro i
    unfold mirrorPos
    by_cases h : i = k
    · subst h
      rw [Function.update_self, h1]
      unfold image
      rw [if_pos (by omega), if_neg (by omega), if_neg (by omega)]
      simp only [wall]
      omega
    · rw [Function.update_of_ne h]
  have e2 : ∀ i, imageSign (wall (P.bcMin i)) (wall (P.bcMax i)) (cells P l i) (mirrorPos k 0 Y i) =
      if i = k then -imageSign (wall (P.bcMin i)) (wall (P.bcMax i)) (cells P l i) (Y i)
      else imageSign (wall (P.bcMin i)) (wall (P.bcMax i)) (cells P l i) (Y i) := by
    intro i
    unfold mirrorPos
    by_cases h : i = k
    · subst h
      rw [Function.update_self, h1, if_pos rfl]
      unfold imageSign
      rw [if_pos (Or.inl ⟨by omega, rfl⟩), if_neg]
      rintro (⟨h, -⟩ | ⟨h, -⟩) <;> omega
    · rw [Function.update_of_ne h, if_neg h]
  funext v
  unfold ext
  simp only [e1, e2]
  cases v with
  | mom j =>
    simp only [mirrorState, HV.var, varSign]
    split <;> simp
  | _ => rfl

/-- The continued mesh near an upper wall. -/
theorem ext_mirror_upper {P : Par d} {U : Mesh d} {l : ℕ} {k : Fin d} (h1 : P.bcMax k = .reflecting)
    (hN : 2 ≤ cells P l k) : Mirrored (ext P U l) k (cells P l k) := by
  intro Y h2 h3
  have e1 : ∀ i, image (wall (P.bcMin i)) (wall (P.bcMax i)) (cells P l i)
      (mirrorPos k (cells P l k) Y i) =
      image (wall (P.bcMin i)) (wall (P.bcMax i)) (cells P l i) (Y i) := by
    intro i
    unfold mirrorPos
    by_cases h : i = k
    · subst h
      rw [Function.update_self, h1]
      unfold image
      rw [if_neg (by omega), if_neg (by omega), if_neg (by omega), if_pos (by omega)]
      simp only [wall]
    · rw [Function.update_of_ne h]
  have e2 : ∀ i, imageSign (wall (P.bcMin i)) (wall (P.bcMax i)) (cells P l i)
      (mirrorPos k (cells P l k) Y i) =
      if i = k then -imageSign (wall (P.bcMin i)) (wall (P.bcMax i)) (cells P l i) (Y i)
      else imageSign (wall (P.bcMin i)) (wall (P.bcMax i)) (cells P l i) (Y i) := by
    intro i
    unfold mirrorPos
    by_cases h : i = k
    · subst h
      rw [Function.update_self, h1, if_pos rfl]
      unfold imageSign
      rw [if_neg, if_pos (Or.inr ⟨by omega, rfl⟩), neg_neg]
      rintro (⟨h, -⟩ | ⟨h, -⟩) <;> omega
    · rw [Function.update_of_ne h, if_neg h]
  funext v
  unfold ext
  simp only [e1, e2]
  cases v with
  | mom j =>
    simp only [mirrorState, HV.var, varSign]
    split <;> simp
  | _ => rfl

end

end Verif.Legacy
