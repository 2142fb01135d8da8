import Verif.Init.GraficProps
import Verif.Config.Enum

/-!
# C98: the hypotheses of the theorems are met
-/

namespace Verif.Init.Grafic

open Verif.Io Verif.Config Verif.Octree Verif.Cells Verif.Restart Verif.Flux Verif.Hydro Verif.Particles.Init

/-- The value of the bytes of a finite `float`. -/
def float32 (w : List Byte) : ℚ :=
  let n : ℕ := tagNat w
  let e : ℕ := n / 2 ^ 23 % 256
  let f : ℕ := n % 2 ^ 23
  let v : ℕ := if e = 0 then 2 * f else (f + 2 ^ 23) * 2 ^ e
  (if n / 2 ^ 31 = 0 then 1 else -1) * ((v : ℚ) / ((2 ^ 150 : ℕ) : ℚ))

/-- Fractions as text. -/
def ratCodec : Codec ℚ where
  toStr q := some ((if q < 0 then ['-'] else []) ++ Nat.toDigits 10 q.num.natAbs ++ '/' :: Nat.toDigits 10 q.den)
  ofStr s :=
    let neg := s.head? = some '-'
    let t := if neg then s.tail else s
    (digits (t.takeWhile (· ≠ '/')) 0).bind fun a => (digits ((t.dropWhile (· ≠ '/')).tail) 0).map fun b =>
      (if neg then -1 else 1) * (a : ℚ) / b

/-- Natural numbers as text. -/
def natCodec : Codec ℕ where
  toStr n := some (Nat.toDigits 10 n)
  ofStr s := digits s 0

/-- `nx = ny = nz = 2`, `dx = 1`, the corner 0, `astart = 1/2`, `om = 1/4`, `ov = 3/4`, `H0 = 64`. -/
def exWords : List (List Byte) :=
  [le4 2, le4 2, le4 2, le4 0x3f800000, le4 0, le4 0, le4 0, le4 0x3f000000, le4 0x3e800000, le4 0x3f400000, le4 0x42800000]

/-- Planes of the contrast: one half in the first and minus one half in the second plane. -/
def exDelta : List (List (List Byte)) := [List.replicate 4 (le4 0x3f000000), List.replicate 4 (le4 0xbf000000)]

/-- Planes of the velocities: 1, 0.5, 0.25 and 64 km/s in both planes. -/
def exVel : List (List (List Byte)) :=
  List.replicate 2 [le4 0x3f800000, le4 0x3f000000, le4 0x3e800000, le4 0x42800000]

def exHeader : Header := ⟨![2, 2, 2], 1, ![0, 0, 0], 1 / 2, 1 / 4, 3 / 4, 64⟩

/-- A configuration file that gives the mesh. -/
def exEvents : List Event :=
  [⟨"amr".toList, "coarse_oct_resolution_x".toList, "1".toList⟩, ⟨"amr".toList, "coarse_oct_resolution_y".toList, "1".toList⟩,
   ⟨"amr".toList, "coarse_oct_resolution_z".toList, "1".toList⟩, ⟨"mesh".toList, "xmin".toList, "0/1".toList⟩,
   ⟨"mesh".toList, "ymin".toList, "0/1".toList⟩, ⟨"mesh".toList, "zmin".toList, "0/1".toList⟩]

def exMap : Values := exEvents.foldl valueHandler []

def exGrid : Grid 3 := ⟨1, ![1, 1, 1], fun _ => true⟩

def exDomain : Domain 3 := ⟨fun _ => 0, fun _ => 1⟩

theorem exHeader_eq : headerSpec float32 exWords = exHeader := by
  unfold headerSpec exHeader
  congr 1 <;> decide +kernel

def okOf {A : Type} : Except Failure A → Option A
  | .ok a => some a
  | .error _ => none

/-- The configuration after the constructor. -/
def exResult : ℚ × Values := (okOf (construct ratCodec natCodec ![2, 2, 2] exHeader exMap)).getD (0, [])

theorem okOf_eq {A : Type} {r : Except Failure A} {d : A} (h : (okOf r).isSome = true) : r = .ok ((okOf r).getD d) := by
  match r, h with
  | .ok a, _ => rfl

theorem exConstruct : construct ratCodec natCodec ![2, 2, 2] exHeader exMap = .ok exResult := okOf_eq (by decide +kernel)

/-- The constructor has set the thresholds of a mean cell mass of one eighth, and the expansion starts at 1/2. -/
example : exResult.1 = 49 / 1000 ∧ Reads ratCodec exResult.2 "amr" "mass_refine" (1 / 8) ∧
    Reads ratCodec exResult.2 "amr" "mass_coarsen" (1 / 80) ∧ Reads ratCodec exResult.2 "cosmology" "aSTART" (1 / 2) := by
  unfold Reads
  decide +kernel

theorem exMap_normal : Normal exMap := handler_normal exEvents

theorem exConfigured : Configured ratCodec natCodec exMap exGrid exDomain where
  normal := exMap_normal
  nx := by unfold Reads; decide +kernel
  ny := by unfold Reads; decide +kernel
  nz := by unfold Reads; decide +kernel
  x := by unfold Reads; decide +kernel
  y := by unfold Reads; decide +kernel
  z := by unfold Reads; decide +kernel

theorem exPlanes : PlanesOk (fun _ => 2) exDelta ∧ PlanesOk (fun _ => 2) exVel := by
  unfold PlanesOk
  decide +kernel

theorem exConstructFile : constructFile float32 ratCodec natCodec ![2, 2, 2] true (graficFile false exWords exDelta) exMap =
    .ok (exHeader, exResult) := by
  unfold constructFile
  obtain ⟨rest, e⟩ := C98_header_partial float32 true (hw := exWords) rfl (by decide) exDelta
  rw [e, exHeader_eq]
  simp only [bind, Except.bind, pure, Except.pure, exConstruct]

/-- The state of the cell `(1, 0, 1)`: contrast `-1/2`, all three velocities 1/2 km/s. -/
example : ∃ U, initFields float32 (5 / 3) 0 exHeader exResult.1 true
      (fun f => graficFile false exWords (if f = 0 then exDelta else exVel)) exDomain exGrid ![2, 2, 2] = .ok U ∧
    U ⟨1, ![0, 0, 0]⟩ ![1, 0, 1] =
      some (state ⟨5 / 3, 0, exResult.1, exHeader.om, exHeader.astart, hubble exHeader, (2 : ℕ), exHeader.dx⟩ ((-1 / 2 : ℚ) : ℝ) ((1 / 2 : ℚ) : ℝ) ((1 / 2 : ℚ) : ℝ) ((1 / 2 : ℚ) : ℝ)) := by
  obtain ⟨-, U, hU, h⟩ := C98_fields_partial float32 (b := ![2, 2, 2]) (by decide) (G := exGrid) ⟨by decide⟩ (D := exDomain)
    (by intro k; simp [exDomain]) exConfigured (hws := fun _ => exWords) (fun _ => rfl) (by decide) (n := fun _ => 2)
    (by intro k; simp only [exHeader_eq]; fin_cases k <;> rfl) (planes := fun f => if f = 0 then exDelta else exVel)
    (by intro f; by_cases hf : f = 0 <;> simp only [hf, if_true, if_false]; exacts [exPlanes.1, exPlanes.2])
    (by norm_num) (5 / 3) 0 true true (h := exHeader) (ob := exResult.1) (m' := exResult.2) exConstructFile
  refine ⟨U, hU, (h ⟨1, ![0, 0, 0]⟩ (by decide) ![1, 0, 1] (by decide)).trans ?_⟩
  have e0 : planeValue float32 2 exDelta (fun k => ![0, 0, 0] k * ![2, 2, 2] k + ![1, 0, 1] k) = -1 / 2 := by decide +kernel
  have e1 : planeValue float32 2 exVel (fun k => ![0, 0, 0] k * ![2, 2, 2] k + ![1, 0, 1] k) = 1 / 2 := by decide +kernel
  simp only [show (1 : Fin 4) ≠ 0 by decide, show (2 : Fin 4) ≠ 0 by decide, show (3 : Fin 4) ≠ 0 by decide, if_true, if_false, e0, e1]

/-- The same file in the other byte order: undefined behaviour. -/
example : constructFile float32 ratCodec natCodec ![2, 2, 2] false (graficFile true exWords exDelta) exMap = .error .undefined :=
  (C98_big_endian_fails float32 ratCodec natCodec ![2, 2, 2] false rfl (by decide) exDelta exMap (by decide) (by decide)).2

/-- `nx` of the same file in the other byte order. -/
example : ∃ h rest, readHeader float32 false (graficFile true exWords exDelta) = .ok (h, rest, true) ∧ h.n 0 = 1115684864 := by
  obtain ⟨⟨h, rest, e, h1, -⟩, -⟩ := C98_big_endian_fails float32 ratCodec natCodec ![2, 2, 2] false (hw := exWords) rfl (by decide)
    exDelta exMap (by decide) (by decide)
  exact ⟨h, rest, e, by rw [h1]; decide⟩

/-- 2048 cells in each direction. -/
example : construct ratCodec natCodec ![2, 2, 2] { exHeader with n := ![2048, 2048, 2048] } exMap = .error .undefined :=
  C98_large_fails _ _ _ (by decide) _

/-- `CosmoManager` after the constructor: the start of the file, and 0.3 although the file says 0.25. -/
example : (getValueDefault ratCodec exResult.2 "cosmology".toList "aStart".toList (1 / 100)).map Prod.fst = some (1 / 2) ∧
    (getValueDefault ratCodec exResult.2 "cosmology".toList "omega_m".toList (3 / 10)).map Prod.fst = some (3 / 10) := by
  decide +kernel

/-- The configuration and the mass of the particles after the constructor. -/
def exTotal : ℚ × Values := (okOf (particleMass ratCodec exResult.2)).getD (0, [])

theorem exParticles : particleMass ratCodec exResult.2 = .ok exTotal := okOf_eq (by decide +kernel)

example : exTotal.1 = 1 - 196 / 1000 := by decide +kernel

/-- The mass of gas and particles is 1. -/
example (U : Oct 3 → (Fin 3 → ℕ) → Cons ℝ)
    (hU : ∀ o x, U o x = state ⟨5 / 3, 0, exResult.1, exHeader.om, exHeader.astart, hubble exHeader, 2, exHeader.dx⟩
      ((if o.pos 2 * 2 + x 2 = 0 then 1 / 2 else -1 / 2 : ℚ) : ℝ) 1 2 3) :
    ∃ gs : List Grain, (List.range 3).flatMap
        (rankGrains exDomain exGrid (coarseMesh exGrid) exGrid.lmin exGrid.lmin ![2, 2, 2] (fun _ _ => 1) (fun _ _ _ => 0) ![2, 2, 2]
          exTotal.1 (1 / 10) 3) = gs.map some ∧
      cellSum ![2, 2, 2] (coarseMesh exGrid) (fun o x => (U o x).rho *
        (volume exDomain (cellGrid exGrid ![2, 2, 2]) (cellOct ![2, 2, 2] o x) : ℝ)) + ((gs.map Grain.mass).sum : ℚ) = 1 :=
  C98_total_mass_partial (by decide) exMap_normal (ob := exResult.1) (m' := exResult.2) exConstruct (by decide +kernel)
    (total := exTotal.1) (m'' := exTotal.2) exParticles (G := exGrid) ⟨⟨by decide⟩, by decide⟩ (D := exDomain)
    (by intro k; simp [exDomain]) (by simp [exDomain]) (5 / 3) 0 2 (fun i => if i 2 = 0 then 1 / 2 else -1 / 2) (by decide +kernel)
    (fun k _ => k + 1) (fun o _ x _ => by rw [hU]; simp; norm_num) _ _ (by decide) (by decide) (by decide) _

/-- The units for the parameters of the file and the contrast `-1/2`. -/
example : (state ⟨5 / 3, 0, 49 / 1000, 1 / 4, 1 / 2, 64, 2, 1⟩ (-1 / 2) 1 2 3).rho = 98 / 1000 := by
  have := (C98_units (P := ⟨5 / 3, 0, 49 / 1000, 1 / 4, 1 / 2, 64, 2, 1⟩) (by norm_num) (by norm_num) (by norm_num) (by norm_num)
    (by norm_num) (by norm_num) (by norm_num) (delta := -1 / 2) (vx := 1) (vy := 2) (vz := 3) (by norm_num)
    (rhoc' := 3 * 64 ^ 2 / (8 * Real.pi * newtonG)) (tstar := 1 / 16)
    (by rw [mul_div_cancel₀ _ (by have := Real.pi_pos; unfold newtonG; positivity)]) rfl
    (by
      have : Real.sqrt (1 / 4) = 1 / 2 := by
        rw [show (1 / 4 : ℝ) = (1 / 2) ^ 2 by norm_num, Real.sqrt_sq (by norm_num)]
      simp only [this]
      norm_num) rfl rfl).1
  rw [this]
  norm_num

end Verif.Init.Grafic
