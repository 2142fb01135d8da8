import Verif.Init.Grafic
import Verif.Restart.Mesh
import Verif.Flux.Volume
import Verif.Hydro.State
import Mathlib.Analysis.SpecialFunctions.Pow.Real
import Mathlib.Analysis.Real.Pi.Bounds

/-!
# C98: cosmological initial conditions from GRAFIC files, fields

Model of `core/src/init/InitialConditions_grafic_fields.cpp` L106-243. Arithmetic on `real_t` is exact.
-/

namespace Verif.Init.Grafic

open Verif.Io Verif.Config Verif.Octree Verif.Cells Verif.Restart Verif.Flux Verif.Hydro

/-! ### Model -/

/-- L158-162 for one direction. `none`: the conversion to `uint32_t` is undefined behaviour. -/
def index (xo : ℚ) (D : Domain 3) (G : Grid 3) (b : Fin 3 → ℕ) (o : Oct 3) (x : Fin 3 → ℕ) (k : Fin 3) : Option ℕ :=
  let q := (getCellCenter D G ⟨o, x, b, .localToBlock⟩ k - xo) / getCellSize D G ⟨o, x, b, .localToBlock⟩ k
  if -1 < q ∧ q < 2 ^ 32 then some ⌊q⌋₊ else none

/-- L156-165: the value of a cell. `none`: undefined behaviour. -/
def fieldAt (xo : Fin 3 → ℚ) (arr : (Fin 3 → ℕ) → Option ℚ) (D : Domain 3) (G : Grid 3) (b : Fin 3 → ℕ) (o : Oct 3) (x : Fin 3 → ℕ) :
    Option ℚ :=
  (index (xo 0) D G b o x 0).bind fun i => (index (xo 1) D G b o x 1).bind fun j => (index (xo 2) D G b o x 2).bind fun l =>
    arr ![i, j, l]

/-- The values used at L192-207. -/
structure Params where
  gamma : ℝ
  smallp : ℝ
  ob : ℝ
  om : ℝ
  a : ℝ
  H0 : ℝ
  nx : ℝ
  dx : ℝ

/-- `Units.h` L34. -/
noncomputable def newtonG : ℝ := 667384 / 10 ^ 16

/-- `Units.h` L30. -/
noncomputable def kBoltz : ℝ := 13806 / 10 ^ 27

/-- `Units.h` L31. -/
noncomputable def protonMass : ℝ := 167262158 / 10 ^ 35

/-- L187. -/
noncomputable def yHelium : ℝ := 24 / 100

/-- L188, `Units.h` L32. -/
noncomputable def nHelium : ℝ := yHelium / (1 - yHelium) / (4002 / 1000)

/-- L199. -/
noncomputable def rhoc (P : Params) : ℝ := 3 * P.H0 * P.H0 / (8 * Real.pi * newtonG)

/-- L200-202. -/
noncomputable def vstar (P : Params) : ℝ := P.nx * P.dx * megaParsec / (2 / P.H0 / Real.sqrt P.om)

/-- L203-204. -/
noncomputable def pstar (P : Params) : ℝ := rhoc P * P.om * vstar P * vstar P

/-- L206-207. -/
noncomputable def temperature (a : ℝ) : ℝ := 3175 / 10 * ((1 / a - 1) * (1 / a - 1)) / (151 * 151)

/-- L212-239 for the values of the four files. -/
noncomputable def state (P : Params) (delta vx vy vz : ℝ) : Cons ℝ :=
  let u := vx * 1000 * P.a / vstar P
  let v := vy * 1000 * P.a / vstar P
  let w := vz * 1000 * P.a / vstar P
  let u2 := u * u + v * v + w * w
  let rho := (delta + 1) * P.ob / P.om
  let rhob := (delta + 1) * P.ob * rhoc P / (P.a * P.a * P.a)
  let pphys := (P.gamma - 1) * (3 / 2) * (rhob * (1 - yHelium) / protonMass * (1 + nHelium)) * kBoltz * temperature P.a
  let p := max (pphys / pstar P * (P.a * P.a * P.a * P.a * P.a)) P.smallp
  ⟨rho, rho * u2 / 2 + p / (P.gamma - 1), rho * u, rho * v, rho * w⟩

/-- L106-243 after the constructor with the header `h` and the result `ob`: the state of every cell. `files` are `ic_deltab`,
`ic_velbx`, `ic_velby` and `ic_velbz`. -/
noncomputable def initFields (flt : List Byte → ℚ) (gamma smallp : ℝ) (h : Header) (ob : ℚ) (swap : Bool) (files : Fin 4 → List Byte)
    (D : Domain 3) (G : Grid 3) (b : Fin 3 → ℕ) : Except Failure (Oct 3 → (Fin 3 → ℕ) → Option (Cons ℝ)) := do
  let (h2, _, swap) ← readHeader flt swap (files 0)
  let n : Fin 3 → ℕ := fun k => toU32 (h2.n k)
  let (a0, swap) ← readArray flt n swap (files 0)
  let (a1, swap) ← readArray flt n swap (files 1)
  let (a2, swap) ← readArray flt n swap (files 2)
  let (a3, _) ← readArray flt n swap (files 3)
  let P : Params := ⟨gamma, smallp, ob, h.om, h.astart, hubble h, h2.n 0, h2.dx⟩
  return fun o x => do
    let delta ← fieldAt h.xo a0 D G b o x
    let vx ← fieldAt h.xo a1 D G b o x
    let vy ← fieldAt h.xo a2 D G b o x
    let vz ← fieldAt h.xo a3 D G b o x
    return state P delta vx vy vz

/-! ### Specification -/

/-- The value of a list of planes at an index: `i 2` is the plane, and `i 0` is the fastest index in it. -/
def planeValue (flt : List Byte → ℚ) (nx : ℕ) (planes : List (List (List Byte))) (i : Fin 3 → ℕ) : ℚ :=
  flt ((planes.getD (i 2) []).getD (i 0 + nx * i 1) [])

/-- Planes of the right sizes. -/
def PlanesOk (n : Fin 3 → ℕ) (planes : List (List (List Byte))) : Prop :=
  planes.length = n 2 ∧ ∀ p ∈ planes, p.length = n 0 * n 1 ∧ ∀ v ∈ p, v.length = 4

/-- Numbers of hydrogen and helium nuclei per volume of a gas of density `rho` with the mass fraction `Y` of helium. -/
noncomputable def nuclei (rho Y : ℝ) : ℝ := rho * (1 - Y) / protonMass + rho * Y / (4002 / 1000 * protonMass)

/-! ### Files -/

/-- **C98** (arrays) The array of a file in either byte order has the values of its planes, `x` being the fastest index and `z` the
slowest, whatever the reader assumed about the byte order. -/
theorem C98_arrays (flt : List Byte → ℚ) (swap big : Bool) {hw : List (List Byte)} (hl : hw.length = 11) (h4 : ∀ w ∈ hw, w.length = 4)
    {n : Fin 3 → ℕ} (hs : n 0 * n 1 * 4 < 2 ^ 31) {planes : List (List (List Byte))} (hp : PlanesOk n planes) :
    ∃ arr, readArray flt n swap (graficFile big hw planes) = .ok (arr, big) ∧
      ∀ i, (∀ k, i k < n k) → arr i = some (planeValue flt (n 0) planes i) := by
  unfold readArray graficFile
  rw [readHeader_file flt swap big hl h4]
  have e := readPlanes_file big hs planes hp.2
  rw [hp.1] at e
  simp only [e]
  refine ⟨_, rfl, fun i hi => ?_⟩
  rw [if_pos hi]
  rfl

/-- **C98** (header) The header of a file in the byte order of the machine is read, whatever the reader assumed about the byte order.
Missing: the other byte order, see `C98_big_endian_fails`. -/
theorem C98_header_partial (flt : List Byte → ℚ) (swap : Bool) {hw : List (List Byte)} (hl : hw.length = 11)
    (h4 : ∀ w ∈ hw, w.length = 4) (planes : List (List (List Byte))) :
    ∃ rest, readHeader flt swap (graficFile false hw planes) = .ok (headerSpec flt hw, rest, false) :=
  ⟨_, readHeader_file flt swap false hl h4 _⟩

theorem intMul_large {a b : ℤ} (h : 2 ^ 31 ≤ a * b) : intMul a b = .error .undefined := by
  unfold intMul
  rw [if_neg (by omega)]

/-- **C98** (disagreement) The bytes of the whole header are reversed for a file in the other byte order, which reverses the order of
the words as well: `nx` gets the bits of `H0`, `ny` those of `ov`, and so on. For positive `H0` and `ov` (the bits of a normal positive
`float` are at least `2^23`) the product `nx*ny` overflows, so that the constructor has undefined behaviour for every such file. -/
theorem C98_big_endian_fails (flt : List Byte → ℚ) (c : Codec ℚ) (ci : Codec ℕ) (b : Fin 3 → ℕ) (swap : Bool) {hw : List (List Byte)}
    (hl : hw.length = 11) (h4 : ∀ w ∈ hw, w.length = 4) (planes : List (List (List Byte))) (m : Values)
    (hH0 : 2 ^ 23 ≤ tagInt (hw.getD 10 [])) (hov : 2 ^ 23 ≤ tagInt (hw.getD 9 [])) :
    (∃ h rest, readHeader flt swap (graficFile true hw planes) = .ok (h, rest, true) ∧ h.n 0 = tagInt (hw.getD 10 []) ∧
      h.n 1 = tagInt (hw.getD 9 []) ∧ h.H0 = flt (hw.getD 0 [])) ∧
    constructFile flt c ci b swap (graficFile true hw planes) m = .error .undefined := by
  match hw, hl with
  | [w0, w1, w2, w3, w4, w5, w6, w7, w8, w9, w10], _ =>
    have e := readHeader_file flt swap true (hw := [w0, w1, w2, w3, w4, w5, w6, w7, w8, w9, w10]) rfl h4
      ((planes.map (record true)).flatten)
    refine ⟨⟨_, _, e, rfl, rfl, rfl⟩, ?_⟩
    unfold constructFile graficFile
    rw [e]
    change 2 ^ 23 ≤ tagInt w10 at hH0
    change 2 ^ 23 ≤ tagInt w9 at hov
    have h1 : cellsOf (headerSpec flt [w10, w9, w8, w7, w6, w5, w4, w3, w2, w1, w0]) = .error .undefined := by
      unfold cellsOf
      change (match intMul (tagInt w10) (tagInt w9) with | .ok p => _ | .error f => _) = _
      rw [intMul_large (by nlinarith)]
    simp only [bind, Except.bind, construct, if_true, List.reverse_cons, List.reverse_nil, List.nil_append, List.cons_append, h1]

/-! ### Cells -/

/-- The quotient at L160-162. -/
theorem quotient (G : Grid 3) (hG : G.Pos) (D : Domain 3) (hD : Domain.Ok D) {b : Fin 3 → ℕ} (hb : ∀ k, 0 < b k) (o : Oct 3)
    (x : Fin 3 → ℕ) (k : Fin 3) :
    (getCellCenter D G ⟨o, x, b, .localToBlock⟩ k - D.xmin k) / getCellSize D G ⟨o, x, b, .localToBlock⟩ k =
      ((o.pos k * b k + x k : ℕ) : ℚ) + 1 / 2 := by
  have h0 : (0 : ℚ) < G.count k o.level := by exact_mod_cast count_pos hG k _
  have h1 : (0 : ℚ) < b k := by exact_mod_cast hb k
  have hL : (0 : ℚ) < D.xmax k - D.xmin k := sub_pos.2 (hD k)
  unfold getCellCenter getCenter getCellSize getSize
  rw [cellCount_eq]
  generalize D.xmax k - D.xmin k = L at *
  push_cast
  have := h0.ne'
  have := h1.ne'
  have := hL.ne'
  field_simp
  ring

theorem index_eq (G : Grid 3) (hG : G.Pos) (D : Domain 3) (hD : Domain.Ok D) {b : Fin 3 → ℕ} (hb : ∀ k, 0 < b k) (o : Oct 3)
    (x : Fin 3 → ℕ) (k : Fin 3) (hlt : o.pos k * b k + x k < 2 ^ 32) :
    index (D.xmin k) D G b o x k = some (o.pos k * b k + x k) := by
  unfold index
  simp only
  rw [quotient G hG D hD hb]
  generalize o.pos k * b k + x k = q at *
  have hq : (q : ℚ) + 1 ≤ 2 ^ 32 := by exact_mod_cast hlt
  have hq0 : (0 : ℚ) ≤ q := Nat.cast_nonneg q
  rw [if_pos ⟨by linarith, by linarith⟩]
  congr 1
  rw [Nat.floor_eq_iff (by linarith)]
  constructor <;> linarith

/-- **C98** (cells) A cell gets the value of the file whose index is the position of the cell in the grid of its level. -/
theorem C98_index {G : Grid 3} (hG : G.Pos) {D : Domain 3} (hD : Domain.Ok D) {b : Fin 3 → ℕ} (hb : ∀ k, 0 < b k) (o : Oct 3)
    (x : Fin 3 → ℕ) (hlt : ∀ k, o.pos k * b k + x k < 2 ^ 32) (arr : (Fin 3 → ℕ) → Option ℚ) :
    fieldAt D.xmin arr D G b o x = arr fun k => o.pos k * b k + x k := by
  unfold fieldAt
  rw [index_eq G hG D hD hb o x 0 (hlt 0), index_eq G hG D hD hb o x 1 (hlt 1), index_eq G hG D hD hb o x 2 (hlt 2)]
  simp only [Option.bind_some]
  congr 1
  funext k
  fin_cases k <;> rfl

theorem coarse_pos {G : Grid 3} {b : Fin 3 → ℕ} {o : Oct 3} (ho : o ∈ coarseMesh G) {x : Fin 3 → ℕ} (hx : ∀ k, x k < b k) (k : Fin 3) :
    o.pos k * b k + x k < G.coarse k * b k := by
  obtain ⟨h1, h2⟩ := (mem_coarseMesh o).1 ho
  have h3 := h1.2 k
  rw [h2] at h3
  unfold Grid.count at h3
  simp only [Nat.sub_self, pow_zero, Nat.mul_one] at h3
  have h4 := hx k
  calc o.pos k * b k + x k < o.pos k * b k + b k := by omega
    _ = (o.pos k + 1) * b k := by ring
    _ ≤ _ := Nat.mul_le_mul_right _ h3

/-! ### Units -/

/-- **C98** (units) The state is the state of the gas in the units of the code, which are the size of the box for lengths, `2 / (H0 √om)`
for times, and the mean density of matter for densities: with the physical density `rhob` of the baryons, the density is
`a^3 rhob / rhostar`, the velocity is `a` times the velocity of the file (in km/s) over the unit of velocity, and the pressure is at least
`a^5` over the unit of pressure times two thirds of the thermal energy for `gamma = 5/3`: `(gamma - 1) 3/2 n k T` with the number `n` of
nuclei. It is greater only if this is less than `smallp`. -/
theorem C98_units {P : Params} (hom : 0 < P.om) (hob : 0 < P.ob) (ha : 0 < P.a) (hH : 0 < P.H0) (hnx : 0 < P.nx) (hdx : 0 < P.dx)
    (hg : P.gamma ≠ 1) {delta vx vy vz : ℝ} (hd : -1 < delta) {rhoc' rstar tstar rhostar rhob : ℝ}
    (hrc : 8 * Real.pi * newtonG * rhoc' = 3 * P.H0 ^ 2) (hrs : rstar = P.nx * (P.dx * megaParsec))
    (hts : tstar * (P.H0 * Real.sqrt P.om) = 2) (hrh : rhostar = rhoc' * P.om) (hr : rhob = (1 + delta) * P.ob * rhoc' / P.a ^ 3) :
    let U := state P delta vx vy vz
    let p := (P.gamma - 1) * (3 / 2) * nuclei rhob (24 / 100) * kBoltz * temperature P.a * P.a ^ 5 / (rhostar * (rstar / tstar) ^ 2)
    U.rho = (1 + delta) * (P.ob / P.om) ∧ U.rho * rhostar = P.a ^ 3 * rhob ∧
      U.ru / U.rho * (rstar / tstar) = P.a * (1000 * vx) ∧ U.rv / U.rho * (rstar / tstar) = P.a * (1000 * vy) ∧
      U.rw / U.rho * (rstar / tstar) = P.a * (1000 * vz) ∧
      pressure 3 P.gamma U = max p P.smallp := by
  have hpi := Real.pi_pos
  have hG : 0 < newtonG := by unfold newtonG; norm_num
  have hc : 0 < rhoc P := by unfold rhoc; positivity
  have hmp : (0 : ℝ) < megaParsec := by unfold megaParsec; norm_num
  have hs := Real.sqrt_pos.2 hom
  have hv : 0 < vstar P := by unfold vstar; positivity
  have hm : 0 < protonMass := by unfold protonMass; norm_num
  have hd1 : 0 < delta + 1 := by linarith
  have hp : 0 < pstar P := by unfold pstar; positivity
  have e0 : (delta + 1) * P.ob / P.om ≠ 0 := by positivity
  have ec : rhoc' = rhoc P := by
    unfold rhoc
    rw [eq_div_iff (by positivity)]
    linarith
  have ets : tstar = 2 / P.H0 / Real.sqrt P.om := by
    rw [div_div, eq_div_iff (by positivity)]
    exact hts
  have ev : rstar / tstar = vstar P := by
    rw [hrs, ets]
    unfold vstar
    ring
  have ep : rhostar * (rstar / tstar) ^ 2 = pstar P := by
    rw [ev, hrh, ec]
    unfold pstar
    ring
  rw [ep, ev, hrh]
  rw [ec] at hr ⊢
  subst hr
  intro U p
  refine ⟨?_, ?_, ?_, ?_, ?_, ?_⟩
  · simp only [U, state]; ring
  · simp only [U, state]; field_simp; ring
  · simp only [U, state]; field_simp
  · simp only [U, state]; field_simp
  · simp only [U, state]; field_simp
  · have hg1 : P.gamma - 1 ≠ 0 := sub_ne_zero.2 hg
    have en : ∀ r : ℝ, r * (1 - yHelium) / protonMass * (1 + nHelium) = nuclei r (24 / 100) := by
      intro r
      unfold nuclei nHelium yHelium
      have : (1 : ℝ) - 24 / 100 ≠ 0 := by norm_num
      field_simp
    have ek : ∀ (r u v w q : ℝ), r ≠ 0 →
        pressure 3 P.gamma ⟨r, r * (u * u + v * v + w * w) / 2 + q / (P.gamma - 1), r * u, r * v, r * w⟩ = q := by
      intro r u v w q hr
      unfold pressure kinetic
      simp only [if_true]
      field_simp
      ring
    simp only [U, state]
    rw [ek _ _ _ _ _ e0, en]
    congr 1
    simp only [p]
    rw [show (delta + 1) * P.ob * rhoc P / (P.a * P.a * P.a) = (1 + delta) * P.ob * rhoc P / P.a ^ 3 by ring]
    ring

/-- **C98** (disagreement) The gas is cold matter that has cooled adiabatically, `T ~ (1+z)^2`, where 151 is `1+z` for `z = 150`; but the
square is of `z` and not of `1+z`: no multiple of `(1+z)^2` agrees with the temperature of the code, which is 0 today. -/
theorem C98_temperature_fails : temperature 1 = 0 ∧ ¬ ∃ K : ℝ, ∀ a, 0 < a → a ≤ 1 → temperature a = K * (1 / a) ^ 2 := by
  have h1 : temperature 1 = 0 := by unfold temperature; norm_num
  refine ⟨h1, ?_⟩
  rintro ⟨K, h⟩
  have h2 := h 1 (by norm_num) (by norm_num)
  have h3 := h (1 / 2) (by norm_num) (by norm_num)
  rw [h1] at h2
  have : K = 0 := by linarith [h2]
  rw [this] at h3
  unfold temperature at h3
  norm_num at h3

end Verif.Init.Grafic
