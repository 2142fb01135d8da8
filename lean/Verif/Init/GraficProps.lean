import Verif.Init.GraficFields
import Verif.Particles.Init

/-!
# C98: cosmological initial conditions from GRAFIC files, properties of the whole
-/

namespace Verif.Init.Grafic

open Verif.Io Verif.Config Verif.Octree Verif.Cells Verif.Restart Verif.Flux Verif.Hydro Verif.Particles.Init

/-! ### Model -/

/-- `InitialConditions_particle_grid.cpp` L53-59, L96, L100: the total mass of the particles. The other default (L97) is not modelled. -/
def particleMass (c : Codec ℚ) (m : Values) : Except Failure (ℚ × Values) :=
  if hasValue m "cosmology".toList "astart".toList then
    match getValue c m "cosmology".toList "astart".toList with
    | none => .error .rejected
    | some (_, m1) =>
      match getValue c m1 "cosmology".toList "omegam".toList with
      | none => .error .rejected
      | some (om, m2) =>
        match getValue c m2 "cosmology".toList "omegab".toList with
        | none => .error .rejected
        | some (ob, m3) =>
          match getValue c m3 "cosmology".toList "omegav".toList with
          | none => .error .rejected
          | some (_, m4) => getOr c m4 "particle_grid".toList "total_mass".toList (1 - ob / om)
  else getOr c m "particle_grid".toList "total_mass".toList 1

/-! ### Configuration -/

theorem reads_unique {T : Type} {c : Codec T} {m : Values} {sec name : String} {v w : T} (hv : Reads c m sec name v)
    (hw : Reads c m sec name w) : v = w := by
  unfold Reads at hv hw
  rw [hv] at hw
  exact Option.some.inj hw

/-- **C98** (configuration) If the constructor returns, the configuration has the values of the file: the number of octants, the corner
of the domain, the start of the expansion and the cosmological parameters. What was in the configuration before is unchanged, so it was
the same or was not given. The thresholds of `RefineCondition_mass` are the factors of the configuration (0.1 and 1 if they are not
given) times the mean mass of a cell, for the total mass 1. Missing: grids of `2^31` cells or more, see `C98_large_fails`. -/
theorem C98_config_partial {c : Codec ℚ} {ci : Codec ℕ} {b : Fin 3 → ℕ} {h : Header} {m m' : Values} (hm : Normal m) {ob : ℚ}
    (e : construct c ci b h m = .ok (ob, m')) :
    (∀ sec name : String, ∀ v : ℚ, Reads c m sec name v → Reads c m' sec name v) ∧
    (∃ fc fr : ℚ, Reads c m' "cosmology" "mass_coarsen_factor" fc ∧ Reads c m' "cosmology" "mass_refine_factor" fr ∧
      (hasValue m "cosmology".toList "mass_coarsen_factor".toList = false → fc = 1 / 10) ∧
      (hasValue m "cosmology".toList "mass_refine_factor".toList = false → fr = 1) ∧
      ∃ tc tr : ℚ, Reads c m' "amr" "mass_coarsen" tc ∧ Reads c m' "amr" "mass_refine" tr ∧
        tc * (h.n 0 * h.n 1 * h.n 2) = fc ∧ tr * (h.n 0 * h.n 1 * h.n 2) = fr) ∧
    (Reads c m' "mesh" "xmin" (h.xo 0) ∧ Reads c m' "mesh" "ymin" (h.xo 1) ∧ Reads c m' "mesh" "zmin" (h.xo 2)) ∧
    Reads c m' "cosmology" "astart" h.astart ∧ Reads c m' "cosmology" "omegam" h.om ∧ Reads c m' "cosmology" "omegav" h.ov ∧
    Reads c m' "cosmology" "H0" (h.H0 * 1000 / megaParsec) ∧ Reads c m' "cosmology" "dx" (h.dx * megaParsec) := by
  obtain ⟨⟨h0, -⟩, -, g, ⟨fc, fr, r1, r2, d1, d2, r3, r4⟩, -, r6, ⟨r7, r8, r9⟩, -, r10, r11⟩ := construct_ok hm e
  have h0' : ((h.n 0 : ℚ) * h.n 1 * h.n 2) ≠ 0 := by exact_mod_cast h0
  have hno : ∀ s n : Str, hasValue m s n = false → m.get? (lower s) (lower n) = none := by
    intro s n hh
    unfold hasValue at hh
    simpa using hh
  refine ⟨fun sec name v hr => g.reads hm hr, ⟨fc, fr, r1, r2, fun hh => d1 (hno _ _ hh), fun hh => d2 (hno _ _ hh), _, _, r3, r4,
    ?_, ?_⟩, r6, r7, r8, r9, r10, r11⟩
  · push_cast
    rw [one_div, mul_comm, ← mul_assoc, mul_inv_cancel₀ h0', one_mul]
  · push_cast
    rw [one_div, mul_comm, ← mul_assoc, mul_inv_cancel₀ h0', one_mul]

/-- **C98** (disagreement) The number of cells is a product of 32-bit numbers: for `2^31` cells or more (2048 in each direction) the
constructor has undefined behaviour, whatever the configuration. -/
theorem C98_large_fails (c : Codec ℚ) (ci : Codec ℕ) (b : Fin 3 → ℕ) {h : Header} (hn : 2 ^ 31 ≤ h.n 0 * h.n 1 * h.n 2) (m : Values) :
    construct c ci b h m = .error .undefined := by
  have e : cellsOf h = .error .undefined := by
    unfold cellsOf
    split
    · rename_i p hp
      obtain ⟨rfl, -⟩ := intMul_ok hp
      exact intMul_large hn
    · rename_i f hf
      unfold intMul at hf
      split at hf
      · cases hf
      · cases hf; rfl
  unfold construct
  rw [e]
  rfl

/-- Names of keys are compared without the case of the letters. -/
theorem aStart_key : SameKey "cosmology".toList "aStart".toList "cosmology".toList "astart".toList := by decide

theorem omega_keys : ∀ q ∈ keys, ¬ SameKey q.1 q.2 "cosmology".toList "omega_m".toList ∧
    ¬ SameKey q.1 q.2 "cosmology".toList "omega_v".toList := by decide

/-- **C98** (expansion) `CosmoManager` (`Cosmo.h` L92-99), constructed after the initial conditions (`DyabloTimeLoop.h` L277), starts at the
expansion factor of the file: the names of the keys differ in the case of one letter only. -/
theorem C98_start {c : Codec ℚ} {ci : Codec ℕ} {b : Fin 3 → ℕ} {h : Header} {m m' : Values} (hm : Normal m) {ob : ℚ}
    (e : construct c ci b h m = .ok (ob, m')) {t : ℚ} {m'' : Values}
    (ha : getValueDefault c m' "cosmology".toList "aStart".toList (1 / 100) = some (t, m'')) : t = h.astart := by
  obtain ⟨-, -, g, -, -, -, ⟨r7, -⟩, -⟩ := construct_ok hm e
  obtain ⟨v, h1, h2⟩ := (reads_iff g.normal).1 r7
  obtain ⟨-, w, w1, w2, -⟩ := getValueDefault_result g.normal ha
  have hk := aStart_key
  unfold SameKey at hk
  rw [hk.2, h1] at w2
  rcases w2 with w2 | ⟨w2, -⟩
  · cases w2
    rw [h2] at w1
    exact (Option.some.inj w1).symm
  · cases w2

/-- **C98** (disagreement) The matter and the vacuum of `CosmoManager` are those of the keys `omega_m` and `omega_v`, where the initial
conditions write `omegam` and `omegav`: if the former are not given, the expansion is that of 0.3 and 0.7 for every file. -/
theorem C98_omega_fails {c : Codec ℚ} {ci : Codec ℕ} {b : Fin 3 → ℕ} {h : Header} {m m' : Values} (hm : Normal m) {ob : ℚ}
    (e : construct c ci b h m = .ok (ob, m')) (h1 : hasValue m "cosmology".toList "omega_m".toList = false)
    (h2 : hasValue m "cosmology".toList "omega_v".toList = false) {om ov : ℚ} {m1 m2 : Values}
    (e1 : getValueDefault c m' "cosmology".toList "omega_m".toList (3 / 10) = some (om, m1))
    (e2 : getValueDefault c m1 "cosmology".toList "omega_v".toList (7 / 10) = some (ov, m2)) : om = 3 / 10 ∧ ov = 7 / 10 := by
  obtain ⟨-, -, g, -⟩ := construct_ok hm e
  have hno : ∀ s n : Str, hasValue m s n = false → m.get? (lower s) (lower n) = none := by
    intro s n hh
    unfold hasValue at hh
    simpa using hh
  have n1 := g.only _ _ (fun q hq => (omega_keys q hq).1) (hno _ _ h1)
  have n2 := g.only _ _ (fun q hq => (omega_keys q hq).2) (hno _ _ h2)
  obtain ⟨hN, w, -, w2, w3⟩ := getValueDefault_result g.normal e1
  obtain ⟨-, z, -, z2, -⟩ := getValueDefault_result hN e2
  rw [n1] at w2
  rw [w3, if_neg (by decide), n2] at z2
  refine ⟨?_, ?_⟩
  · rcases w2 with w2 | w2
    · cases w2
    · exact w2.2.1
  · rcases z2 with z2 | z2
    · cases z2
    · exact z2.2.1

/-! ### Fields -/

/-- The grid and the domain are those of the configuration. -/
structure Configured (c : Codec ℚ) (ci : Codec ℕ) (m : Values) (G : Grid 3) (D : Domain 3) : Prop where
  normal : Normal m
  nx : Reads ci m "amr" "coarse_oct_resolution_x" (G.coarse 0)
  ny : Reads ci m "amr" "coarse_oct_resolution_y" (G.coarse 1)
  nz : Reads ci m "amr" "coarse_oct_resolution_z" (G.coarse 2)
  x : Reads c m "mesh" "xmin" (D.xmin 0)
  y : Reads c m "mesh" "ymin" (D.xmin 1)
  z : Reads c m "mesh" "zmin" (D.xmin 2)

theorem toU32_nat {n : ℕ} (h : n < 2 ^ 32) : toU32 n = n := by
  unfold toU32
  omega

theorem factor_lt {a b c N : ℕ} (h0 : a * b * c ≠ 0) (h : a * b * c < N) : a < N ∧ b < N ∧ c < N := by
  have ha : 0 < a := Nat.pos_of_ne_zero fun e => h0 (by rw [e]; simp)
  have hb : 0 < b := Nat.pos_of_ne_zero fun e => h0 (by rw [e]; simp)
  have hc : 0 < c := Nat.pos_of_ne_zero fun e => h0 (by rw [e]; simp)
  refine ⟨lt_of_le_of_lt ?_ h, lt_of_le_of_lt ?_ h, lt_of_le_of_lt ?_ h⟩
  · rw [Nat.mul_assoc]; exact Nat.le_mul_of_pos_right _ (Nat.mul_pos hb hc)
  · rw [Nat.mul_comm a b, Nat.mul_assoc]; exact Nat.le_mul_of_pos_right _ (Nat.mul_pos ha hc)
  · exact Nat.le_mul_of_pos_left _ (Nat.mul_pos ha hb)

/-- The constructor accepts only files that fit to the mesh. -/
theorem construct_fits {c : Codec ℚ} {ci : Codec ℕ} {b : Fin 3 → ℕ} {h : Header} {m m' : Values} {G : Grid 3} {D : Domain 3}
    (hc : Configured c ci m G D) {ob : ℚ} (e : construct c ci b h m = .ok (ob, m')) {n : Fin 3 → ℕ} (hn : ∀ k, h.n k = n k) :
    (∀ k, n k = G.coarse k * b k) ∧ (∀ k, n k < 2 ^ 31) ∧ h.xo = D.xmin ∧ n 0 * n 1 * n 2 < 2 ^ 31 := by
  obtain ⟨⟨h0, h1⟩, hmod, g, -, ⟨r1, r2, r3⟩, ⟨r4, r5, r6⟩, -⟩ := construct_ok hc.normal e
  rw [hn 0, hn 1, hn 2] at h0 h1
  have h0' : n 0 * n 1 * n 2 ≠ 0 := by exact_mod_cast h0
  have h1' : n 0 * n 1 * n 2 < 2 ^ 31 := by exact_mod_cast h1
  obtain ⟨a1, a2, a3⟩ := factor_lt h0' h1'
  have hlt : ∀ k, n k < 2 ^ 31 := by intro k; fin_cases k <;> assumption
  have hu : ∀ k, toU32 (h.n k) = n k := fun k => by rw [hn k]; exact toU32_nat (by have := hlt k; omega)
  have q1 := reads_unique r1 (g.reads hc.normal hc.nx)
  have q2 := reads_unique r2 (g.reads hc.normal hc.ny)
  have q3 := reads_unique r3 (g.reads hc.normal hc.nz)
  have q4 := reads_unique r4 (g.reads hc.normal hc.x)
  have q5 := reads_unique r5 (g.reads hc.normal hc.y)
  have q6 := reads_unique r6 (g.reads hc.normal hc.z)
  rw [hu] at q1 q2 q3
  have hk : ∀ k, n k / b k = G.coarse k := by intro k; fin_cases k <;> assumption
  refine ⟨fun k => ?_, hlt, ?_, h1'⟩
  · have := hmod k
    rw [hu k] at this
    have h3 := Nat.div_add_mod (n k) (b k)
    rw [this, hk k, Nat.add_zero, Nat.mul_comm] at h3
    exact h3.symm
  · funext k; fin_cases k <;> assumption

/-- **C98** (fields) If the constructor accepts the files then every cell of the mesh at the start gets the state of the values of the
four files at its position in the grid of the cells. Missing: files in the other byte order (see `C98_big_endian_fails`) and planes of
`2^31` bytes or more. -/
theorem C98_fields_partial (flt : List Byte → ℚ) {c : Codec ℚ} {ci : Codec ℕ} {b : Fin 3 → ℕ} (hb : ∀ k, 0 < b k) {m m' : Values}
    {G : Grid 3} (hG : G.Pos) {D : Domain 3} (hD : Domain.Ok D) (hc : Configured c ci m G D) {hws : Fin 4 → List (List Byte)}
    (hl : ∀ f, (hws f).length = 11) (h4 : ∀ f, ∀ w ∈ hws f, w.length = 4) {n : Fin 3 → ℕ}
    (hn : ∀ k, (headerSpec flt (hws 0)).n k = n k) {planes : Fin 4 → List (List (List Byte))} (hp : ∀ f, PlanesOk n (planes f))
    (hs : n 0 * n 1 * 4 < 2 ^ 31) (gamma smallp : ℝ) (swap swap2 : Bool) {h : Header} {ob : ℚ}
    (e : constructFile flt c ci b swap (graficFile false (hws 0) (planes 0)) m = .ok (h, ob, m')) :
    h = headerSpec flt (hws 0) ∧
    ∃ U, initFields flt gamma smallp h ob swap2 (fun f => graficFile false (hws f) (planes f)) D G b = .ok U ∧
      ∀ o ∈ coarseMesh G, ∀ x : Fin 3 → ℕ, (∀ k, x k < b k) →
        let v : Fin 4 → ℚ := fun f => planeValue flt (n 0) (planes f) fun k => o.pos k * b k + x k
        U o x = some (state ⟨gamma, smallp, ob, h.om, h.astart, hubble h, n 0, h.dx⟩ (v 0) (v 1) (v 2) (v 3)) := by
  have er := fun sw => readHeader_file flt sw false (hl 0) (h4 0) (((planes 0).map (record false)).flatten)
  unfold constructFile at e
  unfold graficFile at e
  rw [er] at e
  simp only [bind, Except.bind, pure, Except.pure, Bool.false_eq_true, if_false] at e
  split at e
  · cases e
  rename_i r hr
  simp only [Except.ok.injEq, Prod.mk.injEq] at e
  obtain ⟨rfl, rfl⟩ := e
  refine ⟨rfl, ?_⟩
  obtain ⟨f1, f2, f3, -⟩ := construct_fits hc hr hn
  have hu : (fun k => toU32 ((headerSpec flt (hws 0)).n k)) = n := by
    funext k
    rw [hn k]
    exact toU32_nat (by have := f2 k; omega)
  obtain ⟨a0, e0, v0⟩ := C98_arrays flt false false (hl 0) (h4 0) hs (hp 0)
  obtain ⟨a1, e1, v1⟩ := C98_arrays flt false false (hl 1) (h4 1) hs (hp 1)
  obtain ⟨a2, e2, v2⟩ := C98_arrays flt false false (hl 2) (h4 2) hs (hp 2)
  obtain ⟨a3, e3, v3⟩ := C98_arrays flt false false (hl 3) (h4 3) hs (hp 3)
  have er2 : readHeader flt swap2 (graficFile false (hws 0) (planes 0)) = _ := er swap2
  unfold initFields
  rw [er2]
  simp only [bind, Except.bind, pure, Except.pure, Bool.false_eq_true, if_false, hu, e0, e1, e2, e3]
  refine ⟨_, rfl, fun o ho x hx => ?_⟩
  have hi : ∀ k, o.pos k * b k + x k < n k := fun k => by rw [f1 k]; exact coarse_pos ho hx k
  have h32 : ∀ k, o.pos k * b k + x k < 2 ^ 32 := fun k => by have := hi k; have := f2 k; omega
  simp only [f3]
  rw [C98_index hG hD hb o x h32, C98_index hG hD hb o x h32, C98_index hG hD hb o x h32, C98_index hG hD hb o x h32,
    v0 _ hi, v1 _ hi, v2 _ hi, v3 _ hi]
  simp only [Option.bind_some, hn 0]
  norm_num

/-! ### Mass -/

theorem cellMesh_coarse (G : Grid 3) {b : Fin 3 → ℕ} (hb : ∀ k, 0 < b k) : cellMesh b (coarseMesh G) = coarseMesh (cellGrid G b) := by
  ext q
  rw [mem_cellMesh, mem_coarseMesh]
  constructor
  · rintro ⟨o, ho, x, hx, rfl⟩
    obtain ⟨h1, h2⟩ := (mem_coarseMesh o).1 ho
    exact ⟨cell_valid h1 hx, h2⟩
  · rintro ⟨⟨-, h2⟩, h3⟩
    refine ⟨⟨q.level, fun k => q.pos k / b k⟩, (mem_coarseMesh _).2 ⟨⟨?_, fun k => ?_⟩, h3⟩, fun k => q.pos k % b k,
      fun k => Nat.mod_lt _ (hb k), ?_⟩
    · exact le_of_eq h3.symm
    · have := h2 k
      rw [count_cell] at this
      exact (Nat.div_lt_iff_lt_mul (hb k)).2 this
    · obtain ⟨l, p⟩ := q
      unfold cellOct
      simp only [Oct.mk.injEq, true_and]
      funext k
      exact Nat.div_add_mod' _ _

/-- The cells of the coarse grid are numbered by their positions. -/
theorem cellSum_coarse (G : Grid 3) {b : Fin 3 → ℕ} (hb : ∀ k, 0 < b k) (f : (Fin 3 → ℕ) → ℝ) :
    cellSum b (coarseMesh G) (fun o x => f fun k => o.pos k * b k + x k) =
      ∑ i ∈ Fintype.piFinset fun k => Finset.range (G.coarse k * b k), f i := by
  have h := cellSum_box (M := coarseMesh G) b (fun q : Oct 3 => f q.pos)
  rw [cellMesh_coarse G hb] at h
  refine Eq.trans ?_ (h.trans ?_)
  · rfl
  · unfold coarseMesh cellGrid
    rw [Finset.sum_image]
    intro p _ q _ hpq
    exact congrArg Oct.pos hpq

theorem volume_coarse {G : Grid 3} {b : Fin 3 → ℕ} {D : Domain 3} {o : Oct 3} (ho : o ∈ coarseMesh G) (x : Fin 3 → ℕ) :
    volume D (cellGrid G b) (cellOct b o x) = (∏ k, (D.xmax k - D.xmin k)) / ∏ k, ((G.coarse k * b k : ℕ) : ℚ) := by
  have hl := ((mem_coarseMesh o).1 ho).2
  unfold volume cellSize lo hi
  rw [← Finset.prod_div_distrib]
  refine Finset.prod_congr rfl fun k _ => ?_
  have hcnt : (cellGrid G b).count k (cellOct b o x).level = G.coarse k * b k := by
    rw [count_cell]
    unfold Grid.count cellOct
    simp only [hl, Nat.sub_self, pow_zero, Nat.mul_one]
  rw [hcnt]
  ring

/-- **C98** (mass) The mass of the gas is the part of the baryons of the volume of the domain, times one plus the mean of the
contrast of the file. -/
theorem C98_mass {G : Grid 3} (hG : G.Pos) {b : Fin 3 → ℕ} (hb : ∀ k, 0 < b k) (D : Domain 3) (P : Params) (delta : (Fin 3 → ℕ) → ℚ)
    (vel : Fin 3 → (Fin 3 → ℕ) → ℝ) {U : Oct 3 → (Fin 3 → ℕ) → Cons ℝ}
    (hU : ∀ o ∈ coarseMesh G, ∀ x : Fin 3 → ℕ, (∀ k, x k < b k) →
      let i : Fin 3 → ℕ := fun k => o.pos k * b k + x k
      U o x = state P (delta i) (vel 0 i) (vel 1 i) (vel 2 i)) :
    cellSum b (coarseMesh G) (fun o x => (U o x).rho * (volume D (cellGrid G b) (cellOct b o x) : ℝ)) =
      P.ob / P.om * (∏ k, (D.xmax k - D.xmin k) : ℚ) *
        (1 + ((∑ i ∈ Fintype.piFinset fun k => Finset.range (G.coarse k * b k), delta i : ℚ) : ℝ) /
          (∏ k, ((G.coarse k * b k : ℕ) : ℝ))) := by
  set V : ℚ := ∏ k, (D.xmax k - D.xmin k) with hV
  set N : ℝ := ∏ k, ((G.coarse k * b k : ℕ) : ℝ) with hN
  have hN0 : N ≠ 0 := by
    rw [hN]
    refine (Finset.prod_pos fun k _ => ?_).ne'
    exact_mod_cast Nat.mul_pos (hG.pos k) (hb k)
  have e1 : cellSum b (coarseMesh G) (fun o x => (U o x).rho * (volume D (cellGrid G b) (cellOct b o x) : ℝ)) =
      cellSum b (coarseMesh G) (fun o x => (fun i => P.ob / P.om * V / N * ((delta i : ℝ) + 1)) fun k => o.pos k * b k + x k) := by
    refine cellSum_congr fun o ho x hx => ?_
    rw [hU o ho x hx, volume_coarse ho]
    simp only [state]
    rw [← hV]
    push_cast
    rw [show (∏ k, ((G.coarse k : ℝ) * (b k : ℝ))) = N by rw [hN]; push_cast; rfl]
    ring
  rw [e1, cellSum_coarse G hb (fun i => P.ob / P.om * V / N * ((delta i : ℝ) + 1)), ← Finset.mul_sum, Finset.sum_add_distrib]
  have e2 : (∑ _i ∈ Fintype.piFinset fun k => Finset.range (G.coarse k * b k), (1 : ℝ)) = N := by
    rw [Finset.sum_const, Fintype.card_piFinset, nsmul_eq_mul, mul_one, hN]
    simp
  rw [e2]
  push_cast
  field_simp
  ring

theorem getValue_grows {T : Type} {c : Codec T} {m m' : Values} (hm : Normal m) {sec name : String} {t : T}
    (e : getValue c m sec.toList name.toList = some (t, m')) : Grows [(sec.toList, name.toList)] m m' ∧ Reads c m sec name t := by
  obtain ⟨v, h1, h2, h3, h4⟩ := getValue_result hm e
  refine ⟨grows_of h3 (fun e he => ?_) h4, (reads_iff hm).2 ⟨v, h1, h2⟩⟩
  rw [h1] at he
  exact (Option.some.inj he).symm

theorem total_key : ∀ q ∈ keys, ¬ SameKey q.1 q.2 "particle_grid".toList "total_mass".toList := by decide

/-- The total mass of the particles after the constructor, if it is not given in the configuration. -/
theorem particleMass_grafic {c : Codec ℚ} {ci : Codec ℕ} {b : Fin 3 → ℕ} {h : Header} {m m' : Values} (hm : Normal m) {ob : ℚ}
    (e : construct c ci b h m = .ok (ob, m')) (hno : hasValue m "particle_grid".toList "total_mass".toList = false)
    {total : ℚ} {m'' : Values} (ep : particleMass c m' = .ok (total, m'')) : total = 1 - ob / h.om := by
  obtain ⟨-, -, g, -, -, -, ⟨r7, r8, -⟩, ⟨r9, -⟩, -⟩ := construct_ok hm e
  have hn : m.get? (lower "particle_grid".toList) (lower "total_mass".toList) = none := by
    unfold hasValue at hno
    simpa using hno
  have n0 := g.only _ _ total_key hn
  have hhas : hasValue m' "cosmology".toList "astart".toList = true := by
    obtain ⟨v, hv, -⟩ := (reads_iff g.normal).1 r7
    unfold hasValue
    rw [hv]; rfl
  unfold particleMass at ep
  rw [if_pos hhas] at ep
  split at ep
  · cases ep
  rename_i a m1 e1
  split at ep
  · cases ep
  rename_i om m2 e2
  split at ep
  · cases ep
  rename_i ob' m3 e3
  split at ep
  · cases ep
  rename_i ov m4 e4
  obtain ⟨g1, -⟩ := getValue_grows g.normal e1
  obtain ⟨g2, q2⟩ := getValue_grows g1.normal e2
  obtain ⟨g3, q3⟩ := getValue_grows g2.normal e3
  obtain ⟨g4, -⟩ := getValue_grows g3.normal e4
  have w1 := reads_unique q2 (g1.reads g.normal r8)
  have w2 := reads_unique q3 ((g1.trans g2).reads g.normal r9)
  have n1 := (g1.trans (g2.trans (g3.trans g4))).only _ _ (by decide) n0
  obtain ⟨-, -, d⟩ := getOr_ok g4.normal ep
  rcases d with d | d
  · obtain ⟨v, hv, -⟩ := (reads_iff g4.normal).1 d
    rw [n1] at hv; cases hv
  · rw [d.2, w1, w2]

/-- **C98** (total mass) If the domain has the volume 1 and the mean of the contrast is 0, the gas and the particles of `particle_grid`
(with the default total mass, less than `2^32` sites) have the mass 1 together. Missing: other domains. Nothing requires the volume 1;
see `C98_volume_fails`. -/
theorem C98_total_mass_partial {c : Codec ℚ} {ci : Codec ℕ} {b : Fin 3 → ℕ} (hb : ∀ k, 0 < b k) {h : Header} {m m' : Values}
    (hm : Normal m) {ob : ℚ} (e : construct c ci b h m = .ok (ob, m'))
    (hno : hasValue m "particle_grid".toList "total_mass".toList = false) {total : ℚ} {m'' : Values}
    (ep : particleMass c m' = .ok (total, m'')) {G : Grid 3} (hG : G.WF) {D : Domain 3} (hD : Domain.Ok D)
    (hvol : ∏ k, (D.xmax k - D.xmin k) = 1) (gamma smallp nx : ℝ) (delta : (Fin 3 → ℕ) → ℚ)
    (hdelta : ∑ i ∈ Fintype.piFinset fun k => Finset.range (G.coarse k * b k), delta i = 0) (vel : Fin 3 → (Fin 3 → ℕ) → ℝ)
    {U : Oct 3 → (Fin 3 → ℕ) → Cons ℝ}
    (hU : ∀ o ∈ coarseMesh G, ∀ x : Fin 3 → ℕ, (∀ k, x k < b k) →
      let i : Fin 3 → ℕ := fun k => o.pos k * b k + x k
      U o x = state ⟨gamma, smallp, ob, h.om, h.astart, hubble h, nx, h.dx⟩ (delta i) (vel 0 i) (vel 1 i) (vel 2 i))
    (rho : Oct 3 → (Fin 3 → ℕ) → ℚ) (mom : Fin 3 → Oct 3 → (Fin 3 → ℕ) → ℚ) {n : Fin 3 → ℕ} (hn0 : ∀ k, 0 < n k)
    (hn : n 0 * n 1 * n 2 < 2 ^ 32) {ranks : ℕ} (hP : 0 < ranks) (dtp : ℚ) :
    ∃ gs : List Grain, (List.range ranks).flatMap
        (rankGrains D G (coarseMesh G) G.lmin G.lmin b rho mom n total dtp ranks) = gs.map some ∧
      cellSum b (coarseMesh G) (fun o x => (U o x).rho * (volume D (cellGrid G b) (cellOct b o x) : ℝ)) +
        ((gs.map Grain.mass).sum : ℚ) = 1 := by
  obtain ⟨gs, h1, -, h3⟩ := C65_mass_partial hG (coarseMesh_tiling hG) hD G.lmin G.lmin
    (fun o ho => by rw [((mem_coarseMesh o).1 ho).2]; exact ⟨le_refl _, le_refl _⟩) hb rho mom hn0 hn hP total dtp
  refine ⟨gs, h1, ?_⟩
  rw [C98_mass hG.toPos hb D _ delta vel hU, h3, hvol, hdelta, particleMass_grafic hm e hno ep]
  push_cast
  ring

/-- **C98** (disagreement) In a domain of another volume than 1 (`mesh/xmax` is not checked) the mean density of gas and particles is not
that of the universe, 1 in the units of the code: the mass of the gas is proportional to the volume and that of the particles is not. -/
theorem C98_volume_fails {c : Codec ℚ} {ci : Codec ℕ} {b : Fin 3 → ℕ} (hb : ∀ k, 0 < b k) {h : Header} {m m' : Values}
    (hm : Normal m) {ob : ℚ} (e : construct c ci b h m = .ok (ob, m'))
    (hno : hasValue m "particle_grid".toList "total_mass".toList = false) {total : ℚ} {m'' : Values}
    (ep : particleMass c m' = .ok (total, m'')) (hom : h.om ≠ 0) (hob : ob ≠ h.om) {G : Grid 3} (hG : G.Pos) {D : Domain 3}
    (hvol : ∏ k, (D.xmax k - D.xmin k) ≠ 1) (gamma smallp nx : ℝ) (delta : (Fin 3 → ℕ) → ℚ)
    (hdelta : ∑ i ∈ Fintype.piFinset fun k => Finset.range (G.coarse k * b k), delta i = 0) (vel : Fin 3 → (Fin 3 → ℕ) → ℝ)
    {U : Oct 3 → (Fin 3 → ℕ) → Cons ℝ}
    (hU : ∀ o ∈ coarseMesh G, ∀ x : Fin 3 → ℕ, (∀ k, x k < b k) →
      let i : Fin 3 → ℕ := fun k => o.pos k * b k + x k
      U o x = state ⟨gamma, smallp, ob, h.om, h.astart, hubble h, nx, h.dx⟩ (delta i) (vel 0 i) (vel 1 i) (vel 2 i)) :
    cellSum b (coarseMesh G) (fun o x => (U o x).rho * (volume D (cellGrid G b) (cellOct b o x) : ℝ)) + (total : ℝ) ≠
      ((∏ k, (D.xmax k - D.xmin k) : ℚ) : ℝ) := by
  rw [C98_mass hG hb D _ delta vel hU, hdelta, particleMass_grafic hm e hno ep]
  set V : ℚ := ∏ k, (D.xmax k - D.xmin k) with hV
  intro hc
  have h2 : ob / h.om * V + (1 - ob / h.om) = V := by
    have : ((ob / h.om * V + (1 - ob / h.om) : ℚ) : ℝ) = (V : ℝ) := by
      rw [← hc]
      push_cast
      ring
    exact_mod_cast this
  have h3 : (1 - ob / h.om) * (1 - V) = 0 := by linarith
  rcases mul_eq_zero.1 h3 with h3 | h3
  · have h4 : ob / h.om = 1 := by linarith
    rw [div_eq_one_iff_eq hom] at h4
    exact hob h4
  · exact hvol (by linarith)

end Verif.Init.Grafic
