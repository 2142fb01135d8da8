import Verif.Legacy.MarkProps
import Verif.TimeLoop.Dt

/-!
# C96: the older time step

Model of `Compute_dt_legacy` (`core/src/compute_dt/Compute_dt_legacy.cpp`) with `ComputeDtHydroFunctor`
(`core/src/legacy/ComputeDtHydroFunctor.h`). The reductions and the minimum over the ranks are those of
`Verif.TimeLoop.Dt`; the neutral element is another. Arithmetic is exact.
-/

namespace Verif.Legacy

open Verif.Octree Verif.Cells Verif.Run Verif.Dt Verif.Adapt
open Verif.Sim (Own SameCells)

noncomputable section

variable {d N Q : ℕ}

/-! ### Model -/

/-- `ComputeDtHydroFunctor.h` L127-129 and L141-145: the size of a cell; `Ld` is the size of the domain. -/
def cellSize (P : Par d) (Ld : Fin d → ℝ) (o : Oct d) (k : Fin d) : ℝ := ((getSize P.G o k : ℚ) : ℝ) * Ld k / P.b k

/-- L150-165 and `utils_hydro.h` L17-48: what a cell adds to the maximum. In 2D the third term is 0 divided by `dz`;
here `dz` is not 0. -/
def cellRate (P : Par d) (rp : Hydro.Params) (Ld : Fin d → ℝ) (g : Mesh d) (c : Oct d × (Fin d → ℕ)) : ℝ :=
  let q := toPrim rp fun v => g c.1 c.2 v.var
  let cs := √(rp.gamma * q .e / q .rho)
  ∑ k, (cs + |q (.mom k)|) / cellSize P Ld c.1 k

/-- `Compute_dt_legacy.cpp` L22-42 on all ranks. `tiny` is `std::numeric_limits<real_t>::min()`, the start of every
thread (`ComputeDtHydroFunctor.h` L101-112); `red r` says how the threads of rank `r` share its cells. -/
def legacyDt [NeZero N] (P : Par d) (rp : Hydro.Params) (Ld : Fin d → ℝ) (tiny cfl : ℝ) (U : Fin N → Mesh d)
    (red : Fin N → Red (Oct d × (Fin d → ℕ))) : Option (WithTop ℝ) :=
  ((List.finRange N).mapM fun r => localDt tiny cfl (fun c => some (cellRate P rp Ld (U r) c)) (red r)).map fun l =>
    l.foldl min ⊤

/-! ### Specification -/

/-- The sound speed plus the speed along every direction, over the size of the cell, from the values with the floors of
the solver: density at least `smallr`, squared sound speed at least `gamma * smallp`. -/
def courantRate (rp : Hydro.Params) (size : Fin d → ℝ) (u : Cell d) : ℝ :=
  let rho := max (u .rho) rp.smallr
  let ekin := (∑ k, u (.mom k) ^ 2) / (2 * rho)
  let c2 := max (rp.gamma * (rp.gamma - 1) * (u .etot - ekin) / rho) (rp.gamma * rp.smallp)
  ∑ k, (√c2 + |u (.mom k)| / rho) / size k

/-- The threads of every rank handle the cells of its octants, each once. -/
def Shares [NeZero N] (s : Ranks d N) (b : Fin d → ℕ) (red : Fin N → Red (Oct d × (Fin d → ℕ))) : Prop :=
  ∀ r, (red r).cells.Nodup ∧ ∀ c, c ∈ (red r).cells ↔ c.1 ∈ s.octs r ∧ ∀ k, c.2 k < b k

/-! ### Proofs -/

theorem cellRate_eq {P : Par d} {rp : Hydro.Params} (hrp : rp.Ok) (Ld : Fin d → ℝ) (g : Mesh d)
    (c : Oct d × (Fin d → ℕ)) : cellRate P rp Ld g c = courantRate rp (cellSize P Ld c.1) (g c.1 c.2) := by
  unfold cellRate courantRate toPrim
  simp only [HV.var]
  generalize g c.1 c.2 = u
  have hr : 0 < max (u .rho) rp.smallr := lt_max_of_lt_right hrp.smallr
  generalize max (u .rho) rp.smallr = r at hr
  have e1 : rp.gamma * max ((rp.gamma - 1) * r * (u .etot / r - 1 / 2 * ∑ k, u (.mom k) / r * (u (.mom k) / r)))
      (r * rp.smallp) / r =
      max (rp.gamma * (rp.gamma - 1) * (u .etot - (∑ k, u (.mom k) ^ 2) / (2 * r)) / r) (rp.gamma * rp.smallp) := by
    have hg : 0 < rp.gamma := by linarith [hrp.gamma]
    have hs : ∑ k, u (.mom k) / r * (u (.mom k) / r) = (∑ k, u (.mom k) ^ 2) / r ^ 2 := by
      rw [Finset.sum_div]
      exact Finset.sum_congr rfl fun k _ => by rw [div_mul_div_comm, sq, sq]
    rw [hs, mul_div_assoc, ← max_div_div_right hr.le, mul_max_of_nonneg _ _ hg.le]
    congr 1
    · field_simp
    · field_simp
  rw [e1]
  refine Finset.sum_congr rfl fun k _ => ?_
  rw [abs_div, abs_of_pos hr]

/-- The smallest of the steps that the rates allow, one of them `tiny`. -/
theorem legacyDt_spec [NeZero N] (P : Par d) (rp : Hydro.Params) (Ld : Fin d → ℝ) {tiny cfl : ℝ} (ht : 0 < tiny)
    (hc : 0 < cfl) (U : Fin N → Mesh d) (red : Fin N → Red (Oct d × (Fin d → ℕ))) :
    ∃ dt : ℝ, legacyDt P rp Ld tiny cfl U red = some (dt : WithTop ℝ) ∧ 0 < dt ∧ dt * tiny ≤ cfl ∧
      (∀ r, ∀ c ∈ (red r).cells, dt * cellRate P rp Ld (U r) c ≤ cfl) ∧
      (dt * tiny = cfl ∨ ∃ r, ∃ c ∈ (red r).cells, dt * cellRate P rp Ld (U r) c = cfl) := by
  have hloc : ∀ r : Fin N, ∃ m : ℝ, localDt tiny cfl (fun c => some (cellRate P rp Ld (U r) c)) (red r) =
      some ((cfl / m : ℝ) : WithTop ℝ) ∧ tiny ≤ m ∧ (∀ c ∈ (red r).cells, cellRate P rp Ld (U r) c ≤ m) ∧
        (m = tiny ∨ ∃ c ∈ (red r).cells, cellRate P rp Ld (U r) c = m) := by
    intro r
    obtain ⟨m, h1, h2, h3, h4⟩ := eval_spec tiny (fun c => some (cellRate P rp Ld (U r) c)) (cellRate P rp Ld (U r))
      (red r) fun c _ => rfl
    refine ⟨m, ?_, h2, h3, h4⟩
    have hm : 0 < m := ht.trans_le h2
    unfold localDt
    rw [h1]
    simp only
    rw [if_neg hm.ne', if_pos (div_pos hc hm)]
  obtain ⟨l, k1, k2, k3⟩ := mapM_some (l := List.finRange N)
    (f := fun r => localDt tiny cfl (fun c => some (cellRate P rp Ld (U r) c)) (red r)) fun r _ =>
      ⟨_, (hloc r).choose_spec.1⟩
  obtain ⟨m1, m2, m3⟩ := foldl_min l ⊤
  obtain ⟨b0, hb0, e0⟩ := k2 0 (List.mem_finRange _)
  obtain ⟨M0, f0, -⟩ := hloc 0
  have hfin : l.foldl min ⊤ ∈ l := by
    rcases m3 with m3 | m3
    · have := m2 b0 hb0
      rw [e0] at f0
      rw [m3, Option.some.inj f0] at this
      exact absurd (top_le_iff.1 this) WithTop.coe_ne_top
    · exact m3
  obtain ⟨r, -, er⟩ := k3 _ hfin
  obtain ⟨m, f1, f2, f3, f4⟩ := hloc r
  rw [er] at f1
  have hdt : l.foldl min ⊤ = ((cfl / m : ℝ) : WithTop ℝ) := Option.some.inj f1
  have hm : 0 < m := ht.trans_le f2
  have hmax : ∀ r', ∀ m', localDt tiny cfl (fun c => some (cellRate P rp Ld (U r') c)) (red r') =
      some ((cfl / m' : ℝ) : WithTop ℝ) → 0 < m' → m' ≤ m := by
    intro r' m' h' hm'
    obtain ⟨b, hb, e⟩ := k2 r' (List.mem_finRange _)
    rw [h'] at e
    have := m2 b hb
    rw [hdt, ← Option.some.inj e] at this
    have : cfl / m ≤ cfl / m' := by exact_mod_cast this
    rwa [div_le_div_iff_of_pos_left hc hm hm'] at this
  refine ⟨cfl / m, ?_, div_pos hc hm, ?_, fun r' c hc' => ?_, ?_⟩
  · unfold legacyDt
    rw [k1]
    exact congrArg some hdt
  · rw [div_mul_eq_mul_div, div_le_iff₀ hm]
    exact mul_le_mul_of_nonneg_left f2 hc.le
  · obtain ⟨m', g1, g2, g3, -⟩ := hloc r'
    have := (g3 c hc').trans (hmax r' m' g1 (ht.trans_le g2))
    rw [div_mul_eq_mul_div, div_le_iff₀ hm]
    exact mul_le_mul_of_nonneg_left this hc.le
  · rcases f4 with f4 | ⟨c, hc', f4⟩
    · left
      rw [← f4]
      exact div_mul_cancel₀ _ hm.ne'
    · right
      exact ⟨r, c, hc', by rw [f4]; exact div_mul_cancel₀ _ hm.ne'⟩

theorem courantRate_floor {rp : Hydro.Params} (hrp : rp.Ok) {size : Fin d → ℝ} (hs : ∀ k, 0 < size k) (u : Cell d) :
    √(rp.gamma * rp.smallp) * ∑ k, 1 / size k ≤ courantRate rp size u := by
  unfold courantRate
  simp only
  rw [Finset.mul_sum]
  refine Finset.sum_le_sum fun k _ => ?_
  rw [mul_one_div]
  refine div_le_div_of_nonneg_right ?_ (hs k).le
  have h1 := Real.sqrt_le_sqrt (le_max_right (rp.gamma * (rp.gamma - 1) * (u .etot - (∑ k, u (.mom k) ^ 2) /
    (2 * max (u .rho) rp.smallr)) / max (u .rho) rp.smallr) (rp.gamma * rp.smallp))
  have h2 : 0 < max (u .rho) rp.smallr := lt_max_of_lt_right hrp.smallr
  have h3 : 0 ≤ |u (.mom k)| / max (u .rho) rp.smallr := by positivity
  linarith

/-! ### Properties -/

section
variable [NeZero N] {P : Par d} {e L : ℕ} (hG : P.G.WF) (hd : 0 < d) (hde : d ≤ e) (h64 : e * L < 64) (hL : P.G.lmin ≤ L)
  (hT : ∏ i, P.G.coarse i < 2 ^ 32) (hN : N ≤ ∏ i, P.G.coarse i) {rp : Hydro.Params} (hrp : rp.Ok)
  {Ld : Fin d → ℝ} {tiny cfl : ℝ} (ht : 0 < tiny) (hc : 0 < cfl)
include hG hd hde h64 hL hT hN hrp ht hc

/-- **C96.** For any values of the cells, with negative density or energy too, on any number of ranks and for any order
of the threads: the time step is positive, no larger than `cfl` over the rate of any cell of the mesh, and equal to it
for some cell (or `cfl` over the smallest positive number, if all rates are below that). -/
theorem C96_dt {mks : List (Oct d → ℤ)} {s : Ranks d N} (h : Reach e L P.G mks s) {U : Fin N → Mesh d} {g : Mesh d}
    (hU : Own s P.b U g) {red : Fin N → Red (Oct d × (Fin d → ℕ))} (hred : Shares s P.b red) :
    ∃ dt : ℝ, legacyDt P rp Ld tiny cfl U red = some (dt : WithTop ℝ) ∧ 0 < dt ∧ dt * tiny ≤ cfl ∧
      (∀ o ∈ s.mesh, ∀ x : Fin d → ℕ, (∀ k, x k < P.b k) → dt * courantRate rp (cellSize P Ld o) (g o x) ≤ cfl) ∧
      (dt * tiny = cfl ∨ ∃ o ∈ s.mesh, ∃ x : Fin d → ℕ, (∀ k, x k < P.b k) ∧
        dt * courantRate rp (cellSize P Ld o) (g o x) = cfl) := by
  have hs := (reach_good hG hd hde h64 hL hT hN h).1
  obtain ⟨dt, h1, h2, h3, h4, h5⟩ := legacyDt_spec P rp Ld ht hc U red
  refine ⟨dt, h1, h2, h3, fun o ho x hx => ?_, ?_⟩
  · have hmem := owner_mem s.octs ho
    have := h4 (owner s.octs o) (o, x) (((hred _).2 _).2 ⟨hmem, hx⟩)
    rw [cellRate_eq hrp] at this
    simp only at this
    rwa [hU _ o hmem x hx] at this
  · rcases h5 with h5 | ⟨r, c, hc', h5⟩
    · exact Or.inl h5
    · obtain ⟨k1, k2⟩ := ((hred r).2 c).1 hc'
      rw [cellRate_eq hrp, hU r c.1 k1 c.2 k2] at h5
      exact Or.inr ⟨c.1, Sim.mem_mesh k1, c.2, k2, h5⟩

/-- **C96.** The time step does not depend on the number of ranks or on the order of the threads. -/
theorem C96_independent_of_ranks [NeZero Q] (hQ : Q ≤ ∏ i, P.G.coarse i) {mks : List (Oct d → ℤ)} {s : Ranks d N}
    {t : Ranks d Q} (h : Reach e L P.G mks s) (h' : Reach e L P.G mks t) {U : Fin N → Mesh d} {V : Fin Q → Mesh d}
    (hUV : SameCells s t P.b U V) {red : Fin N → Red (Oct d × (Fin d → ℕ))} (hred : Shares s P.b red)
    {red' : Fin Q → Red (Oct d × (Fin d → ℕ))} (hred' : Shares t P.b red') :
    legacyDt P rp Ld tiny cfl U red = legacyDt P rp Ld tiny cfl V red' := by
  obtain ⟨hs, ms⟩ := reach_good hG hd hde h64 hL hT hN h
  obtain ⟨ht', mt⟩ := reach_good hG hd hde h64 hL hT hQ h'
  have hm : s.mesh = t.mesh := ms.unique mt
  have hU : Own s P.b U fun o => U (owner s.octs o) o := fun r o ho x _ => by
    show U r o x = U (owner s.octs o) o x
    rw [Sim.owner_eq hs ho]
  have hV : Own t P.b V fun o => U (owner s.octs o) o := fun q o ho x hx =>
    (hUV _ q o (owner_mem _ (show o ∈ s.mesh by rw [hm]; exact Sim.mem_mesh ho)) ho x hx).symm
  obtain ⟨a, a1, a2, a3, a4, a5⟩ := C96_dt hG hd hde h64 hL hT hN hrp (Ld := Ld) ht hc h hU hred
  obtain ⟨b, b1, b2, b3, b4, b5⟩ := C96_dt hG hd hde h64 hL hT hQ hrp (Ld := Ld) ht hc h' hV hred'
  rw [a1, b1]
  rw [← hm] at b4 b5
  have key : ∀ {a b : ℝ}, 0 < a → 0 < b → ∀ {r : ℝ}, a * r = cfl → b * r ≤ cfl → b ≤ a := by
    intro a b ha hb r h1 h2
    have hr : 0 < r := by
      by_contra hcon
      have := mul_nonpos_of_nonneg_of_nonpos ha.le (not_lt.1 hcon)
      linarith
    exact le_of_mul_le_mul_right (h2.trans h1.ge) hr
  congr 2
  refine le_antisymm ?_ ?_
  · rcases b5 with b5 | ⟨o, ho, x, hx, b5⟩
    · exact key b2 a2 b5 a3
    · exact key b2 a2 b5 (a4 o ho x hx)
  · rcases a5 with a5 | ⟨o, ho, x, hx, a5⟩
    · exact key a2 b2 a5 b3
    · exact key a2 b2 a5 (b4 o ho x hx)

/-- **C96.** With the default update, the sum over the directions of the fastest wave times `dt/dx`, as the solver
computes `dt/dx`, is at most `cfl` in every cell. Missing: the update that is not conservative computes `dt/dx` without
the size of the domain (`C96_courant_fails`). -/
theorem C96_courant_partial {mks : List (Oct d → ℤ)} {s : Ranks d N} (h : Reach e L P.G mks s) {U : Fin N → Mesh d}
    {g : Mesh d} (hU : Own s P.b U g) {red : Fin N → Red (Oct d × (Fin d → ℕ))} (hred : Shares s P.b red)
    {UP : UPar d} (hup : UP.conservative = true) :
    ∃ dt : ℝ, legacyDt P rp UP.L tiny cfl U red = some (dt : WithTop ℝ) ∧ ∀ o ∈ s.mesh, ∀ x : Fin d → ℕ,
      (∀ k, x k < P.b k) → courantRate rp (fun k => 1 / dtdx P UP dt o k) (g o x) ≤ cfl := by
  obtain ⟨dt, h1, h2, -, h4, -⟩ := C96_dt hG hd hde h64 hL hT hN hrp (Ld := UP.L) ht hc h hU hred
  refine ⟨dt, h1, fun o ho x hx => le_trans (le_of_eq ?_) (h4 o ho x hx)⟩
  unfold courantRate dtdx cellSize
  simp only [hup, if_true]
  rw [Finset.mul_sum]
  refine Finset.sum_congr rfl fun k _ => ?_
  rw [one_div, div_inv_eq_mul]
  ring

/-- **C96** fails for the update that is not conservative: in a domain of size `lam` the sum reaches `lam * cfl`. -/
theorem C96_courant_fails {mks : List (Oct d → ℤ)} {s : Ranks d N} (h : Reach e L P.G mks s) {U : Fin N → Mesh d}
    {g : Mesh d} (hU : Own s P.b U g) {red : Fin N → Red (Oct d × (Fin d → ℕ))} (hred : Shares s P.b red)
    {UP : UPar d} (hup : UP.conservative = false) {lam : ℝ} (hlam : 0 < lam) (hlen : ∀ k, UP.L k = lam)
    (htiny : ∃ o ∈ s.mesh, ∃ x : Fin d → ℕ, (∀ k, x k < P.b k) ∧
      tiny < courantRate rp (cellSize P UP.L o) (g o x)) :
    ∃ dt : ℝ, legacyDt P rp UP.L tiny cfl U red = some (dt : WithTop ℝ) ∧ ∃ o ∈ s.mesh, ∃ x : Fin d → ℕ,
      (∀ k, x k < P.b k) ∧ courantRate rp (fun k => 1 / dtdx P UP dt o k) (g o x) = lam * cfl := by
  obtain ⟨dt, h1, h2, -, h4, h5⟩ := C96_dt hG hd hde h64 hL hT hN hrp (Ld := UP.L) ht hc h hU hred
  refine ⟨dt, h1, ?_⟩
  rcases h5 with h5 | ⟨o, ho, x, hx, h5⟩
  · obtain ⟨o, ho, x, hx, hlt⟩ := htiny
    have := h4 o ho x hx
    rw [← h5] at this
    exact absurd (le_of_mul_le_mul_left this h2) (not_le.2 hlt)
  · refine ⟨o, ho, x, hx, ?_⟩
    rw [← h5]
    unfold courantRate dtdx cellSize
    simp only [hup, hlen, Bool.false_eq_true, if_false, mul_one]
    rw [Finset.mul_sum, Finset.mul_sum]
    refine Finset.sum_congr rfl fun k _ => ?_
    rw [one_div, div_inv_eq_mul]
    field_simp

end

/-! ### Cases that meet the hypotheses -/

/-- The cells of the octants of a rank in one thread each octant. -/
def exRed (b : Fin 2 → ℕ) (l : List (Oct 2)) : Red (Oct 2 × (Fin 2 → ℕ)) :=
  l.foldr (fun o t => .both (.run ((List.range (b 0 * b 1)).map fun n => (o, ![n % b 0, n / b 0]))) t) (.run [])

theorem mem_exRed {b : Fin 2 → ℕ} (hb : ∀ k, 0 < b k) (c : Oct 2 × (Fin 2 → ℕ)) : ∀ l : List (Oct 2),
    c ∈ (exRed b l).cells ↔ c.1 ∈ l ∧ ∀ k, c.2 k < b k
  | [] => by simp [exRed, Red.cells]
  | o :: l => by
    have ih := mem_exRed hb c l
    have e : (exRed b (o :: l)).cells = ((List.range (b 0 * b 1)).map fun n => (o, ![n % b 0, n / b 0])) ++
        (exRed b l).cells := rfl
    rw [e, List.mem_append, ih, List.mem_map, List.mem_cons]
    have h0 := hb 0
    constructor
    · rintro (⟨n, hn, rfl⟩ | ⟨h1, h2⟩)
      · refine ⟨Or.inl rfl, fun k => ?_⟩
        fin_cases k
        · exact Nat.mod_lt _ h0
        · exact Nat.div_lt_of_lt_mul (by simpa using hn)
      · exact ⟨Or.inr h1, h2⟩
    · rintro ⟨h1 | h1, h2⟩
      · left
        have k0 := h2 0
        have k1 := h2 1
        refine ⟨c.2 0 + b 0 * c.2 1, ?_, ?_⟩
        · rw [List.mem_range]
          calc c.2 0 + b 0 * c.2 1 < b 0 + b 0 * c.2 1 := by omega
            _ = b 0 * (c.2 1 + 1) := by ring
            _ ≤ b 0 * b 1 := Nat.mul_le_mul_left _ k1
        · refine Prod.ext h1.symm (funext fun k => ?_)
          fin_cases k
          · show (c.2 0 + b 0 * c.2 1) % b 0 = c.2 0
            rw [Nat.add_mul_mod_self_left, Nat.mod_eq_of_lt k0]
          · show (c.2 0 + b 0 * c.2 1) / b 0 = c.2 1
            rw [Nat.add_mul_div_left _ _ h0, Nat.div_eq_of_lt k0, Nat.zero_add]
      · exact Or.inr ⟨h1, h2⟩

theorem exRed_nodup {b : Fin 2 → ℕ} (hb : ∀ k, 0 < b k) : ∀ l : List (Oct 2), l.Nodup → (exRed b l).cells.Nodup
  | [], _ => List.nodup_nil
  | o :: l, h => by
    have e : (exRed b (o :: l)).cells = ((List.range (b 0 * b 1)).map fun n => (o, ![n % b 0, n / b 0])) ++
        (exRed b l).cells := rfl
    rw [e]
    refine List.Nodup.append (List.nodup_range.map fun m n hmn => ?_) (exRed_nodup hb l (List.nodup_cons.1 h).2) ?_
    · have h1 := congrFun (congrArg Prod.snd hmn) 0
      have h2 := congrFun (congrArg Prod.snd hmn) 1
      simp only [Matrix.cons_val_zero, Matrix.cons_val_one] at h1 h2
      rw [← Nat.div_add_mod m (b 0), ← Nat.div_add_mod n (b 0), h1, h2]
    · intro c h1 h2
      obtain ⟨n, -, rfl⟩ := List.mem_map.1 h1
      exact (List.nodup_cons.1 h).1 ((mem_exRed hb _ l).1 h2).1

/-- Three ranks and a mesh with a refined octant, in a domain of size 10, with the gas of C94: both theorems apply, to the
conservative and to the other update. -/
example : ∃ s : Ranks 2 3, Reach 3 2 exGrid [exRefine] s ∧ ∃ red, Shares s rankPar.b red ∧
    ∀ U : Fin 3 → Mesh 2, Own s rankPar.b U rowGas →
      (∃ dt : ℝ, legacyDt rankPar exMarkPar.rp (fun _ => 10) (1 / 10 ^ 30) (1 / 2) U red = some (dt : WithTop ℝ) ∧
        ∃ o ∈ s.mesh, ∃ x : Fin 2 → ℕ, (∀ k, x k < rankPar.b k) ∧ courantRate exMarkPar.rp
          (fun k => 1 / dtdx rankPar { jumpUPar 1 with L := fun _ => 10, conservative := false } dt o k) (rowGas o x) = 5) ∧
      ∃ dt : ℝ, legacyDt rankPar exMarkPar.rp (fun _ => 10) (1 / 10 ^ 30) (1 / 2) U red = some (dt : WithTop ℝ) ∧
        ∀ o ∈ s.mesh, ∀ x : Fin 2 → ℕ, (∀ k, x k < rankPar.b k) → courantRate exMarkPar.rp
          (fun k => 1 / dtdx rankPar { jumpUPar 1 with L := fun _ => 10 } dt o k) (rowGas o x) ≤ 1 / 2 := by
  obtain ⟨s, hr, hl, -⟩ := C81_rank_emptied_fails
  have hrp : exMarkPar.rp.Ok := ⟨by norm_num [exMarkPar], by norm_num [exMarkPar], by norm_num [exMarkPar]⟩
  have hlist : ∀ r, (s.octs r).Nodup := by
    have h0 : ∀ l ∈ List.ofFn s.octs, l.Nodup := by rw [hl]; decide
    exact fun r => h0 _ (List.mem_ofFn.2 ⟨r, rfl⟩)
  have hb : ∀ k, 0 < rankPar.b k := by decide
  have hin : (⟨1, ![1, 0]⟩ : Oct 2) ∈ s.mesh := by
    have : s.mesh = exMesh.toFinset := by
      unfold Ranks.mesh leaves
      rw [hl]
      decide
    rw [this]
    decide
  have hsh : Shares s rankPar.b fun r => exRed rankPar.b (s.octs r) := fun r =>
    ⟨exRed_nodup hb _ (hlist r), fun c => mem_exRed hb c _⟩
  refine ⟨s, hr, _, hsh, fun U hU => ⟨?_, ?_⟩⟩
  · have hs1 : ∀ k, 0 < cellSize rankPar (fun _ => 10) ⟨1, ![1, 0]⟩ k ∧
        cellSize rankPar (fun _ => 10) ⟨1, ![1, 0]⟩ k ≤ 10 := by
      intro k
      have : getSize rankPar.G ⟨1, ![1, 0]⟩ k = 1 / 2 := by
        have hcc : cellCount rankPar.G k 1 = 2 := by fin_cases k <;> decide
        unfold getSize
        rw [hcc]
        rfl
      have hbk : rankPar.b k = 6 := by fin_cases k <;> rfl
      unfold cellSize
      rw [this, hbk]
      constructor <;> norm_num
    obtain ⟨dt, h1, o, ho, x, hx, h2⟩ := C96_courant_fails (P := rankPar) (N := 3) exGrid_wf (by decide) (by decide)
      (by decide) (by decide) (by decide) (by decide) hrp (tiny := 1 / 10 ^ 30) (cfl := 1 / 2) (by positivity)
      (by norm_num) hr hU hsh (UP := { jumpUPar 1 with L := fun _ => 10, conservative := false }) rfl (lam := 10)
      (by norm_num) (fun _ => rfl) ⟨_, hin, ![0, 0], by decide, by
        refine lt_of_lt_of_le ?_ (courantRate_floor hrp (fun k => (hs1 k).1) _)
        have h3 : ∀ k, 1 / 10 ≤ 1 / cellSize rankPar (fun _ => 10) ⟨1, ![1, 0]⟩ k := fun k =>
          one_div_le_one_div_of_le (hs1 k).1 (hs1 k).2
        have h4 : (1 : ℝ) / 100 ≤ √(exMarkPar.rp.gamma * exMarkPar.rp.smallp) := by
          refine Real.le_sqrt_of_sq_le ?_
          norm_num [exMarkPar]
        rw [Fin.sum_univ_two]
        have h5 : (1 : ℝ) / 10 ^ 30 < 1 / 100 * (1 / 10 + 1 / 10) := by norm_num
        refine lt_of_lt_of_le h5 (mul_le_mul h4 (add_le_add (h3 0) (h3 1)) (by norm_num) (by positivity))⟩
    exact ⟨dt, h1, o, ho, x, hx, h2.trans (by norm_num)⟩
  · exact C96_courant_partial (P := rankPar) (N := 3) exGrid_wf (by decide) (by decide)
      (by decide) (by decide) (by decide) (by decide) hrp (tiny := 1 / 10 ^ 30) (cfl := 1 / 2) (by positivity)
      (by norm_num) hr hU hsh (UP := { jumpUPar 1 with L := fun _ => 10 }) rfl

end

end Verif.Legacy
