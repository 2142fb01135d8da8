import Verif.Particles.Mass
import Mathlib.Data.Rat.Floor
import Mathlib.Tactic.FinCases

/-!
# C54, C60: particle motion

Model of `core/src/particles/ParticleUpdate_NGP_move.cpp` L47-66 and `ParticleUpdate_CIC_move.cpp` L61-133. Arithmetic is
exact.
-/

namespace Verif.Particles

open Verif.Octree Verif.Cells Verif.Flux Verif.Hydro

/-! ### Model -/

/-- Rounding towards zero. -/
def trunc (q : ℚ) : ℤ := if 0 ≤ q then ⌊q⌋ else ⌈q⌉

/-- `fmod` of the C library, for `y ≠ 0`: the remainder of the division rounded towards zero. -/
def fmod (x y : ℚ) : ℚ := x - trunc (x / y) * y

/-- NGP L61-64, CIC L128-131: periodic position. -/
def wrap (xmin xmax x : ℚ) : ℚ := fmod ((x - xmin) + (xmax - xmin)) (xmax - xmin) + xmin

/-- A particle of the move kernels. -/
structure Body (d : ℕ) where
  pos : Fin d → ℚ
  vel : Fin d → ℚ

variable {d : ℕ}

/-- NGP L54-64, CIC L121-131: kick with the acceleration at the particle, drift with the new velocity, wrap. -/
def kickDrift (D : Domain d) (dt : ℚ) (acc : Fin d → ℚ) (q : Body d) : Body d :=
  let vel := fun k => q.vel k + dt * acc k
  ⟨fun k => wrap (D.xmin k) (D.xmax k) (q.pos k + dt * vel k), vel⟩

/-- NGP L52-64. `g k` is the component `k` of the acceleration. -/
def ngpMove (D : Domain d) (G : Grid d) (M : Finset (Oct d)) (minLevel maxLevel : ℕ) (b : Fin d → ℕ)
    (g : Fin d → Oct d → (Fin d → ℕ) → ℚ) (dt : ℚ) (q : Body d) : Option (Body d) :=
  (getCellFromPos D G M minLevel maxLevel b q.pos).map fun c => kickDrift D dt (fun k => g k c.oct c.idx) q

/-- CIC L64-119: acceleration at a particle. -/
def cicAcc (D : Domain d) (G : Grid d) (M : Finset (Oct d)) (minLevel maxLevel : ℕ) (b : Fin d → ℕ)
    (g : Oct d → (Fin d → ℕ) → ℚ) (x : Fin d → ℚ) : Option ℚ :=
  (getCellFromPos D G M minLevel maxLevel b x).bind fun c =>
    let p := relPos D G c x
    ((offsets p).mapM (gContrib G M c g p)).map List.sum

/-- CIC L61-133. -/
def cicMove (D : Domain 3) (G : Grid 3) (M : Finset (Oct 3)) (minLevel maxLevel : ℕ) (b : Fin 3 → ℕ)
    (g : Fin 3 → Oct 3 → (Fin 3 → ℕ) → ℚ) (dt : ℚ) (q : Body 3) : Option (Body 3) :=
  (cicAcc D G M minLevel maxLevel b (g 0) q.pos).bind fun gx =>
    (cicAcc D G M minLevel maxLevel b (g 1) q.pos).bind fun gy =>
      (cicAcc D G M minLevel maxLevel b (g 2) q.pos).map fun gz => kickDrift D dt ![gx, gy, gz] q

/-- `core/src/particles/ParticleUpdate_tracers_move.cpp` L38-43: drift with the velocity of the cell; no wrap. -/
def tracerMove (D : Domain d) (G : Grid d) (M : Finset (Oct d)) (minLevel maxLevel : ℕ) (b : Fin d → ℕ)
    (rho : Oct d → (Fin d → ℕ) → ℚ) (mom : Fin d → Oct d → (Fin d → ℕ) → ℚ) (dt : ℚ) (x : Fin d → ℚ) :
    Option (Fin d → ℚ) :=
  (getCellFromPos D G M minLevel maxLevel b x).map fun c =>
    fun k => x k + dt * (mom k c.oct c.idx / rho c.oct c.idx)

/-! ### C54: positions -/

/-- C54 (wrap): the result is the position moved by a whole number of domain lengths; it is in the domain iff the position
is not more than one length below the domain, or a whole number of lengths away from its lower end. -/
theorem C54_wrap {xmin xmax : ℚ} (h : xmin < xmax) (x : ℚ) :
    (∃ n : ℤ, wrap xmin xmax x = x + n * (xmax - xmin)) ∧
    (xmin ≤ wrap xmin xmax x ∧ wrap xmin xmax x < xmax ↔
      xmin - (xmax - xmin) ≤ x ∨ ∃ n : ℤ, x = xmin + n * (xmax - xmin)) := by
  have hL : 0 < xmax - xmin := sub_pos.2 h
  refine ⟨⟨1 - trunc (((x - xmin) + (xmax - xmin)) / (xmax - xmin)), ?_⟩, ?_⟩
  · unfold wrap fmod
    push_cast
    ring
  · unfold wrap fmod
    generalize hq : ((x - xmin) + (xmax - xmin)) / (xmax - xmin) = q
    have hx : (x - xmin) + (xmax - xmin) = q * (xmax - xmin) := by rw [← hq]; field_simp
    rw [hx]
    have hx' : x = xmin + (q - 1) * (xmax - xmin) := by linarith
    rcases le_or_gt 0 q with h0 | h0
    · have hl : xmin - (xmax - xmin) ≤ x := by nlinarith
      have h1 := Int.floor_le q
      have h2 := Int.lt_floor_add_one q
      unfold trunc
      rw [if_pos h0]
      refine ⟨fun _ => Or.inl hl, fun _ => ⟨by nlinarith, by nlinarith⟩⟩
    · have hl : ¬ xmin - (xmax - xmin) ≤ x := by
        intro hl
        nlinarith
      have h1 := Int.le_ceil q
      have h2 := Int.ceil_lt_add_one q
      unfold trunc
      rw [if_neg (not_le.2 h0)]
      constructor
      · rintro ⟨h3, -⟩
        right
        have h4 : q = ⌈q⌉ := by
          refine le_antisymm h1 ?_
          have : 0 ≤ (q - ⌈q⌉) * (xmax - xmin) := by linarith
          have := nonneg_of_mul_nonneg_left this hL
          linarith
        refine ⟨⌈q⌉ - 1, ?_⟩
        push_cast
        rw [← h4]
        exact hx'
      · rintro (h3 | ⟨n, hn⟩)
        · exact absurd h3 hl
        · have h4 : q = ((n + 1 : ℤ) : ℚ) := by
            have h5 : (q - 1) * (xmax - xmin) = n * (xmax - xmin) := by linarith
            have := mul_right_cancel₀ hL.ne' h5
            push_cast
            linarith
          rw [h4, Int.ceil_intCast]
          constructor <;> linarith

/-- C54: after the move the particle is in the domain, at the unwrapped position modulo the domain lengths, if it has not
moved by more than a domain length downwards. Missing: longer moves downwards. -/
theorem C54_in_domain_partial {D : Domain d} (hD : Domain.Ok D) (dt : ℚ) (acc : Fin d → ℚ) (q : Body d)
    (hq : InBox D q.pos) (hmove : ∀ k, -(D.xmax k - D.xmin k) ≤ dt * (kickDrift D dt acc q).vel k) :
    InBox D (kickDrift D dt acc q).pos ∧ ∀ k, (kickDrift D dt acc q).vel k = q.vel k + dt * acc k ∧
      ∃ n : ℤ, (kickDrift D dt acc q).pos k =
        q.pos k + dt * (kickDrift D dt acc q).vel k + n * (D.xmax k - D.xmin k) := by
  refine ⟨fun k => ?_, fun k => ⟨rfl, (C54_wrap (hD k) _).1⟩⟩
  refine (C54_wrap (hD k) _).2.2 (Or.inl ?_)
  have h1 := (hq k).1
  have h2 := hmove k
  change _ ≤ dt * (q.vel k + dt * acc k) at h2
  linarith

/-- Disagreement: a particle that moves down by more than a domain length ends up below the domain. -/
theorem C54_in_domain_fails : ∃ (D : Domain 1) (dt : ℚ) (q : Body 1), Domain.Ok D ∧ InBox D q.pos ∧
    ¬ InBox D (kickDrift D dt (fun _ => 0) q).pos := by
  refine ⟨⟨![0], ![1]⟩, 1, ⟨![1 / 4], ![-3 / 2]⟩, ?_, ?_, ?_⟩
  · unfold Domain.Ok; decide
  · unfold InBox; decide +kernel
  · unfold InBox; decide +kernel

/-- Disagreement: a particle can be moved exactly to the lower end of the domain, which `getCellFromPos` excludes by an
`assert` in the first two directions (`AMRBlockForeachCell.h` L102-103; the distribution of particles allows it,
`ForeachParticle.h` L85-87). -/
theorem C54_lower_end : ∃ (D : Domain 1) (dt : ℚ) (q : Body 1), Domain.Ok D ∧ InBox D q.pos ∧
    (kickDrift D dt (fun _ => 0) q).pos 0 = D.xmin 0 := by
  refine ⟨⟨![0], ![1]⟩, 1, ⟨![1 / 4], ![3 / 4]⟩, ?_, ?_, ?_⟩
  · unfold Domain.Ok; decide
  · unfold InBox; decide +kernel
  · decide +kernel

/-- Disagreement: tracers are not wrapped. However short the step is, a tracer near the upper end of a periodic domain leaves
it. -/
theorem C54_tracer_fails (dt : ℚ) (hdt : 0 < dt) : ∃ x y, InBox cubeDomain x ∧
    tracerMove cubeDomain cube cubeMesh.toFinset 1 2 ![2, 2, 2] (fun _ _ => 1) (fun _ _ _ => 1) dt x = some y ∧
      (∀ k, y k = x k + dt) ∧ ¬ InBox cubeDomain y := by
  have hD : Domain.Ok cubeDomain := by unfold Domain.Ok; decide
  have hx : InBox cubeDomain fun _ => max 0 (1 - dt) := by
    intro k
    have h0 : cubeDomain.xmin k = 0 := by fin_cases k <;> rfl
    have h1 : cubeDomain.xmax k = 1 := by fin_cases k <;> rfl
    rw [h0, h1]
    exact ⟨le_max_left _ _, max_lt (by norm_num) (by linarith)⟩
  obtain ⟨c, h1, -⟩ := C26_cell_of_pos cube_wf cube_tiling cubeDomain hD 1 2 cube_levels ![2, 2, 2] (by decide) _ hx
  refine ⟨_, fun _ => max 0 (1 - dt) + dt, hx, ?_, fun _ => rfl, fun hy => ?_⟩
  · unfold tracerMove
    rw [h1, Option.map_some]
    congr 1
    funext k
    ring
  · have h := (hy 0).2
    change _ < (1 : ℚ) at h
    have := le_max_right 0 (1 - dt)
    linarith

/-- C54 (nearest grid point): the kernel is defined and uses the acceleration of the cell that contains the particle. -/
theorem C54_ngp {G : Grid d} {M : Finset (Oct d)} (hG : G.WF) (hM : Tiling G M) {D : Domain d} (hD : Domain.Ok D)
    (minLevel maxLevel : ℕ) (hlev : ∀ o ∈ M, minLevel ≤ o.level ∧ o.level ≤ maxLevel) {b : Fin d → ℕ}
    (hb : ∀ k, 0 < b k) (g : Fin d → Oct d → (Fin d → ℕ) → ℚ) (dt : ℚ) (q : Body d) (hq : InBox D q.pos) {o : Oct d}
    (ho : o ∈ M) {i : Fin d → ℕ} (hi : ∀ k, i k < b k) (hin : InCell D G b o i q.pos) :
    ngpMove D G M minLevel maxLevel b g dt q = some (kickDrift D dt (fun k => g k o i) q) := by
  obtain ⟨c, h1, -, -, -, -, -, h7⟩ := C26_cell_of_pos hG hM D hD minLevel maxLevel hlev b hb q.pos hq
  obtain ⟨e1, e2⟩ := h7 o ho i hi hin
  unfold ngpMove
  rw [h1, Option.map_some, e1, e2]

/-- C54 (tracers): a tracer is carried by the velocity of the cell that contains it: its displacement times the density of the
cell is the time step times the momentum of the cell. -/
theorem C54_tracer {G : Grid d} {M : Finset (Oct d)} (hG : G.WF) (hM : Tiling G M) {D : Domain d} (hD : Domain.Ok D)
    (minLevel maxLevel : ℕ) (hlev : ∀ o ∈ M, minLevel ≤ o.level ∧ o.level ≤ maxLevel) {b : Fin d → ℕ}
    (hb : ∀ k, 0 < b k) (rho : Oct d → (Fin d → ℕ) → ℚ) (mom : Fin d → Oct d → (Fin d → ℕ) → ℚ) (dt : ℚ) (x : Fin d → ℚ)
    (hq : InBox D x) {o : Oct d} (ho : o ∈ M) {i : Fin d → ℕ} (hi : ∀ k, i k < b k) (hin : InCell D G b o i x)
    (hrho : rho o i ≠ 0) :
    ∃ y, tracerMove D G M minLevel maxLevel b rho mom dt x = some y ∧ ∀ k, (y k - x k) * rho o i = dt * mom k o i := by
  obtain ⟨c, h1, -, -, -, -, -, h7⟩ := C26_cell_of_pos hG hM D hD minLevel maxLevel hlev b hb x hq
  obtain ⟨e1, e2⟩ := h7 o ho i hi hin
  refine ⟨fun k => x k + dt * (mom k o i / rho o i), ?_, fun k => ?_⟩
  · unfold tracerMove
    rw [h1, Option.map_some, e1, e2]
  · field_simp
    ring

/-- A tracer in a cell of density 2. -/
example : tracerMove cubeDomain cube cubeMesh.toFinset 1 2 ![2, 2, 2] (fun _ _ => 2) (fun _ _ _ => 1) (1 / 4)
    ![1 / 8, 1 / 8, 1 / 8] = some ![1 / 4, 1 / 4, 1 / 4] := by
  decide +kernel

/-- The hypotheses are met, with a wrap. -/
example : InBox (d := 1) ⟨![0], ![1]⟩ (kickDrift ⟨![0], ![1]⟩ 1 (fun _ => 0) ⟨![1 / 4], ![-3 / 4]⟩).pos ∧
    (kickDrift (d := 1) ⟨![0], ![1]⟩ 1 (fun _ => 0) ⟨![1 / 4], ![-3 / 4]⟩).pos 0 = 1 / 2 := by
  refine ⟨(C54_in_domain_partial (by unfold Domain.Ok; decide) 1 _ _ (by unfold InBox; decide +kernel) ?_).1, ?_⟩
  · decide +kernel
  · decide +kernel

/-! ### C60: interpolation and deposition -/

/-- Force on the mass that additions bring: mass times acceleration of the cell. -/
def forceOn (D : Domain d) (G : Grid d) (b : Fin d → ℕ) (g : Oct d → (Fin d → ℕ) → ℚ) (ws : List (CellIndex d × ℚ)) : ℚ :=
  (ws.map fun w => volume D (cellGrid G b) (cellOct b w.1.oct w.1.idx) * w.2 * g w.1.oct w.1.idx).sum

/-- Interpolation at one particle: defined, the transpose of deposition, and exact up to the lost part for a constant
acceleration. -/
theorem acc_spec {G : Grid 3} {M : Finset (Oct 3)} (hG : G.WF) (hM : Tiling G M) (hB : Balanced G M)
    (hper : ∀ k, G.periodic k = true) {D : Domain 3} (hD : Domain.Ok D) (minLevel maxLevel : ℕ)
    (hlev : ∀ o ∈ M, minLevel ≤ o.level ∧ o.level ≤ maxLevel) {b : Fin 3 → ℕ} (hb0 : ∀ k, 0 < b k)
    (hb : (∀ k, 2 ∣ b k) ∨ ∀ k, b k = 1) (x : Fin 3 → ℚ) (hx : InBox D x) :
    ∃ c sh, getCellFromPos D G M minLevel maxLevel b x = some c ∧ c.oct ∈ M ∧ (∀ k, c.idx k < b k) ∧ c.b = b ∧
      c.status = .localToBlock ∧ InCell D G b c.oct c.idx x ∧ (∀ k, |relPos D G c x k| ≤ 1 / 2) ∧
      (∀ mass, cic D G M minLevel maxLevel b ⟨x, mass⟩ = some (sh.map fun w : CellIndex 3 × ℚ =>
        (w.1, mass * w.2 / volume D (cellGrid G b) (cellOct b w.1.oct w.1.idx)))) ∧
      (∀ g, cicAcc D G M minLevel maxLevel b g x = some (sh.map fun w => w.2 * g w.1.oct w.1.idx).sum) ∧
      Inside M b sh ∧ (sh.map Prod.snd).sum = 1 - lost G M c (relPos D G c x) ∧ ∀ w ∈ sh, 0 ≤ w.2 := by
  classical
  obtain ⟨c, h1, h2, h3, h4, h5, h6, -⟩ := C26_cell_of_pos hG hM D hD minLevel maxLevel hlev b hb0 x hx
  subst h4
  have hGp : G.Pos := hG
  generalize hp : relPos D G c x = p
  have hhalf : ∀ k, |p k| ≤ 1 / 2 := fun k => by
    rw [← hp]
    exact relPos_half hGp hD hb0 h6 k
  have hs := fun e he => shares_spec hGp hM hB hper hD h2 h3 h5 hb (e := e) (fun k => offsets_abs (p := p) he k) p
  choose! f hf1 hf2 hf3 hf4 hf5 using hs
  refine ⟨c, ((offsets p).map f).flatten, h1, h2, h3, rfl, h5, h6, by rw [hp]; exact hhalf, fun mass => ?_, fun g => ?_, ?_, ?_, ?_⟩
  · unfold cic
    rw [h1, Option.bind_some]
    dsimp only
    rw [hp, OneNeighbor.loops_mapM_some _ _ _ fun e he => hf1 e he mass, Option.map_some, List.map_flatten, List.map_map]
    rfl
  · unfold cicAcc
    rw [h1, Option.bind_some]
    dsimp only
    rw [hp, OneNeighbor.loops_mapM_some _ _ _ fun e he => hf2 e he g, Option.map_some, List.map_flatten, List.map_map,
      List.sum_flatten, List.map_map]
    rfl
  · intro w hw
    obtain ⟨l, hl, hw⟩ := List.mem_flatten.1 hw
    obtain ⟨e, he, rfl⟩ := List.mem_map.1 hl
    exact hf3 e he w hw
  · rw [List.map_flatten, List.sum_flatten, List.map_map, List.map_map, List.map_congr_left (g := fun e => fraction p e -
      if FinerAt G M c e then fraction p e * (1 - 2 / 2 ^ moves e) else 0), sum_map_sub, sum_fraction, hp]
    · rfl
    · intro e he
      rw [Function.comp_apply, Function.comp_apply, hf4 e he]
      split <;> ring
  · intro w hw
    obtain ⟨l, hl, hw⟩ := List.mem_flatten.1 hw
    obtain ⟨e, he, rfl⟩ := List.mem_map.1 hl
    exact hf5 e he (fraction_nonneg hhalf e) w hw

/-- C60 (transpose): mass times interpolated acceleration of a particle is the sum, over the cells it is deposited on, of
the deposited mass times the acceleration of the cell. -/
theorem C60_transpose {G : Grid 3} {M : Finset (Oct 3)} (hG : G.WF) (hM : Tiling G M) (hB : Balanced G M)
    (hper : ∀ k, G.periodic k = true) {D : Domain 3} (hD : Domain.Ok D) (minLevel maxLevel : ℕ)
    (hlev : ∀ o ∈ M, minLevel ≤ o.level ∧ o.level ≤ maxLevel) {b : Fin 3 → ℕ} (hb0 : ∀ k, 0 < b k)
    (hb : (∀ k, 2 ∣ b k) ∨ ∀ k, b k = 1) (p : Particle 3) (hp : InBox D p.pos) (g : Oct 3 → (Fin 3 → ℕ) → ℚ) :
    ∃ ws a, cic D G M minLevel maxLevel b p = some ws ∧ cicAcc D G M minLevel maxLevel b g p.pos = some a ∧
      p.mass * a = forceOn D G b g ws := by
  obtain ⟨c, sh, -, -, -, -, -, -, -, h1, h2, -, -, -⟩ := acc_spec hG hM hB hper hD minLevel maxLevel hlev hb0 hb p.pos hp
  have hGp : G.Pos := hG
  refine ⟨_, _, h1 p.mass, h2 g, ?_⟩
  unfold forceOn
  rw [List.map_map, ← List.sum_map_mul_left]
  congr 1
  apply List.map_congr_left
  intro w _
  have := volume_pos (cellGrid_pos hGp hb0) hD (cellOct b w.1.oct w.1.idx)
  simp only [Function.comp_apply]
  field_simp

/-- C60 (bounds): the interpolated acceleration is at most the largest one on the mesh. -/
theorem C60_bounded {G : Grid 3} {M : Finset (Oct 3)} (hG : G.WF) (hM : Tiling G M) (hB : Balanced G M)
    (hper : ∀ k, G.periodic k = true) {D : Domain 3} (hD : Domain.Ok D) (minLevel maxLevel : ℕ)
    (hlev : ∀ o ∈ M, minLevel ≤ o.level ∧ o.level ≤ maxLevel) {b : Fin 3 → ℕ} (hb0 : ∀ k, 0 < b k)
    (hb : (∀ k, 2 ∣ b k) ∨ ∀ k, b k = 1) (x : Fin 3 → ℚ) (hx : InBox D x) (g : Oct 3 → (Fin 3 → ℕ) → ℚ) {m : ℚ}
    (hm : ∀ o ∈ M, ∀ i : Fin 3 → ℕ, (∀ k, i k < b k) → |g o i| ≤ m) :
    ∃ a, cicAcc D G M minLevel maxLevel b g x = some a ∧ |a| ≤ m := by
  classical
  obtain ⟨c, sh, -, c1, c2, c3, -, -, c6, -, h2, h3, h4, h5⟩ := acc_spec hG hM hB hper hD minLevel maxLevel hlev hb0 hb x hx
  refine ⟨_, h2 g, ?_⟩
  have hm0 : 0 ≤ m := le_trans (abs_nonneg _) (hm _ c1 _ c2)
  have hs : (sh.map Prod.snd).sum ≤ 1 := by
    rw [h4]
    have : 0 ≤ lost G M c (relPos D G c x) :=
      lost_nonneg hG hM c1 (by rw [c3]; exact c2) c6
    linarith
  have key : |(sh.map fun w => w.2 * g w.1.oct w.1.idx).sum| ≤ (sh.map Prod.snd).sum * m := by
    clear hs h4 h2
    induction sh with
    | nil => simp
    | cons w sh ih =>
      simp only [List.map_cons, List.sum_cons]
      have i1 := ih (fun v hv => h3 v (List.mem_cons_of_mem _ hv)) (fun v hv => h5 v (List.mem_cons_of_mem _ hv))
      have i2 := hm _ (h3 w (by simp)).1 _ (h3 w (by simp)).2
      have i3 := h5 w (by simp)
      calc _ ≤ |w.2 * g w.1.oct w.1.idx| + _ := abs_add_le _ _
        _ ≤ w.2 * m + (sh.map Prod.snd).sum * m := by
          refine add_le_add ?_ i1
          rw [abs_mul, abs_of_nonneg i3]
          exact mul_le_mul_of_nonneg_left i2 i3
        _ = _ := by ring
  nlinarith

theorem sum_smul (sh : List (CellIndex 3 × ℚ)) (a : ℚ) : (sh.map fun w => w.2 * a).sum = (sh.map Prod.snd).sum * a := by
  induction sh with
  | nil => simp
  | cons w sh ih => simp only [List.map_cons, List.sum_cons, ih]; ring

/-- C60 (constant acceleration): what a particle feels of a constant acceleration is what the mesh gets of its mass. -/
theorem C60_budget {G : Grid 3} {M : Finset (Oct 3)} (hG : G.WF) (hM : Tiling G M) (hB : Balanced G M)
    (hper : ∀ k, G.periodic k = true) {D : Domain 3} (hD : Domain.Ok D) (minLevel maxLevel : ℕ)
    (hlev : ∀ o ∈ M, minLevel ≤ o.level ∧ o.level ≤ maxLevel) {b : Fin 3 → ℕ} (hb0 : ∀ k, 0 < b k)
    (hb : (∀ k, 2 ∣ b k) ∨ ∀ k, b k = 1) (x : Fin 3 → ℚ) (hx : InBox D x) (a : ℚ) :
    cicAcc D G M minLevel maxLevel b (fun _ _ => a) x = some ((1 - lostAt D G M minLevel maxLevel b x) * a) := by
  obtain ⟨c, sh, c0, -, -, -, -, -, -, -, h2, -, h4, -⟩ := acc_spec hG hM hB hper hD minLevel maxLevel hlev hb0 hb x hx
  rw [h2, sum_smul, h4]
  unfold lostAt
  rw [c0]

/-- C60 (constant acceleration): reproduced where no finer cell lies across an edge or corner. Missing: the other particles,
which get less (`C60_budget`, `C60_constant_fails`). -/
theorem C60_constant_partial {G : Grid 3} {M : Finset (Oct 3)} (hG : G.WF) (hM : Tiling G M) (hB : Balanced G M)
    (hper : ∀ k, G.periodic k = true) {D : Domain 3} (hD : Domain.Ok D) (minLevel maxLevel : ℕ)
    (hlev : ∀ o ∈ M, minLevel ≤ o.level ∧ o.level ≤ maxLevel) {b : Fin 3 → ℕ} (hb0 : ∀ k, 0 < b k)
    (hb : (∀ k, 2 ∣ b k) ∨ ∀ k, b k = 1) (x : Fin 3 → ℚ) (hx : InBox D x) (hfine : NoFinerDiagonal D G M b x) (a : ℚ) :
    cicAcc D G M minLevel maxLevel b (fun _ _ => a) x = some a := by
  obtain ⟨c, sh, c0, c1, c2, c3, c4, c5, -, -, h2, -, h4, -⟩ :=
    acc_spec hG hM hB hper hD minLevel maxLevel hlev hb0 hb x hx
  rw [h2, sum_smul, h4, lost_zero hG hM hfine c1 c2 c3 c4 c5]
  congr 1
  ring

/-- Disagreement: at a corner behind which the mesh is finer, a constant acceleration is felt less. -/
theorem C60_constant_fails :
    cicAcc cubeDomain cube cubeMesh.toFinset 1 2 ![2, 2, 2] (fun _ _ => 1) corner.pos = some (253 / 256) := by
  decide +kernel

/-- C60 (step): with a constant acceleration the cloud in cell step is the step with that acceleration, with the exception
of `C60_constant_partial`. -/
theorem C60_step_partial {G : Grid 3} {M : Finset (Oct 3)} (hG : G.WF) (hM : Tiling G M) (hB : Balanced G M)
    (hper : ∀ k, G.periodic k = true) {D : Domain 3} (hD : Domain.Ok D) (minLevel maxLevel : ℕ)
    (hlev : ∀ o ∈ M, minLevel ≤ o.level ∧ o.level ≤ maxLevel) {b : Fin 3 → ℕ} (hb0 : ∀ k, 0 < b k)
    (hb : (∀ k, 2 ∣ b k) ∨ ∀ k, b k = 1) (q : Body 3) (hq : InBox D q.pos) (hfine : NoFinerDiagonal D G M b q.pos)
    (acc : Fin 3 → ℚ) (dt : ℚ) :
    cicMove D G M minLevel maxLevel b (fun k _ _ => acc k) dt q = some (kickDrift D dt acc q) := by
  have h := fun k => C60_constant_partial hG hM hB hper hD minLevel maxLevel hlev hb0 hb q.pos hq hfine (acc k)
  unfold cicMove
  rw [h 0, h 1, h 2, Option.bind_some, Option.bind_some, Option.map_some]
  congr 2
  funext k
  fin_cases k <;> rfl

/-- The hypotheses of `C60_transpose` and `C60_bounded` are met at a change of level. -/
example : ∃ a, cicAcc cubeDomain cube cubeMesh.toFinset 1 2 ![2, 2, 2] (fun o _ => (-1) ^ o.level) corner.pos = some a ∧
    |a| ≤ 1 :=
  C60_bounded cube_wf cube_tiling cube_balanced (by decide) (D := cubeDomain) (by unfold Domain.Ok; decide) 1 2 cube_levels
    (b := ![2, 2, 2]) (by decide) (Or.inl (by decide)) corner.pos (by unfold InBox; decide +kernel) _ fun o _ _ _ => by
      rw [abs_pow]
      norm_num

end Verif.Particles
