import Verif.Legacy.MarkProofs
import Verif.Legacy.RanksCheck

/-!
# C95: the older refinement criterion marks by the relative second differences of the cells, on all ranks
-/

namespace Verif.Legacy

open Verif.Octree Verif.Cells Verif.Run Verif.Legacy.Spec Verif.Adapt
open Verif.Sim (rankMap exchangeLayers Own SameCells)

noncomputable section

variable {d N Q : ℕ}

/-! ### Model on ranks -/

/-- `DyabloTimeLoop.h` L758-767 on rank `r`: exchange of ghosts, then `mark_cells`. -/
def markOnRank [NeZero N] (P : Par d) (MP : MarkPar) (lowest : ℝ) (gc : ℕ) (s : Ranks d N) (U : Fin N → Mesh d) (r : Fin N)
    (sc : Sched) (old : MarkState d) : Option (ℕ → ℤ) :=
  markCells P MP lowest (rankMap s r) (exchangeLayers s P.b gc U r) (s.octs r) sc old

/-! ### Specification -/

/-- `q` are the primitive values of the gas `g` in the cells of the block of `o` and the first layer around it. The
values are those of means of the cells of the whole mesh, mirrored at walls. -/
def GasAround (P : Par d) (rp : Hydro.Params) (M : Finset (Oct d)) (g : Mesh d) (o : Oct d)
    (q : (Fin d → ℤ) → State d) : Prop :=
  ∃ u : (Fin d → ℤ) → State d, ∀ p : Fin d → ℤ, (∀ i, -1 ≤ p i ∧ p i ≤ P.b i) → q p = toPrim rp (u p) ∧
    ∃ W, Wraps (cellGrid P.G P.b) o.level (fun i => image (wall (P.bcMin i)) (wall (P.bcMax i))
        ((cellGrid P.G P.b).count i o.level) (lattice P.b o p i)) W ∧
      ∀ v : HV d, IsMean P.b M (fun o x => g o x v.var) o.level W
        (varSign (fun i => imageSign (wall (P.bcMin i)) (wall (P.bcMax i)) ((cellGrid P.G P.b).count i o.level)
          (lattice P.b o p i)) v.var * u p v)

/-! ### Proofs -/

theorem IsMark.unique {b : Fin d → ℕ} {MP : MarkPar} {level : ℕ} {q : (Fin d → ℤ) → State d} {m m' : ℤ}
    (h : IsMark b MP level q m) (h' : IsMark b MP level q m') : m = m' := by
  obtain ⟨h1, h2, h3⟩ := h
  obtain ⟨k1, k2, k3⟩ := h'
  rcases h3 with rfl | rfl | rfl
  · exact (k1.2 (h1.1 rfl)).symm
  · rcases k3 with rfl | rfl | rfl
    · exact absurd (h1.2 (k1.1 rfl)) (by norm_num)
    · rfl
    · exact absurd (h2.2 (k2.1 rfl)) (by norm_num)
  · exact (k2.2 (h2.1 rfl)).symm

theorem curvature_range {eps : ℝ} (he : 0 < eps) (a c e : ℝ) : 0 ≤ curvature eps a c e ∧ curvature eps a c e < 1 := by
  have hd : |a - 2 * c + e| < |e - c| + |c - a| + (|a| + 2 * |c| + |e|) / 100 + eps := by
    have h1 := abs_sub (e - c) (c - a)
    rw [show e - c - (c - a) = a - 2 * c + e by ring] at h1
    have h2 : 0 ≤ |a| + 2 * |c| + |e| := by positivity
    linarith
  unfold curvature
  have h0 := abs_nonneg (a - 2 * c + e)
  exact ⟨div_nonneg h0 (h0.trans hd.le), (div_lt_one (h0.trans_lt hd)).2 hd⟩

/-- The primitive values around an octant, computed on the whole mesh. -/
def gasOf (P : Par d) (rp : Hydro.Params) (M : Finset (Oct d)) (g : Mesh d) (o : Oct d) (p : Fin d → ℤ) : State d :=
  toPrim rp (getCons ((fillGhosts P M g o fun _ _ => 0).getD fun _ _ => 0) p)

section
variable [NeZero N] {P : Par d} {e L : ℕ} {s : Ranks d N}

/-- Every rank fills its blocks with the gas of the whole mesh in the first layer of ghost cells, from two layers of
ghosts. -/
theorem rank_fills (hG : P.G.WF) (hs : Good e L P.G s) (hw : P.w = 2) (hb : ∀ k, 4 ≤ P.b k ∧ 2 ∣ P.b k)
    (hper : PeriodicOk P) (MP : MarkPar) {gc : ℕ} (hgc : 2 ≤ gc) {U : Fin N → Mesh d} {g : Mesh d} (hU : Own s P.b U g)
    (r : Fin N) :
    Fills P MP (rankMap s r) (exchangeLayers s P.b gc U r) (s.octs r) (gasOf P MP.rp s.mesh g) := by
  intro o ho B
  obtain ⟨h1, h2⟩ := exchanged_agree (gc := gc) hG hs hU ho
  obtain ⟨B1, B2, f1, f2, e1, -⟩ := fill_agree (Sim.around hG hs ho) hw hb hper (t := 1) (by norm_num)
    (Or.inl (by omega)) h1 h2 B fun _ _ => 0
  refine ⟨B1, f1, fun p hp => ?_⟩
  unfold gasOf
  rw [f2, Option.getD_some]
  congr 1
  funext v
  exact e1 p (fun i => by have := hp i; push_cast; omega) _ (by cases v <;> trivial)

theorem gasOf_around (hG : P.G.WF) (hs : Good e L P.G s) (hw : P.w = 2) (hb : ∀ k, 4 ≤ P.b k ∧ 2 ∣ P.b k)
    (hper : PeriodicOk P) (hu : ∀ i, P.bcMin i ≠ .user ∧ P.bcMax i ≠ .user) (rp : Hydro.Params) (g : Mesh d) {r : Fin N}
    {o : Oct d} (ho : o ∈ s.octs r) : GasAround P rp s.mesh g o (gasOf P rp s.mesh g o) := by
  have ha := Sim.around hG hs ho
  obtain ⟨B, f, h, -⟩ := C83_ghost_values_partial hG.toPos ha.tiling ha.balanced (Sim.mem_mesh ho)
    (fun k => by have := (hb k).1; omega) (fun k => (hb k).2) (fun k => by have := (hb k).1; omega)
    (fun _ _ _ _ k => by have := (hb k).1; omega) hper hu g fun _ _ => 0
  refine ⟨getCons B, fun p hp => ⟨by unfold gasOf; rw [f]; rfl, ?_⟩⟩
  obtain ⟨W, h1, h2⟩ := h p fun i => by have := hp i; omega
  exact ⟨W, h1, fun v => h2 v.var (by cases v <;> trivial)⟩

/-- The gas around an octant is determined by the cells of the mesh. -/
theorem GasAround.unique (hG : P.G.Pos) (hb : ∀ k, 0 < P.b k) {M : Finset (Oct d)} (hM : Tiling P.G M)
    {rp : Hydro.Params} {g g' : Mesh d} {o : Oct d} {q q' : (Fin d → ℤ) → State d}
    (hgg : ∀ a ∈ M, ∀ x : Fin d → ℕ, (∀ k, x k < P.b k) → g a x = g' a x)
    (h : GasAround P rp M g o q) (h' : GasAround P rp M g' o q') {p : Fin d → ℤ} (hp : ∀ i, -1 ≤ p i ∧ p i ≤ P.b i) :
    q p = q' p := by
  obtain ⟨u, hu⟩ := h
  obtain ⟨u', hu'⟩ := h'
  obtain ⟨e1, W, w1, m1⟩ := hu p hp
  obtain ⟨e2, W', w2, m2⟩ := hu' p hp
  rw [e1, e2]
  congr 1
  funext v
  obtain rfl := wraps_unique w1 w2
  have hs0 : varSign (fun i => imageSign (wall (P.bcMin i)) (wall (P.bcMax i)) ((cellGrid P.G P.b).count i o.level)
      (lattice P.b o p i)) v.var ≠ 0 := by
    have := varSign_sq (s := fun i => imageSign (wall (P.bcMin i)) (wall (P.bcMax i))
      ((cellGrid P.G P.b).count i o.level) (lattice P.b o p i)) (fun i => imageSign_sq _ _ _ _) v.var
    intro h0
    rw [h0] at this
    norm_num at this
  exact mul_left_cancel₀ hs0 (isMean_congr hG hb hM (m1 v) (m2 v) fun a ha x hx _ _ => congrFun (hgg a ha x hx) v.var)

end

/-- The markers depend on the block and the first layer around it. -/
theorem rough_congr {b : Fin d → ℕ} {eps t : ℝ} {q q' : (Fin d → ℤ) → State d}
    (h : ∀ p : Fin d → ℤ, (∀ i, -1 ≤ p i ∧ p i ≤ b i) → q p = q' p) (hr : Rough b eps t q) : Rough b eps t q' := by
  obtain ⟨p, hp, v, hv, k, hlt⟩ := hr
  refine ⟨p, hp, v, hv, k, ?_⟩
  rwa [h p fun i => by have := hp i; omega, h (p - _) fun i => ?_, h (p + _) fun i => ?_] at hlt
  · have := hp i
    simp only [Pi.add_apply, Pi.single_apply]
    split <;> omega
  · have := hp i
    simp only [Pi.sub_apply, Pi.single_apply]
    split <;> omega

/-- In the block itself the gas is that of the octant. -/
theorem gasOf_inner {P : Par d} {M : Finset (Oct d)} {o : Oct d} (hG : P.G.Pos) (hM : Tiling P.G M)
    (hB : Balanced P.G M) (ho : o ∈ M) (hw : P.w = 2) (hb : ∀ k, 4 ≤ P.b k ∧ 2 ∣ P.b k) (hper : PeriodicOk P)
    (rp : Hydro.Params) (g : Mesh d) {p : Fin d → ℤ} (hp : ∀ i, 0 ≤ p i ∧ p i < P.b i) :
    gasOf P rp M g o p = toPrim rp fun v => g o (fun i => (p i).toNat) v.var := by
  obtain ⟨B, f, -, h, -⟩ := fillGhosts_spec hG hM hB ho (fun k => by have := (hb k).1; omega) (fun k => (hb k).2)
    (fun k => by have := (hb k).1; omega) (fun _ _ _ _ k => by have := (hb k).1; omega) hper g fun _ _ => 0
  unfold gasOf
  rw [f, Option.getD_some]
  congr 1
  funext v
  exact h p hp _ fun k hk => by cases v <;> cases hk

/-! ### Properties -/

section
variable [NeZero N] {P : Par d} {e L : ℕ} (hG : P.G.WF) (hd : 0 < d) (hde : d ≤ e) (h64 : e * L < 64) (hL : P.G.lmin ≤ L)
  (hT : ∏ i, P.G.coarse i < 2 ^ 32) (hN : N ≤ ∏ i, P.G.coarse i) (hw : P.w = 2) (hb : ∀ k, 4 ≤ P.b k ∧ 2 ∣ P.b k)
  (h32 : ∏ i, (P.b i + 4) ≤ 2 ^ 32) (hper : PeriodicOk P)
include hG hd hde h64 hL hT hN hw hb h32 hper

/-- **C95.** On every rank, from the two layers of ghosts of the time loop or more, with groups of any size, any contents
of the group arrays and any order of the threads: `mark_cells` ends without writing behind its arrays, and an octant is
marked for refinement if it is below the finest level and the relative second difference of density or pressure is above
`error_max` in some cell along some direction, for coarsening if it is above the coarsest level and no cell is above
either threshold. The values are those of the whole mesh. -/
theorem C95_markers (hu : ∀ i, P.bcMin i ≠ .user ∧ P.bcMax i ≠ .user) {MP : MarkPar} (he : 0 ≤ MP.eps) {lowest : ℝ}
    (hlow : lowest ≤ 0) (hgr : 0 < MP.perGroup) {mks : List (Oct d → ℤ)} {s : Ranks d N} (h : Reach e L P.G mks s)
    {U : Fin N → Mesh d} {g : Mesh d} (hU : Own s P.b U g) {gc : ℕ} (hgc : 2 ≤ gc) (r : Fin N)
    (hn : (s.octs r).length + MP.perGroup ≤ 2 ^ 32) {sc : Sched} (hsc : sc.Ok P MP (s.octs r).length) (old : MarkState d) :
    ∃ m, markOnRank P MP lowest gc s U r sc old = some m ∧ ∀ i o, (s.octs r)[i]? = some o →
      (∃ q, GasAround P MP.rp s.mesh g o q) ∧
      ∀ q, GasAround P MP.rp s.mesh g o q → IsMark P.b MP o.level q (m i) := by
  have hs := (reach_good hG hd hde h64 hL hT hN h).1
  have h32' : ∏ i, ghosted P i ≤ 2 ^ 32 := by
    have : ∏ i, ghosted P i = ∏ i, (P.b i + 4) := Finset.prod_congr rfl fun i _ => by unfold ghosted; rw [hw]
    rwa [this]
  have hb0 : ∀ k, 0 < P.b k := fun k => by have := (hb k).1; omega
  obtain ⟨m, h1, h2⟩ := markCells_spec hsc (rank_fills hG hs hw hb hper MP hgc hU r) hd (by omega) hb0 h32' he hlow hgr
    hn old
  refine ⟨m, h1, fun i o ho => ?_⟩
  have hmem : o ∈ s.octs r := List.mem_of_getElem? ho
  have ha := gasOf_around hG hs hw hb hper hu MP.rp g hmem
  refine ⟨⟨_, ha⟩, fun q hq => ?_⟩
  have hM := (Sim.around hG hs hmem).tiling
  have e1 : ∀ t, Rough P.b MP.eps t q ↔ Rough P.b MP.eps t (gasOf P MP.rp s.mesh g o) := fun t =>
    ⟨rough_congr fun p hp => GasAround.unique hG.toPos hb0 hM (fun _ _ _ _ => rfl) hq ha hp,
      rough_congr fun p hp => GasAround.unique hG.toPos hb0 hM (fun _ _ _ _ => rfl) ha hq hp⟩
  have := h2 i o ho
  unfold IsMark at this ⊢
  rwa [e1, e1]

/-- **C95.** The markers do not depend on the number of ranks, on the size of the groups, on the layers of ghosts that
are exchanged, on old contents or on the order of the threads. -/
theorem C95_independent_of_ranks [NeZero Q] (hQ : Q ≤ ∏ i, P.G.coarse i) {MP : MarkPar} (he : 0 ≤ MP.eps) {lowest : ℝ}
    (hlow : lowest ≤ 0) {n n' : ℕ} (hgr : 0 < n) (hgr' : 0 < n') {mks : List (Oct d → ℤ)} {s : Ranks d N}
    {t : Ranks d Q} (h : Reach e L P.G mks s) (h' : Reach e L P.G mks t)
    {U : Fin N → Mesh d} {V : Fin Q → Mesh d} (hUV : SameCells s t P.b U V) {gc gc' : ℕ} (hgc : 2 ≤ gc) (hgc' : 2 ≤ gc')
    (r : Fin N) (r' : Fin Q) (hn : (s.octs r).length + n ≤ 2 ^ 32) (hn' : (t.octs r').length + n' ≤ 2 ^ 32)
    {sc sc' : Sched} (hsc : sc.Ok P { MP with perGroup := n } (s.octs r).length)
    (hsc' : sc'.Ok P { MP with perGroup := n' } (t.octs r').length) (old old' : MarkState d) :
    ∃ m m', markOnRank P { MP with perGroup := n } lowest gc s U r sc old = some m ∧
      markOnRank P { MP with perGroup := n' } lowest gc' t V r' sc' old' = some m' ∧
      ∀ i j o, (s.octs r)[i]? = some o → (t.octs r')[j]? = some o → m i = m' j := by
  obtain ⟨hs, ms⟩ := reach_good hG hd hde h64 hL hT hN h
  obtain ⟨ht, mt⟩ := reach_good hG hd hde h64 hL hT hQ h'
  have hm : s.mesh = t.mesh := ms.unique mt
  have h32' : ∏ i, ghosted P i ≤ 2 ^ 32 := by
    have : ∏ i, ghosted P i = ∏ i, (P.b i + 4) := Finset.prod_congr rfl fun i _ => by unfold ghosted; rw [hw]
    rwa [this]
  have hb0 : ∀ k, 0 < P.b k := fun k => by have := (hb k).1; omega
  have hU : Own s P.b U fun o => U (owner s.octs o) o := fun r o ho x _ => by
    show U r o x = U (owner s.octs o) o x
    rw [Sim.owner_eq hs ho]
  have hV : Own t P.b V fun o => U (owner s.octs o) o := fun q o ho x hx =>
    (hUV _ q o (owner_mem _ (show o ∈ s.mesh by rw [hm]; exact Sim.mem_mesh ho)) ho x hx).symm
  obtain ⟨m, a1, a2⟩ := markCells_spec hsc (rank_fills hG hs hw hb hper _ hgc hU r) hd (by omega) hb0 h32' he hlow hgr
    hn old
  obtain ⟨m', b1, b2⟩ := markCells_spec hsc' (rank_fills hG ht hw hb hper _ hgc' hV r') hd (by omega) hb0 h32' he hlow hgr'
    hn' old'
  refine ⟨m, m', a1, b1, fun i j o ho ho' => ?_⟩
  have k1 := a2 i o ho
  have k2 := b2 j o ho'
  rw [← hm] at k2
  exact IsMark.unique (MP := MP) k1 k2

end

/-- **C95.** The error is below 1: with `error_max` of at least 1 nothing is refined, with `error_min` and `error_max` of at
least 1 every octant above the coarsest level is marked for coarsening. -/
theorem C95_thresholds {b : Fin d → ℕ} {MP : MarkPar} (he : 0 < MP.eps) {level : ℕ} {q : (Fin d → ℤ) → State d} {m : ℤ}
    (h : IsMark b MP level q m) : (1 ≤ MP.errorMax → m ≠ 1) ∧
      (1 ≤ MP.errorMax → 1 ≤ MP.errorMin → MP.levelMin < level → m = -1) := by
  have hr : ∀ t : ℝ, 1 ≤ t → ¬Rough b MP.eps t q := by
    rintro t ht ⟨p, -, v, -, k, hlt⟩
    linarith [(curvature_range he (q (p - Pi.single k 1) v) (q p v) (q (p + Pi.single k 1) v)).2]
  obtain ⟨h1, h2, -⟩ := h
  exact ⟨fun ht hm => hr _ ht (h1.1 hm).2, fun ht ht' hl => h2.2 ⟨hl, hr _ ht', hr _ ht⟩⟩

/-- **C95.** Gas at rest with the same density and energy in all cells is coarsened everywhere, next to walls and between
levels too. -/
theorem C95_uniform {P : Par d} {rp : Hydro.Params} {M : Finset (Oct d)} {g : Mesh d} {o : Oct d}
    {q : (Fin d → ℤ) → State d} (hq : GasAround P rp M g o q) {c : Cell d} (hg : ∀ o ∈ M, ∀ x, g o x = c)
    (hc : ∀ k, c (.mom k) = 0) {MP : MarkPar} (h0 : 0 ≤ MP.errorMin) (h1 : 0 ≤ MP.errorMax) {m : ℤ}
    (h : IsMark P.b MP o.level q m) (hl : MP.levelMin < o.level) : m = -1 := by
  obtain ⟨u, hu⟩ := hq
  have hmean : ∀ {l W} {v : Var d} {V : ℝ}, IsMean P.b M (fun o x => g o x v) l W V → V = c v := by
    rintro l W v V ⟨cs, hcs, rfl⟩
    rw [Finset.sum_congr rfl fun s _ => show (fun o x => g o x v) (cs s).1 (cs s).2 = c v from by
      simp only [hg _ (hcs s).1]]
    simp
  have hsame : ∀ p : Fin d → ℤ, (∀ i, -1 ≤ p i ∧ p i ≤ P.b i) → q p = toPrim rp fun v => c v.var := by
    intro p hp
    obtain ⟨e1, W, -, hm⟩ := hu p hp
    rw [e1]
    congr 1
    funext v
    have hv := hmean (hm v)
    cases v with
    | rho => simpa [HV.var, varSign] using hv
    | e => simpa [HV.var, varSign] using hv
    | mom k =>
      have h2 : c (HV.var (.mom k)) = 0 := hc k
      rw [h2] at hv ⊢
      rcases mul_eq_zero.1 hv with h3 | h3
      · have := varSign_sq (s := fun i => imageSign (wall (P.bcMin i)) (wall (P.bcMax i))
          ((cellGrid P.G P.b).count i o.level) (lattice P.b o p i)) (fun i => imageSign_sq _ _ _ _) (HV.var (.mom k))
        rw [h3] at this
        norm_num at this
      · exact h3
  have hr : ∀ t : ℝ, 0 ≤ t → ¬Rough P.b MP.eps t q := by
    intro t ht hr
    obtain ⟨p, -, v, -, k, hlt⟩ := rough_congr (q' := fun _ => toPrim rp fun v => c v.var) hsame hr
    have : curvature MP.eps (toPrim rp (fun v => c v.var) v) (toPrim rp (fun v => c v.var) v)
        (toPrim rp (fun v => c v.var) v) = 0 := by
      unfold curvature
      rw [div_eq_zero_iff]
      left
      rw [abs_eq_zero]
      ring
    simp only [this] at hlt
    linarith
  exact h.2.1.2 ⟨hl, hr _ h0, hr _ h1⟩

/-! ### Cases that meet the hypotheses -/

/-- One thread per two cells, octants from the last to the first. -/
def exSched (P : Par d) (MP : MarkPar) (n : ℕ) : Sched :=
  ⟨fun _ => [(List.range (∏ k, P.b k)).reverse, []], fun g => (List.range (inGroup MP n g)).reverse, List.reverse⟩

theorem exSched_ok (P : Par d) (MP : MarkPar) (n : ℕ) : (exSched P MP n).Ok P MP n :=
  ⟨fun _ => by simp only [exSched, List.flatten_cons, List.flatten_nil, List.append_nil]; exact List.reverse_perm _,
    fun _ => List.reverse_perm _, fun _ => List.reverse_perm _⟩

def exMarkPar : MarkPar := ⟨⟨2, 1 / 1000, 1 / 1000, 1 / 1000⟩, 1 / 10 ^ 16, 1 / 5, 4 / 5, 1, 2, 2⟩

/-- A density of 1, and 100 in one cell in the middle of an octant; pressure 1. -/
def spotGas (o : Oct 2) (x : Fin 2 → ℕ) : Cell 2
  | .rho => if o = ⟨1, ![1, 0]⟩ ∧ x = ![2, 2] then 100 else 1
  | .etot => 1
  | .mom _ => 0
  | .grav _ => 0

/-- Three ranks, a mesh with a refined octant, groups of two octants: the octant with the spot is refined. -/
example : ∃ s : Ranks 2 3, Reach 3 2 exGrid [exRefine] s ∧ (s.octs 2)[0]? = some ⟨1, ![1, 0]⟩ ∧
    ∀ U : Fin 3 → Mesh 2, Own s rankPar.b U spotGas → ∀ old, ∃ m,
      markOnRank rankPar exMarkPar (-1) (loopLayers rankPar) s U 2 (exSched rankPar exMarkPar 3) old = some m ∧
        m 0 = 1 := by
  obtain ⟨s, hr, hl, -⟩ := C81_rank_emptied_fails
  have hs := (reach_good (P := 3) exGrid_wf (by decide) (by decide) (by decide) (by decide) (by decide) (by decide) hr).1
  have o2 : s.octs 2 = [⟨1, ![1, 0]⟩, ⟨1, ![0, 1]⟩, ⟨1, ![1, 1]⟩] := by
    have := congrArg (fun l : List (List (Oct 2)) => l[2]?) hl
    simpa using this
  have h0 : (s.octs 2)[0]? = some ⟨1, ![1, 0]⟩ := by rw [o2]; rfl
  have hlen : (s.octs 2).length = 3 := by rw [o2]; rfl
  have hin : (⟨1, ![1, 0]⟩ : Oct 2) ∈ s.octs 2 := by rw [o2]; decide
  refine ⟨s, hr, h0, fun U hU old => ?_⟩
  have hu : ∀ i, rankPar.bcMin i ≠ .user ∧ rankPar.bcMax i ≠ .user := by decide
  have hper : PeriodicOk rankPar := by unfold PeriodicOk; decide
  obtain ⟨m, h1, h2⟩ := C95_markers (P := rankPar) (N := 3) exGrid_wf (by decide) (by decide) (by decide) (by decide)
    (by decide) (by decide) rfl (by decide) (by decide) hper hu (MP := exMarkPar)
    (by norm_num [exMarkPar]) (lowest := -1) (by norm_num) (by decide) hr hU (gc := loopLayers rankPar) (by decide) 2
    (by rw [hlen]; decide) (sc := exSched rankPar exMarkPar 3) (by rw [hlen]; exact exSched_ok _ _ _) old
  refine ⟨m, h1, ?_⟩
  have hq := gasOf_around (P := rankPar) exGrid_wf hs rfl (by decide) hper hu exMarkPar.rp spotGas hin
  refine ((h2 0 _ h0).2 _ hq).1.2 ⟨by decide, ![2, 2], by decide, .rho, Or.inl rfl, 0, ?_⟩
  have ha := Sim.around exGrid_wf hs hin
  have hv : ∀ p : Fin 2 → ℤ, (∀ i, 0 ≤ p i ∧ p i < rankPar.b i) →
      gasOf rankPar exMarkPar.rp s.mesh spotGas ⟨1, ![1, 0]⟩ p .rho =
        if (fun i => (p i).toNat) = ![2, 2] then 100 else 1 := by
    intro p hp
    rw [gasOf_inner (P := rankPar) exGrid_wf.toPos ha.tiling ha.balanced (Sim.mem_mesh hin) rfl (by decide) hper
      exMarkPar.rp spotGas hp]
    simp only [toPrim, HV.var, spotGas, true_and]
    split <;> norm_num [exMarkPar]
  rw [hv _ (by decide), hv _ (by decide), hv _ (by decide), if_neg (by decide), if_pos (by decide), if_neg (by decide)]
  norm_num [curvature, exMarkPar]

/-- On the same mesh, gas at rest that is the same everywhere: both octants of the first rank are coarsened. -/
example : ∃ s : Ranks 2 3, Reach 3 2 exGrid [exRefine] s ∧ (s.octs 0).length = 2 ∧
    ∀ U : Fin 3 → Mesh 2, (Own s rankPar.b U fun _ _ => fun v => if v = .rho ∨ v = .etot then 1 else 0) → ∀ old, ∃ m,
      markOnRank rankPar exMarkPar (-1) (loopLayers rankPar) s U 0 (exSched rankPar exMarkPar 2) old = some m ∧
        m 0 = -1 ∧ m 1 = -1 := by
  obtain ⟨s, hr, hl, -⟩ := C81_rank_emptied_fails
  have o0 : s.octs 0 = [⟨2, ![0, 0]⟩, ⟨2, ![1, 0]⟩] := by
    have := congrArg (fun l : List (List (Oct 2)) => l[0]?) hl
    simpa using this
  have hlen : (s.octs 0).length = 2 := by rw [o0]; rfl
  refine ⟨s, hr, hlen, fun U hU old => ?_⟩
  obtain ⟨m, h1, h2⟩ := C95_markers (P := rankPar) (N := 3) exGrid_wf (by decide) (by decide) (by decide) (by decide)
    (by decide) (by decide) rfl (by decide) (by decide) (by unfold PeriodicOk; decide) (by decide) (MP := exMarkPar)
    (by norm_num [exMarkPar]) (lowest := -1) (by norm_num) (by decide) hr hU (gc := loopLayers rankPar) (by decide) 0
    (by rw [hlen]; decide) (sc := exSched rankPar exMarkPar 2) (by rw [hlen]; exact exSched_ok _ _ _) old
  have hm : ∀ i o, (s.octs 0)[i]? = some o → o.level = 2 → m i = -1 := by
    intro i o ho hlv
    obtain ⟨⟨q, hq⟩, h3⟩ := h2 i o ho
    exact C95_uniform hq (fun _ _ _ => rfl) (fun k => by simp) (by norm_num [exMarkPar]) (by norm_num [exMarkPar]) (h3 q hq)
      (by rw [hlv]; decide)
  exact ⟨m, h1, hm 0 _ (by rw [o0]; rfl) rfl, hm 1 _ (by rw [o0]; rfl) rfl⟩

/-- Eight ranks with groups of two octants and one rank with groups of five mark an octant in the same way. -/
example : ∃ (s : Ranks 3 8) (t : Ranks 3 1), Reach 3 4 boxPar.G [] s ∧ Reach 3 4 boxPar.G [] t ∧
    ∀ (U : Fin 8 → Mesh 3) (V : Fin 1 → Mesh 3), SameCells s t boxPar.b U V → ∀ r old old',
      (s.octs r).length ≤ 2 ^ 31 → (t.octs 0).length ≤ 2 ^ 31 → ∃ m m',
      markOnRank boxPar exMarkPar (-1) 2 s U r (exSched boxPar exMarkPar (s.octs r).length) old = some m ∧
      markOnRank boxPar { exMarkPar with perGroup := 5 } (-1) 4 t V 0
        (exSched boxPar { exMarkPar with perGroup := 5 } (t.octs 0).length) old' = some m' ∧
      ∀ i j o, (s.octs r)[i]? = some o → (t.octs 0)[j]? = some o → m i = m' j := by
  obtain ⟨⟨s, es⟩, -⟩ := C81_progress_partial (P := 8) (e := 3) (L := 4) boxPar_wf (by decide) (by decide) (by decide)
    (by decide) (by decide) (by decide)
  obtain ⟨⟨t, et⟩, -⟩ := C81_progress_partial (P := 1) (e := 3) (L := 4) boxPar_wf (by decide) (by decide) (by decide)
    (by decide) (by decide) (by decide)
  have rs : Reach 3 4 boxPar.G [] s := Reach.start es
  have rt : Reach 3 4 boxPar.G [] t := Reach.start et
  refine ⟨s, t, rs, rt, fun U V hUV r old old' hl hl' => ?_⟩
  exact C95_independent_of_ranks (P := boxPar) boxPar_wf (by decide) (by decide) (by decide) (by decide) (by decide)
    (by decide) rfl (by decide) (by decide) (by unfold PeriodicOk; decide) (by decide) (MP := exMarkPar)
    (by norm_num [exMarkPar]) (lowest := -1) (by norm_num) (n := 2) (n' := 5) (by decide) (by decide) rs rt hUV (gc := 2)
    (gc' := 4) (by decide) (by decide) r 0 (by omega) (by omega) (exSched_ok boxPar exMarkPar _)
    (exSched_ok boxPar { exMarkPar with perGroup := 5 } _) old old'

end

end Verif.Legacy
