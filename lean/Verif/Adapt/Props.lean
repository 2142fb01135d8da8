import Verif.Adapt.Loop
import Verif.Adapt.Apply
import Verif.Octree.Check
import Mathlib.Tactic.FinCases

/-!
# Properties of mesh adaptation (C09–C15)

`Requested` states what the code relies on: markers in `{-1, 0, 1}`, markers limited to the level
range (as `set_markers` does) and target levels of at least 1, which holds when `level_min ≥ 1`.
The last condition is needed: see the `fails` theorems at the end.
-/

namespace Verif.Adapt

open Verif.Octree

variable {d P : ℕ}

/-- With `level_min ≥ 1`, limited markers satisfy `Requested`. -/
theorem requested_of_limited {G : Grid d} {M : Finset (Oct d)} (hM : Tiling G M)
    {mk : Oct d → ℤ} (h1 : 1 ≤ G.lmin) (hlo : ∀ a ∈ M, -1 ≤ mk a) (hup : ∀ a ∈ M, mk a ≤ 1)
    (hlim : ∀ a ∈ M, mk a = -1 → G.lmin < a.level) (hb : ∀ a ∈ M, a.level < 2 ^ 30) :
    Requested G M mk := by
  refine ⟨hlo, hup, hlim, fun a ha => ?_, hb⟩
  have h2 := (hM.valid a ha).1
  have h3 := hlo a ha
  by_cases h4 : mk a = -1
  · have := hlim a ha h4; omega
  · omega

/-- **C09** Marker correction terminates: `2·|M|+1` passes per local loop and `2·|M|+1` exchanges
always suffice, and no neighbour lookup fails. -/
theorem C09_marker_correction_terminates {G : Grid d} (hG : G.WF) {M : Finset (Oct d)}
    (hM : Tiling G M) (hB : Balanced G M) (D : Dist d P)
    (hD : GhostComplete G M D.owner D.ghost) (mk : Oct d → ℤ) (hr : Requested G M mk)
    (innerFuel fuel : ℕ) (h1 : 2 * M.card < innerFuel) (h2 : 2 * M.card < fuel) :
    (outerLoop G D M innerFuel fuel mk).isSome = true := by
  obtain ⟨f, e, -⟩ := outerLoop_spec hG hM hB D hD innerFuel h1 fuel mk hr
    (lt_of_le_of_lt (room_le hr) h2)
  rw [e]; rfl

/-- More fuel does not change the result of the inner loop. -/
theorem innerLoop_mono (G : Grid d) (D : Dist d P) (M : Finset (Oct d)) (r : Fin P)
    (frozen : Oct d → ℤ) (n k : ℕ) (cur : Oct d → ℤ) (u : Bool) (res : (Oct d → ℤ) × Bool)
    (h : innerLoop G D M r frozen n cur u = some res) :
    innerLoop G D M r frozen (n + k) cur u = some res := by
  induction n generalizing cur u with
  | zero => simp [innerLoop] at h
  | succ n ih =>
    rw [show n + 1 + k = (n + k) + 1 by omega]
    unfold innerLoop at h ⊢
    cases hp : pass G D M r frozen cur with
    | none => rw [hp] at h; simp at h
    | some new =>
      rw [hp] at h
      simp only [Option.bind_some] at h ⊢
      split
      · rename_i h1
        rw [if_pos h1] at h; exact h
      · rename_i h1
        rw [if_neg h1] at h
        exact ih _ _ h

/-- **C10** The corrected markers are the smallest correction that satisfies the 2:1 and sibling
rules. -/
theorem C10_result_is_least_correction {G : Grid d} (hG : G.WF) {M : Finset (Oct d)}
    (hM : Tiling G M) (hB : Balanced G M) (D : Dist d P)
    (hD : GhostComplete G M D.owner D.ghost) (mk : Oct d → ℤ) (hr : Requested G M mk)
    (innerFuel fuel : ℕ) (h1 : 2 * M.card < innerFuel) (h2 : 2 * M.card < fuel) :
    ∃ f, outerLoop G D M innerFuel fuel mk = some f ∧ LeastCorrection G M mk f := by
  obtain ⟨f, e, -, h⟩ := outerLoop_spec hG hM hB D hD innerFuel h1 fuel mk hr
    (lt_of_le_of_lt (room_le hr) h2)
  exact ⟨f, e, h⟩

/-- More fuel does not change the result of the outer loop. -/
theorem outerLoop_mono (G : Grid d) (D : Dist d P) (M : Finset (Oct d)) (n k m j : ℕ)
    (mk f : Oct d → ℤ) (h : outerLoop G D M n m mk = some f) :
    outerLoop G D M (n + k) (m + j) mk = some f := by
  induction m generalizing mk with
  | zero => simp [outerLoop] at h
  | succ m ih =>
    rw [show m + 1 + j = (m + j) + 1 by omega]
    unfold outerLoop at h ⊢
    by_cases h1 : ∀ r : Fin P, (innerLoop G D M r mk n mk false).isSome = true
    · have he : ∀ r : Fin P, innerLoop G D M r mk (n + k) mk false =
          innerLoop G D M r mk n mk false := by
        intro r
        obtain ⟨res, hres⟩ := Option.isSome_iff_exists.1 (h1 r)
        rw [hres]
        exact innerLoop_mono G D M r mk n k mk false res hres
      simp only [he]
      rw [if_pos h1] at h ⊢
      simp only at h ⊢
      split
      · rename_i h2
        rw [if_pos h2] at h
        exact ih _ h
      · rename_i h2
        rw [if_neg h2] at h
        exact h
    · rw [if_neg h1] at h
      simp at h

/-- **C10** Whenever the loops stop, after however many passes and exchanges, the markers are the
smallest correction. -/
theorem C10_stops_only_at_least_correction {G : Grid d} (hG : G.WF) {M : Finset (Oct d)}
    (hM : Tiling G M) (hB : Balanced G M) (D : Dist d P)
    (hD : GhostComplete G M D.owner D.ghost) (mk : Oct d → ℤ) (hr : Requested G M mk)
    (innerFuel fuel : ℕ) (f : Oct d → ℤ) (h : outerLoop G D M innerFuel fuel mk = some f) :
    LeastCorrection G M mk f := by
  obtain ⟨g, e, hg⟩ := C10_result_is_least_correction hG hM hB D hD mk hr
    (innerFuel + (2 * M.card + 1)) (fuel + (2 * M.card + 1)) (by omega) (by omega)
  rw [outerLoop_mono G D M innerFuel _ fuel _ mk f h] at e
  rw [Option.some.inj e]
  exact hg

/-- **C10** Two runs on different distributions (even different rank counts) give the same markers
and the same mesh. -/
theorem C10_decomposition_independent {G : Grid d} (hG : G.WF) {M : Finset (Oct d)}
    (hM : Tiling G M) (hB : Balanced G M) {P' : ℕ} (D : Dist d P) (D' : Dist d P')
    (hD : GhostComplete G M D.owner D.ghost) (hD' : GhostComplete G M D'.owner D'.ghost)
    (mk : Oct d → ℤ) (hr : Requested G M mk) (n1 n2 m1 m2 : ℕ)
    (h1 : 2 * M.card < n1) (h2 : 2 * M.card < n2) (h3 : 2 * M.card < m1) (h4 : 2 * M.card < m2) :
    ∃ f g, outerLoop G D M n1 m1 mk = some f ∧ outerLoop G D' M n2 m2 mk = some g ∧
      (∀ a ∈ M, f a = g a) ∧ newMesh f M = newMesh g M := by
  obtain ⟨f, e, hf⟩ := C10_result_is_least_correction hG hM hB D hD mk hr n1 m1 h1 h3
  obtain ⟨g, e', hg⟩ := C10_result_is_least_correction hG hM hB D' hD' mk hr n2 m2 h2 h4
  have heq := hf.unique hg
  refine ⟨f, g, e, e', heq, ?_⟩
  unfold newMesh
  exact Finset.biUnion_congr rfl (fun a ha => by rw [heq a ha])

/-- Asynchronous sweeps: at each step some leaves replace their marker by the result of the check,
where each reads its own current marker and, for the other leaves, any value that such a leaf had at
some earlier time. -/
inductive Sweep (G : Grid d) (M : Finset (Oct d)) (mk0 : Oct d → ℤ) : List (Oct d → ℤ) → Prop
  | start : Sweep G M mk0 [mk0]
  | step {cur : Oct d → ℤ} {hist : List (Oct d → ℤ)} (new : Oct d → ℤ)
      (h : Sweep G M mk0 (cur :: hist))
      (hnew : ∀ a ∈ M, new a = cur a ∨ ∃ rd : Oct d → ℤ, rd a = cur a ∧
        (∀ b ∈ M, ∃ old ∈ cur :: hist, rd b = old b) ∧ checkOct G M rd a = some (new a)) :
      Sweep G M mk0 (new :: cur :: hist)

theorem Sweep.invariant {G : Grid d} (hG : G.WF) {M : Finset (Oct d)} (hM : Tiling G M)
    (hB : Balanced G M) {mk0 mk' : Oct d → ℤ} (hr : Requested G M mk0) (hA : Admissible G M mk')
    (hle : ∀ a ∈ M, mk0 a ≤ mk' a) {hist : List (Oct d → ℤ)} (h : Sweep G M mk0 hist) :
    ∀ f ∈ hist, Requested G M f ∧ ∀ a ∈ M, mk0 a ≤ f a ∧ f a ≤ mk' a := by
  induction h with
  | start =>
    intro f hf
    simp only [List.mem_singleton] at hf
    subst hf
    exact ⟨hr, fun a ha => ⟨le_refl _, hle a ha⟩⟩
  | step new h hnew ih =>
    rename_i cur hist
    intro f hf
    rcases List.mem_cons.1 hf with rfl | hf
    · obtain ⟨hc, hcb⟩ := ih cur (by simp)
      have key : ∀ a ∈ M, cur a ≤ f a ∧ f a ≤ mk' a ∧ f a ≤ 1 := by
        intro a ha
        rcases hnew a ha with e | ⟨rd, h1, h2, h3⟩
        · rw [e]; exact ⟨le_refl _, (hcb a ha).2, hc.upper a ha⟩
        · have hrd : Requested G M rd := by
            constructor <;> intro b hb <;> obtain ⟨old, ho, e⟩ := h2 b hb
            · rw [e]; exact (ih old ho).1.lower b hb
            · rw [e]; exact (ih old ho).1.upper b hb
            · rw [e]; exact (ih old ho).1.coarsest b hb
            · rw [e]; exact (ih old ho).1.target b hb
            · exact hr.bound b hb
          have hrle : ∀ b ∈ M, rd b ≤ mk' b := by
            intro b hb
            obtain ⟨old, ho, e⟩ := h2 b hb
            rw [e]; exact ((ih old ho).2 b hb).2
          obtain ⟨r, e, h4, h5⟩ := checkOct_spec hG hM hB rd hrd ha
          rw [e, Option.some.injEq] at h3
          rw [← h3]
          refine ⟨by rw [← h1]; exact h4.1, h5 _ (localOK_of_admissible hrd hA hrle ha),
            h5 1 (localOK_one hB hrd ha)⟩
      refine ⟨⟨fun a ha => le_trans (hc.lower a ha) (key a ha).1, fun a ha => (key a ha).2.2,
        fun a ha h1 => hc.coarsest a ha ?_, fun a ha => ?_, hr.bound⟩, fun a ha =>
        ⟨le_trans (hcb a ha).1 (key a ha).1, (key a ha).2.1⟩⟩
      · have := (key a ha).1
        have := hc.lower a ha
        omega
      · have := (key a ha).1
        have := hc.target a ha
        omega
    · exact ih f hf

/-- **C10** Any order of sweeps, with stale reads, that ends in a state where the check changes
nothing ends in the same markers. -/
theorem C10_any_sweep_order {G : Grid d} (hG : G.WF) {M : Finset (Oct d)}
    (hM : Tiling G M) (hB : Balanced G M) {mk0 : Oct d → ℤ} (hr : Requested G M mk0)
    {f : Oct d → ℤ} {hist : List (Oct d → ℤ)} (h : Sweep G M mk0 (f :: hist))
    (hstop : ∀ a ∈ M, checkOct G M f a = some (f a)) : LeastCorrection G M mk0 f := by
  -- a sequential run gives some admissible correction, used to start the invariant
  let D : Dist d 1 := ⟨fun _ => 0, fun _ => ∅⟩
  have hD : GhostComplete G M D.owner D.ghost := by
    intro r
    refine ⟨fun b hb => absurd hb (by simp [D]), fun a _ _ b _ hb _ => absurd ?_ hb⟩
    exact Subsingleton.elim _ _
  obtain ⟨g, -, hg⟩ := C10_result_is_least_correction hG hM hB D hD mk0 hr _ _
    (Nat.lt_succ_self _) (Nat.lt_succ_self _)
  have hreq := (h.invariant hG hM hB hr hg.2.1 hg.1 f (by simp)).1
  refine ⟨fun a ha => ((h.invariant hG hM hB hr hg.2.1 hg.1 f (by simp)).2 a ha).1, ?_, ?_⟩
  · apply admissible_of_localOK
    intro a ha
    obtain ⟨r, e, h1, -⟩ := checkOct_spec hG hM hB f hreq ha
    rw [hstop a ha, Option.some.injEq] at e
    rw [e]
    exact h1
  · intro mk' hA hle a ha
    exact ((h.invariant hG hM hB hr hA hle f (by simp)).2 a ha).2

/-- **C11** Requested refinements happen; coarsening was requested and is done for all siblings,
which are leaves; levels change by at most one. -/
theorem C11_refine_honoured_coarsen_all_or_nothing_partial {G : Grid d} (hG : G.WF) {M : Finset (Oct d)}
    (hM : Tiling G M) (hB : Balanced G M) (D : Dist d P)
    (hD : GhostComplete G M D.owner D.ghost) (mk f : Oct d → ℤ) (hr : Requested G M mk)
    (innerFuel fuel : ℕ) (h1 : 2 * M.card < innerFuel) (h2 : 2 * M.card < fuel)
    (hf : outerLoop G D M innerFuel fuel mk = some f) :
    (∀ a ∈ M, mk a = 1 → f a = 1) ∧
    (∀ a ∈ M, f a = -1 → mk a = -1 ∧ ∀ s, Sibling s a → s ∈ M ∧ f s = -1) ∧
    (∀ a ∈ M, f a = -1 ∨ f a = 0 ∨ f a = 1) := by
  obtain ⟨g, e, hR, h3, h4, -⟩ := outerLoop_spec hG hM hB D hD innerFuel h1 fuel mk hr
    (lt_of_le_of_lt (room_le hr) h2)
  rw [hf, Option.some.injEq] at e
  subst e
  refine ⟨fun a ha h5 => ?_, fun a ha h5 => ⟨?_, h4.sib a ha h5⟩, fun a ha => ?_⟩
  · have := h3 a ha
    have := hR.upper a ha
    omega
  · have := h3 a ha
    have := hr.lower a ha
    omega
  · have := hR.lower a ha
    have := hR.upper a ha
    omega

/-- **C12** The adapted mesh is 2:1 balanced. -/
theorem C12_adapt_preserves_balance {G : Grid d} (hG : G.WF) {M : Finset (Oct d)}
    (hM : Tiling G M) (hB : Balanced G M) (D : Dist d P)
    (hD : GhostComplete G M D.owner D.ghost) (mk f : Oct d → ℤ) (hr : Requested G M mk)
    (innerFuel fuel : ℕ) (h1 : 2 * M.card < innerFuel) (h2 : 2 * M.card < fuel)
    (hf : outerLoop G D M innerFuel fuel mk = some f) : Balanced G (newMesh f M) := by
  obtain ⟨g, e, hR, h3, h4, -⟩ := outerLoop_spec hG hM hB D hD innerFuel h1 fuel mk hr
    (lt_of_le_of_lt (room_le hr) h2)
  rw [hf, Option.some.injEq] at e
  subst e
  exact newMesh_balanced hG hM h4 hR.coarsest hR.lower

/-- **C13** The adapted mesh tiles the domain. -/
theorem C13_adapt_preserves_tiling_partial {G : Grid d} (hG : G.WF) {M : Finset (Oct d)}
    (hM : Tiling G M) (hB : Balanced G M) (D : Dist d P)
    (hD : GhostComplete G M D.owner D.ghost) (mk f : Oct d → ℤ) (hr : Requested G M mk)
    (innerFuel fuel : ℕ) (h1 : 2 * M.card < innerFuel) (h2 : 2 * M.card < fuel)
    (hf : outerLoop G D M innerFuel fuel mk = some f) : Tiling G (newMesh f M) := by
  obtain ⟨g, e, hR, h3, h4, -⟩ := outerLoop_spec hG hM hB D hD innerFuel h1 fuel mk hr
    (lt_of_le_of_lt (room_le hr) h2)
  rw [hf, Option.some.injEq] at e
  subst e
  exact newMesh_tiling hG hM h4 (fun a ha => ⟨hR.lower a ha, hR.upper a ha⟩) hR.coarsest

/-- **C14** On each rank, for any markers and any order of the parallel writes, every slot of the
new storage is written and holds the next new leaf; nothing is written beyond it. -/
theorem C14_storage_filled_exactly (mk : Oct d → ℤ) (l : List (Oct d)) (ws : List (ℕ × Oct d))
    (hp : ws.Perm (writes mk l)) :
    (∀ j < (offsets mk 0 l).2, ∃ o, storage ws j = some o) ∧
    (∀ j ≥ (offsets mk 0 l).2, storage ws j = none) ∧
    (ws.map Prod.fst).Nodup ∧
    (List.range (offsets mk 0 l).2).map (storage ws) =
      (l.flatMap fun a => written (mk a) a).map some := by
  have hlen := offsets_total mk l
  refine ⟨fun j hj => ?_, fun j hj => ?_, ?_, ?_⟩
  · rw [hlen] at hj
    exact ⟨_, by rw [storage_perm mk l ws hp, List.getElem?_eq_getElem hj]⟩
  · rw [storage_perm mk l ws hp]
    exact List.getElem?_eq_none (by omega)
  · rw [(hp.map Prod.fst).nodup_iff, writes_eq, List.map_map]
    have : (Prod.fst ∘ fun y : Oct d × ℕ => (y.2, y.1)) = Prod.snd := rfl
    rw [this, List.zipIdx_map_snd]
    exact List.nodup_range'
  · rw [hlen]
    show _ = (newLeaves mk l).map some
    apply List.ext_getElem?
    intro j
    rw [List.getElem?_map, List.getElem?_map]
    by_cases hj : j < (newLeaves mk l).length
    · rw [List.getElem?_range hj, List.getElem?_eq_getElem hj]
      simp only [Option.map_some]
      rw [storage_perm mk l ws hp, List.getElem?_eq_getElem hj]
    · rw [List.getElem?_eq_none (by simpa using hj), List.getElem?_eq_none (by simpa using hj)]
      rfl

/-- **C14** The new leaves of all ranks, concatenated in rank order, are in Morton order and are
exactly the adapted mesh. `ls r` are the leaves of rank `r` in storage order. -/
theorem C14_morton_order {G : Grid d} (hG : G.WF) {M : Finset (Oct d)}
    (hM : Tiling G M) (hB : Balanced G M) (D : Dist d P)
    (hD : GhostComplete G M D.owner D.ghost) (mk f : Oct d → ℤ) (hr : Requested G M mk)
    (innerFuel fuel : ℕ) (h1 : 2 * M.card < innerFuel) (h2 : 2 * M.card < fuel)
    (hf : outerLoop G D M innerFuel fuel mk = some f)
    {e L : ℕ} (hde : d ≤ e) (hL : ∀ a ∈ M, a.level < L)
    (ls : Fin P → List (Oct d)) (hls : ((List.finRange P).flatMap ls).toFinset = M)
    (hs : ((List.finRange P).flatMap ls).Pairwise fun a b => okey e L a < okey e L b) :
    ((List.finRange P).flatMap fun r => (ls r).flatMap fun a => written (f a) a).toFinset =
      newMesh f M ∧
    ((List.finRange P).flatMap fun r => (ls r).flatMap fun a => written (f a) a).Pairwise
      (fun a b => okey e L a < okey e L b) := by
  obtain ⟨g, e', hR, h3, h4, -⟩ := outerLoop_spec hG hM hB D hD innerFuel h1 fuel mk hr
    (lt_of_le_of_lt (room_le hr) h2)
  rw [hf, Option.some.injEq] at e'
  subst e'
  have hmem : ∀ a, a ∈ (List.finRange P).flatMap ls ↔ a ∈ M := by
    intro a; rw [← hls, List.mem_toFinset]
  have hz : ZOrdered e L ((List.finRange P).flatMap ls) :=
    zOrdered_of_sorted hG hM hde (fun a ha => le_of_lt (hL a ha)) (fun a ha => (hmem a).1 ha) hs
  constructor
  · ext o
    simp only [newMesh, List.mem_toFinset, Finset.mem_biUnion, List.mem_flatMap]
    constructor
    · rintro ⟨r, hr', a, ha, ho⟩
      exact ⟨a, (hmem a).1 (List.mem_flatMap.2 ⟨r, hr', ha⟩), ho⟩
    · rintro ⟨a, ha, ho⟩
      obtain ⟨r, hr', ha'⟩ := List.mem_flatMap.1 ((hmem a).2 ha)
      exact ⟨r, hr', a, ha', ho⟩
  · have := newLeaves_sorted hde f _ (fun a ha => ?_) hz
    · rw [newLeaves, List.flatMap_assoc] at this
      exact this
    · have haM := (hmem a).1 ha
      have h5 := hL a haM
      refine ⟨by omega, fun _ => by omega, fun h6 => ?_⟩
      have := hR.coarsest a haM h6
      omega

/-- **C14** Global numbering: `first_local_oct` (L954-962) is the number of new octants on lower
ranks, so `first_local_oct + j` numbers the concatenated list. -/
theorem C14_global_numbering (f : Oct d → ℤ) (ls : List (List (Oct d))) (r j : ℕ)
    (hr : r < ls.length) (o : Oct d)
    (ho : (newLeaves f ls[r])[j]? = some o) :
    ((ls.map (newLeaves f)).flatten)[((ls.take r).map fun l => (offsets f 0 l).2).sum + j]? =
      some o := by
  induction ls generalizing r with
  | nil => simp at hr
  | cons l ls ih =>
    cases r with
    | zero =>
      simp only [List.take_zero, List.map_nil, List.sum_nil, Nat.zero_add, List.map_cons,
        List.flatten_cons]
      simp only [List.getElem_cons_zero] at ho
      have hj : j < (newLeaves f l).length := by
        by_contra hc
        rw [List.getElem?_eq_none (by omega)] at ho
        simp at ho
      rw [List.getElem?_append_left hj, ho]
    | succ r =>
      simp only [List.take_succ_cons, List.map_cons, List.sum_cons, List.flatten_cons]
      rw [offsets_total, Nat.add_assoc, List.getElem?_append_right (by omega),
        Nat.add_sub_cancel_left]
      exact ih r (by simpa using hr) (by simpa using ho)

/-- **C15** Levels stay in range: if no marker asks for a level above `lmax`, no new leaf is finer
than `lmax`, and none is coarser than `level_min`. -/
theorem C15_levels_in_range {G : Grid d} (hG : G.WF) {M : Finset (Oct d)}
    (hM : Tiling G M) (hB : Balanced G M) (D : Dist d P)
    (hD : GhostComplete G M D.owner D.ghost) (mk f : Oct d → ℤ) (hr : Requested G M mk)
    (innerFuel fuel : ℕ) (h1 : 2 * M.card < innerFuel) (h2 : 2 * M.card < fuel)
    (hf : outerLoop G D M innerFuel fuel mk = some f) (lmax : ℕ)
    (hlev : ∀ a ∈ M, a.level ≤ lmax) (hmax : ∀ a ∈ M, (a.level : ℤ) + mk a ≤ lmax) :
    ∀ o ∈ newMesh f M, G.lmin ≤ o.level ∧ o.level ≤ lmax := by
  obtain ⟨g, e, hR, h3, h4, h5⟩ := outerLoop_spec hG hM hB D hD innerFuel h1 fuel mk hr
    (lt_of_le_of_lt (room_le hr) h2)
  rw [hf, Option.some.injEq] at e
  subst e
  have hA : Admissible G M (fun a => min 1 ((lmax : ℤ) - a.level)) := by
    constructor
    · intro a ha b hb ht
      have h6 := hB b hb a ha ht.symm
      have h7 := hlev a ha
      have h8 := hlev b hb
      omega
    · intro a ha h6
      have := hlev a ha
      omega
  have hle := h5 _ hA (fun a ha => by
    have := hmax a ha
    have := hr.upper a ha
    omega)
  intro o ho
  obtain ⟨a, ha, h6⟩ := (mem_newMesh h4 o).1 ho
  refine ⟨(h6.valid hM hR.coarsest ha).1, ?_⟩
  have h7 := h6.level (by have := hR.target a ha; omega)
  have h8 := hle a ha
  omega

/-! ### A concrete case meeting the hypotheses -/

/-- Two ranks on `exMesh`: rank 0 owns the left half; each rank has all other leaves as ghosts. -/
def exDist : Dist 2 2 where
  owner o := if o.pos 0 < 2 ^ (o.level - 1) then 0 else 1
  ghost r := exMesh.toFinset.filter fun o => (if o.pos 0 < 2 ^ (o.level - 1) then 0 else 1) ≠ r

theorem exDist_ghost : GhostComplete exGrid exMesh.toFinset exDist.owner exDist.ghost := by
  intro r
  refine ⟨fun b hb => (Finset.mem_filter.1 hb).1, fun a _ _ b hb hne _ => ?_⟩
  exact Finset.mem_filter.2 ⟨hb, hne⟩

/-- Refine one fine leaf, coarsen its three siblings. -/
def exMark (o : Oct 2) : ℤ := if o.level = 2 then (if o.pos 0 = 1 ∧ o.pos 1 = 1 then 1 else -1) else 0

theorem exMark_requested : Requested exGrid exMesh.toFinset exMark := by
  refine ⟨?_, ?_, ?_, ?_, ?_⟩ <;> decide

/-- The first check cancels the coarsening of a sibling and refines a coarse leaf, on each rank. -/
example : checkOct exGrid (localMap exDist exMesh.toFinset 0) exMark ⟨2, ![0, 0]⟩ = some 0 ∧
    checkOct exGrid (localMap exDist exMesh.toFinset 1) exMark ⟨1, ![1, 1]⟩ = some 1 := by
  decide +kernel

example : (2 * exMesh.toFinset.card < 15) := by decide

/-! ### The precondition on target levels is needed

`level_t` is unsigned, so `level_neighbor + marker_neighbor - 1` wraps around when the target level
of the neighbour is 0. -/

/-- A single periodic octant of level 0. -/
def zeroGrid (per : Bool) : Grid 2 := ⟨0, ![1, 1], ![per, per]⟩

def oneRank : Dist 2 1 := ⟨fun _ => 0, fun _ => ∅⟩

/-- **C11 fails for `level_min = 0`**: an octant that was not marked gets marker -1. -/
theorem C11_unmarked_octant_coarsened_fails :
    (outerLoop (zeroGrid true) oneRank ({⟨0, ![0, 0]⟩} : Finset (Oct 2)) 5 5 (fun _ => 0)).map
      (fun f => f ⟨0, ![0, 0]⟩) = some (-1) := by decide +kernel

/-- The four level-1 octants of a box with `level_min = 0`. -/
def quadMesh : List (Oct 2) := [⟨1, ![0, 0]⟩, ⟨1, ![1, 0]⟩, ⟨1, ![0, 1]⟩, ⟨1, ![1, 1]⟩]

/-- **C13 fails for `level_min = 0`**: coarsening four level-1 octants to level 0 gives each of them
marker -2 and the new mesh is empty. -/
theorem C13_coarsen_to_level_zero_fails :
    (outerLoop (zeroGrid false) oneRank quadMesh.toFinset 9 9 (fun _ => -1)).map
      (fun f => (quadMesh.map f, newMesh f quadMesh.toFinset)) =
    some ([-2, -2, -2, -2], ∅) := by decide +kernel

theorem quadMesh_tiling : Tiling (zeroGrid false) quadMesh.toFinset :=
  tiling_of_check ⟨⟨by decide⟩, by decide⟩ quadMesh 1 (by decide)

end Verif.Adapt
