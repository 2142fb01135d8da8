import Verif.Restart.Mesh
import Verif.Refine.Gradient
import Verif.Hydro.State
import Mathlib.Tactic.FinCases

/-!
# C68: initial mesh from an analytical formula

Model of `core/src/init/InitialConditions_analytical.h` L52-96 (the loop that refines the mesh) and of
`core/src/init/AnalyticalFormula_tools.h` L12-42. Arithmetic is exact. The formula is an arbitrary function.
-/

namespace Verif.Init

open Verif.Octree Verif.Adapt Verif.Cells Verif.Restart Verif.Refine Verif.Hydro

variable {d P : ℕ}

/-! ### Model -/

/-- The configuration: domain, block size, and the formula's `need_refine` for the centre and the size of a cell. -/
structure Setup (d : ℕ) where
  dom : Domain d
  b : Fin d → ℕ
  need : (Fin d → ℚ) → (Fin d → ℚ) → Bool

/-- L65-75: `atomic_fetch_or` of the results of all cells of an octant, in the order of the visits (the view starts with 0). -/
def octMarker (S : Setup d) (G : Grid d) (visits : List (Fin d → ℕ)) (o : Oct d) : ℕ :=
  visits.foldl (fun m i => m ||| (S.need (getCellCenter S.dom G ⟨o, i, S.b, .localToBlock⟩)
    (getCellSize S.dom G ⟨o, i, S.b, .localToBlock⟩)).toNat) 0

/-- L80-86: markers other than 0 become requests to refine; the others are left at 0. -/
def initMark (S : Setup d) (G : Grid d) (visits : Oct d → List (Fin d → ℕ)) (o : Oct d) : Option ℤ :=
  some (if octMarker S G (visits o) o ≠ 0 then 1 else 0)

/-- L53-92: `n` iterations. `D` gives the distribution of a mesh over the ranks with its ghosts; `loadBalance` (L91) only changes
the distribution (C16). -/
def initLoop (S : Setup d) (G : Grid d) (visits : Oct d → List (Fin d → ℕ)) (D : Finset (Oct d) → Dist d P) :
    ℕ → Finset (Oct d) → Option (Finset (Oct d))
  | 0, M => some M
  | n + 1, M => (markStep G (initMark S G visits) (D M) M).bind (initLoop S G visits D n)

/-- L53-92: the mesh at the end of the loop. -/
def initMesh (S : Setup d) (G : Grid d) (visits : Oct d → List (Fin d → ℕ)) (lmax : ℕ) (D : Finset (Oct d) → Dist d P) :
    Option (Finset (Oct d)) :=
  initLoop S G visits D (lmax - G.lmin) (coarseMesh G)

/-- `AnalyticalFormula_tools.h` L12-42. `value` gives the conservative state for a position; its further arguments, the sizes, are the
same in all calls. `eps` is the precision of `real_t`. -/
def autoRefine {F : Type} [Field F] [LinearOrder F] (value : (Fin 3 → F) → Cons F) (gamma errorMax eps : F) (x dx : Fin 3 → F) : Bool :=
  let q := fun y => consToPrim 3 gamma (value y)
  let err := (List.finRange 3).foldl (fun err dir =>
    let l := q fun k => x k - if k = dir then dx k else 0
    let c := q x
    let r := q fun k => x k + if k = dir then dx k else 0
    fMax (fMax err (secondDerivative eps l.rho c.rho r.rho)) (secondDerivative eps l.p c.p r.p)) 0
  decide (errorMax < err)

/-! ### Specification -/

/-- The formula asks to refine an octant: it does so for one of its cells. -/
def Wants (S : Setup d) (G : Grid d) (o : Oct d) : Prop :=
  ∃ i : Fin d → ℕ, (∀ k, i k < S.b k) ∧
    S.need (getCellCenter S.dom G ⟨o, i, S.b, .localToBlock⟩) (getCellSize S.dom G ⟨o, i, S.b, .localToBlock⟩) = true

/-- All cells of each octant are visited (C23), in any order. -/
def Visits (b : Fin d → ℕ) (visits : Oct d → List (Fin d → ℕ)) : Prop := ∀ o i, i ∈ visits o ↔ ∀ k, i k < b k

/-- No octant below the maximum level is to be refined. -/
def Resolved (S : Setup d) (G : Grid d) (lmax : ℕ) (M : Finset (Oct d)) : Prop := ∀ o ∈ M, o.level < lmax → ¬ Wants S G o

/-- A formula that asks to refine an octant if it asks to refine a part of it. -/
def Inherited (S : Setup d) (G : Grid d) : Prop := ∀ o c, Valid G o → Anc o c → Wants S G c → Wants S G o

/-- Every octant of `N` is part of an octant of `M`. -/
def Coarser (M N : Finset (Oct d)) : Prop := ∀ o ∈ N, ∃ a ∈ M, Anc a o

/-! ### Proofs -/

theorem octMarker_spec {S : Setup d} {G : Grid d} {visits : Oct d → List (Fin d → ℕ)} (hv : Visits S.b visits) (o : Oct d) :
    octMarker S G (visits o) o ≠ 0 ↔ Wants S G o := by
  have key : ∀ (l : List (Fin d → ℕ)) (m : ℕ) (p : (Fin d → ℕ) → Bool),
      l.foldl (fun m i => m ||| (p i).toNat) m ≠ 0 ↔ m ≠ 0 ∨ ∃ i ∈ l, p i = true := by
    intro l
    induction l with
    | nil => simp
    | cons i l ih =>
      intro m p
      rw [List.foldl_cons, ih, ne_eq, Nat.or_eq_zero_iff]
      cases h : p i <;> simp [h]
  unfold octMarker Wants
  rw [key]
  simp only [ne_eq, not_true_eq_false, false_or, hv o]

section

variable {S : Setup d} {G : Grid d} (hG : G.WF) {visits : Oct d → List (Fin d → ℕ)} (hv : Visits S.b visits)

include hG hv in
/-- One iteration: what happens to the octants. -/
theorem initStep_spec (h1 : 1 ≤ G.lmin) {M : Finset (Oct d)} (hM : Tiling G M) (hB : Balanced G M)
    (hb : ∀ o ∈ M, o.level < 2 ^ 30) (D : Dist d P) (hD : GhostComplete G M D.owner D.ghost) :
    ∃ f M', markStep G (initMark S G visits) D M = some M' ∧ Tiling G M' ∧ Balanced G M' ∧
      Admissible G M f ∧ (∀ a ∈ M, f a = 0 ∨ f a = 1) ∧ (∀ a ∈ M, Wants S G a → f a = 1) ∧
      (∀ mk', Admissible G M mk' → (∀ a ∈ M, 0 ≤ mk' a) → (∀ a ∈ M, Wants S G a → mk' a = 1) → ∀ a ∈ M, f a ≤ mk' a) ∧
      (∀ o, o ∈ M' ↔ ∃ a ∈ M, Replaces f o a) := by
  classical
  have hmk : ∀ o, (initMark S G visits o).getD 0 = if Wants S G o then 1 else 0 := by
    intro o
    unfold initMark
    simp only [Option.getD_some, octMarker_spec hv]
  have h01 : ∀ o, (if Wants S G o then (1 : ℤ) else 0) = 0 ∨ (if Wants S G o then (1 : ℤ) else 0) = 1 := by
    intro o
    split <;> simp
  have hreq : Requested G M fun o => if Wants S G o then (1 : ℤ) else 0 := by
    apply requested_of_limited hM h1 _ _ _ hb
    all_goals
      intro a ha
      have := h01 a
      beta_reduce
      omega
  obtain ⟨f, e, hl⟩ := C10_result_is_least_correction hG hM hB D hD _ hreq (2 * M.card + 1) (2 * M.card + 1) (by omega) (by omega)
  obtain ⟨hle, hA, hmin⟩ := hl
  have hone : Admissible G M fun _ => 1 := by
    refine ⟨fun a ha b hb ht => ?_, fun a ha h => absurd h (by norm_num)⟩
    have := hB b hb a ha ht.symm
    omega
  have hf : ∀ a ∈ M, f a = 0 ∨ f a = 1 := by
    intro a ha
    have t1 := hle a ha
    have t2 := h01 a
    have t3 := hmin _ hone (fun b hb => by have := h01 b; beta_reduce; omega) a ha
    beta_reduce at t1 t3
    omega
  refine ⟨f, newMesh f M, ?_, ?_, ?_, hA, hf, ?_, ?_, mem_newMesh hA⟩
  · unfold markStep
    rw [if_pos (show ∀ o ∈ M, (initMark S G visits o).isSome = true from fun o _ => rfl)]
    simp only [hmk, e, Option.map_some]
  · apply newMesh_tiling hG hM hA
    · intro a ha; have := hf a ha; omega
    · intro a ha h; have := hf a ha; omega
  · apply newMesh_balanced hG hM hA
    · intro a ha h; have := hf a ha; omega
    · intro a ha; have := hf a ha; omega
  · intro a ha hw
    have := hle a ha
    beta_reduce at this
    rw [if_pos hw] at this
    have := hf a ha
    omega
  · intro mk' hA' h0 hw
    refine hmin mk' hA' fun a ha => ?_
    beta_reduce
    by_cases hwa : Wants S G a
    · rw [if_pos hwa, hw a ha hwa]
    · rw [if_neg hwa]; exact h0 a ha

include hG in
/-- A coarser tiling: each of its octants is an octant of `N` or is refined in `N`. -/
theorem leaf_or_inner {M N : Finset (Oct d)} (hM : Tiling G M) (hN : Tiling G N) (hc : Coarser M N) {o : Oct d} (ho : o ∈ M) :
    o ∈ N ∨ Inner N o := by
  obtain ⟨c, hcN, h | h⟩ := hN.exists_leaf hG (hM.valid o ho)
  · obtain ⟨a, ha, hac⟩ := hc c hcN
    have hao : a = o := hM.eq_of_anc hG ha ho (hac.trans h)
    subst hao
    have : c = a := h.eq_of_level (le_antisymm h.1 hac.1)
    exact Or.inl (this ▸ hcN)
  · rcases Nat.lt_or_ge o.level c.level with hlt | hge
    · exact Or.inr ⟨c, hcN, hlt, h⟩
    · have : o = c := h.eq_of_level (le_antisymm h.1 hge)
      exact Or.inl (this ▸ hcN)

include hG in
/-- Refining what is refined in a finer balanced mesh respects the 2:1 rule. -/
theorem inner_admissible {M N : Finset (Oct d)} (hM : Tiling G M) (hBM : Balanced G M) (hN : Tiling G N) (hBN : Balanced G N)
    (hc : Coarser M N) {mk : Oct d → ℤ} (hmk : ∀ o ∈ M, (Inner N o ∧ mk o = 1) ∨ (o ∈ N ∧ mk o = 0)) : Admissible G M mk := by
  refine ⟨fun a ha b hb ht => ?_, fun a ha h => ?_⟩
  · have hab := hBM b hb a ha ht.symm
    rcases hmk a ha with ⟨a1, a2⟩ | ⟨a1, a2⟩ <;> rcases hmk b hb with ⟨b1, b2⟩ | ⟨b1, b2⟩
    · omega
    · omega
    · obtain ⟨c, hcN, h1, h2⟩ := inner_touch hG hN (hM.valid b hb) b1 ht.symm
      have := hBN c hcN a a1 h2
      omega
    · omega
  · rcases hmk a ha with ⟨-, h'⟩ | ⟨-, h'⟩ <;> omega

include hG hv in
/-- One iteration stays coarser than any balanced mesh that is resolved. -/
theorem initStep_coarser (h1 : 1 ≤ G.lmin) {M : Finset (Oct d)} (hM : Tiling G M) (hB : Balanced G M) {lmax : ℕ}
    (hb : lmax ≤ 2 ^ 30) (hl : ∀ o ∈ M, o.level < lmax) (D : Dist d P) (hD : GhostComplete G M D.owner D.ghost)
    {N M' : Finset (Oct d)} (hN : Tiling G N) (hBN : Balanced G N) (hR : Resolved S G lmax N) (hc : Coarser M N)
    (he : markStep G (initMark S G visits) D M = some M') : Coarser M' N := by
  classical
  obtain ⟨f, M'', e, -, -, -, hf, -, hmin, hmem⟩ :=
    initStep_spec hG hv h1 hM hB (fun o ho => lt_of_lt_of_le (hl o ho) hb) D hD
  rw [he, Option.some.injEq] at e
  subst e
  have hmk : ∀ o ∈ M, (Inner N o ∧ (if Inner N o then (1 : ℤ) else 0) = 1) ∨ (o ∈ N ∧ (if Inner N o then (1 : ℤ) else 0) = 0) := by
    intro o ho
    by_cases hi : Inner N o
    · exact Or.inl ⟨hi, if_pos hi⟩
    · exact Or.inr ⟨(leaf_or_inner hG hM hN hc ho).resolve_right hi, if_neg hi⟩
  have hle := hmin _ (inner_admissible hG hM hB hN hBN hc hmk) (fun a ha => by beta_reduce; split <;> omega) fun a ha hw => by
    rcases hmk a ha with ⟨-, h⟩ | ⟨h, -⟩
    · exact h
    · exact absurd hw (hR a h (hl a ha))
  intro o ho
  obtain ⟨a, ha, hao⟩ := hc o ho
  rcases hf a ha with h0 | h1'
  · exact ⟨a, (hmem a).2 ⟨a, ha, Or.inr (Or.inl ⟨h0, rfl⟩)⟩, hao⟩
  · have hin : Inner N a := by
      by_contra hn
      have := hle a ha
      rw [if_neg hn, h1'] at this
      omega
    obtain ⟨-, hlt⟩ := below_of_inner hG hN hin ho (Or.inr hao)
    refine ⟨up o (a.level + 1), (hmem _).2 ⟨a, ha, Or.inl ⟨h1', rfl, fun i => ?_⟩⟩, up_anc o (by omega)⟩
    have h2 := hao.2 i
    change o.pos i / 2 ^ (o.level - (a.level + 1)) / 2 = a.pos i
    rw [Nat.div_div_eq_div_mul, ← pow_succ, show o.level - (a.level + 1) + 1 = o.level - a.level by omega]
    exact h2

include hG hv in
theorem initLoop_spec (h1 : 1 ≤ G.lmin) {lmax : ℕ} (hb : lmax ≤ 2 ^ 30) (D : Finset (Oct d) → Dist d P)
    (hD : ∀ M, Tiling G M → GhostComplete G M (D M).owner (D M).ghost) (n : ℕ) {L : ℕ} (hL : L + n = lmax)
    {M : Finset (Oct d)} (hM : Tiling G M) (hB : Balanced G M) (hl : ∀ o ∈ M, o.level ≤ L) :
    ∃ M', initLoop S G visits D n M = some M' ∧ Tiling G M' ∧ Balanced G M' ∧ (∀ o ∈ M', o.level ≤ lmax) ∧
      (∀ N, Tiling G N → Balanced G N → Resolved S G lmax N → Coarser M N → Coarser M' N) ∧
      (Inherited S G → (∀ o ∈ M, Wants S G o → o.level = L) → ∀ o ∈ M', Wants S G o → o.level = lmax) := by
  induction n generalizing L M with
  | zero =>
    rw [Nat.add_zero] at hL
    subst hL
    exact ⟨M, rfl, hM, hB, hl, fun _ _ _ _ h => h, fun _ h => h⟩
  | succ n ih =>
    obtain ⟨f, M1, e, t1, t2, -, hf, hw, -, hmem⟩ :=
      initStep_spec hG hv h1 hM hB (fun o ho => by have := hl o ho; omega) (D M) (hD M hM)
    have hl1 : ∀ o ∈ M1, o.level ≤ L + 1 := by
      intro o ho
      obtain ⟨a, ha, h⟩ := (hmem o).1 ho
      have := hl a ha
      rcases h with ⟨-, h, -⟩ | ⟨-, rfl⟩ | ⟨h, -⟩
      · omega
      · omega
      · have := hf a ha; omega
    obtain ⟨M', e', s1, s2, s3, s4, s5⟩ := ih (L := L + 1) (by omega) t1 t2 hl1
    refine ⟨M', by rw [initLoop, e, Option.bind_some, e'], s1, s2, s3, ?_, ?_⟩
    · intro N hN hBN hR hc
      exact s4 N hN hBN hR (initStep_coarser hG hv h1 hM hB hb (fun o ho => by have := hl o ho; omega) (D M) (hD M hM) hN hBN hR hc e)
    · intro hI hinv
      refine s5 hI fun o ho hwo => ?_
      obtain ⟨a, ha, h⟩ := (hmem o).1 ho
      rcases h with ⟨-, h2, h3⟩ | ⟨h, rfl⟩ | ⟨h, -⟩
      · have := hinv a ha (hI a o (hM.valid a ha) (child_anc h2 h3) hwo)
        omega
      · have := hw o ha hwo; omega
      · have := hf a ha; omega

include hG hv in
/-- **C68** The loop ends with a tiling that respects the 2:1 rule, with levels in the configured range, that is coarser than every
balanced mesh in which no octant below the maximum level is to be refined. -/
theorem C68_mesh (h1 : 1 ≤ G.lmin) {lmax : ℕ} (hle : G.lmin ≤ lmax) (hb : lmax ≤ 2 ^ 30) (D : Finset (Oct d) → Dist d P)
    (hD : ∀ M, Tiling G M → GhostComplete G M (D M).owner (D M).ghost) :
    ∃ M, initMesh S G visits lmax D = some M ∧ Tiling G M ∧ Balanced G M ∧ (∀ o ∈ M, G.lmin ≤ o.level ∧ o.level ≤ lmax) ∧
      ∀ N, Tiling G N → Balanced G N → Resolved S G lmax N → Coarser M N := by
  obtain ⟨M, e, t1, t2, t3, t4, -⟩ := initLoop_spec hG hv h1 hb D hD (lmax - G.lmin) (L := G.lmin) (by omega)
    (coarseMesh_tiling hG) coarseMesh_balanced fun o ho => le_of_eq ((mem_coarseMesh o).1 ho).2
  refine ⟨M, e, t1, t2, fun o ho => ⟨(t1.valid o ho).1, t3 o ho⟩, fun N hN hBN hR => t4 N hN hBN hR fun o ho => ?_⟩
  have hvo := hN.valid o ho
  exact ⟨up o G.lmin, (mem_coarseMesh _).2 ⟨(up_anc o hvo.1).valid hvo (le_refl _), rfl⟩, up_anc o hvo.1⟩

include hG hv in
/-- **C68** The mesh does not depend on the distribution over the ranks, nor on the order of the visits. -/
theorem C68_deterministic (h1 : 1 ≤ G.lmin) {lmax : ℕ} (hle : G.lmin ≤ lmax) (hb : lmax ≤ 2 ^ 30) {P' : ℕ}
    (D : Finset (Oct d) → Dist d P) (hD : ∀ M, Tiling G M → GhostComplete G M (D M).owner (D M).ghost)
    (D' : Finset (Oct d) → Dist d P') (hD' : ∀ M, Tiling G M → GhostComplete G M (D' M).owner (D' M).ghost)
    {visits' : Oct d → List (Fin d → ℕ)} (hv' : Visits S.b visits') :
    initMesh S G visits lmax D = initMesh S G visits' lmax D' := by
  unfold initMesh
  have key : ∀ (n L : ℕ) (M : Finset (Oct d)), L + n = lmax → Tiling G M → Balanced G M → (∀ o ∈ M, o.level ≤ L) →
      initLoop S G visits D n M = initLoop S G visits' D' n M := by
    intro n
    induction n with
    | zero => intros; rfl
    | succ n ih =>
      intro L M hL hM hB hl
      have hb' : ∀ o ∈ M, o.level < 2 ^ 30 := fun o ho => by have := hl o ho; omega
      obtain ⟨f, M1, e, t1, t2, hA, hf, hw, hmin, hmem⟩ := initStep_spec hG hv h1 hM hB hb' (D M) (hD M hM)
      obtain ⟨f', M1', e', -, -, hA', hf', hw', hmin', hmem'⟩ := initStep_spec hG hv' h1 hM hB hb' (D' M) (hD' M hM)
      have hsame : M1 = M1' := by
        have hff : ∀ a ∈ M, f a = f' a := fun a ha => le_antisymm
          (hmin f' hA' (fun a ha => by have := hf' a ha; omega) hw' a ha)
          (hmin' f hA (fun a ha => by have := hf a ha; omega) hw a ha)
        ext o
        rw [hmem, hmem']
        refine exists_congr fun a => and_congr_right fun ha => ?_
        unfold Replaces
        rw [hff a ha]
      rw [initLoop, initLoop, e, e', ← hsame, Option.bind_some, Option.bind_some]
      refine ih (L + 1) M1 (by omega) t1 t2 fun o ho => ?_
      obtain ⟨a, ha, h⟩ := (hmem o).1 ho
      have := hl a ha
      rcases h with ⟨-, h, -⟩ | ⟨-, rfl⟩ | ⟨h, -⟩
      · omega
      · omega
      · have := hf a ha; omega
  exact key _ G.lmin _ (by omega) (coarseMesh_tiling hG) coarseMesh_balanced fun o ho => le_of_eq ((mem_coarseMesh o).1 ho).2

include hG hv in
/-- **C68** If the formula asks to refine an octant whenever it asks to refine a part of it, no octant below the maximum level is left
that is to be refined. Missing: other formulas, for which such octants can be left (`C68_resolved_fails`). -/
theorem C68_resolved_partial (hI : Inherited S G) (h1 : 1 ≤ G.lmin) {lmax : ℕ} (hle : G.lmin ≤ lmax) (hb : lmax ≤ 2 ^ 30)
    (D : Finset (Oct d) → Dist d P) (hD : ∀ M, Tiling G M → GhostComplete G M (D M).owner (D M).ghost) :
    ∃ M, initMesh S G visits lmax D = some M ∧ Resolved S G lmax M := by
  obtain ⟨M, e, t1, t2, t3, -, t5⟩ := initLoop_spec hG hv h1 hb D hD (lmax - G.lmin) (L := G.lmin) (by omega)
    (coarseMesh_tiling hG) coarseMesh_balanced fun o ho => le_of_eq ((mem_coarseMesh o).1 ho).2
  refine ⟨M, e, fun o ho hlt hw => ?_⟩
  have := t5 hI (fun o ho _ => ((mem_coarseMesh o).1 ho).2) o ho hw
  omega

end

/-! ### Formulas that refine a region -/

/-- The formula asks to refine a cell if and only if its box meets the region `R`. -/
def Region (S : Setup d) (R : (Fin d → ℚ) → Prop) : Prop :=
  ∀ c s, S.need c s = true ↔ ∃ x, R x ∧ ∀ k, c k - s k / 2 ≤ x k ∧ x k < c k + s k / 2

theorem wants_iff {S : Setup d} {G : Grid d} (hG : G.WF) (hD : ∀ k, S.dom.xmin k < S.dom.xmax k) (hb : ∀ k, 0 < S.b k)
    {R : (Fin d → ℚ) → Prop} (hR : Region S R) (o : Oct d) :
    Wants S G o ↔ ∃ x, R x ∧ Covers G o fun k => (x k - S.dom.xmin k) / (S.dom.xmax k - S.dom.xmin k) := by
  have hbox : ∀ (i : Fin d → ℕ) (x : Fin d → ℚ),
      (∀ k, getCellCenter S.dom G ⟨o, i, S.b, .localToBlock⟩ k - getCellSize S.dom G ⟨o, i, S.b, .localToBlock⟩ k / 2 ≤ x k ∧
        x k < getCellCenter S.dom G ⟨o, i, S.b, .localToBlock⟩ k + getCellSize S.dom G ⟨o, i, S.b, .localToBlock⟩ k / 2) ↔
      Covers (cellGrid G S.b) (cellOct S.b o i) fun k => (x k - S.dom.xmin k) / (S.dom.xmax k - S.dom.xmin k) := by
    intro i x
    rw [← inCell_iff S.dom hD]
    unfold InCell
    refine forall_congr' fun k => ?_
    rw [C26_center hG S.dom ⟨o, i, S.b, .localToBlock⟩ hb k, C26_size hG S.dom ⟨o, i, S.b, .localToBlock⟩ hb k]
    simp only
    constructor <;> rintro ⟨h1, h2⟩ <;> constructor <;> linarith
  unfold Wants
  simp only [hR _ _, hbox]
  constructor
  · rintro ⟨i, hi, x, hx, hc⟩
    exact ⟨x, hx, fun k => ⟨le_trans (cell_lo_ge hG hb o i k) (hc k).1, lt_of_lt_of_le (hc k).2 (cell_hi_le hG hb o i k (hi k))⟩⟩
  · rintro ⟨x, hx, hc⟩
    obtain ⟨h1, h2⟩ := local_cell hG S.b hb o _ (fun k => le_trans (lo_nonneg o k) (hc k).1) hc _ fun k => rfl
    exact ⟨_, h2, x, hx, h1⟩

/-- **C68** A formula that refines a region is inherited. -/
theorem C68_region {S : Setup d} {G : Grid d} (hG : G.WF) (hD : ∀ k, S.dom.xmin k < S.dom.xmax k) (hb : ∀ k, 0 < S.b k)
    {R : (Fin d → ℚ) → Prop} (hR : Region S R) : Inherited S G := by
  intro o c ho hoc
  rw [wants_iff hG hD hb hR, wants_iff hG hD hb hR]
  rintro ⟨x, hx, hc⟩
  exact ⟨x, hx, hoc.covers hG.toPos ho.1 hc⟩

/-! ### A formula that is not inherited -/

/-- Two octants side by side. The formula refines the right one, and every small part of the left one. -/
def pair : Grid 2 := ⟨1, ![2, 1], fun _ => false⟩

def pairSetup : Setup 2 :=
  ⟨⟨fun _ => 0, ![2, 1]⟩, ![2, 2], fun c s => decide (1 < c 0) || decide (s 0 < 1 / 2)⟩

def pairVisits : Oct 2 → List (Fin 2 → ℕ) := fun _ => [![0, 0], ![1, 0], ![0, 1], ![1, 1]]

def oneRank : Finset (Oct 2) → Dist 2 1 := fun _ => ⟨fun _ => 0, fun _ => ∅⟩

/-- **C68** (disagreement) In the last iteration the 2:1 rule refines the left octant. The formula is not asked about its parts, which
it would refine; they stay at level 2 although the maximum level is 3. -/
theorem C68_resolved_fails : ∃ M, initMesh pairSetup pair pairVisits 3 oneRank = some M ∧ ⟨2, ![0, 0]⟩ ∈ M ∧
    Wants pairSetup pair ⟨2, ![0, 0]⟩ := by
  have h : ∃ M, initMesh pairSetup pair pairVisits 3 oneRank = some M ∧ ⟨2, ![0, 0]⟩ ∈ M := by
    have h2 : ((initMesh pairSetup pair pairVisits 3 oneRank).map fun M => decide ((⟨2, ![0, 0]⟩ : Oct 2) ∈ M)) = some true := by
      decide +kernel
    rw [Option.map_eq_some_iff] at h2
    obtain ⟨M, e, h3⟩ := h2
    exact ⟨M, e, by simpa using h3⟩
  obtain ⟨M, e, h3⟩ := h
  exact ⟨M, e, h3, ![0, 0], by decide, by decide +kernel⟩

/-! ### The automatic criterion -/

section

variable {F : Type} [Field F] [LinearOrder F] [IsStrictOrderedRing F]

/-- How far the middle value is from the mean of the others, compared with the differences and the values. -/
def Curved (eps errorMax ql qc qr : F) : Prop :=
  errorMax * (|qr - qc| + |ql - qc| + (|qr| + |ql| + 2 * |qc|) / 100 + eps) < |ql - 2 * qc + qr|

theorem lt_fMax (e a b : F) : e < fMax a b ↔ e < a ∨ e < b := by
  unfold fMax
  split
  · rename_i h
    exact ⟨Or.inl, fun h' => h'.elim id fun h2 => lt_trans h2 h⟩
  · rename_i h
    exact ⟨Or.inr, fun h' => h'.elim (fun h2 => lt_of_lt_of_le h2 (not_lt.1 h)) id⟩

theorem curved_iff {eps : F} (he : 0 < eps) (errorMax ql qc qr : F) :
    errorMax < secondDerivative eps ql qc qr ↔ Curved eps errorMax ql qc qr := by
  unfold secondDerivative Curved
  have h : 0 < |qr - qc| + |ql - qc| + 1 / 100 * (|qr| + |ql| + 2 * |qc|) + eps := by positivity
  simp only
  rw [lt_div_iff₀ h, show qr - qc + (ql - qc) = ql - 2 * qc + qr by ring,
    show (1 / 100 : F) * (|qr| + |ql| + 2 * |qc|) = (|qr| + |ql| + 2 * |qc|) / 100 by ring]

/-- **C68** The automatic criterion asks for refinement exactly if density or pressure is curved in one of the three directions; the
pressure is that of the conservative state. -/
theorem C68_auto_refine (value : (Fin 3 → F) → Cons F) (gamma : F) {errorMax eps : F} (h0 : 0 ≤ errorMax) (he : 0 < eps)
    (x dx : Fin 3 → F) :
    autoRefine value gamma errorMax eps x dx = true ↔ ∃ dir : Fin 3,
      Curved eps errorMax (value (x - Pi.single dir (dx dir))).rho (value x).rho (value (x + Pi.single dir (dx dir))).rho ∨
      Curved eps errorMax (consToPrim 3 gamma (value (x - Pi.single dir (dx dir)))).p (consToPrim 3 gamma (value x)).p
        (consToPrim 3 gamma (value (x + Pi.single dir (dx dir)))).p := by
  have hm : ∀ dir : Fin 3, (fun k => x k - if k = dir then dx k else 0) = x - Pi.single dir (dx dir) := by
    intro dir
    funext k
    by_cases hk : k = dir
    · subst hk; simp
    · simp [hk]
  have hp : ∀ dir : Fin 3, (fun k => x k + if k = dir then dx k else 0) = x + Pi.single dir (dx dir) := by
    intro dir
    funext k
    by_cases hk : k = dir
    · subst hk; simp
    · simp [hk]
  have key : ∀ (l : List (Fin 3)) (e : F) (f g : Fin 3 → F),
      errorMax < l.foldl (fun e d => fMax (fMax e (f d)) (g d)) e ↔ errorMax < e ∨ ∃ d ∈ l, errorMax < f d ∨ errorMax < g d := by
    intro l
    induction l with
    | nil => simp
    | cons a l ih =>
      intro e f g
      rw [List.foldl_cons, ih, lt_fMax, lt_fMax]
      simp only [List.mem_cons, exists_eq_or_imp]
      simp only [or_assoc]
  unfold autoRefine
  simp only [decide_eq_true_eq, hm, hp]
  rw [key]
  simp only [not_lt.2 h0, false_or, List.mem_finRange, true_and, curved_iff he]
  rfl

end

/-! ### Examples -/

/-- Refine around the point (3/2, 1/2). -/
def pointSetup : Setup 2 :=
  ⟨⟨fun _ => 0, ![2, 1]⟩, ![2, 2], fun c s => decide (c 0 - s 0 / 2 ≤ 3 / 2 ∧ 3 / 2 < c 0 + s 0 / 2 ∧ c 1 - s 1 / 2 ≤ 1 / 2 ∧ 1 / 2 < c 1 + s 1 / 2)⟩

theorem pair_wf : pair.WF := ⟨⟨by decide⟩, by decide⟩

theorem pair_visits : Visits ![2, 2] pairVisits := by
  intro o i
  unfold pairVisits
  constructor
  · intro h
    simp only [List.mem_cons, List.not_mem_nil, or_false] at h
    rcases h with rfl | rfl | rfl | rfl <;> decide
  · intro h
    have h0 : i 0 < 2 := h 0
    have h1 : i 1 < 2 := h 1
    have : i = ![i 0, i 1] := by
      funext k
      fin_cases k <;> rfl
    rw [this]
    rcases (by omega : i 0 = 0 ∨ i 0 = 1) with e0 | e0 <;> rcases (by omega : i 1 = 0 ∨ i 1 = 1) with e1 | e1 <;>
      rw [e0, e1] <;> decide

/-- The mesh is resolved, for four levels. -/
example : ∃ M, initMesh pointSetup pair pairVisits 4 oneRank = some M ∧ Resolved pointSetup pair 4 M :=
  C68_resolved_partial pair_wf pair_visits
    (C68_region pair_wf (by decide) (by decide) (R := fun x => x = ![3 / 2, 1 / 2]) fun c s => by
      simp only [pointSetup, decide_eq_true_eq, exists_eq_left, Fin.forall_fin_two, Matrix.cons_val_zero, Matrix.cons_val_one]
      tauto) (by decide) (by decide) (by norm_num) _ fun M _ => oneRank_ghost pair M

/-- The octant around the point is to be refined, its left neighbour is not. -/
example : Wants pointSetup pair ⟨1, ![1, 0]⟩ ∧ octMarker pointSetup pair (pairVisits ⟨1, ![0, 0]⟩) ⟨1, ![0, 0]⟩ = 0 :=
  ⟨⟨![1, 1], by decide, by decide +kernel⟩, by decide +kernel⟩

/-- A jump of the density from 1 to 8 is refined, a constant state is not. -/
example : autoRefine (fun x => ⟨if x 0 < 1 / 2 then 1 else 8, 10, 0, 0, 0⟩) (5 / 3 : ℚ) (1 / 2) (1 / 10 ^ 16) (fun _ => 2 / 5) (fun _ => 1 / 5)
    = true ∧ autoRefine (fun _ => ⟨8, 10, 0, 0, 0⟩) (5 / 3 : ℚ) (1 / 2) (1 / 10 ^ 16) (fun _ => 2 / 5) (fun _ => 1 / 5) = false := by
  decide +kernel

end Verif.Init
