import Verif.Sim.Kernels
import Verif.Run.Props
import Verif.Remap.Terminate

/-!
# One step of the simulation, seen without ranks
-/

namespace Verif.Sim

open Verif.Octree Verif.Cells Verif.Adapt Verif.Flux Verif.Hydro Verif.Hydro.OneNeighbor Verif.Refine Verif.Remap Verif.Run
open Verif.Partition (InLayers Within within_face within_of_dirAdj)

variable {d P : ℕ} {K ι ν S : Type} [Field K] [LinearOrder K] [NeZero P]

/-- The value of a cell is the one that the owner of its octant has. -/
def State.field (s : State d P K ι) : Oct d → (Fin d → ℕ) → ι → K := fun o => s.data (owner s.ranks.octs o) o

/-- The ranks of `s` are as in every state of a run (C81). -/
def Ok (C : Config d K ι ν S) (s : State d P K ι) : Prop := Good C.bits C.lmax C.grid s.ranks

section
variable {C : Config d K ι ν S} {s : State d P K ι}

theorem mem_mesh {s : Ranks d P} {r : Fin P} {o : Oct d} (h : o ∈ s.octs r) : o ∈ s.mesh := (mem_leaves _ _).2 ⟨r, h⟩

theorem owner_eq {e L : ℕ} {G : Grid d} {s : Ranks d P} (hs : Good e L G s) {r : Fin P} {o : Oct d} (h : o ∈ s.octs r) :
    owner s.octs o = r := hs.rank_unique (owner_mem _ (mem_mesh h)) h

theorem around {e L : ℕ} {G : Grid d} (hG : G.WF) {s : Ranks d P} (hs : Good e L G s) {r : Fin P} {o : Oct d}
    (h : o ∈ s.octs r) : Around G s.mesh (rankMap s r) o :=
  ⟨hG, hs.tiling, hs.balanced, mem_localMap_sub hs.ghostComplete r, own_mem_localMap (mem_mesh h) (owner_eq hs h),
    localMap_complete hs.ghostComplete (mem_mesh h) (owner_eq hs h)⟩

theorem around_self {e L : ℕ} {G : Grid d} (hG : G.WF) {s : Ranks d P} (hs : Good e L G s) {o : Oct d}
    (h : o ∈ s.mesh) : Around G s.mesh s.mesh o :=
  ⟨hG, hs.tiling, hs.balanced, fun _ h => h, h, fun _ h _ => h⟩

/-- On the octants that a rank stores, exchanged data are those of the owners. -/
theorem exchange_eq {e L : ℕ} {G : Grid d} {s : Ranks d P} (hs : Good e L G s) {T : Type}
    (F : Fin P → Oct d → (Fin d → ℕ) → T) {r : Fin P} {o : Oct d} (h : o ∈ rankMap s r) :
    exchange s F r o = F (owner s.octs o) o := by
  unfold exchange
  split
  · rfl
  · next hg =>
    unfold rankMap localMap at h
    rw [Finset.mem_union, Finset.mem_filter] at h
    have : owner s.octs o = r := (h.resolve_right hg).2
    rw [this]

theorem loopGhosts_pos {b : Fin d → ℕ} (hb : ∀ k, 0 < b k) : 1 ≤ loopGhosts b := by
  unfold loopGhosts
  generalize (List.finRange d).filter (fun k : Fin d => decide (k.val < 2)) = l
  suffices h : ∀ n, 1 ≤ n → 1 ≤ (l.map b).foldl min n from h 2 (by norm_num)
  induction l with
  | nil => intro n hn; simpa using hn
  | cons k l ih => exact fun n hn => ih _ (le_min hn (hb k))

/-- After the exchange of `gc` layers, the cells of ghosts within `gc` layers of an octant have the values of their
owners. -/
theorem exchangeLayers_within {e L : ℕ} {G : Grid d} (hG : G.WF) {s : Ranks d P} (hs : Good e L G s) {T : Type}
    (F : Fin P → Oct d → (Fin d → ℕ) → T) {b : Fin d → ℕ} {r : Fin P} {o : Oct d} (ho : o ∈ s.octs r)
    {gc n : ℕ} (hn : n ≤ gc) {o' : Oct d} (h' : o' ∈ rankMap s r) {x' : Fin d → ℕ} (hx' : ∀ k, x' k < b k)
    (ht : Within G b n o o' x') : exchangeLayers s b gc F r o' x' = F (owner s.octs o') o' x' := by
  unfold exchangeLayers
  split
  · rfl
  · next hg =>
    unfold rankMap localMap at h'
    rw [Finset.mem_union, Finset.mem_filter] at h'
    rcases h' with h' | h'
    · have : owner s.octs o' = r := h'.2
      rw [this]
    · exfalso
      apply hg
      refine ⟨h', ?_⟩
      have hgh := (hs.ghosts r o').1 h'
      have hne : o ≠ o' := by
        rintro rfl
        exact hgh.2.1 (owner_eq hs ho)
      obtain ⟨off, h0, hadj, f, hf, hl⟩ := within_face hG.toPos hs.tiling (fun k => by have := hx' k; omega)
        (mem_mesh ho) hgh.1 hne ht
      refine ⟨f, hs.faces r o' h' o ho off h0 hadj f hf, ?_⟩
      revert hl
      split <;> intro hl <;> omega

/-- After the exchange of at least one layer, the cells that touch those of an octant have the values of their owners. -/
theorem exchangeLayers_near {e L : ℕ} {G : Grid d} (hG : G.WF) {s : Ranks d P} (hs : Good e L G s) {T : Type}
    (F : Fin P → Oct d → (Fin d → ℕ) → T) {b : Fin d → ℕ} {r : Fin P} {o : Oct d} (ho : o ∈ s.octs r)
    {gc : ℕ} (hgc : (∀ k, 0 < b k) → 1 ≤ gc) :
    AgreeNear G b (rankMap s r) o (exchangeLayers s b gc F r) fun o x => F (owner s.octs o) o x := by
  refine ⟨fun x _ => ?_, fun o' h' x x' hx hx' ht => ?_⟩
  · unfold exchangeLayers
    show _ = F (owner s.octs o) o x
    rw [owner_eq hs ho]
    split <;> rfl
  · exact exchangeLayers_within hG hs F ho (hgc fun k => by have := hx k; omega) h' hx'
      (within_of_dirAdj hG.toPos (fun k => by have := hx k; omega) hx hx' ht)

/-! ### Hydro -/

/-- Slopes on the whole mesh. -/
def gSlope (C : Config d K ι ν S) (M : Finset (Oct d)) (U : Oct d → (Fin d → ℕ) → ι → K) (o : Oct d) (x : Fin d → ℕ)
    (j : Fin d) (v : ν) : K :=
  (slope C M (fun o x => C.toPrim (U o x)) (cellAt C.blk o x) j v).getD 0

/-- The kernel of the fluxes on the whole mesh. -/
def gFlux (C : Config d K ι ν S) (M : Finset (Oct d)) (U : Oct d → (Fin d → ℕ) → ι → K) (dt : K) (o : Oct d)
    (x : Fin d → ℕ) (i : ι) : Option K :=
  updateCell (scheme C dt U (fun o x => C.toPrim (U o x)) (gSlope C M U) i) C.dom C.grid M dt (U o x i)
    (cellAt C.blk o x)

theorem primitives_agree (hG : C.grid.WF) (hs : Ok C s) {r : Fin P} {o : Oct d} (ho : o ∈ s.ranks.octs r) :
    AgreeNear C.grid C.blk (rankMap s.ranks r) o (primitives C s r) fun o x => C.toPrim (s.field o x) :=
  exchangeLayers_near hG hs _ ho fun _ => le_refl 1

theorem rank_slope (hG : C.grid.WF) (hs : Ok C s) {r : Fin P} {o : Oct d} (ho : o ∈ s.ranks.octs r) {x : Fin d → ℕ}
    (hx : ∀ k, x k < C.blk k) (j : Fin d) (v : ν) :
    slope C (rankMap s.ranks r) (primitives C s r) (cellAt C.blk o x) j v =
      some (gSlope C s.ranks.mesh s.field o x j v) := by
  obtain ⟨l, h1, h2⟩ := slope_congr (around hG hs ho) hx (primitives_agree hG hs ho) j v
  unfold gSlope
  rw [h1, h2]
  rfl

theorem slopes_agree (hG : C.grid.WF) (hs : Ok C s) {r : Fin P} {o : Oct d} (ho : o ∈ s.ranks.octs r) :
    AgreeNear C.grid C.blk (rankMap s.ranks r) o (slopes C s r) (gSlope C s.ranks.mesh s.field) := by
  have key : ∀ o' ∈ s.ranks.mesh, ∀ x : Fin d → ℕ, (∀ k, x k < C.blk k) →
      (fun (j : Fin d) (v : ν) => (slope C (rankMap s.ranks (owner s.ranks.octs o')) (primitives C s (owner s.ranks.octs o'))
        (cellAt C.blk o' x) j v).getD 0) = gSlope C s.ranks.mesh s.field o' x := by
    intro o' h' x hx
    funext j v
    rw [rank_slope hG hs (owner_mem _ h') hx]
    rfl
  have h := exchangeLayers_near hG hs (fun r o x (j : Fin d) (v : ν) =>
    (slope C (rankMap s.ranks r) (primitives C s r) (cellAt C.blk o x) j v).getD 0) (b := C.blk) ho fun _ => le_refl 1
  exact ⟨fun x hx => (h.1 x hx).trans (key o (mem_mesh ho) x hx), fun o' h' x x' hx hx' ht =>
    (h.2 o' h' x x' hx hx' ht).trans (key o' (mem_localMap_sub hs.ghostComplete r o' h') x' hx')⟩

theorem rank_flux (hG : C.grid.WF) (hs : Ok C s) {r : Fin P} {o : Oct d} (ho : o ∈ s.ranks.octs r) {x : Fin d → ℕ}
    (hx : ∀ k, x k < C.blk k) (dt : K) (i : ι) :
    ∃ a, fluxed C s dt r o x i = some a ∧ gFlux C s.ranks.mesh s.field dt o x i = some a := by
  unfold fluxed gFlux
  have h1 : s.data r o = s.field o := by unfold State.field; rw [owner_eq hs ho]
  rw [h1]
  have hp := primitives_agree hG hs ho
  have hsl := slopes_agree hG hs ho
  refine updateCell_congr (around hG hs ho) hx ⟨fun x' hx' => ?_, fun o' ho' x x' hx hx' ht => ?_⟩ ?_ ?_ dt _
  · funext off size
    simp only [scheme]
    rw [hp.1 x' hx', hsl.1 x' hx']
  · funext off size
    simp only [scheme]
    rw [hp.2 o' ho' x x' hx hx' ht, hsl.2 o' ho' x x' hx hx' ht]
  · rfl
  · funext j t
    simp only [scheme, h1]

theorem gSlope_congr (hG : C.grid.WF) (hs : Ok C s) {U : Oct d → (Fin d → ℕ) → ι → K}
    (hU : AgreeOn C.blk s.ranks.mesh s.field U) :
    AgreeOn C.blk s.ranks.mesh (gSlope C s.ranks.mesh s.field) (gSlope C s.ranks.mesh U) := by
  intro o ho x hx
  funext j v
  obtain ⟨l, h1, h2⟩ := slope_congr (C := C) (around_self hG hs ho) hx
    (Q := fun o x => C.toPrim (s.field o x)) (Q' := fun o x => C.toPrim (U o x))
    (AgreeOn.near (fun o ho x hx => by simp only [hU o ho x hx]) ho) j v
  unfold gSlope
  rw [h1, h2]

theorem gFlux_congr (hG : C.grid.WF) (hs : Ok C s) {U : Oct d → (Fin d → ℕ) → ι → K}
    (hU : AgreeOn C.blk s.ranks.mesh s.field U) {o : Oct d} (ho : o ∈ s.ranks.mesh) {x : Fin d → ℕ}
    (hx : ∀ k, x k < C.blk k) (dt : K) (i : ι) :
    gFlux C s.ranks.mesh s.field dt o x i = gFlux C s.ranks.mesh U dt o x i := by
  unfold gFlux
  obtain ⟨a, h1, h2⟩ := updateCell_congr (D := C.dom) (around_self hG hs ho) hx
    (H := scheme C dt s.field (fun o x => C.toPrim (s.field o x)) (gSlope C s.ranks.mesh s.field) i)
    (H' := scheme C dt U (fun o x => C.toPrim (U o x)) (gSlope C s.ranks.mesh U) i)
    (AgreeOn.near (fun o' ho' x' hx' => by
      funext off size
      simp only [scheme]
      rw [hU o' ho' x' hx', gSlope_congr hG hs hU o' ho' x' hx']) ho)
    rfl (by
      funext j t
      simp only [scheme]
      rw [show (fun y : ∀ k, Fin (C.blk k) => s.field o fun k => y k) = fun y => U o fun k => y k from
        funext fun y => hU o ho _ fun k => (y k).2]) dt (s.field o x i)
  rw [h1, ← h2, hU o ho x hx]

theorem hydroDefined (hG : C.grid.WF) (hs : Ok C s) (dt : K) : HydroDefined C s dt := by
  intro r o ho x hx
  have hx := mem_cells.1 hx
  refine ⟨fun j v => ?_, fun i => ?_⟩
  · rw [rank_slope hG hs ho hx]; rfl
  · obtain ⟨a, h, -⟩ := rank_flux hG hs ho hx dt i
    rw [h]; rfl

/-! ### Time step -/

/-- The steps that cells allow, on the whole mesh. -/
def Allowed (C : Config d K ι ν S) (M : Finset (Oct d)) (U : Oct d → (Fin d → ℕ) → ι → K) : Set K :=
  {t | t = C.maxReal ∨ ∃ ρ, 0 < ρ ∧ t = C.cfl / ρ ∧ (ρ = C.lowest ∨ ∃ o ∈ M, ∃ x : Fin d → ℕ, (∀ k, x k < C.blk k) ∧
    ρ = C.rate (U o x) (getCellSize C.dom C.grid (cellAt C.blk o x)))}

omit [Field K] in
theorem foldl_max_spec (l : List K) (a : K) : (l.foldl max a = a ∨ l.foldl max a ∈ l) ∧ a ≤ l.foldl max a ∧
    ∀ x ∈ l, x ≤ l.foldl max a := by
  induction l generalizing a with
  | nil => simp
  | cons y l ih =>
    obtain ⟨h1, h2, h3⟩ := ih (max a y)
    rw [List.foldl_cons]
    refine ⟨?_, (le_max_left a y).trans h2, fun x hx => ?_⟩
    · rcases h1 with h1 | h1
      · rw [h1]
        rcases max_choice a y with h | h <;> rw [h]
        · exact Or.inl rfl
        · exact Or.inr (by simp)
      · exact Or.inr (List.mem_cons_of_mem _ h1)
    · rcases List.mem_cons.1 hx with rfl | hx
      · exact (le_max_right a x).trans h2
      · exact h3 x hx

omit [Field K] in
theorem foldl_min_spec (l : List K) (a : K) : (l.foldl min a = a ∨ l.foldl min a ∈ l) ∧ l.foldl min a ≤ a ∧
    ∀ x ∈ l, l.foldl min a ≤ x := foldl_max_spec (K := Kᵒᵈ) l a

theorem mapM_eq_some {α β : Type} {f : α → Option β} {l : List α} {ys : List β} :
    l.mapM f = some ys ↔ l.map f = ys.map some := by
  induction l generalizing ys with
  | nil => cases ys <;> simp
  | cons a l ih =>
    rw [List.mapM_cons]
    cases ys with
    | nil =>
      cases f a with
      | none => simp
      | some y => cases l.mapM f <;> simp
    | cons y ys =>
      cases hf : f a with
      | none => simp [hf]
      | some z =>
        cases hm : l.mapM f with
        | none =>
          have : ∀ zs : List β, ¬ l.map f = zs.map some := fun zs h => by rw [ih.2 h] at hm; cases hm
          simp [hf, this]
        | some zs =>
          have := ih.1 hm
          simp only [Option.bind_eq_bind, Option.bind_some, Option.pure_def, Option.some.injEq, List.cons.injEq,
            List.map_cons, hf, this]
          refine and_congr_right fun _ => ⟨fun h => by rw [h], fun h => ?_⟩
          exact List.map_injective_iff.2 (Option.some_injective _) h

omit [Field K] in
theorem invDt_spec (octs : List (Oct d)) (U : Oct d → (Fin d → ℕ) → ι → K) :
    (invDt C octs U = C.lowest ∨ ∃ o ∈ octs, ∃ x : Fin d → ℕ, (∀ k, x k < C.blk k) ∧
      invDt C octs U = C.rate (U o x) (getCellSize C.dom C.grid (cellAt C.blk o x))) ∧ C.lowest ≤ invDt C octs U ∧
    ∀ o ∈ octs, ∀ x : Fin d → ℕ, (∀ k, x k < C.blk k) →
      C.rate (U o x) (getCellSize C.dom C.grid (cellAt C.blk o x)) ≤ invDt C octs U := by
  obtain ⟨h1, h2, h3⟩ := foldl_max_spec (octs.flatMap fun o => (cells C.blk).map fun x =>
    C.rate (U o x) (getCellSize C.dom C.grid (cellAt C.blk o x))) C.lowest
  refine ⟨h1.imp id fun h => ?_, h2, fun o ho x hx => h3 _ ?_⟩
  · obtain ⟨o, ho, h⟩ := List.mem_flatMap.1 h
    obtain ⟨x, hx, h⟩ := List.mem_map.1 h
    exact ⟨o, ho, x, mem_cells.1 hx, h.symm⟩
  · exact List.mem_flatMap.2 ⟨o, ho, List.mem_map.2 ⟨x, mem_cells.2 hx, rfl⟩⟩

variable [IsStrictOrderedRing K]

/-- `localDt` succeeds if the rate is not negative. -/
theorem localDt_eq (hc : 0 < C.cfl) (inv : K) : localDt C inv =
    if inv < 0 then none else if inv = 0 then some none else some (some (C.cfl / inv)) := by
  unfold localDt
  rcases lt_trichotomy inv 0 with h | h | h
  · rw [if_neg h.ne, if_neg (not_lt.2 (div_neg_of_pos_of_neg hc h).le), if_pos h]
  · rw [if_pos h, if_pos hc, if_neg (by rw [h]; exact lt_irrefl _), if_pos h]
  · rw [if_neg h.ne', if_pos (div_pos hc h), if_neg (not_lt.2 h.le), if_neg h.ne']

omit [NeZero P] in
theorem computeDt_isSome (hc : 0 < C.cfl) :
    (computeDt C s).isSome ↔ ∀ r, 0 ≤ invDt C (s.ranks.octs r) (s.data r) := by
  unfold computeDt
  rw [Option.isSome_map]
  constructor
  · intro h r
    obtain ⟨l, hl⟩ := Option.isSome_iff_exists.1 h
    rw [mapM_eq_some] at hl
    have hm : localDt C (invDt C (s.ranks.octs r) (s.data r)) ∈ l.map some := by
      rw [← hl]; exact List.mem_map.2 ⟨r, List.mem_finRange r, rfl⟩
    obtain ⟨y, -, hy⟩ := List.mem_map.1 hm
    rw [localDt_eq hc] at hy
    by_contra hn
    rw [if_pos (not_le.1 hn)] at hy
    cases hy
  · intro h
    rw [loops_mapM_some _ _ (fun r => if invDt C (s.ranks.octs r) (s.data r) = 0 then none else
      some (C.cfl / invDt C (s.ranks.octs r) (s.data r))) fun r _ => by
        rw [localDt_eq hc, if_neg (not_lt.2 (h r))]; split <;> rfl]
    rfl

/-- The time step is the smallest one that a cell of any rank allows. -/
theorem dt_isLeast (hc : 0 < C.cfl) (hs : Ok C s) {dt : K} (h : computeDt C s = some dt) :
    IsLeast (Allowed C s.ranks.mesh s.field) dt := by
  have h0 := (computeDt_isSome (C := C) hc).1 (by rw [h]; rfl)
  have hinv := fun r => invDt_spec (C := C) (s.ranks.octs r) (s.data r)
  have hfield : ∀ r, ∀ o ∈ s.ranks.octs r, s.data r o = s.field o := fun r o ho => by
    unfold State.field; rw [owner_eq hs ho]
  unfold computeDt at h
  rw [loops_mapM_some _ _ (fun r => if invDt C (s.ranks.octs r) (s.data r) = 0 then none else
      some (C.cfl / invDt C (s.ranks.octs r) (s.data r))) fun r _ => by
        rw [localDt_eq hc, if_neg (not_lt.2 (h0 r))]; split <;> rfl, Option.map_some, Option.some.injEq] at h
  obtain ⟨h1, h2, h3⟩ := foldl_min_spec (((List.finRange P).map fun r => if invDt C (s.ranks.octs r) (s.data r) = 0 then
    none else some (C.cfl / invDt C (s.ranks.octs r) (s.data r))).filterMap id) C.maxReal
  rw [h] at h1 h2 h3
  have hmem : ∀ y, y ∈ (((List.finRange P).map fun r => if invDt C (s.ranks.octs r) (s.data r) = 0 then
      none else some (C.cfl / invDt C (s.ranks.octs r) (s.data r))).filterMap id) ↔
      ∃ r, 0 < invDt C (s.ranks.octs r) (s.data r) ∧ y = C.cfl / invDt C (s.ranks.octs r) (s.data r) := by
    intro y
    rw [List.mem_filterMap]
    constructor
    · rintro ⟨a, ha, hy⟩
      obtain ⟨r, -, rfl⟩ := List.mem_map.1 ha
      simp only [id_eq] at hy
      split at hy
      · cases hy
      · next hn => exact ⟨r, lt_of_le_of_ne (h0 r) (Ne.symm hn), (Option.some.inj hy).symm⟩
    · rintro ⟨r, h4, rfl⟩
      exact ⟨_, List.mem_map.2 ⟨r, List.mem_finRange r, rfl⟩, by simp only [id_eq, if_neg h4.ne']⟩
  constructor
  · rcases h1 with h1 | h1
    · exact Or.inl h1
    · obtain ⟨r, h4, h5⟩ := (hmem _).1 h1
      refine Or.inr ⟨_, h4, h5, ?_⟩
      rcases (hinv r).1 with h6 | ⟨o, ho, x, hx, h6⟩
      · exact Or.inl h6
      · exact Or.inr ⟨o, mem_mesh ho, x, hx, by rw [h6, hfield r o ho]⟩
  · rintro t (rfl | ⟨ρ, h4, rfl, h5⟩)
    · exact h2
    · obtain ⟨r, hr⟩ : ∃ r, ρ ≤ invDt C (s.ranks.octs r) (s.data r) := by
        rcases h5 with rfl | ⟨o, ho, x, hx, rfl⟩
        · exact ⟨0, (hinv 0).2.1⟩
        · refine ⟨owner s.ranks.octs o, ?_⟩
          have := (hinv (owner s.ranks.octs o)).2.2 o (owner_mem _ ho) x hx
          rwa [hfield _ o (owner_mem _ ho)] at this
      exact (h3 _ ((hmem _).2 ⟨r, lt_of_lt_of_le h4 hr, rfl⟩)).trans
        (div_le_div_of_nonneg_left hc.le h4 hr)

/-- Whether the time step is defined. -/
theorem computeDt_isSome_of (hc : 0 < C.cfl) (hs : Ok C s) (hb : ∀ k, 0 < C.blk k) (h : ∀ u z, 0 ≤ C.rate u z) :
    (computeDt C s).isSome := by
  refine (computeDt_isSome hc).2 fun r => ?_
  obtain ⟨o, ho⟩ := List.exists_mem_of_ne_nil _ (hs.nonempty r)
  exact (h _ _).trans ((invDt_spec _ _).2.2 o ho (fun _ => 0) hb)

/-- What the hydro step does, without ranks. -/
theorem hydro_spec (hG : C.grid.WF) (hc : 0 < C.cfl) (hs : Ok C s) {t : State d P K ι} (h : hydro C s = some t) :
    ∃ dt, IsLeast (Allowed C s.ranks.mesh s.field) dt ∧ t.ranks = s.ranks ∧ t.time = s.time + correctDt C s.time dt ∧
      ∀ r, ∀ o ∈ s.ranks.octs r, ∀ x : Fin d → ℕ, (∀ k, x k < C.blk k) →
        t.data r o x = C.post (correctDt C s.time dt) (s.field o x) fun i =>
          (gFlux C s.ranks.mesh s.field (correctDt C s.time dt) o x i).getD 0 := by
  unfold hydro at h
  cases hd : computeDt C s with
  | none => rw [hd] at h; cases h
  | some dt =>
    rw [hd, Option.bind_some] at h
    simp only [if_pos (hydroDefined hG hs _), Option.some.injEq] at h
    refine ⟨dt, dt_isLeast hc hs hd, by rw [← h], by rw [← h], fun r o ho x hx => ?_⟩
    rw [← h]
    simp only
    have h1 : s.data r o = s.field o := by unfold State.field; rw [owner_eq hs ho]
    rw [h1]
    congr 1
    funext i
    obtain ⟨a, h2, h3⟩ := rank_flux hG hs ho hx (correctDt C s.time dt) i
    rw [h2, h3]

theorem hydro_isSome (hG : C.grid.WF) (hs : Ok C s) : (hydro C s).isSome ↔ (computeDt C s).isSome := by
  unfold hydro
  cases hd : computeDt C s with
  | none => rfl
  | some dt =>
    rw [Option.bind_some]
    simp only [if_pos (hydroDefined hG hs _)]
    rfl

end

end Verif.Sim
