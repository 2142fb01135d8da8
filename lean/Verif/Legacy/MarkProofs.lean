import Verif.Legacy.Mark

/-!
# The older refinement criterion: proofs about indices, reductions and groups
-/

namespace Verif.Legacy

open Verif.Octree Verif.Cells

variable {d : ℕ} {P : Par d}

/-! ### Indices in the ghosted block -/

theorem flat_coord {y : Fin d → ℕ} (hy : ∀ i, y i < ghosted P i) :
    ∑ i, y i * stride P i < ∏ i, ghosted P i ∧
      cellOfIndex P (∑ i, y i * stride P i) = fun i => (y i : ℤ) - P.w := by
  have e : ∑ i, y i * stride P i = (finPiFinEquiv (n := ghosted P) fun i => ⟨y i, hy i⟩ : ℕ) := by
    rw [finPiFinEquiv_apply]
    rfl
  rw [e]
  refine ⟨Fin.is_lt _, funext fun i => ?_⟩
  unfold cellOfIndex
  have : indexToCoord (fun j => P.b j + 2 * P.w) (finPiFinEquiv (n := ghosted P) fun i => ⟨y i, hy i⟩ : ℕ) i = y i := by
    show indexToCoord (ghosted P) _ i = y i
    rw [indexToCoord_symm, Equiv.symm_apply_apply]
  rw [this]

/-- The inner cell with a number. -/
def innerCell (P : Par d) (n : ℕ) (i : Fin d) : ℤ := indexToCoord P.b n i

theorem innerCell_bounds {n : ℕ} (hn : n < ∏ i, P.b i) (i : Fin d) : 0 ≤ innerCell P n i ∧ innerCell P n i < P.b i := by
  have := indexToCoord_lt hn i
  unfold innerCell
  omega

theorem innerCell_surj {p : Fin d → ℤ} (hp : ∀ i, 0 ≤ p i ∧ p i < P.b i) :
    ∃ n, n < ∏ i, P.b i ∧ innerCell P n = p := by
  obtain ⟨n, hn, e⟩ := indexToCoord_surj (s := P.b) (fun i => (p i).toNat) fun i => by have := hp i; omega
  refine ⟨n, hn, funext fun i => ?_⟩
  unfold innerCell
  rw [e]
  have := hp i
  show ((p i).toNat : ℤ) = p i
  omega

theorem innerIndex_spec (hw : 1 ≤ P.w) (h32 : ∏ i, ghosted P i ≤ 2 ^ 32) {n : ℕ} (hn : n < ∏ i, P.b i) :
    (innerIndex P n < ∏ i, ghosted P i ∧ cellOfIndex P (innerIndex P n) = innerCell P n) ∧
    ∀ k, ((innerIndex P n + stride P k) % 2 ^ 32 < ∏ i, ghosted P i ∧
        cellOfIndex P ((innerIndex P n + stride P k) % 2 ^ 32) = innerCell P n + Pi.single k 1) ∧
      (innerIndex P n + 2 ^ 32 - stride P k) % 2 ^ 32 < ∏ i, ghosted P i ∧
        cellOfIndex P ((innerIndex P n + 2 ^ 32 - stride P k) % 2 ^ 32) = innerCell P n - Pi.single k 1 := by
  have hc : ∀ i, indexToCoord P.b n i < P.b i := indexToCoord_lt hn
  refine ⟨?_, fun k => ⟨?_, ?_⟩⟩
  · obtain ⟨h1, h2⟩ := flat_coord (P := P) (y := fun i => indexToCoord P.b n i + P.w) fun i => by
      have := hc i; unfold ghosted; omega
    refine ⟨h1, h2.trans (funext fun i => ?_)⟩
    unfold innerCell
    push_cast
    ring
  · have e : innerIndex P n + stride P k =
        ∑ i, (indexToCoord P.b n i + P.w + if i = k then 1 else 0) * stride P i := by
      unfold innerIndex
      rw [Finset.sum_congr rfl fun i _ => add_mul (indexToCoord P.b n i + P.w) (if i = k then 1 else 0) (stride P i),
        Finset.sum_add_distrib]
      simp
    obtain ⟨h1, h2⟩ := flat_coord (P := P) (y := fun i => indexToCoord P.b n i + P.w + if i = k then 1 else 0) fun i => by
      have := hc i; unfold ghosted; split <;> omega
    rw [e, Nat.mod_eq_of_lt (lt_of_lt_of_le h1 h32)]
    refine ⟨h1, h2.trans (funext fun i => ?_)⟩
    unfold innerCell
    simp only [Pi.add_apply, Pi.single_apply]
    split <;> push_cast <;> ring
  · have e : innerIndex P n =
        ∑ i, (indexToCoord P.b n i + P.w - if i = k then 1 else 0) * stride P i + stride P k := by
      have : ∀ i : Fin d, (indexToCoord P.b n i + P.w) * stride P i =
          (indexToCoord P.b n i + P.w - if i = k then 1 else 0) * stride P i + (if i = k then 1 else 0) * stride P i := by
        intro i
        rw [← add_mul]
        congr 1
        split <;> omega
      unfold innerIndex
      rw [Finset.sum_congr rfl fun i _ => this i, Finset.sum_add_distrib]
      simp
    obtain ⟨h1, h2⟩ := flat_coord (P := P) (y := fun i => indexToCoord P.b n i + P.w - if i = k then 1 else 0) fun i => by
      have := hc i; unfold ghosted; split <;> omega
    rw [e, show ∀ a : ℕ, a + stride P k + 2 ^ 32 - stride P k = a + 2 ^ 32 from fun a => by omega, Nat.add_mod_right,
      Nat.mod_eq_of_lt (lt_of_lt_of_le h1 h32)]
    refine ⟨h1, h2.trans (funext fun i => ?_)⟩
    unfold innerCell
    simp only [Pi.sub_apply, Pi.single_apply]
    split
    · rw [Nat.cast_sub (by omega)]; push_cast; ring
    · rw [Nat.sub_zero]; push_cast; ring

/-! ### The error of a cell -/

theorem larger_eq (a b : ℝ) : larger a b = max a b := by
  unfold larger
  split
  · rw [max_eq_left]; linarith
  · rw [max_eq_right]; linarith

theorem foldl_larger_le {A : Type} (f : A → ℝ) (t : ℝ) : ∀ (l : List A) (a : ℝ),
    l.foldl (fun m n => larger m (f n)) a ≤ t ↔ a ≤ t ∧ ∀ n ∈ l, f n ≤ t
  | [], a => by simp
  | n :: l, a => by
    rw [List.foldl_cons, foldl_larger_le f t l, larger_eq, max_le_iff]
    simp only [List.mem_cons, forall_eq_or_imp, and_assoc]

/-- `q` are the values of `Q` in the block and the first layer around it. -/
def Stored (P : Par d) (Q : ℕ → State d) (q : (Fin d → ℤ) → State d) : Prop :=
  ∀ n < ∏ i, ghosted P i, (∀ i, -1 ≤ cellOfIndex P n i ∧ cellOfIndex P n i ≤ P.b i) → Q n = q (cellOfIndex P n)

theorem secondError_eq (hw : 1 ≤ P.w) (h32 : ∏ i, ghosted P i ≤ 2 ^ 32) {Q : ℕ → State d}
    {q : (Fin d → ℤ) → State d} (hQ : Stored P Q q) {n : ℕ} (hn : n < ∏ i, P.b i) (eps : ℝ) (k : Fin d) (v : HV d) :
    secondError eps (fun n => Q n v) (innerIndex P n) (stride P k) =
      curvature eps (q (innerCell P n - Pi.single k 1) v) (q (innerCell P n) v) (q (innerCell P n + Pi.single k 1) v) := by
  obtain ⟨⟨h1, e1⟩, h⟩ := innerIndex_spec hw h32 hn
  obtain ⟨⟨h2, e2⟩, h3, e3⟩ := h k
  have hb := innerCell_bounds hn
  have q1 := hQ _ h1 (by rw [e1]; intro i; have := hb i; omega)
  have q2 := hQ _ h2 (by
    rw [e2]; intro i; have := hb i; simp only [Pi.add_apply, Pi.single_apply]; split <;> omega)
  have q3 := hQ _ h3 (by
    rw [e3]; intro i; have := hb i; simp only [Pi.sub_apply, Pi.single_apply]; split <;> omega)
  rw [e1] at q1
  rw [e2] at q2
  rw [e3] at q3
  unfold secondError curvature
  simp only [q1, q2, q3]
  generalize q (innerCell P n - Pi.single k 1) v = a
  generalize q (innerCell P n) v = b
  generalize q (innerCell P n + Pi.single k 1) v = c
  rw [abs_sub_comm b a]
  congr 1
  · congr 1; ring
  · ring

theorem alongAll_le (hd : 0 < d) {eps t : ℝ} {Q : ℕ → State d} {iCell : ℕ} {v : HV d} :
    alongAll P eps Q iCell v ≤ t ↔ ∀ k, secondError eps (fun n => Q n v) iCell (stride P k) ≤ t := by
  unfold alongAll
  split
  · rename_i h
    have := congrArg List.length h
    rw [List.length_finRange] at this
    simp at this
    omega
  · rename_i k l h
    rw [foldl_larger_le]
    constructor
    · rintro ⟨h1, h2⟩ j
      have hj : j ∈ k :: l := by rw [← h]; exact List.mem_finRange j
      rcases List.mem_cons.1 hj with rfl | hj
      · exact h1
      · exact h2 j hj
    · exact fun h1 => ⟨h1 _, fun j _ => h1 _⟩

/-- The largest error of an octant is above `t` if the error of some cell is. -/
theorem octError_gt (hd : 0 < d) (hw : 1 ≤ P.w) (hb : ∀ k, 0 < P.b k) (h32 : ∏ i, ghosted P i ≤ 2 ^ 32)
    {Q : ℕ → State d} {q : (Fin d → ℤ) → State d} (hQ : Stored P Q q) {eps lowest : ℝ} (he : 0 ≤ eps) (hl : lowest ≤ 0)
    {chunks : List (List ℕ)} (hc : chunks.flatten.Perm (List.range (∏ k, P.b k))) (t : ℝ) :
    t < octError P eps lowest Q chunks ↔ Rough P.b eps t q := by
  have hcell : ∀ l : List ℕ, ∀ a, l.foldl (cellError P eps Q) a ≤ t ↔ a ≤ t ∧ ∀ n ∈ l,
      alongAll P eps Q (innerIndex P n) .rho ≤ t ∧ alongAll P eps Q (innerIndex P n) .e ≤ t := by
    intro l
    induction l with
    | nil => intro a; simp
    | cons n l ih =>
      intro a
      rw [List.foldl_cons, ih]
      unfold cellError
      rw [larger_eq, larger_eq, max_le_iff, max_le_iff]
      simp only [List.mem_cons, forall_eq_or_imp, and_assoc]
  have hall : octError P eps lowest Q chunks ≤ t ↔ lowest ≤ t ∧ ∀ n < ∏ k, P.b k,
      alongAll P eps Q (innerIndex P n) .rho ≤ t ∧ alongAll P eps Q (innerIndex P n) .e ≤ t := by
    unfold octError
    rw [foldl_larger_le (fun x => x)]
    simp only [List.mem_map, forall_exists_index, and_imp, forall_apply_eq_imp_iff₂, hcell]
    refine and_congr_right fun hlt => ?_
    have hm : ∀ n, n < ∏ k, P.b k ↔ ∃ l ∈ chunks, n ∈ l := fun n => by
      rw [← List.mem_range, ← hc.mem_iff, List.mem_flatten]
    constructor
    · intro h n hn
      obtain ⟨l, h1, h2⟩ := (hm n).1 hn
      exact (h l h1).2 n h2
    · exact fun h l h1 => ⟨hlt, fun n h2 => h n ((hm n).2 ⟨l, h1, h2⟩)⟩
  have hpos : 0 < ∏ k, P.b k := Finset.prod_pos fun k _ => hb k
  have key : octError P eps lowest Q chunks ≤ t ↔ ¬Rough P.b eps t q := by
    rw [hall]
    constructor
    · rintro ⟨-, h⟩ ⟨p, hp, v, hv, k, hlt⟩
      obtain ⟨n, hn, rfl⟩ := innerCell_surj hp
      rw [← secondError_eq hw h32 hQ hn] at hlt
      obtain ⟨h1, h2⟩ := h n hn
      rcases hv with rfl | rfl
      · exact absurd ((alongAll_le hd).1 h1 k) (not_le.2 hlt)
      · exact absurd ((alongAll_le hd).1 h2 k) (not_le.2 hlt)
    · intro h
      have h' : ∀ n < ∏ k, P.b k, ∀ v, (v = .rho ∨ v = .e) → alongAll P eps Q (innerIndex P n) v ≤ t := by
        intro n hn v hv
        rw [alongAll_le hd]
        intro k
        rw [secondError_eq hw h32 hQ hn]
        exact not_lt.1 fun hlt => h ⟨_, innerCell_bounds hn, v, hv, k, hlt⟩
      refine ⟨?_, fun n hn => ⟨h' n hn _ (Or.inl rfl), h' n hn _ (Or.inr rfl)⟩⟩
      refine hl.trans (le_trans ?_ ((alongAll_le hd).1 (h' 0 hpos .rho (Or.inl rfl)) ⟨0, hd⟩))
      unfold secondError
      simp only
      positivity
  rw [← not_le, key, not_not]

theorem request_mark {b : Fin d → ℕ} {MP : MarkPar} {level : ℕ} {e : ℝ} {q : (Fin d → ℤ) → State d}
    (h : ∀ t, t < e ↔ Rough b MP.eps t q) : IsMark b MP level q ((request MP level e).getD 0) := by
  unfold IsMark
  rw [← h, ← h]
  unfold request
  by_cases h1 : e > MP.errorMin <;> by_cases h2 : e > MP.errorMax <;> by_cases h3 : level < MP.levelMax <;>
    by_cases h4 : level > MP.levelMin <;> simp [h1, h2, h3, h4]

/-! ### Groups -/

/-- The markers that are asked for by the octants from `a` to `b`, in order. -/
def wanted (f : ℕ → Option ℤ) (l : List ℕ) : List (ℕ × ℤ) := l.filterMap fun i => (f i).map fun m => (i, m)

theorem wanted_length (f : ℕ → Option ℤ) (l : List ℕ) : (wanted f l).length ≤ l.length := List.length_filterMap_le _ _

open Classical in
theorem setMarkers_aux (f : ℕ → Option ℤ) (i : ℕ) : ∀ (L : List (ℕ × ℤ)) (a : ℕ → ℤ), (∀ p ∈ L, f p.1 = some p.2) →
    (L.foldl (fun a p => Function.update a p.1 p.2) a) i = if (∃ m, (i, m) ∈ L) then (f i).getD 0 else a i := by
  intro L
  induction L with
  | nil => intro a _; simp
  | cons p L ih =>
    intro a h
    rw [List.foldl_cons, ih _ fun p hp => h p (List.mem_cons_of_mem _ hp)]
    have hp := h p List.mem_cons_self
    by_cases h1 : ∃ m, (i, m) ∈ L
    · rw [if_pos h1, if_pos (by obtain ⟨m, hm⟩ := h1; exact ⟨m, List.mem_cons_of_mem _ hm⟩)]
    · rw [if_neg h1]
      by_cases h2 : i = p.1
      · rw [if_pos ⟨p.2, by rw [h2]; exact List.mem_cons_self⟩, h2, Function.update_self, hp]
        rfl
      · rw [Function.update_of_ne h2, if_neg]
        rintro ⟨m, hm⟩
        rcases List.mem_cons.1 hm with h3 | h3
        · exact h2 (by rw [← h3])
        · exact h1 ⟨m, h3⟩

/-- The markers of the mesh, from any order of the list. -/
theorem setMarkers_wanted {f : ℕ → Option ℤ} {n : ℕ} {L : List (ℕ × ℤ)} (h : L.Perm (wanted f (List.range n))) {i : ℕ}
    (hi : i < n) : setMarkers L i = (f i).getD 0 := by
  have hm : ∀ p, p ∈ L ↔ p.1 < n ∧ f p.1 = some p.2 := by
    intro p
    rw [h.mem_iff, wanted, List.mem_filterMap]
    constructor
    · rintro ⟨j, hj, e⟩
      obtain ⟨m, hm, rfl⟩ := Option.map_eq_some_iff.1 e
      exact ⟨List.mem_range.1 hj, hm⟩
    · rintro ⟨h1, h2⟩
      exact ⟨p.1, List.mem_range.2 h1, by rw [h2]; rfl⟩
  unfold setMarkers
  rw [setMarkers_aux f i L _ fun p hp => ((hm p).1 hp).2]
  split
  · rfl
  · rename_i h1
    cases hf : f i with
    | none => rfl
    | some m => exact absurd ⟨m, (hm _).2 ⟨hi, hf⟩⟩ h1

section
variable {MP : MarkPar} {M : Finset (Oct d)} {U : Mesh d} {octs : List (Oct d)} {q : Oct d → (Fin d → ℤ) → State d}

/-- The block of every octant can be filled, from any old contents, and has the values `q` in the first layer. -/
def Fills (P : Par d) (MP : MarkPar) (M : Finset (Oct d)) (U : Mesh d) (octs : List (Oct d))
    (q : Oct d → (Fin d → ℤ) → State d) : Prop :=
  ∀ o ∈ octs, ∀ B, ∃ B', fillGhosts P M U o B = some B' ∧
    ∀ p : Fin d → ℤ, (∀ i, -1 ≤ p i ∧ p i ≤ P.b i) → toPrim MP.rp (getCons B' p) = q o p

theorem fillGroup_spec (hf : Fills P MP M U octs q) (g : ℕ) (s : MarkState d) :
    ∃ s', fillGroup P MP M U octs g s = some s' ∧ s'.list = s.list ∧
      ∀ i < inGroup MP octs.length g, ∀ o, octs[g * MP.perGroup + i]? = some o → Stored P (s'.Q i) (q o) := by
  unfold fillGroup
  suffices h : ∀ l : List ℕ, (∀ i ∈ l, g * MP.perGroup + i < octs.length) → ∀ s : MarkState d, ∀ D : ℕ → Prop,
      (∀ i, D i → ∀ o, octs[g * MP.perGroup + i]? = some o → Stored P (s.Q i) (q o)) →
      ∃ s', l.foldlM (fun s i =>
        octs[g * MP.perGroup + i]?.bind fun o =>
          (fillGhosts P M U o (s.U i)).map fun B =>
            { s with U := Function.update s.U i B, Q := Function.update s.Q i (convert P MP.rp B (s.Q i)) }) s = some s' ∧
        s'.list = s.list ∧
        ∀ i, (D i ∨ i ∈ l) → ∀ o, octs[g * MP.perGroup + i]? = some o → Stored P (s'.Q i) (q o) by
    obtain ⟨s', h1, h2, h3⟩ := h (List.range (inGroup MP octs.length g)) (fun i hi => by
      have := List.mem_range.1 hi
      unfold inGroup at this
      omega) s (fun _ => False) (fun _ h => h.elim)
    exact ⟨s', h1, h2, fun i hi => h3 i (Or.inr (List.mem_range.2 hi))⟩
  intro l
  induction l with
  | nil => exact fun _ s D hD => ⟨s, rfl, rfl, fun i hi => hD i (by simpa using hi)⟩
  | cons j l ih =>
    intro hl s D hD
    have hj := hl j List.mem_cons_self
    obtain ⟨o, ho⟩ : ∃ o, octs[g * MP.perGroup + j]? = some o := ⟨_, List.getElem?_eq_getElem hj⟩
    obtain ⟨B, hB, hBq⟩ := hf o (List.mem_of_getElem? ho) (s.U j)
    obtain ⟨s', h1, h2, h3⟩ := ih (fun i hi => hl i (List.mem_cons_of_mem _ hi))
      { s with U := Function.update s.U j B, Q := Function.update s.Q j (convert P MP.rp B (s.Q j)) }
      (fun i => D i ∨ i = j) (by
        intro i hi o' ho'
        by_cases hij : i = j
        · subst hij
          rw [ho] at ho'
          obtain rfl := Option.some.inj ho'
          show Stored P (Function.update s.Q i _ i) _
          rw [Function.update_self]
          intro n hn hr
          unfold convert
          rw [if_pos hn]
          exact hBq _ hr
        · show Stored P (Function.update s.Q j _ i) _
          rw [Function.update_of_ne hij]
          exact hD i (hi.resolve_right hij) o' ho')
    refine ⟨s', ?_, h2, fun i hi => h3 i ?_⟩
    · rw [List.foldlM_cons, ho]
      show Option.bind (Option.bind (some o) _) _ = _
      rw [Option.bind_some, hB]
      exact h1
    · rcases hi with h | h
      · exact Or.inl (Or.inl h)
      · rcases List.mem_cons.1 h with rfl | h
        · exact Or.inl (Or.inr rfl)
        · exact Or.inr h

theorem markGroup_spec {lowest : ℝ} {sc : Sched} {f : ℕ → Option ℤ} {g : ℕ} {s : MarkState d}
    (ha : (sc.append g).Perm (List.range (inGroup MP octs.length g)))
    (hlen : s.list.length ≤ g * MP.perGroup)
    (hreq : ∀ i < inGroup MP octs.length g, ∀ o, octs[g * MP.perGroup + i]? = some o →
      request MP o.level (octError P MP.eps lowest (s.Q i) (sc.cells (g * MP.perGroup + i))) = f (g * MP.perGroup + i)) :
    ∃ s', markGroup P MP lowest octs sc g s = some s' ∧
      s'.list = s.list ++ wanted f ((sc.append g).map (g * MP.perGroup + ·)) := by
  have hin : ∀ i ∈ sc.append g, i < inGroup MP octs.length g := fun i hi => List.mem_range.1 (ha.mem_iff.1 hi)
  have hcap : s.list.length + (sc.append g).length ≤ octs.length ∨ sc.append g = [] := by
    rw [ha.length_eq, List.length_range]
    by_cases h0 : inGroup MP octs.length g = 0
    · rw [h0] at ha
      exact Or.inr (List.perm_nil.1 ha)
    · left
      unfold inGroup at h0 ⊢
      omega
  unfold markGroup
  suffices h : ∀ l : List ℕ, (∀ i ∈ l, i < inGroup MP octs.length g) → ∀ t : MarkState d, t.Q = s.Q →
      (t.list.length + l.length ≤ octs.length ∨ l = []) →
      ∃ s', l.foldlM (fun s i =>
        octs[g * MP.perGroup + i]?.bind fun o =>
          match request MP o.level (octError P MP.eps lowest (s.Q i) (sc.cells (g * MP.perGroup + i))) with
          | none => some s
          | some m => (pushBack octs.length s.list (g * MP.perGroup + i) m).map fun l => { s with list := l }) t = some s' ∧
        s'.list = t.list ++ wanted f (l.map (g * MP.perGroup + ·)) from h _ hin s rfl hcap
  intro l
  induction l with
  | nil => exact fun _ t _ _ => ⟨t, rfl, by simp [wanted]⟩
  | cons j l ih =>
    intro hl t ht hc
    have hj := hl j List.mem_cons_self
    have hj' : g * MP.perGroup + j < octs.length := by unfold inGroup at hj; omega
    obtain ⟨o, ho⟩ : ∃ o, octs[g * MP.perGroup + j]? = some o := ⟨_, List.getElem?_eq_getElem hj'⟩
    have hr := hreq j hj o ho
    rw [List.foldlM_cons, ho]
    show ∃ s', Option.bind (Option.bind (some o) _) _ = some s' ∧ _
    rw [Option.bind_some]
    rw [ht, hr]
    have hc' : t.list.length + (l.length + 1) ≤ octs.length := by
      rcases hc with hc | hc
      · simpa using hc
      · cases hc
    cases hfj : f (g * MP.perGroup + j) with
    | none =>
      obtain ⟨s', h1, h2⟩ := ih (fun i hi => hl i (List.mem_cons_of_mem _ hi)) t ht (Or.inl (by omega))
      refine ⟨s', h1, h2.trans ?_⟩
      rw [List.map_cons, wanted, wanted, List.filterMap_cons, hfj]
      rfl
    | some m =>
      have hpb : pushBack octs.length t.list (g * MP.perGroup + j) m = some (t.list ++ [(g * MP.perGroup + j, m)]) :=
        if_pos (show t.list.length < octs.length by omega)
      simp only [hpb, Option.map_some]
      obtain ⟨s', h1, h2⟩ := ih (fun i hi => hl i (List.mem_cons_of_mem _ hi))
        { t with list := t.list ++ [(g * MP.perGroup + j, m)] } ht (Or.inl (by
          simp only [List.length_append, List.length_cons, List.length_nil]; omega))
      rw [← ht]
      refine ⟨s', h1, h2.trans ?_⟩
      simp only
      rw [List.map_cons, wanted, wanted, List.filterMap_cons, hfj, List.append_assoc]
      rfl

theorem nbGroup_covers (hper : 0 < MP.perGroup) {n : ℕ} (h32 : n + MP.perGroup ≤ 2 ^ 32) :
    n ≤ nbGroup MP n * MP.perGroup := by
  unfold nbGroup
  rw [Nat.mod_eq_of_lt (by omega)]
  have := Nat.lt_div_mul_add (a := n + MP.perGroup - 1) hper
  omega

/-- The loop over the groups asks for every octant once, whatever the arrays contained and however the octants are
grouped. -/
theorem markCells_spec {lowest : ℝ} {sc : Sched} (hsc : sc.Ok P MP octs.length) (hf : Fills P MP M U octs q)
    (hd : 0 < d) (hw : 1 ≤ P.w) (hb : ∀ k, 0 < P.b k) (h32 : ∏ i, ghosted P i ≤ 2 ^ 32) (he : 0 ≤ MP.eps)
    (hl : lowest ≤ 0) (hper : 0 < MP.perGroup) (hn : octs.length + MP.perGroup ≤ 2 ^ 32) (s : MarkState d) :
    ∃ m, markCells P MP lowest M U octs sc s = some m ∧
      ∀ i o, octs[i]? = some o → IsMark P.b MP o.level (q o) (m i) := by
  classical
  -- the request of an octant, in terms of `q`
  have hreq : ∀ (o : Oct d) (i j : ℕ) (Q Q' : ℕ → State d), Stored P Q (q o) → Stored P Q' (q o) →
      octError P MP.eps lowest Q (sc.cells i) = octError P MP.eps lowest Q' (sc.cells j) := by
    intro o i j Q Q' h h'
    refine le_antisymm (le_of_forall_lt fun t ht => ?_) (le_of_forall_lt fun t ht => ?_)
    · rw [octError_gt hd hw hb h32 h' he hl (hsc.cells j)]
      rwa [octError_gt hd hw hb h32 h he hl (hsc.cells i)] at ht
    · rw [octError_gt hd hw hb h32 h he hl (hsc.cells i)]
      rwa [octError_gt hd hw hb h32 h' he hl (hsc.cells j)] at ht
  have hst : ∀ o, Stored P (fun n => q o (cellOfIndex P n)) (q o) := fun o n _ _ => rfl
  set f : ℕ → Option ℤ := fun i => octs[i]?.bind fun o =>
    request MP o.level (octError P MP.eps lowest (fun n => q o (cellOfIndex P n)) (sc.cells i)) with hfd
  have hloop : ∀ G, ∃ s', (List.range G).foldlM (fun s g =>
      (fillGroup P MP M U octs g s).bind (markGroup P MP lowest octs sc g)) { s with list := [] } = some s' ∧
      s'.list.Perm (wanted f (List.range (min octs.length (G * MP.perGroup)))) := by
    intro G
    induction G with
    | zero => exact ⟨_, rfl, by simp [wanted]⟩
    | succ G ih =>
      obtain ⟨s1, h1, p1⟩ := ih
      obtain ⟨s2, h2, l2, q2⟩ := fillGroup_spec hf G s1
      obtain ⟨s3, h3, l3⟩ := markGroup_spec (P := P) (MP := MP) (lowest := lowest) (sc := sc) (octs := octs) (f := f)
        (g := G) (s := s2) (hsc.append G) (by
          rw [l2, p1.length_eq]
          have := wanted_length f (List.range (min octs.length (G * MP.perGroup)))
          rw [List.length_range] at this
          omega) (fun i hi o ho => by
            rw [hfd]
            simp only [ho, Option.bind_some]
            rw [hreq o _ _ _ _ (q2 i hi o ho) (hst o)])
      refine ⟨s3, ?_, ?_⟩
      · rw [List.range_succ, List.foldlM_append, h1]
        show Option.bind (some s1) _ = _
        rw [Option.bind_some, List.foldlM_cons, h2]
        show Option.bind (Option.bind (some s2) _) _ = _
        rw [Option.bind_some, h3]
        rfl
      · rw [l3, l2]
        have hcat : List.range (min octs.length ((G + 1) * MP.perGroup)) =
            List.range (min octs.length (G * MP.perGroup)) ++
              (List.range (inGroup MP octs.length G)).map (G * MP.perGroup + ·) := by
          have e : min octs.length ((G + 1) * MP.perGroup) =
              min octs.length (G * MP.perGroup) + inGroup MP octs.length G := by
            unfold inGroup
            rw [Nat.succ_mul]
            omega
          rw [e, List.range_add]
          congr 1
          by_cases h0 : inGroup MP octs.length G = 0
          · rw [h0]; rfl
          · rw [min_eq_right]
            unfold inGroup at h0
            omega
        rw [hcat]
        unfold wanted
        rw [List.filterMap_append]
        exact p1.append (((hsc.append G).map _).filterMap _)
  obtain ⟨s', h1, p1⟩ := hloop (nbGroup MP octs.length)
  rw [min_eq_left (nbGroup_covers hper hn)] at p1
  refine ⟨setMarkers (sc.set s'.list), ?_, fun i o ho => ?_⟩
  · unfold markCells markLoop
    rw [h1]
    rfl
  · have hi : i < octs.length := by
      by_contra hcon
      rw [List.getElem?_eq_none (by omega)] at ho
      cases ho
    rw [setMarkers_wanted ((hsc.set _).trans p1) hi]
    have : f i = request MP o.level (octError P MP.eps lowest (fun n => q o (cellOfIndex P n)) (sc.cells i)) := by
      rw [hfd]
      simp only [ho, Option.bind_some]
    rw [this]
    exact request_mark fun t => octError_gt hd hw hb h32 (hst o) he hl (hsc.cells i) t

end

end Verif.Legacy
