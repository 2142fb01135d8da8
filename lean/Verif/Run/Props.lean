import Verif.Run.Model
import Verif.Run.Spec
import Verif.Adapt.Props
import Verif.Partition.Owner
import Verif.Partition.Faces

/-!
# C81: every mesh of a run
-/

namespace Verif.Run

open Verif.Octree Verif.Adapt Verif.Partition

variable {d P : ℕ}

theorem mem_leaves (octs : Fin P → List (Oct d)) (a : Oct d) : a ∈ leaves octs ↔ ∃ r, a ∈ octs r := by
  simp only [leaves, List.mem_toFinset, List.mem_flatten, List.mem_ofFn]
  constructor
  · rintro ⟨l, ⟨r, rfl⟩, h⟩; exact ⟨r, h⟩
  · rintro ⟨r, h⟩; exact ⟨_, ⟨r, rfl⟩, h⟩

theorem owner_mem [NeZero P] (octs : Fin P → List (Oct d)) {a : Oct d} (h : a ∈ leaves octs) :
    a ∈ octs (owner octs a) := by
  obtain ⟨r, hr⟩ := (mem_leaves octs a).1 h
  unfold owner
  cases hf : (List.finRange P).find? fun r => decide (a ∈ octs r) with
  | none => simpa [hr] using List.find?_eq_none.1 hf r (List.mem_finRange r)
  | some x => simpa using List.find?_some hf

theorem getElem_ofFn' (octs : Fin P → List (Oct d)) {r : ℕ} (h : r < (List.ofFn octs).length) :
    (List.ofFn octs)[r] = octs ⟨r, by simpa using h⟩ := by simp

/-- What holds for every mesh of a run. -/
structure Good [NeZero P] (e L : ℕ) (G : Grid d) (s : Ranks d P) : Prop where
  tiling : Tiling G s.mesh
  balanced : Balanced G s.mesh
  levels : ∀ o ∈ s.mesh, G.lmin ≤ o.level ∧ o.level ≤ L
  distributed : Distributed e L s.mesh (List.ofFn s.octs)
  nonempty : ∀ r, s.octs r ≠ []
  ghosts : ∀ r b, b ∈ s.ghost r ↔ b ∈ s.mesh ∧ owner s.octs b ≠ r ∧ ∃ a ∈ s.octs r, Touch G a b
  faces : ∀ r b, b ∈ s.ghost r → ∀ a ∈ s.octs r, ∀ off, (¬ ∀ i, off i = 0) → DirAdj G b off a → ∀ f,
    faceOf off = some f → f ∈ s.faces r b

theorem Good.ghostComplete [NeZero P] {e L : ℕ} {G : Grid d} {s : Ranks d P} (h : Good e L G s) :
    GhostComplete G s.mesh s.dist.owner s.dist.ghost := by
  refine fun r => ⟨fun b hb => ((h.ghosts r b).1 hb).1, fun a ha ho b hb hob ht => ?_⟩
  refine (h.ghosts r b).2 ⟨hb, hob, a, ?_, ht⟩
  rw [← ho]
  exact owner_mem s.octs ha

/-- Ghosts discovered from intervals that describe the distribution. -/
theorem discovered_iff [NeZero P] {e L : ℕ} {G : Grid d} (hG : G.WF) {octs : Fin P → List (Oct d)}
    (hM : Tiling G (leaves octs)) (hB : Balanced G (leaves octs)) (hde : d ≤ e)
    (hL : ∀ b ∈ leaves octs, b.level ≤ L) {I : ℕ → ℕ} (hc : Cuts e L (leaves octs) P I)
    (hd : Describes e L (List.ofFn octs) I) (r : Fin P) (b : Oct d) :
    b ∈ discovered e L G I octs r ↔
      b ∈ leaves octs ∧ owner octs b ≠ r ∧ ∃ a ∈ octs r, Touch G a b := by
  have howns : ∀ (r : Fin P) (a : Oct d), a ∈ octs r → Owns I r (okey e L a) := by
    intro r a ha
    have := hd r (by simp) a (by simpa using ha)
    exact this
  unfold discovered
  rw [Finset.mem_filter]
  refine and_congr_right fun hb => ?_
  have hob := howns _ _ (owner_mem octs hb)
  rw [C18_ghost_ranks_exact hG hM hB hde hL hc hb (owner octs b).2 hob]
  constructor
  · rintro ⟨t, ht, h1, h2, a, ha, h3, h4⟩
    have h5 : t = r := by exact_mod_cast h1.symm
    refine ⟨fun h => h2 (by rw [h5, h]), a, ?_, h3.symm⟩
    have h6 := owner_mem octs ha
    have h7 : (owner octs a : ℕ) = t := Owns.unique hc.mono (owner octs a).2 ht (howns _ _ h6) h4
    have h8 : owner octs a = r := Fin.ext (by rw [h7, h5])
    rwa [h8] at h6
  · rintro ⟨h1, a, ha, h2⟩
    exact ⟨r, r.2, rfl, fun h => h1 (Fin.ext h.symm), a, (mem_leaves octs a).2 ⟨r, ha⟩, h2.symm,
      howns r a ha⟩

/-- Masks discovered from intervals that describe the distribution. -/
theorem discoveredFaces_iff [NeZero P] {e L : ℕ} {G : Grid d} (hG : G.WF) {octs : Fin P → List (Oct d)}
    (hM : Tiling G (leaves octs)) (hB : Balanced G (leaves octs)) (hde : d ≤ e)
    (hL : ∀ b ∈ leaves octs, b.level ≤ L) {I : ℕ → ℕ} (hc : Cuts e L (leaves octs) P I)
    (hd : Describes e L (List.ofFn octs) I) {r : Fin P} {b : Oct d} (hb : b ∈ leaves octs) (hr : owner octs b ≠ r)
    (f : Face d) :
    f ∈ discoveredFaces e L G I octs r b ↔
      ∃ off, (¬ ∀ i, off i = 0) ∧ faceOf off = some f ∧ ∃ a ∈ octs r, DirAdj G b off a := by
  have howns : ∀ (r : Fin P) (a : Oct d), a ∈ octs r → Owns I r (okey e L a) := by
    intro r a ha
    have := hd r (by simp) a (by simpa using ha)
    exact this
  unfold discoveredFaces
  rw [mem_faceMask hG hM hB hde hL hc hb r.2 fun h => hr (Fin.ext h.symm)]
  refine exists_congr fun off => and_congr_right fun _ => and_congr_right fun _ => ⟨?_, ?_⟩
  · rintro ⟨a, ha, h3, h4⟩
    have h6 := owner_mem octs ha
    have h7 : (owner octs a : ℕ) = r := Owns.unique hc.mono (owner octs a).2 r.2 (howns _ _ h6) h4
    rw [Fin.ext h7] at h6
    exact ⟨a, h6, h3⟩
  · rintro ⟨a, ha, h3⟩
    exact ⟨a, (mem_leaves octs a).2 ⟨r, ha⟩, h3, howns r a ha⟩

theorem discoveredFaces_mem [NeZero P] {e L : ℕ} {G : Grid d} (hG : G.WF) {octs : Fin P → List (Oct d)}
    (hM : Tiling G (leaves octs)) (hB : Balanced G (leaves octs)) (hde : d ≤ e)
    (hL : ∀ b ∈ leaves octs, b.level ≤ L) {I : ℕ → ℕ} (hc : Cuts e L (leaves octs) P I)
    (hd : Describes e L (List.ofFn octs) I) (r : Fin P) (b : Oct d) (hb : b ∈ discovered e L G I octs r) :
    ∀ a ∈ octs r, ∀ off, (¬ ∀ i, off i = 0) → DirAdj G b off a → ∀ f, faceOf off = some f →
      f ∈ discoveredFaces e L G I octs r b := by
  obtain ⟨h1, h2, -⟩ := (discovered_iff hG hM hB hde hL hc hd r b).1 hb
  exact fun a ha off ho hadj f hf => (discoveredFaces_iff hG hM hB hde hL hc hd h1 h2 f).2 ⟨off, ho, hf, a, ha, hadj⟩

theorem length_le_of_nonempty {α : Type} (ls : List (List α)) (h : ∀ l ∈ ls, l ≠ []) :
    ls.length ≤ ls.flatten.length := by
  induction ls with
  | nil => simp
  | cons l ls ih =>
    have h1 := ih fun x hx => h x (List.mem_cons_of_mem _ hx)
    have h2 := List.length_pos_iff.2 (h l (by simp))
    simp only [List.length_cons, List.flatten_cons, List.length_append]
    omega

theorem pos_of_neZero (P : ℕ) [NeZero P] : 0 < P := Nat.pos_of_ne_zero (NeZero.ne P)

/-- Load balancing succeeds, keeps the mesh, and gives a good state. -/
theorem balance_spec [NeZero P] {e L : ℕ} {G : Grid d} (hG : G.WF) (hde : d ≤ e) (h64 : e * L < 64)
    {s : Ranks d P} (h : Good e L G s) (level : ℕ) :
    ∃ s', balance e L G level s = some s' ∧ Good e L G s' ∧ s'.mesh = s.mesh := by
  have hne : ∀ l ∈ List.ofFn s.octs, l ≠ [] := by
    intro l hl
    rw [List.mem_ofFn] at hl
    obtain ⟨r, rfl⟩ := hl
    exact h.nonempty r
  have hP := pos_of_neZero P
  have h0 : (List.ofFn s.octs).getD 0 [] ≠ [] := by
    rw [List.getD_eq_getElem _ _ (by simpa using hP), getElem_ofFn']
    exact h.nonempty _
  obtain ⟨ls, I, e1, e2, e3, e4, e5, e6⟩ := C16_loadBalance_permutes hG h.tiling hde
    (fun b hb => (h.levels b hb).2) h64 h.distributed h0 (length_le_of_nonempty _ hne) level
  have hlen : ls.length = P := by rw [e2, List.length_ofFn]
  set new : Fin P → List (Oct d) := fun i => ls.getD i [] with hnew
  have hofn : List.ofFn new = ls := by
    apply List.ext_getElem (by simp [hlen])
    intro i h1 h2
    rw [getElem_ofFn']
    simp [hnew, h2]
  have hleaves : leaves new = s.mesh := by
    unfold leaves Ranks.mesh leaves
    rw [hofn, e3]
  refine ⟨⟨new, discovered e L G I new, discoveredFaces e L G I new⟩, by simp [balance, e1, hnew], ?_, hleaves⟩
  have hc : Cuts e L (leaves new) P I := by
    rw [hleaves]
    rw [List.length_ofFn] at e5
    exact e5
  refine ⟨?_, ?_, ?_, ?_, ?_, ?_, ?_⟩
  · show Tiling G (leaves new); rw [hleaves]; exact h.tiling
  · show Balanced G (leaves new); rw [hleaves]; exact h.balanced
  · show ∀ o ∈ leaves new, _; rw [hleaves]; exact h.levels
  · show Distributed e L (leaves new) (List.ofFn new)
    rw [hleaves, hofn]
    exact ⟨fun a => by rw [e3]; exact h.distributed.mem a, by rw [e3]; exact h.distributed.order⟩
  · intro r
    have hr : (r : ℕ) < ls.length := by rw [hlen]; exact r.2
    show ls.getD r [] ≠ []
    rw [List.getD_eq_getElem _ _ hr]
    exact e4 _ (List.getElem_mem hr)
  · exact discovered_iff hG (by rw [hleaves]; exact h.tiling) (by rw [hleaves]; exact h.balanced) hde
      (by rw [hleaves]; exact fun b hb => (h.levels b hb).2) hc (by rw [hofn]; exact e6)
  · exact discoveredFaces_mem hG (by rw [hleaves]; exact h.tiling) (by rw [hleaves]; exact h.balanced) hde
      (by rw [hleaves]; exact fun b hb => (h.levels b hb).2) hc (by rw [hofn]; exact e6)

theorem newLeaves_flatten (f : Oct d → ℤ) (ls : List (List (Oct d))) :
    newLeaves f ls.flatten = (ls.map (newLeaves f)).flatten := by
  induction ls with
  | nil => rfl
  | cons l ls ih =>
    simp only [List.flatten_cons, List.map_cons, ← ih]
    simp [newLeaves]

theorem leaves_newLeaves (f : Oct d → ℤ) (octs : Fin P → List (Oct d)) :
    leaves (fun r => newLeaves f (octs r)) = newMesh f (leaves octs) := by
  ext o
  rw [mem_leaves]
  simp only [newMesh, newLeaves, List.mem_flatMap, Finset.mem_biUnion, List.mem_toFinset, mem_leaves]
  constructor
  · rintro ⟨r, a, ha, h⟩; exact ⟨a, ⟨r, ha⟩, h⟩
  · rintro ⟨a, ⟨r, ha⟩, h⟩; exact ⟨r, a, ha, h⟩

theorem ofFn_newLeaves (f : Oct d → ℤ) (octs : Fin P → List (Oct d)) :
    (List.ofFn fun r => newLeaves f (octs r)).flatten = newLeaves f (List.ofFn octs).flatten := by
  rw [newLeaves_flatten, List.map_ofFn]
  rfl

theorem getD_ofFn (octs : Fin P → List (Oct d)) (r : ℕ) :
    (List.ofFn octs).getD r [] = if h : r < P then octs ⟨r, h⟩ else [] := by
  split
  · next h => rw [List.getD_eq_getElem _ _ (by simpa using h), getElem_ofFn']
  · next h => rw [List.getD_eq_default]; simpa using h

/-- Adaptation: the corrected markers are the least correction, and unless a rank loses all its
octants the new state is good. -/
theorem adapt_spec [NeZero P] {e L : ℕ} {G : Grid d} (hG : G.WF) (hde : d ≤ e) (h64 : e * L < 64)
    {s : Ranks d P} (h : Good e L G s) {mk : Oct d → ℤ} (hr : Requested G s.mesh mk)
    (hmax : ∀ a ∈ s.mesh, (a.level : ℤ) + mk a ≤ L) :
    ∃ f, LeastCorrection G s.mesh mk f ∧ (∀ a ∈ s.mesh, -1 ≤ f a ∧ f a ≤ 1) ∧
      ((∃ r, newLeaves f (s.octs r) = []) → adapt e L G mk s = none) ∧
      ((∀ r, newLeaves f (s.octs r) ≠ []) → ∃ s', adapt e L G mk s = some s' ∧ Good e L G s' ∧
        (∀ r, s'.octs r = newLeaves f (s.octs r)) ∧ s'.mesh = newMesh f s.mesh) := by
  have hgc := h.ghostComplete
  have hf1 : 2 * s.mesh.card < 2 * s.mesh.card + 1 := Nat.lt_succ_self _
  obtain ⟨f, e1, hlc⟩ := C10_result_is_least_correction hG h.tiling h.balanced s.dist hgc mk hr
    _ _ hf1 hf1
  have hval := (C11_refine_honoured_coarsen_all_or_nothing_partial hG h.tiling h.balanced s.dist hgc mk f
    hr _ _ hf1 hf1 e1).2.2
  have hbal := C12_adapt_preserves_balance hG h.tiling h.balanced s.dist hgc mk f hr _ _ hf1 hf1 e1
  have htil := C13_adapt_preserves_tiling_partial hG h.tiling h.balanced s.dist hgc mk f hr _ _
    hf1 hf1 e1
  have hlev := C15_levels_in_range hG h.tiling h.balanced s.dist hgc mk f hr _ _ hf1 hf1 e1 L
    (fun a ha => (h.levels a ha).2) hmax
  set new : Fin P → List (Oct d) := fun r => newLeaves f (s.octs r) with hnew
  have hmesh : leaves new = newMesh f s.mesh := leaves_newLeaves f s.octs
  refine ⟨f, hlc, fun a ha => by have := hval a ha; omega, ?_, ?_⟩
  · rintro ⟨r, hr⟩
    unfold adapt
    rw [e1, Option.bind_some]
    have : adaptIntervals e L (List.ofFn s.octs) (List.ofFn new) = none := by
      unfold adaptIntervals
      rw [if_neg]
      intro hall
      rw [List.all_eq_true] at hall
      have := hall r (by simp)
      rw [getD_ofFn, getD_ofFn, dif_pos r.2, dif_pos r.2] at this
      have h1 : new ⟨r, r.2⟩ = [] := hr
      have h2 := h.nonempty r
      rw [h1] at this
      cases hc : s.octs ⟨r, r.2⟩ with
      | nil => exact h2 hc
      | cons a t => rw [hc] at this; simp at this
    show (adaptIntervals e L (List.ofFn s.octs) (List.ofFn new)).map _ = _
    rw [this]
    rfl
  · intro hne
    have hdist : Distributed e L (leaves new) (List.ofFn new) := by
      refine ⟨fun a => by rw [← List.mem_toFinset]; rfl, ?_⟩
      rw [ofFn_newLeaves]
      refine newLeaves_sorted hde f _ (fun a ha => ?_) ?_
      · have haM : a ∈ s.mesh := List.mem_toFinset.2 ha
        refine ⟨(h.levels a haM).2, fun h1 => ?_, fun h1 => ?_⟩
        · have hmem : (⟨a.level + 1, fun i => a.pos i * 2⟩ : Oct d) ∈ newMesh f s.mesh := by
            rw [mem_newMesh hlc.2.1]
            exact ⟨a, haM, Or.inl ⟨h1, rfl, fun i => by simp⟩⟩
          exact (hlev _ hmem).2
        · have h2 := hlc.1 a haM
          have h3 := hr.lower a haM
          have := hr.coarsest a haM (by omega)
          omega
      · exact zOrdered_of_sorted hG h.tiling hde (fun a ha => (h.levels a ha).2)
          (fun a ha => (h.distributed.mem a).1 ha) h.distributed.order
    have hP := pos_of_neZero P
    obtain ⟨I, e2, hc, hd⟩ := C18_adapt_intervals_partial (old := List.ofFn s.octs) hG (by rw [hmesh]; exact htil) hde
      (by rw [hmesh]; exact fun b hb => (hlev b hb).2) h64 hdist
      (by rw [getD_ofFn, dif_pos hP]; exact hne _)
      (fun r => by
        rw [getD_ofFn, getD_ofFn]
        split
        · exact ⟨fun h1 => absurd h1 (h.nonempty _), fun h1 => absurd h1 (hne _)⟩
        · simp)
    rw [List.length_ofFn] at hc
    refine ⟨⟨new, discovered e L G I new, discoveredFaces e L G I new⟩, ?_, ⟨?_, ?_, ?_, hdist, hne, ?_, ?_⟩, fun r => rfl, hmesh⟩
    · unfold adapt
      rw [e1, Option.bind_some]
      show (adaptIntervals e L (List.ofFn s.octs) (List.ofFn new)).map _ = _
      rw [e2]
      rfl
    · show Tiling G (leaves new); rw [hmesh]; exact htil
    · show Balanced G (leaves new); rw [hmesh]; exact hbal
    · show ∀ o ∈ leaves new, _; rw [hmesh]; exact hlev
    · exact discovered_iff hG (by rw [hmesh]; exact htil) (by rw [hmesh]; exact hbal) hde
        (by rw [hmesh]; exact fun b hb => (hlev b hb).2) hc hd
    · exact discoveredFaces_mem hG (by rw [hmesh]; exact htil) (by rw [hmesh]; exact hbal) hde
        (by rw [hmesh]; exact fun b hb => (hlev b hb).2) hc hd

/-- The constructor. -/
theorem start_spec [NeZero P] {e L : ℕ} {G : Grid d} (hG : G.WF) (hd : 0 < d) (hde : d ≤ e)
    (hL : G.lmin ≤ L) (hT : ∏ i, G.coarse i < 2 ^ 32) (hP : P ≤ ∏ i, G.coarse i) :
    ∃ s : Ranks d P, start e G = some s ∧ Good e L G s ∧
      ∀ o, o ∈ s.mesh ↔ o.level = G.lmin ∧ ∀ i, o.pos i < G.coarse i := by
  have hP0 := pos_of_neZero P
  obtain ⟨ls, l1, l2, l3, -, l5, l6, -⟩ := C08_initial_mesh_partial hG hT hP0
  obtain ⟨ls', m1, m2, m3, m4, m5, m6⟩ := C08_initial_intervals_partial hG hT hP0 hde hd
  have hls : ls' = ls := by
    apply List.ext_getElem (by rw [l1, m1])
    intro i h1 h2
    have := m2 i h1
    rw [l2 i h2] at this
    exact (Option.some.inj this).symm
  subst hls
  have hinit : ∀ r : Fin P, initLocal G P r = some (ls'.getD r []) := by
    intro r
    have hr : (r : ℕ) < ls'.length := by rw [l1]; exact r.2
    rw [l2 r hr, List.getD_eq_getElem _ _ hr]
  set octs : Fin P → List (Oct d) := fun r => (initLocal G P r).getD [] with hocts
  have hofn : List.ofFn octs = ls' := by
    apply List.ext_getElem (by simp [l1])
    intro i h1 h2
    rw [getElem_ofFn']
    show (initLocal G P i).getD [] = _
    rw [l2 i h2]
    rfl
  have hleaves : leaves octs = ls'.flatten.toFinset := by unfold leaves; rw [hofn]
  have hmem : ∀ o, o ∈ leaves octs ↔ o.level = G.lmin ∧ ∀ i, o.pos i < G.coarse i := by
    intro o
    rw [hleaves, List.mem_toFinset, l3]
  refine ⟨⟨octs, discovered e G.lmin G (initIntervals3 e G P) octs, discoveredFaces e G.lmin G (initIntervals3 e G P) octs⟩,
    ?_, ⟨?_, ?_, ?_, ?_, ?_, ?_, ?_⟩, hmem⟩
  · unfold start
    rw [if_pos fun r => by rw [hinit r]; rfl]
  · show Tiling G (leaves octs); rw [hleaves]; exact m3
  · show Balanced G (leaves octs); rw [hleaves]; exact m4
  · intro o ho
    have := ((hmem o).1 ho).1
    omega
  · refine ⟨fun a => by rw [← List.mem_toFinset]; rfl, ?_⟩
    show (List.ofFn octs).flatten.Pairwise _
    rw [hofn]
    refine (l5 e hde).imp_of_mem ?_
    intro a b ha hb hab
    have h1 := ((l3 a).1 ha).1
    have h2 := ((l3 b).1 hb).1
    rw [okey_eq (by omega), okey_eq (by omega), h1, h2] at hab ⊢
    rw [Nat.sub_self, Nat.mul_zero, pow_zero, Nat.mul_one, Nat.mul_one] at hab
    exact Nat.mul_lt_mul_of_pos_right hab (by positivity)
  · intro r
    have hr : (r : ℕ) < ls'.length := by rw [l1]; exact r.2
    have h1 := (l6 _ (List.getElem_mem hr)).1
    have h2 : 1 ≤ (∏ i, G.coarse i) / P := (Nat.one_le_div_iff hP0).2 hP
    have h3 : octs r = ls'[(r : ℕ)] := by
      show (initLocal G P r).getD [] = _
      rw [l2 r hr]; rfl
    show octs r ≠ []
    rw [h3]
    exact List.length_pos_iff.1 (by omega)
  · exact discovered_iff hG (by rw [hleaves]; exact m3) (by rw [hleaves]; exact m4) hde
      (fun b hb => le_of_eq ((hmem b).1 hb).1) (by rw [hleaves]; exact m5) (by rw [hofn]; exact m6)
  · exact discoveredFaces_mem hG (by rw [hleaves]; exact m3) (by rw [hleaves]; exact m4) hde
      (fun b hb => le_of_eq ((hmem b).1 hb).1) (by rw [hleaves]; exact m5) (by rw [hofn]; exact m6)

theorem Good.rank_lt [NeZero P] {e L : ℕ} {G : Grid d} {s : Ranks d P} (h : Good e L G s)
    {i j : Fin P} (hij : i < j) {x y : Oct d} (hx : x ∈ s.octs i) (hy : y ∈ s.octs j) :
    okey e L x < okey e L y := by
  have hp := h.distributed.order
  rw [List.pairwise_flatten] at hp
  have := List.pairwise_iff_getElem.1 hp.2 i j (by simp) (by simp) hij
  simp only [getElem_ofFn'] at this
  exact this x hx y hy

/-- A leaf is on one rank only. -/
theorem Good.rank_unique [NeZero P] {e L : ℕ} {G : Grid d} {s : Ranks d P} (h : Good e L G s)
    {i j : Fin P} {x : Oct d} (hx : x ∈ s.octs i) (hy : x ∈ s.octs j) : i = j := by
  rcases lt_trichotomy i j with h1 | h1 | h1
  · exact absurd (h.rank_lt h1 hx hy) (lt_irrefl _)
  · exact h1
  · exact absurd (h.rank_lt h1 hy hx) (lt_irrefl _)

/-- A leaf between two leaves of rank `q` in Z-order is on rank `q`. -/
theorem Good.between [NeZero P] {e L : ℕ} {G : Grid d} {s : Ranks d P} (h : Good e L G s)
    {q : Fin P} {a b c : Oct d} (ha : a ∈ s.octs q) (hb : b ∈ s.octs q) (hc : c ∈ s.mesh)
    (h1 : okey e L a < okey e L c) (h2 : okey e L c < okey e L b) : c ∈ s.octs q := by
  obtain ⟨r, hr⟩ := (mem_leaves s.octs c).1 hc
  rcases lt_trichotomy r q with h3 | h3 | h3
  · have := h.rank_lt h3 hr ha; omega
  · rw [← h3]; exact hr
  · have := h.rank_lt h3 hb hr; omega

/-- A rank with at least `2^d` octants keeps one. -/
theorem not_emptied [NeZero P] {e L : ℕ} {G : Grid d} (hG : G.WF) (hde : d ≤ e) {s : Ranks d P}
    (h : Good e L G s) {f : Oct d → ℤ} (hA : Admissible G s.mesh f)
    (hval : ∀ a ∈ s.mesh, -1 ≤ f a ∧ f a ≤ 1) (hc : ∀ a ∈ s.mesh, f a = -1 → 1 ≤ a.level) {q : Fin P}
    (hq : 2 ^ d ≤ (s.octs q).length) : newLeaves f (s.octs q) ≠ [] := by
  intro hnil
  have hM : ∀ a ∈ s.octs q, a ∈ s.mesh := fun a ha => (mem_leaves _ _).2 ⟨q, ha⟩
  have hw : ∀ a ∈ s.octs q, written (f a) a = [] := by
    unfold newLeaves at hnil
    rwa [List.flatMap_eq_nil_iff] at hnil
  have hm1 : ∀ a ∈ s.octs q, f a = -1 ∧ ¬ ∀ i, a.pos i % 2 = 0 := by
    intro a ha
    have h1 := hw a ha
    have h2 := hval a (hM a ha)
    unfold written at h1
    split at h1
    · have := congrArg List.length h1
      simp [children] at this
    · split at h1
      · simp at h1
      · split at h1
        · next h3 =>
          refine ⟨h3, fun h4 => ?_⟩
          rw [if_pos h4] at h1
          simp at h1
        · omega
  -- all octants have the same parent
  have hpos : 0 < (s.octs q).length := lt_of_lt_of_le (by positivity) hq
  obtain ⟨a, t, hat⟩ := List.exists_cons_of_length_pos hpos
  have ha : a ∈ s.octs q := by rw [hat]; simp
  have hfirst : ∀ b ∈ s.octs q, firstSib b ∈ s.mesh ∧ firstSib b ∉ s.octs q := by
    intro b hb
    have h1 := hA.sib b (hM b hb) (hm1 b hb).1 _ (firstSib_sibling b)
    refine ⟨h1.1, fun h2 => (hm1 _ h2).2 fun i => ?_⟩
    simp [firstSib]
  have hlev := fun b hb => (h.levels b hb).2
  have hpow : ∀ b ∈ s.mesh, ∀ i, b.pos i < 2 ^ b.level := fun b hb i => (h.tiling.valid b hb).lt_pow hG i
  have hpair : ∀ x ∈ s.octs q, ∀ y ∈ s.octs q, okey e L x < okey e L y → parent x = parent y := by
    intro x hx y hy hxy
    obtain ⟨hc1, hc2⟩ := hfirst y hy
    have hy1 := hc y (hM y hy) (hm1 y hy).1
    have hyL := hlev y (hM y hy)
    have hpy : Anc (parent y) y := child_anc (by simp only [parent]; omega) fun i => rfl
    have hpc : Anc (parent y) (firstSib y) :=
      child_anc (by simp only [firstSib, parent]; omega) fun i => by simp only [firstSib, parent]; omega
    have k1 := hpy.okey_le (e := e) hde hyL
    have k2 : okey e L (firstSib y) ≤ okey e L (parent y) := by
      refine (written_keys (e := e) (L := L) hde (-1) (a := firstSib y) (o := parent y) ?_ (by omega) hyL
        (fun _ => hy1)).1
      rw [← parent_firstSib y]
      unfold written
      rw [if_neg (by omega), if_neg (by omega), if_pos rfl, if_pos fun i => by simp [firstSib]]
      simp
    have k3 : okey e L (firstSib y) ≠ okey e L y := fun hk =>
      hc2 (by rw [h.tiling.okey_inj hG hde hlev hc1 (hM y hy) hk]; exact hy)
    have k4 : okey e L (firstSib y) ≠ okey e L x := fun hk =>
      hc2 (by rw [h.tiling.okey_inj hG hde hlev hc1 (hM x hx) hk]; exact hx)
    have k5 : okey e L (firstSib y) < okey e L x := by
      by_contra hge
      exact hc2 (h.between hx hy hc1 (by omega) (by omega))
    have k6 := (hpc.okey_le (e := e) hde (L := L) hyL).1
    have hpp : ∀ i, (parent y).pos i < 2 ^ (parent y).level := by
      intro i
      have := hpow y (hM y hy) i
      simp only [parent]
      rw [Nat.div_lt_iff_lt_mul (by norm_num), ← pow_succ, show y.level - 1 + 1 = y.level by omega]
      exact this
    have hanc : Anc (parent y) x := by
      by_contra hn
      have := oend_le_of_okey_lt hde hpp (hpow x (hM x hx)) (by simp only [parent]; omega)
        (hlev x (hM x hx)) hn (by omega)
      have := okey_lt_oend e L y
      omega
    by_cases hl : y.level ≤ x.level
    · have hs := up_sibling hy1 hl hanc
      obtain ⟨h1, -⟩ := hA.sib y (hM y hy) (hm1 y hy).1 _ hs
      have h2 := h.tiling.eq_of_anc hG h1 (hM x hx) (up_anc x hl)
      rw [h2] at hs
      exact Oct.ext' (by simp only [parent]; rw [hs.1]) fun i => hs.2 i
    · exfalso
      have h1 : x.level = (parent y).level := by
        have := hanc.1
        simp only [parent] at this ⊢
        omega
      have h2 : parent y = x := hanc.eq_of_level h1.symm
      rw [h2] at hpy
      have h3 := h.tiling.eq_of_anc hG (hM x hx) (hM y hy) hpy
      rw [h3] at hxy
      exact lt_irrefl _ hxy
  have hpar : ∀ b ∈ s.octs q, parent b = parent a := by
    intro b hb
    rcases Nat.lt_trichotomy (okey e L b) (okey e L a) with h1 | h1 | h1
    · exact hpair b hb a ha h1
    · rw [h.tiling.okey_inj hG hde hlev (hM b hb) (hM a ha) h1]
    · exact (hpair a ha b hb h1).symm
  -- so they are some of the siblings, without the first one
  have hnd : (s.octs q).Nodup := by
    have hp := h.distributed.order
    rw [List.pairwise_flatten] at hp
    have := hp.1 (s.octs q) (List.mem_ofFn.2 ⟨q, rfl⟩)
    exact this.imp fun h1 h2 => by rw [h2] at h1; exact lt_irrefl _ h1
  have hlevel : ∀ b ∈ s.octs q, b.level = a.level := by
    intro b hb
    have h1 := congrArg Oct.level (hpar b hb)
    have h2 := hc b (hM b hb) (hm1 b hb).1
    have h3 := hc a (hM a ha) (hm1 a ha).1
    simp only [parent] at h1
    omega
  have hcard : (insert (firstSib a) (s.octs q).toFinset).card ≤ 2 ^ d := by
    have hu : (Finset.univ : Finset (Fin d → Fin 2)).card = 2 ^ d := by simp
    rw [← hu]
    have hall : ∀ b ∈ insert (firstSib a) (s.octs q).toFinset, b.level = a.level ∧ parent b = parent a := by
      intro b hb
      rcases Finset.mem_insert.1 hb with rfl | hb
      · exact ⟨rfl, parent_firstSib a⟩
      · exact ⟨hlevel b (List.mem_toFinset.1 hb), hpar b (List.mem_toFinset.1 hb)⟩
    refine Finset.card_le_card_of_injOn
      (fun b i => (⟨b.pos i % 2, Nat.mod_lt _ (by norm_num)⟩ : Fin 2)) (fun _ _ => Finset.mem_univ _) ?_
    intro x hx y hy hxy
    obtain ⟨h1, h2⟩ := hall x hx
    obtain ⟨h3, h4⟩ := hall y hy
    refine Oct.ext' (h1.trans h3.symm) fun i => ?_
    have h5 := congrFun (congrArg Oct.pos (h2.trans h4.symm)) i
    have h6 := congrArg Fin.val (congrFun hxy i)
    simp only [parent] at h5
    simp only at h6
    omega
  rw [Finset.card_insert_of_notMem fun h1 => (hfirst a ha).2 (List.mem_toFinset.1 h1),
    List.toFinset_card_of_nodup hnd] at hcard
  omega

/-- The states of a run. The list has the requested markers, the last ones first. Markers stay within
the configured levels. Load balancing can be done at any time, with any number of compact levels. -/
inductive Reach [NeZero P] (e L : ℕ) (G : Grid d) : List (Oct d → ℤ) → Ranks d P → Prop
  | start {s : Ranks d P} (h : start e G = some s) : Reach e L G [] s
  | adapt {mks : List (Oct d → ℤ)} {s s' : Ranks d P} (h : Reach e L G mks s) {mk : Oct d → ℤ}
      (hr : Requested G s.mesh mk) (hmax : ∀ a ∈ s.mesh, (a.level : ℤ) + mk a ≤ L)
      (h' : adapt e L G mk s = some s') : Reach e L G (mk :: mks) s'
  | balance {mks : List (Oct d → ℤ)} {s s' : Ranks d P} (h : Reach e L G mks s) (level : ℕ)
      (h' : balance e L G level s = some s') : Reach e L G mks s'

theorem MeshRun.unique {G : Grid d} {mks : List (Oct d → ℤ)} {M N : Finset (Oct d)} (h : MeshRun G mks M)
    (h' : MeshRun G mks N) : M = N := by
  induction h generalizing N with
  | start h1 =>
    cases h' with
    | start h2 => ext o; rw [h1, h2]
  | adapt h1 hf ih =>
    cases h' with
    | adapt h2 hg =>
      have := ih h2
      subst this
      unfold newMesh
      exact Finset.biUnion_congr rfl fun a ha => by rw [hf.unique hg a ha]

section
variable [NeZero P] {e L : ℕ} {G : Grid d} (hG : G.WF) (hd : 0 < d) (hde : d ≤ e) (h64 : e * L < 64)
  (hL : G.lmin ≤ L) (hT : ∏ i, G.coarse i < 2 ^ 32) (hP : P ≤ ∏ i, G.coarse i)
include hG hd hde h64 hL hT hP

theorem reach_good {mks : List (Oct d → ℤ)} {s : Ranks d P} (h : Reach e L G mks s) :
    Good e L G s ∧ MeshRun G mks s.mesh := by
  induction h with
  | start h =>
    obtain ⟨s', e1, h1, h2⟩ := start_spec (P := P) (e := e) hG hd hde hL hT hP
    rw [h] at e1
    cases e1
    exact ⟨h1, MeshRun.start h2⟩
  | adapt h hr hmax h' ih =>
    obtain ⟨f, h1, -, h2, h3⟩ := adapt_spec hG hde h64 ih.1 hr hmax
    have hne : ∀ r, newLeaves f (_ : List (Oct d)) ≠ [] := fun r hn => by
      have := h2 ⟨r, hn⟩
      rw [h'] at this
      cases this
    obtain ⟨s', e1, h4, -, h5⟩ := h3 hne
    rw [h'] at e1
    cases e1
    rw [h5]
    exact ⟨h4, MeshRun.adapt ih.2 h1⟩
  | balance h level h' ih =>
    obtain ⟨s', e1, h1, h2⟩ := balance_spec hG hde h64 ih.1 level
    rw [h'] at e1
    cases e1
    rw [h2]
    exact ⟨h1, ih.2⟩

/-- **C81.** In every state of a run on any number of ranks: the leaves of all ranks tile the domain,
touching leaves differ by at most one level, levels are in the configured range; the concatenated storage of the ranks is
the list of leaves in Z-order, every rank has octants; the ghosts of a rank are exactly the leaves of
other ranks that touch one of its own. -/
theorem C81_every_mesh_partial {mks : List (Oct d → ℤ)} {s : Ranks d P} (h : Reach e L G mks s) :
    Tiling G s.mesh ∧ Balanced G s.mesh ∧ (∀ o ∈ s.mesh, G.lmin ≤ o.level ∧ o.level ≤ L) ∧
      Distributed e L s.mesh (List.ofFn s.octs) ∧ (∀ r, s.octs r ≠ []) ∧
      ∀ r b, b ∈ s.ghost r ↔ b ∈ s.mesh ∧ b ∉ s.octs r ∧ ∃ a ∈ s.octs r, Touch G a b := by
  have hg := (reach_good hG hd hde h64 hL hT hP h).1
  refine ⟨hg.tiling, hg.balanced, hg.levels, hg.distributed, hg.nonempty, fun r b => ?_⟩
  rw [hg.ghosts]
  refine and_congr_right fun hb => and_congr_left fun _ => not_congr ⟨fun h1 => ?_, fun h1 => ?_⟩
  · rw [← h1]; exact owner_mem s.octs hb
  · exact hg.rank_unique (owner_mem s.octs hb) h1

/-- **C81.** The mesh of a run is determined by the requested markers: runs on different numbers of ranks
with different load balancing have the same mesh. -/
theorem C81_ranks_do_not_matter {P' : ℕ} [NeZero P'] (hP' : P' ≤ ∏ i, G.coarse i)
    {mks : List (Oct d → ℤ)} {s : Ranks d P} {s' : Ranks d P'} (h : Reach e L G mks s)
    (h' : Reach e L G mks s') : s.mesh = s'.mesh ∧ (List.ofFn s.octs).flatten = (List.ofFn s'.octs).flatten := by
  have hg := reach_good hG hd hde h64 hL hT hP h
  have hg' := reach_good hG hd hde h64 hL hT hP' h'
  have heq := hg.2.unique hg'.2
  refine ⟨heq, ?_⟩
  have hnd : ∀ l : List (Oct d), (l.Pairwise fun a b => okey e L a < okey e L b) → l.Nodup :=
    fun l hl => hl.imp fun h1 h2 => by rw [h2] at h1; exact lt_irrefl _ h1
  refine List.Perm.eq_of_pairwise (le := fun a b => okey e L a < okey e L b)
    (fun a b _ _ h1 h2 => absurd h1 (lt_asymm h2)) hg.1.distributed.order hg'.1.distributed.order
    ((List.perm_ext_iff_of_nodup (hnd _ hg.1.distributed.order) (hnd _ hg'.1.distributed.order)).2 fun a => ?_)
  rw [hg.1.distributed.mem, hg'.1.distributed.mem, heq]

/-- **C81.** A run never gets stuck: the constructor and load balancing succeed; `adapt` succeeds exactly
if every rank keeps an octant, in particular if every rank has at least `2^d` octants. -/
theorem C81_progress_partial : (∃ s : Ranks d P, start e G = some s) ∧
    ∀ (mks : List (Oct d → ℤ)) (s : Ranks d P), Reach e L G mks s →
      (∀ level, ∃ s', balance e L G level s = some s') ∧
      ∀ mk, Requested G s.mesh mk → (∀ a ∈ s.mesh, (a.level : ℤ) + mk a ≤ L) →
        (∀ f, LeastCorrection G s.mesh mk f →
          ((∃ s', adapt e L G mk s = some s') ↔ ∀ r, newLeaves f (s.octs r) ≠ [])) ∧
        ((∀ r, 2 ^ d ≤ (s.octs r).length) → ∃ s', adapt e L G mk s = some s') := by
  refine ⟨?_, fun mks s h => ?_⟩
  · obtain ⟨s, h, -⟩ := start_spec (P := P) (e := e) hG hd hde hL hT hP
    exact ⟨s, h⟩
  have hg := (reach_good hG hd hde h64 hL hT hP h).1
  refine ⟨fun level => ?_, fun mk hr hmax => ?_⟩
  · obtain ⟨s', h1, -⟩ := balance_spec hG hde h64 hg level
    exact ⟨s', h1⟩
  obtain ⟨f, h1, h2, h3, h4⟩ := adapt_spec hG hde h64 hg hr hmax
  refine ⟨fun g hgl => ?_, fun hlen => ?_⟩
  · have heq : ∀ r, newLeaves g (s.octs r) = newLeaves f (s.octs r) := by
      intro r
      unfold newLeaves
      exact List.flatMap_congr fun a ha => by
        rw [hgl.unique h1 a ((mem_leaves _ _).2 ⟨r, ha⟩)]
    simp only [heq]
    refine ⟨fun ⟨s', h5⟩ r hn => ?_, fun h5 => ?_⟩
    · rw [h3 ⟨r, hn⟩] at h5
      cases h5
    · obtain ⟨s', h6, -⟩ := h4 h5
      exact ⟨s', h6⟩
  · obtain ⟨s', h6, -⟩ := h4 fun r => not_emptied hG hde hg h1.2.1 h2 (fun a ha h5 => by
      have h6 := h1.1 a ha
      have h7 := hr.lower a ha
      have := hr.coarsest a ha (by omega)
      omega) (hlen r)
    exact ⟨s', h6⟩

end

end Verif.Run
