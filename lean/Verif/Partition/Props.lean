import Verif.Partition.Init
import Verif.Octree.Check

/-!
# Properties of the domain decomposition

C07 (owner of a position), C08 (initial mesh), C16 and C17 (load balancing), C18 (ghost discovery).
-/

namespace Verif.Partition

open Verif.Octree Verif.Morton Verif.Adapt

variable {d : ℕ}

/-! ## C08 -/

theorem share_bounds (N P r : ℕ) (hP : 0 < P) :
    N / P ≤ N * (r + 1) / P - N * r / P ∧
      N * (r + 1) / P - N * r / P ≤ (N + P - 1) / P := by
  have h1 : N * r / P + N / P ≤ N * (r + 1) / P := by
    rw [Nat.mul_succ, Nat.le_div_iff_mul_le hP, Nat.add_mul]
    exact Nat.add_le_add (Nat.div_mul_le_self _ _) (Nat.div_mul_le_self _ _)
  have h2 : N * (r + 1) / P ≤ N * r / P + (N + P - 1) / P := by
    have h3 : N ≤ P * ((N + P - 1) / P) := by
      have := Nat.div_add_mod (N + P - 1) P
      have := Nat.mod_lt (N + P - 1) hP
      omega
    calc N * (r + 1) / P ≤ (N * r + P * ((N + P - 1) / P)) / P := by
          rw [Nat.mul_succ]; exact Nat.div_le_div_right (by omega)
      _ = _ := Nat.add_mul_div_left _ _ hP
  generalize N * (r + 1) / P = x at *
  generalize N * r / P = y at *
  generalize N / P = z at *
  generalize (N + P - 1) / P = w at *
  omega

theorem okey_level (e : ℕ) (o : Oct d) : okey e o.level o = zkey d e o.level o.pos := by
  rw [okey_eq (le_refl _)]; simp

/-- **C08.** The ranks together hold each coarse octant exactly once, in Morton order, and every rank
holds floor or ceil of (number of octants) / (number of ranks). The product of the coarse sizes has
to fit in 32 bits. -/
theorem C08_initial_mesh_partial {G : Grid d} (hG : G.WF) (hT : ∏ i, G.coarse i < 2 ^ 32) {P : ℕ}
    (hP : 0 < P) :
    ∃ ls : List (List (Oct d)), ls.length = P ∧
      (∀ (r : ℕ) (h : r < ls.length), initLocal G P r = some ls[r]) ∧
      (∀ o, o ∈ ls.flatten ↔ o.level = G.lmin ∧ ∀ i, o.pos i < G.coarse i) ∧
      ls.flatten.Nodup ∧
      (∀ e, d ≤ e → ls.flatten.Pairwise fun a b => okey e G.lmin a < okey e G.lmin b) ∧
      (∀ l ∈ ls, (∏ i, G.coarse i) / P ≤ l.length ∧ l.length ≤ ((∏ i, G.coarse i) + P - 1) / P) ∧
      (∀ (r : ℕ) (h : r < ls.length), ∀ o ∈ ls[r], ∃ m, initIntervals G P r ≤ m ∧
        m < initIntervals G P (r + 1) ∧ m < keyEnd G ∧ o = ⟨G.lmin, decode d (G.lmin + 1) m⟩) := by
  set f : ℕ → Oct d := fun m => ⟨G.lmin, decode d (G.lmin + 1) m⟩ with hf
  set part : ℕ → List ℕ := fun r =>
    (List.range' (initIntervals G P r) (initIntervals G P (r + 1) - initIntervals G P r)).filter
      (inGrid G) with hpart
  have hall := init_all hG hT hP P (le_refl _)
  rw [initIntervals_end hT hP] at hall
  have hflat : ((List.range P).map fun r => (part r).map f).flatten =
      ((List.range (keyEnd G)).filter (inGrid G)).map f := by
    rw [← hall, List.map_flatten, List.map_map]
    rfl
  have hlen : ∀ r < P, (part r).length = firstLocal G P (r + 1) - firstLocal G P r := by
    intro r hr
    have h1 := (initIntervals_spec hG hT hP r (by omega)).2
    have h2 := (initIntervals_spec hG hT hP (r + 1) (by omega)).2
    have hm := initIntervals_mono hG hT hP r hr
    have h3 : below G (initIntervals G P (r + 1)) =
        below G (initIntervals G P r) + (part r).length := by
      unfold below
      rw [hpart, ← List.length_append, ← List.filter_append, List.range_eq_range',
        List.range_eq_range']
      congr 2
      have := List.range'_append_1 (s := 0) (m := initIntervals G P r)
        (n := initIntervals G P (r + 1) - initIntervals G P r)
      rw [Nat.zero_add] at this
      rw [this]
      congr 1
      omega
    omega
  have hsub : ∀ m, m < keyEnd G → m < 2 ^ (d * (G.lmin + 1)) := fun m hm =>
    lt_of_lt_of_le hm (le_trans (keyEnd_le G) (le_pow_succ d G.lmin))
  have horder : ∀ e, d ≤ e → (((List.range (keyEnd G)).filter (inGrid G)).map f).Pairwise
      fun a b => okey e G.lmin a < okey e G.lmin b := by
    intro e he
    rw [List.pairwise_map]
    refine List.Pairwise.imp_of_mem ?_ (List.Pairwise.filter _ List.pairwise_lt_range)
    intro a b ha hb hab
    rw [List.mem_filter, List.mem_range, inGrid_iff] at ha hb
    have h1 := okey_level e (f a)
    have h2 := okey_level e (f b)
    have hpa : ∀ c, (f a).pos c < 2 ^ G.lmin := fun c => lt_of_lt_of_le (ha.2 c) (hG.le c)
    have hpb : ∀ c, (f b).pos c < 2 ^ G.lmin := fun c => lt_of_lt_of_le (hb.2 c) (hG.le c)
    show okey e (f a).level (f a) < okey e (f b).level (f b)
    rw [h1, h2]
    show zkey d e G.lmin (f a).pos < zkey d e G.lmin (f b).pos
    rw [← zkey_extend e G.lmin hpa, ← zkey_extend e G.lmin hpb,
      ← (zkey_lt_indep (le_refl d) he _ _ _).1]
    show zkey d d (G.lmin + 1) (decode d (G.lmin + 1) a) < zkey d d (G.lmin + 1) (decode d _ b)
    rw [zkey_decode _ (hsub a ha.1), zkey_decode _ (hsub b hb.1)]
    exact hab
  refine ⟨(List.range P).map fun r => (part r).map f, by simp, ?_, ?_, ?_, ?_, ?_, ?_⟩
  · intro r hr
    have hr' : r < P := by simpa using hr
    unfold initLocal
    simp only [List.getElem_map, List.getElem_range, List.length_map]
    rw [if_pos (hlen r hr')]
  · intro o
    rw [hflat]
    simp only [List.mem_map, List.mem_filter, List.mem_range, inGrid_iff]
    constructor
    · rintro ⟨m, ⟨-, hm⟩, rfl⟩
      exact ⟨rfl, hm⟩
    · rintro ⟨hl, hp⟩
      obtain ⟨h1, h2, h3⟩ := coarse_key hG hp
      refine ⟨zkey d d G.lmin o.pos, ⟨?_, by rw [h1]; exact hp⟩, ?_⟩
      · unfold keyEnd; split
        · exact h3
        · exact h2
      · exact Oct.ext' hl.symm (fun i => by show decode d _ _ i = _; rw [h1])
  · rw [hflat]
    exact List.Pairwise.imp (fun h1 h2 => by rw [h2] at h1; exact lt_irrefl _ h1)
      (horder d (le_refl d))
  · intro e he
    rw [hflat]
    exact horder e he
  · intro l hl
    simp only [List.mem_map, List.mem_range] at hl
    obtain ⟨r, hr, rfl⟩ := hl
    rw [List.length_map, hlen r hr]
    unfold firstLocal
    rw [total_eq hT, Nat.mul_comm, Nat.mul_comm r]
    exact share_bounds _ _ _ hP
  · intro r hr o ho
    have hr' : r < P := by simpa using hr
    simp only [List.getElem_map, List.getElem_range, List.mem_map, hpart, List.mem_filter,
      List.mem_range'_1] at ho
    obtain ⟨m, ⟨⟨h1, h2⟩, -⟩, rfl⟩ := ho
    have hm := initIntervals_mono hG hT hP r hr'
    have hle := (initIntervals_spec hG hT hP (r + 1) (by omega)).1
    exact ⟨m, h1, by omega, by omega, rfl⟩

/-- The uniform mesh of the coarsest level is a balanced tiling. -/
theorem uniform_tiling {G : Grid d} (hG : G.WF) {M : Finset (Oct d)}
    (hM : ∀ o, o ∈ M ↔ o.level = G.lmin ∧ ∀ i, o.pos i < G.coarse i) :
    Tiling G M ∧ Balanced G M := by
  have hc : ∀ i, G.count i G.lmin = G.coarse i := fun i => by simp [Grid.count]
  refine ⟨tiling_of_anc hG ?_ G.lmin (le_refl _) ?_ ?_, ?_⟩
  · intro o ho
    obtain ⟨h1, h2⟩ := (hM o).1 ho
    exact ⟨by omega, fun i => by rw [h1, hc]; exact h2 i⟩
  · intro o ho
    have := ((hM o).1 ho).1
    omega
  · intro v hv hl
    refine ⟨v, ⟨(hM v).2 ⟨hl, fun i => ?_⟩, Anc.refl v⟩, ?_⟩
    · have := hv.2 i
      rwa [hl, hc] at this
    · rintro b ⟨hb, hanc⟩
      exact hanc.eq_of_level (by rw [((hM b).1 hb).1, hl])
  · intro a ha b hb _
    have h1 := ((hM a).1 ha).1
    have h2 := ((hM b).1 hb).1
    omega

/-- **C08.** The initial mesh is a balanced tiling, and the intervals passed to ghost discovery
(keys with `e` bits per level) describe which rank holds which octant. -/
theorem C08_initial_intervals_partial {G : Grid d} (hG : G.WF) (hT : ∏ i, G.coarse i < 2 ^ 32) {P : ℕ}
    (hP : 0 < P) {e : ℕ} (he : d ≤ e) (hd : 0 < d) :
    ∃ ls : List (List (Oct d)), ls.length = P ∧
      (∀ (r : ℕ) (h : r < ls.length), initLocal G P r = some ls[r]) ∧
      Tiling G ls.flatten.toFinset ∧ Balanced G ls.flatten.toFinset ∧
      Cuts e G.lmin ls.flatten.toFinset P (initIntervals3 e G P) ∧
      Describes e G.lmin ls (initIntervals3 e G P) := by
  obtain ⟨ls, h1, h2, h3, -, -, -, h7⟩ := C08_initial_mesh_partial hG hT hP
  have hu := uniform_tiling hG (M := ls.flatten.toFinset) (fun o => by rw [List.mem_toFinset, h3])
  have hle : ∀ m, m ≤ keyEnd G → m < 2 ^ (d * (G.lmin + 1)) := fun m hm =>
    lt_of_le_of_lt (le_trans hm (keyEnd_le G)) (Nat.pow_lt_pow_right (by norm_num)
      (by rw [Nat.mul_succ]; omega))
  -- re-encoding keeps the order
  have henc : ∀ m m', m ≤ keyEnd G → m' ≤ keyEnd G →
      (zkey d e (G.lmin + 1) (decode d (G.lmin + 1) m) <
        zkey d e (G.lmin + 1) (decode d (G.lmin + 1) m') ↔ m < m') := by
    intro m m' hm hm'
    rw [← (zkey_lt_indep (le_refl d) he _ _ _).1, zkey_decode _ (hle m hm),
      zkey_decode _ (hle m' hm')]
  have hkey : ∀ m, m < keyEnd G → inGrid G m = true →
      okey e G.lmin (⟨G.lmin, decode d (G.lmin + 1) m⟩ : Oct d) =
        zkey d e (G.lmin + 1) (decode d (G.lmin + 1) m) := by
    intro m _ hin
    rw [inGrid_iff] at hin
    rw [zkey_extend e G.lmin (fun c => lt_of_lt_of_le (hin c) (hG.le c))]
    exact okey_level e (⟨G.lmin, decode d (G.lmin + 1) m⟩ : Oct d)
  have hspec := fun r hr => (initIntervals_spec hG hT hP r hr).1
  have hdesc : Describes e G.lmin ls (initIntervals3 e G P) := by
    intro r hr o ho
    obtain ⟨m, hm1, hm2, hm3, rfl⟩ := h7 r hr o ho
    have hin : inGrid G m = true := by
      rw [inGrid_iff]
      exact ((h3 _).1 (List.mem_flatten.2 ⟨ls[r], List.getElem_mem hr, ho⟩)).2
    rw [hkey m hm3 hin]
    constructor
    · rw [← not_lt]
      unfold initIntervals3
      rw [henc m _ (le_of_lt hm3) (hspec r (by omega))]
      omega
    · unfold initIntervals3
      rw [henc m _ (le_of_lt hm3) (hspec (r + 1) (by omega))]
      exact hm2
  have hmono : ∀ r < P, initIntervals3 e G P r ≤ initIntervals3 e G P (r + 1) := by
    intro r hr
    rw [← not_lt]
    unfold initIntervals3
    rw [henc _ _ (hspec _ (by omega)) (hspec _ (by omega))]
    have := initIntervals_mono hG hT hP r hr
    omega
  refine ⟨ls, h1, h2, hu.1, hu.2, ⟨?_, hmono, ?_, ?_⟩, hdesc⟩
  · unfold initIntervals3
    rw [initIntervals_zero hG hT hP]
    have := decode_zkey (d := d) (G.lmin + 1) (p := fun _ => 0) (fun c => by positivity)
    rw [zkey_zero] at this
    rw [this, zkey_zero]
  · intro r hr a ha hlt
    rw [List.mem_toFinset, h3] at ha
    unfold oend
    rw [ha.1, Nat.sub_self, Nat.mul_zero, pow_zero]
    exact hlt
  · intro a ha
    rw [List.mem_toFinset, List.mem_flatten] at ha
    obtain ⟨l, hl, hal⟩ := ha
    obtain ⟨r, hr, rfl⟩ := List.mem_iff_getElem.1 hl
    exact lt_of_lt_of_le (hdesc r hr a hal).2
      (mono_of_step hmono (r + 1) P (by omega) (le_refl _))

/-- A 3x1x2 coarse grid on 4 ranks, 2 or 1 octants each. -/
def exInit : Grid 3 := ⟨2, ![3, 1, 2], fun _ => false⟩

example : (List.range 4).map (fun r => (initLocal exInit 4 r).map List.length) =
    [some 1, some 2, some 1, some 2] := by decide +kernel

/-- **C08**, disagreement. For `level_min = 11` in 3D the number of octants `2^33` does not fit in
32 bits: the product is 0 and the mesh is empty. -/
theorem C08_uint32_overflow_fails :
    initLocal (⟨11, fun _ => 2 ^ 11, fun _ => false⟩ : Grid 3) 1 0 = some [] := by
  have h1 : totalOcts (⟨11, fun _ => 2 ^ 11, fun _ => false⟩ : Grid 3) = 0 := by decide
  have h2 : isFullCube (⟨11, fun _ => 2 ^ 11, fun _ => false⟩ : Grid 3) = true := by decide
  unfold initLocal initIntervals firstLocal
  simp only [h1, h2]
  rfl

/-! ## C18 -/

/-- **C18.** Ghost discovery sends an octant exactly to the other ranks that hold an octant touching
it (a face, an edge or a corner, also through periodic boundaries). -/
theorem C18_ghost_ranks_exact {G : Grid d} (hG : G.WF) {M : Finset (Oct d)} (hM : Tiling G M)
    (hB : Balanced G M) {e L P : ℕ} (hde : d ≤ e) (hL : ∀ b ∈ M, b.level ≤ L) {I : ℕ → ℕ}
    (hc : Cuts e L M P I) {a : Oct d} (ha : a ∈ M) {r : ℕ} (hr : r < P)
    (hor : Owns I r (okey e L a)) (k : ℤ) :
    k ∈ ghostRanks e L G I P r a ↔
      ∃ s < P, k = s ∧ s ≠ r ∧ ∃ b ∈ M, Touch G a b ∧ Owns I s (okey e L b) :=
  ghostRanks_iff hG hM hB hde hL hc ha hr hor k

/-- **C18.** With ghosts discovered this way, the ghost layer of every rank contains every leaf of
another rank that touches one of its own. This is the hypothesis of the theorems on mesh adaptation
(C09, C10). -/
theorem C18_ghost_layer_complete {G : Grid d} (hG : G.WF) {M : Finset (Oct d)} (hM : Tiling G M)
    (hB : Balanced G M) {e L P : ℕ} (hde : d ≤ e) (hL : ∀ b ∈ M, b.level ≤ L) {I : ℕ → ℕ}
    (hc : Cuts e L M P I) (owner : Oct d → Fin P) (howner : ∀ a ∈ M, Owns I (owner a) (okey e L a))
    (ghost : Fin P → Finset (Oct d))
    (hghost : ∀ s a, a ∈ ghost s ↔ a ∈ M ∧ ((s : ℕ) : ℤ) ∈ ghostRanks e L G I P (owner a) a) :
    GhostComplete G M owner ghost := by
  intro s
  refine ⟨fun b hb => ((hghost s b).1 hb).1, ?_⟩
  intro a ha has b hb hbs ht
  rw [hghost]
  refine ⟨hb, (ghostRanks_iff hG hM hB hde hL hc hb (owner b).2 (howner b hb) _).2
    ⟨s, s.2, rfl, fun h => hbs (Fin.ext h.symm), a, ha, ht.symm, ?_⟩⟩
  rw [← has]
  exact howner a ha

/-- Each leaf of a cut mesh has exactly one owner, so the hypotheses on `owner` can be met. -/
theorem exists_unique_owner {e L P : ℕ} {M : Finset (Oct d)} {I : ℕ → ℕ} (hc : Cuts e L M P I)
    {a : Oct d} (ha : a ∈ M) : ∃! r : Fin P, Owns I r (okey e L a) := by
  obtain ⟨r, hr, ho⟩ := hc.exists_owner ha
  exact ⟨⟨r, hr⟩, ho, fun s hs => Fin.ext (Owns.unique hc.mono s.2 hr hs ho)⟩

/-! ## C16, C17 -/

/-- Keys of levels up to `L` fit before the last interval end `2^64-1`. -/
theorem sorted_of_distributed {G : Grid d} (hG : G.WF) {M : Finset (Oct d)} (hM : Tiling G M)
    {e L : ℕ} (hde : d ≤ e) (hL : ∀ b ∈ M, b.level ≤ L) (h64 : e * L < 64)
    {ls : List (List (Oct d))} (hd : Distributed e L M ls) :
    Sorted e L (2 ^ 64 - 1) G M ls.flatten where
  wf := hG
  dim := hde
  tiling := hM
  level := hL
  mem := hd.mem
  order := hd.order
  top := by
    intro a ha
    have hl := hL a ha
    rw [oend_eq hl]
    have h1 : zkey d e a.level a.pos + 1 ≤ 2 ^ (e * a.level) := zkey_lt hde _ _
    calc (zkey d e a.level a.pos + 1) * 2 ^ (e * (L - a.level))
        ≤ 2 ^ (e * a.level) * 2 ^ (e * (L - a.level)) := Nat.mul_le_mul_right _ h1
      _ = 2 ^ (e * L) := by rw [← pow_add, ← Nat.mul_add]; congr 2; omega
      _ ≤ 2 ^ 63 := Nat.pow_le_pow_right (by norm_num) (by omega)
      _ ≤ 2 ^ 64 - 1 := by norm_num

/-- Everything about one load balancing. -/
theorem loadBalance_spec {G : Grid d} {M : Finset (Oct d)} {e L : ℕ} {ls : List (List (Oct d))}
    (hs : Sorted e L (2 ^ 64 - 1) G M ls.flatten) (h0 : ls.getD 0 [] ≠ [])
    (hN : ls.length ≤ ls.flatten.length) (level : ℕ) :
    ∃ (J I raw : ℕ → ℕ), J 0 = 0 ∧ J ls.length = ls.flatten.length ∧
      (∀ r < ls.length, J r < J (r + 1)) ∧
      (∀ r ≤ ls.length, I r = keyAt e L (2 ^ 64 - 1) ls.flatten (J r)) ∧
      (∀ r < ls.length, I r = newCut e level raw r) ∧
      (∀ r < ls.length, raw r = keyAt e L (2 ^ 64 - 1) ls.flatten
        (evenIdx ls.flatten.length ls.length r)) ∧
      loadBalance e L level ls = some ((List.range ls.length).map fun s =>
        (ls.flatten.drop (J s)).take (J (s + 1) - J s), I) := by
  set g := ls.flatten with hg
  set P := ls.length with hPdef
  have hNpos := hs.first.1
  have hP : 0 < P := by
    rcases Nat.eq_zero_or_pos P with h | h
    · exfalso
      have : ls = [] := List.eq_nil_of_length_eq_zero h
      rw [hg, this] at hNpos
      simp at hNpos
    · exact h
  set raw : ℕ → ℕ := fun i => (rawCuts e L ls i).getD 0 with hrawdef
  have hraw : ∀ i < P, raw i = keyAt e L (2 ^ 64 - 1) g (evenIdx g.length P i) := by
    intro i hi
    rw [hrawdef]
    simp only
    rw [rawCuts_eq hs hi]
    rfl
  have hex : ∀ r, ∃ j, r < P → ∃ hj : j < g.length, newCut e level raw r = okey e L g[j] := by
    intro r
    by_cases hr : r < P
    · obtain ⟨j, hj, hk, -⟩ := newCut_spec hs level raw hraw r hr
      exact ⟨j, fun _ => ⟨hj, hk⟩⟩
    · exact ⟨0, fun h => absurd h hr⟩
  choose J' hJ' using hex
  set J : ℕ → ℕ := fun r => if r < P then J' r else g.length with hJdef
  have hJlt : ∀ r, r < P → J r = J' r := fun r hr => by rw [hJdef]; simp only [hr, if_true]
  have hJP : J P = g.length := by rw [hJdef]; simp
  set I := newIntervals e level P raw with hIdef
  have hIlt : ∀ r, r < P → I r = newCut e level raw r := fun r hr => by
    rw [hIdef]; unfold newIntervals; rw [if_pos hr]
  have hI : ∀ r ≤ P, I r = keyAt e L (2 ^ 64 - 1) g (J r) := by
    intro r hr
    rcases Nat.lt_or_ge r P with h | h
    · obtain ⟨hj, hk⟩ := hJ' r h
      rw [hIlt r h, hJlt r h, keyAt_of_lt hj, hk]
    · have : r = P := by omega
      rw [this, hJP, keyAt_of_ge (le_refl _), hIdef]
      unfold newIntervals
      rw [if_neg (by omega)]
  have hJb : ∀ r < P, J r < g.length := fun r hr => by
    rw [hJlt r hr]; exact (hJ' r hr).1
  have hstrict : ∀ r < P, J r < J (r + 1) := by
    intro r hr
    rcases Nat.lt_or_ge (r + 1) P with h | h
    · have h1 := newCut_lt hs hN level raw hraw h
      rw [← hIlt r hr, ← hIlt (r + 1) h, hI r (by omega), hI (r + 1) (by omega),
        keyAt_of_lt (hJb r hr), hs.lt_keyAt_iff (hJb r hr)] at h1
      exact h1
    · have : r + 1 = P := by omega
      rw [this, hJP]
      exact hJb r hr
  have hIs : ∀ r < P, I r < I (r + 1) := by
    intro r hr
    rw [hI r (by omega), hI (r + 1) (by omega), keyAt_of_lt (hJb r hr), hs.lt_keyAt_iff (hJb r hr)]
    exact hstrict r hr
  have hJ0 : J 0 = 0 := by
    have h1 := hI 0 (Nat.zero_le _)
    rw [hIlt 0 hP, keyAt_of_lt (hJb 0 hP)] at h1
    have h2 : newCut e level raw 0 = 0 := rfl
    rw [h2] at h1
    by_contra hc
    have h3 := (hs.lt_iff hNpos (hJb 0 hP)).2 (by omega)
    omega
  have hJm : ∀ r < P, J r ≤ J (r + 1) := fun r hr => le_of_lt (hstrict r hr)
  have hnew : ∀ i < P, newOct e L ls I i = some (J i) := fun i hi =>
    newOct_eq hs h0 I J hJb (fun i hi => hI i (by omega))
      (fun i j hij hj => mono_of_step hJm i j hij (by omega)) hi
  have hnewP : newOct e L ls I P = some g.length := by
    unfold newOct
    simp only
    rw [if_neg (by omega)]
  have hJfun : ∀ i ≤ P, (newOct e L ls I i).getD 0 = J i := by
    intro i hi
    rcases Nat.lt_or_ge i P with h | h
    · rw [hnew i h]; rfl
    · have : i = P := by omega
      rw [this, hnewP, hJP]; rfl
  set J2 : ℕ → ℕ := fun i => (newOct e L ls I i).getD 0 with hJ2
  have hexc : ∀ s < P, exchanged ls J2 s = (g.drop (J s)).take (J (s + 1) - J s) := by
    intro s hs'
    rw [exchanged_eq ls J2 ((hJfun 0 (Nat.zero_le _)).trans hJ0)
      (fun s hs => by
        show J2 s ≤ J2 (s + 1)
        have e1 : J2 s = J s := hJfun s (by omega)
        have e2 : J2 (s + 1) = J (s + 1) := hJfun (s + 1) (by omega)
        rw [e1, e2]; exact hJm s hs) hs' (by
        have e2 : J2 (s + 1) = J (s + 1) := hJfun (s + 1) (by omega)
        rw [e2, ← hg, ← hJP]
        exact mono_of_step hJm (s + 1) P (by omega) (le_refl _))]
    have e1 : J2 s = J s := hJfun s (by omega)
    have e2 : J2 (s + 1) = J (s + 1) := hJfun (s + 1) (by omega)
    rw [e1, e2]
  refine ⟨J, I, raw, hJ0, hJP, hstrict, hI, hIlt, hraw, ?_⟩
  unfold loadBalance
  simp only
  rw [if_pos, if_pos, if_pos, if_pos]
  · congr 2
    apply List.map_congr_left
    intro s hs'
    exact hexc s (List.mem_range.1 hs')
  · rw [List.all_eq_true]
    intro i hi
    have hi' := List.mem_range.1 hi
    rw [Bool.and_eq_true, decide_eq_true_eq]
    constructor
    · have e1 : J2 i = J i := hJfun i (by omega)
      have e2 : J2 (i + 1) = J (i + 1) := hJfun (i + 1) (by omega)
      show J2 i ≤ J2 (i + 1)
      rw [e1, e2]; exact hJm i hi'
    · have h1 := hexc i hi'
      have h2 := hstrict i hi'
      have h3 := hJb i hi'
      have h4 : (exchanged ls J2 i) ≠ [] := by
        rw [h1]
        apply List.ne_nil_of_length_pos
        rw [List.length_take, List.length_drop]
        omega
      show (!(exchanged ls J2 i).isEmpty) = true
      simp [h4]
  · rw [List.all_eq_true]
    intro i hi
    have := hnew i (List.mem_range.1 hi)
    show (newOct e L ls I i).isSome = true
    rw [this]; rfl
  · rw [List.all_eq_true]
    intro i hi
    exact decide_eq_true (hIs i (List.mem_range.1 hi))
  · rw [List.all_eq_true]
    intro i hi
    rw [rawCuts_eq hs (List.mem_range.1 hi)]; rfl

/-- The new distribution. -/
theorem balanced_lists {α : Type} (g : List α) (J : ℕ → ℕ) (P : ℕ) (h0 : J 0 = 0)
    (hP : J P = g.length) (hm : ∀ s < P, J s ≤ J (s + 1)) :
    ((List.range P).map fun s => (g.drop (J s)).take (J (s + 1) - J s)).flatten = g ∧
    ∀ s < P, ((g.drop (J s)).take (J (s + 1) - J s)).length = J (s + 1) - J s := by
  refine ⟨by rw [flatten_cuts g J h0 P hm, hP, List.take_length], fun s hs => ?_⟩
  rw [List.length_take, List.length_drop, ← hP]
  have := mono_of_step hm (s + 1) P (by omega) (le_refl _)
  have := hm s hs
  omega

/-- **C16.** Load balancing succeeds whenever there are at least as many octants as ranks (and rank 0
holds octants before). The octants of all ranks, concatenated in rank order, are the same list; no rank
is empty; the new intervals cut the mesh without splitting a leaf and describe the new distribution. -/
theorem C16_loadBalance_permutes {G : Grid d} (hG : G.WF) {M : Finset (Oct d)} (hM : Tiling G M)
    {e L : ℕ} (hde : d ≤ e) (hL : ∀ b ∈ M, b.level ≤ L) (h64 : e * L < 64)
    {ls : List (List (Oct d))} (hd : Distributed e L M ls) (h0 : ls.getD 0 [] ≠ [])
    (hN : ls.length ≤ ls.flatten.length) (level : ℕ) :
    ∃ ls' I, loadBalance e L level ls = some (ls', I) ∧ ls'.length = ls.length ∧
      ls'.flatten = ls.flatten ∧ (∀ l ∈ ls', l ≠ []) ∧
      Cuts e L M ls.length I ∧ Describes e L ls' I := by
  have hs := sorted_of_distributed hG hM hde hL h64 hd
  obtain ⟨J, I, raw, hJ0, hJP, hstr, hI, -, -, hlb⟩ := loadBalance_spec hs h0 hN level
  have hJm : ∀ r < ls.length, J r ≤ J (r + 1) := fun r hr => le_of_lt (hstr r hr)
  obtain ⟨hf, hlen⟩ := balanced_lists ls.flatten J ls.length hJ0 hJP hJm
  refine ⟨_, I, hlb, by simp, hf, ?_, hs.cuts hJ0 hJm hJP hI, ?_⟩
  · intro l hl
    simp only [List.mem_map, List.mem_range] at hl
    obtain ⟨s, hs', rfl⟩ := hl
    apply List.ne_nil_of_length_pos
    rw [hlen s hs']
    have := hstr s hs'
    omega
  · intro r hr a ha
    have hr' : r < ls.length := by simpa using hr
    simp only [List.getElem_map, List.getElem_range] at ha
    obtain ⟨j, hj, rfl⟩ := List.mem_iff_getElem.1 ha
    have hj' := hj
    rw [hlen r hr'] at hj'
    have hb : J r + j < ls.flatten.length := by
      rw [List.length_take, List.length_drop] at hj
      omega
    have : ((ls.flatten.drop (J r)).take (J (r + 1) - J r))[j] = ls.flatten[J r + j] := by
      rw [List.getElem_take, List.getElem_drop]
    rw [this, hs.owns_iff hI hr' hb]
    omega

/-- **C17.** Without compaction every rank gets floor or ceil of N/P octants. -/
theorem C17_even_without_compaction {G : Grid d} (hG : G.WF) {M : Finset (Oct d)} (hM : Tiling G M)
    {e L : ℕ} (hde : d ≤ e) (hL : ∀ b ∈ M, b.level ≤ L) (h64 : e * L < 64)
    {ls : List (List (Oct d))} (hd : Distributed e L M ls) (h0 : ls.getD 0 [] ≠ [])
    (hN : ls.length ≤ ls.flatten.length) :
    ∃ ls' I, loadBalance e L 0 ls = some (ls', I) ∧
      ∀ l ∈ ls', ls.flatten.length / ls.length ≤ l.length ∧
        l.length ≤ (ls.flatten.length + ls.length - 1) / ls.length := by
  have hs := sorted_of_distributed hG hM hde hL h64 hd
  obtain ⟨J, I, raw, hJ0, hJP, hstr, hI, hIc, hraw, hlb⟩ := loadBalance_spec hs h0 hN 0
  have hJm : ∀ r < ls.length, J r ≤ J (r + 1) := fun r hr => le_of_lt (hstr r hr)
  obtain ⟨-, hlen⟩ := balanced_lists ls.flatten J ls.length hJ0 hJP hJm
  have hNpos := hs.first.1
  have hJeq : ∀ r ≤ ls.length, J r = evenIdx ls.flatten.length ls.length r := by
    intro r hr
    rcases Nat.lt_or_ge r ls.length with h | h
    · cases r with
      | zero => rw [hJ0]; simp [evenIdx]
      | succ r =>
        have h1 : newCut e 0 raw (r + 1) = raw (r + 1) := truncKey_zero e _
        have h2 := hIc (r + 1) h
        rw [h1, hraw _ h, hI _ hr] at h2
        have h3 := evenIdx_lt (P := ls.length) hNpos h
        have h4 : J (r + 1) < ls.flatten.length := by
          have := hstr (r + 1) h
          have := mono_of_step hJm (r + 1 + 1) ls.length (by omega) (le_refl _)
          omega
        rw [keyAt_of_lt h4, keyAt_of_lt h3] at h2
        rcases Nat.lt_trichotomy (J (r + 1)) (evenIdx ls.flatten.length ls.length (r + 1)) with
          h5 | h5 | h5
        · have := (hs.lt_iff h4 h3).2 h5; omega
        · exact h5
        · have := (hs.lt_iff h3 h4).2 h5; omega
    · have : r = ls.length := by omega
      rw [this, hJP]
      unfold evenIdx
      rw [Nat.mul_div_cancel]
      rw [this] at h
      by_contra hc
      have : ls = [] := List.eq_nil_of_length_eq_zero (by omega)
      rw [this] at hNpos
      simp at hNpos
  refine ⟨_, I, hlb, ?_⟩
  intro l hl
  simp only [List.mem_map, List.mem_range] at hl
  obtain ⟨s, hs', rfl⟩ := hl
  rw [hlen s hs', hJeq s (by omega), hJeq (s + 1) (by omega)]
  exact share_bounds _ _ _ (by omega)

/-- **C17.** With `level` compaction levels: two consecutive ranks hold leaves of the same block `C`
(`level` levels above the finest one) only if all the octants of the lower rank are in that block, so
that keeping the block together would leave this rank empty. -/
theorem C17_groups_kept_together {G : Grid d} (hG : G.WF) {M : Finset (Oct d)} (hM : Tiling G M)
    {e L : ℕ} (hde : d ≤ e) (hL : ∀ b ∈ M, b.level ≤ L) (h64 : e * L < 64)
    {ls : List (List (Oct d))} (hd : Distributed e L M ls) (h0 : ls.getD 0 [] ≠ [])
    (hN : ls.length ≤ ls.flatten.length) (level : ℕ) :
    ∃ ls' I, loadBalance e L level ls = some (ls', I) ∧
      ∀ (r : ℕ) (h : r + 1 < ls'.length) (C : Oct d), C.level + level = L →
        (∃ a ∈ ls'[r], Anc C a) → (∃ b ∈ ls'[r + 1], Anc C b) → ∀ x ∈ ls'[r], Anc C x := by
  have hs := sorted_of_distributed hG hM hde hL h64 hd
  obtain ⟨J, I, raw, hJ0, hJP, hstr, hI, hIc, hraw, hlb⟩ := loadBalance_spec hs h0 hN level
  obtain ⟨ls', I', hlb', hlen', hflat, -, -, hdesc⟩ :=
    C16_loadBalance_permutes hG hM hde hL h64 hd h0 hN level
  rw [hlb] at hlb'
  injection hlb' with hlb'
  injection hlb' with e1 e2
  subst e2
  refine ⟨ls', I, by rw [hlb, e1], ?_⟩
  rintro r hr C hC ⟨a, ha, hCa⟩ ⟨b, hb, hCb⟩ x hx
  have hr' : r + 1 < ls.length := by omega
  have hmem : ∀ (s : ℕ) (h : s < ls'.length), ∀ o ∈ ls'[s], o ∈ M := by
    intro s h o ho
    rw [← hd.mem, ← hflat]
    exact List.mem_flatten.2 ⟨_, List.getElem_mem h, ho⟩
  have haM := hmem r (by omega) a ha
  have hbM := hmem (r + 1) hr b hb
  have hxM := hmem r (by omega) x hx
  have h1 := hdesc r (by omega) a ha
  have h2 := hdesc (r + 1) hr b hb
  have h3 := hdesc r (by omega) x hx
  have hka := hCa.okey_le (e := e) hde (hL a haM)
  have hkb := hCb.okey_le (e := e) hde (hL b hbM)
  have hCL : C.level ≤ L := by omega
  have hsub : L - C.level = level := by omega
  -- the block is an aligned interval of keys
  have hC1 : okey e L C = zkey d e C.level C.pos * 2 ^ (e * level) := by
    rw [okey_eq hCL, hsub]
  have hC2 : oend e L C = (zkey d e C.level C.pos + 1) * 2 ^ (e * level) := by
    rw [oend_eq hCL, hsub]
  have hcut1 : okey e L C < I (r + 1) := lt_of_le_of_lt hka.1 h1.2
  have hcut2 : I (r + 1) < oend e L C := by
    have := okey_lt_oend e L b
    have := h2.1
    omega
  have hlow : okey e L C ≤ I r := by
    have hk := adjust_spec e (newCut e level raw r) (raw (r + 1)) level
    have hI1 : I (r + 1) = truncKey e (raw (r + 1))
        (adjust e (newCut e level raw r) (raw (r + 1)) level) := hIc (r + 1) hr'
    generalize adjust e (newCut e level raw r) (raw (r + 1)) level = k at *
    have hkl : k < level := by
      rcases Nat.lt_or_ge k level with h | h
      · exact h
      · exfalso
        have : k = level := le_antisymm hk.1 h
        rw [this] at hI1
        unfold truncKey at hI1
        rw [hI1, hC1] at hcut1
        rw [hI1, hC2] at hcut2
        have h4 := Nat.lt_of_mul_lt_mul_right hcut1
        have h5 := Nat.lt_of_mul_lt_mul_right hcut2
        omega
    have h6 := hk.2.2 hkl
    rw [← hIc r (by omega)] at h6
    have h7 : truncKey e (raw (r + 1)) level ≤ truncKey e (raw (r + 1)) (k + 1) := by
      unfold truncKey
      rw [show e * level = e * (k + 1) + e * (level - (k + 1)) by
        rw [← Nat.mul_add]; congr 1; omega, pow_add, ← Nat.div_div_eq_div_mul,
        Nat.mul_comm (2 ^ (e * (k + 1))), ← Nat.mul_assoc]
      exact Nat.mul_le_mul_right _ (Nat.div_mul_le_self _ _)
    have h8 : okey e L C ≤ truncKey e (raw (r + 1)) level := by
      rw [hC1]
      unfold truncKey
      apply Nat.mul_le_mul_right
      rw [Nat.le_div_iff_mul_le (by positivity), ← hC1]
      have := truncKey_le e (raw (r + 1)) k
      omega
    omega
  have hx1 : okey e L C ≤ okey e L x := le_trans hlow h3.1
  have hx2 : okey e L x < oend e L C := lt_trans h3.2 hcut2
  have hpC : ∀ i, C.pos i < 2 ^ C.level := by
    intro i
    rw [← hCa.2 i, Nat.div_lt_iff_lt_mul (by positivity), ← pow_add,
      show C.level + (a.level - C.level) = a.level by have := hCa.1; omega]
    exact (hM.valid a haM).lt_pow hG i
  have hpx : ∀ i, x.pos i < 2 ^ x.level := fun i => (hM.valid x hxM).lt_pow hG i
  rcases Nat.lt_or_ge x.level C.level with hl | hl
  · exfalso
    have hn : ¬ Anc C x := fun h => by have := h.1; omega
    have heq : okey e L x ≤ okey e L C := by
      by_contra hc
      have := oend_le_of_okey_lt hde hpC hpx hCL (hL x hxM) hn (by omega)
      omega
    have hxC : Anc x C := anc_of_okey hde hpx hpC (le_of_lt hl) hCL heq
      (lt_of_le_of_lt hx1 (okey_lt_oend _ _ _))
    have := hM.eq_of_anc hG hxM haM (hxC.trans hCa)
    rw [this] at hl
    have := hCa.1
    omega
  · exact anc_of_okey hde hpC hpx hl (hL x hxM) hx1 hx2

end Verif.Partition
