import Verif.Front.MeshConfig

/-!
# C103: the light octree is that of the present mesh

`AMRmesh_impl` (`core/src/amr/AMRmesh.h`, `AMRmesh.cpp` L71-91) keeps a copy of the mesh for kernels, the light octree. It is
built when it is asked for, and again if the mesh has changed since: the mesh counts its changes in `pmesh_epoch`,
the copy has the count of the time it was built in `lmesh_epoch`.

A mesh is any type here, and what `adapt` and load balancing do with it is any function: those are in `Verif.Adapt`,
`Verif.AdaptOld` and `Verif.Partition`.
-/

namespace Verif.Front

variable {μ lam : Type}

/-! ## Model -/

/-- The members of `AMRmesh_impl` (`AMRmesh.h` L29-33) and of the mesh class it derives from. `built` counts the copies made
(not in the code). -/
structure MeshState (μ lam : Type) where
  mesh : μ
  epoch : ℤ
  light : Option lam
  lightEpoch : ℤ
  built : ℕ

/-- A call of a member function, with what it does to the mesh. -/
inductive MeshCall (μ : Type) where
  | setMarkers
  | adapt (f : μ → μ)
  | adaptGlobalRefine (f : μ → μ)
  | loadBalance (f : μ → μ)
  | loadBalanceUserdata (f : μ → μ)
  | updateLightOctree
  | getLightOctree

/-- `pmesh_epoch++` on an `int`. -/
def bump (e : ℤ) : Outcome ℤ := if e + 1 < 2 ^ 31 then .ok (e + 1) else .undefined

/-- A change of the mesh: `AMRmesh_hashmap_new.cpp` L630-653, L966, `AMRmesh_hashmap.cpp` L64-69, L679-715, L871,
`AMRmesh_pablo.h` L178-196 with MPI, `AMRmesh_pablo.cpp` L9-15. All of them replace octants and count up once. -/
def change (f : μ → μ) (s : MeshState μ lam) : Outcome (MeshState μ lam) :=
  (bump s.epoch).bind fun e => .ok { s with mesh := f s.mesh, epoch := e }

/-- `AMRmesh.cpp` L71-81, `AMRmesh.h` L34-37. `build` makes the copy of a mesh. -/
def updateLight (build : μ → lam) (s : MeshState μ lam) : MeshState μ lam :=
  if s.epoch = s.lightEpoch then s
  else { s with light := some (build s.mesh), lightEpoch := s.epoch, built := s.built + 1 }

/-- `AMRmesh.cpp` L83-91. `sizeM`, `sizeL`: the numbers of octants and ghosts of mesh and copy. -/
def getLight (build : μ → lam) (sizeM : μ → ℕ × ℕ) (sizeL : lam → ℕ × ℕ) (s : MeshState μ lam) :
    Outcome (MeshState μ lam × lam) :=
  let s := updateLight build s
  match s.light with
  | none => .undefined
  | some l => if sizeL l = sizeM s.mesh then .ok (s, l) else .error

/-- A call, and what `getLightOctree` returned, with the mesh at that time. `adaptGlobalRefine` of `AMRmesh_hashmap_new` is
`adapt` with all markers 1 (`AMRmesh_hashmap_new.cpp` L209-213); `loadBalance_userdata` is `loadBalance` and an
exchange of the fields (L676-681). -/
def call (build : μ → lam) (sizeM : μ → ℕ × ℕ) (sizeL : lam → ℕ × ℕ) :
    MeshCall μ → MeshState μ lam → Outcome (MeshState μ lam × List (μ × lam))
  | .setMarkers, s => .ok (s, [])
  | .adapt f, s => (change f s).bind fun s => .ok (s, [])
  | .adaptGlobalRefine f, s => (change f s).bind fun s => .ok (s, [])
  | .loadBalance f, s => (change f s).bind fun s => .ok (s, [])
  | .loadBalanceUserdata f, s => (change f s).bind fun s => .ok (s, [])
  | .updateLightOctree, s => .ok (updateLight build s, [])
  | .getLightOctree, s => (getLight build sizeM sizeL s).bind fun r => .ok (r.1, [(s.mesh, r.2)])

/-- Calls one after the other. -/
def calls (build : μ → lam) (sizeM : μ → ℕ × ℕ) (sizeL : lam → ℕ × ℕ) :
    List (MeshCall μ) → MeshState μ lam → Outcome (MeshState μ lam × List (μ × lam))
  | [], s => .ok (s, [])
  | c :: cs, s =>
    (call build sizeM sizeL c s).bind fun r =>
      (calls build sizeM sizeL cs r.1).bind fun q => .ok (q.1, r.2 ++ q.2)

/-- A new mesh: the counter of the mesh starts at 1 (`AMRmesh_hashmap_new.h` L169) and the constructors of the other two
classes have counted up `n` times; there is no copy (`AMRmesh.h` L29, L33). -/
def newState (m : μ) (n : ℕ) : MeshState μ lam := ⟨m, 1 + n, none, 0, 0⟩

/-! ## Specification -/

/-- What a call does to the mesh. -/
def effect : MeshCall μ → μ → μ
  | .adapt f, m | .adaptGlobalRefine f, m | .loadBalance f, m | .loadBalanceUserdata f, m => f m
  | _, m => m

/-- Whether a call changes the mesh. -/
def changes : MeshCall μ → Bool
  | .adapt _ | .adaptGlobalRefine _ | .loadBalance _ | .loadBalanceUserdata _ => true
  | _ => false

/-- The meshes at the calls of `getLightOctree`, in order. -/
def meshesAsked : List (MeshCall μ) → μ → List μ
  | [], _ => []
  | .getLightOctree :: cs, m => m :: meshesAsked cs m
  | c :: cs, m => meshesAsked cs (effect c m)

/-! ## Properties -/

/-- What holds between calls. -/
structure Fresh (build : μ → lam) (s : MeshState μ lam) : Prop where
  old : s.lightEpoch ≤ s.epoch
  pos : 0 < s.epoch
  none : s.light = none → s.lightEpoch < s.epoch
  same : s.lightEpoch = s.epoch → s.light = some (build s.mesh)

theorem newState_fresh (build : μ → lam) (m : μ) (n : ℕ) : Fresh build (newState m n) := by
  constructor <;> simp [newState] <;> omega

theorem change_fresh {build : μ → lam} (f : μ → μ) {s : MeshState μ lam} (h : Fresh build s)
    (hb : s.epoch + 1 < 2 ^ 31) :
    change f s = .ok { s with mesh := f s.mesh, epoch := s.epoch + 1 } ∧
      Fresh build { s with mesh := f s.mesh, epoch := s.epoch + 1 } := by
  refine ⟨by rw [change, bump, if_pos hb]; rfl, ?_⟩
  have h1 := h.old
  have h2 := h.pos
  exact ⟨by simp only; omega, by simp only; omega, fun _ => by simp only; omega, fun h => by simp only at h; omega⟩

theorem updateLight_fresh {build : μ → lam} {s : MeshState μ lam} (h : Fresh build s) :
    Fresh build (updateLight build s) ∧ (updateLight build s).mesh = s.mesh ∧
      (updateLight build s).epoch = s.epoch ∧ (updateLight build s).light = some (build s.mesh) := by
  unfold updateLight
  split
  · rename_i he
    exact ⟨h, rfl, rfl, h.same he.symm⟩
  · refine ⟨⟨le_refl _, h.pos, fun hn => by simp at hn, fun _ => rfl⟩, rfl, rfl, rfl⟩

theorem calls_fresh {build : μ → lam} {sizeM : μ → ℕ × ℕ} {sizeL : lam → ℕ × ℕ}
    (hs : ∀ m, sizeL (build m) = sizeM m) (cs : List (MeshCall μ)) :
    ∀ {s : MeshState μ lam}, Fresh build s → s.epoch + (cs.countP changes : ℤ) < 2 ^ 31 →
      ∃ s', calls build sizeM sizeL cs s =
          .ok (s', (meshesAsked cs s.mesh).map fun m => (m, build m)) ∧
        s'.mesh = cs.foldl (fun m c => effect c m) s.mesh ∧ Fresh build s' := by
  induction cs with
  | nil => intro s h _; exact ⟨s, rfl, rfl, h⟩
  | cons c cs ih =>
    intro s h hb
    have hchange : ∀ f : μ → μ, s.epoch + (((cs.countP changes) + 1 : ℕ) : ℤ) < 2 ^ 31 →
        ∃ s', (((change f s).bind fun s => .ok (s, [])).bind fun r : MeshState μ lam × List (μ × lam) =>
            (calls build sizeM sizeL cs r.1).bind fun q => .ok (q.1, r.2 ++ q.2)) =
          .ok (s', (meshesAsked cs (f s.mesh)).map fun m => (m, build m)) ∧
          s'.mesh = cs.foldl (fun m c => effect c m) (f s.mesh) ∧ Fresh build s' := by
      intro f hb
      push_cast at hb
      obtain ⟨h1, h2⟩ := change_fresh f h (by omega)
      obtain ⟨s', e1, e2, e3⟩ := ih h2 (by simp only; omega)
      refine ⟨s', ?_, e2, e3⟩
      rw [h1]
      simp only [Outcome.bind] at e1 ⊢
      rw [e1]
      rfl
    cases c with
    | setMarkers =>
      obtain ⟨s', e1, e2, e3⟩ := ih h (by simpa [List.countP_cons, changes] using hb)
      refine ⟨s', ?_, e2, e3⟩
      simp only [calls, call, Outcome.bind, e1]
      rfl
    | adapt f => exact hchange f (by simpa [List.countP_cons, changes] using hb)
    | adaptGlobalRefine f => exact hchange f (by simpa [List.countP_cons, changes] using hb)
    | loadBalance f => exact hchange f (by simpa [List.countP_cons, changes] using hb)
    | loadBalanceUserdata f => exact hchange f (by simpa [List.countP_cons, changes] using hb)
    | updateLightOctree =>
      obtain ⟨u1, u2, u3, _⟩ := updateLight_fresh h
      obtain ⟨s', e1, e2, e3⟩ := ih u1 (by rw [u3]; simpa [List.countP_cons, changes] using hb)
      rw [u2] at e1 e2
      refine ⟨s', ?_, e2, e3⟩
      simp only [calls, call, Outcome.bind, e1]
      rfl
    | getLightOctree =>
      obtain ⟨u1, u2, u3, u4⟩ := updateLight_fresh h
      obtain ⟨s', e1, e2, e3⟩ := ih u1 (by rw [u3]; simpa [List.countP_cons, changes] using hb)
      rw [u2] at e1 e2
      refine ⟨s', ?_, e2, e3⟩
      have hg : getLight build sizeM sizeL s = .ok (updateLight build s, build s.mesh) := by
        simp only [getLight, u4, u2, hs, if_true]
      simp only [calls, call, hg, Outcome.bind, e1]
      rfl

/-- **C103** In every sequence of calls on a new mesh, with whatever load balancing and mesh adaptation do, each call of
`getLightOctree` returns the copy of the mesh as it is at that time; no assertion fails and no missing copy is used. The
number of changes has to be an `int`. -/
theorem C103_light_octree {build : μ → lam} {sizeM : μ → ℕ × ℕ} {sizeL : lam → ℕ × ℕ}
    (hs : ∀ m, sizeL (build m) = sizeM m) (m : μ) (n : ℕ) (cs : List (MeshCall μ))
    (hb : 1 + n + cs.countP changes < 2 ^ 31) :
    ∃ s, calls build sizeM sizeL cs (newState m n) =
        .ok (s, (meshesAsked cs m).map fun m => (m, build m)) ∧
      s.mesh = cs.foldl (fun m c => effect c m) m := by
  obtain ⟨s, h1, h2, _⟩ := calls_fresh hs cs (newState_fresh build m n)
    (by simp only [newState]; omega)
  exact ⟨s, h1, h2⟩

/-- **C103** The copy is not made again while the mesh is the same. -/
theorem C103_no_rebuild {build : μ → lam} {sizeM : μ → ℕ × ℕ} {sizeL : lam → ℕ × ℕ} {s s1 s2 : MeshState μ lam}
    {cs : List (MeshCall μ)} {l : lam} {log : List (μ × lam)} (h1 : getLight build sizeM sizeL s = .ok (s1, l))
    (hc : ∀ c ∈ cs, changes c = false) (h2 : calls build sizeM sizeL cs s1 = .ok (s2, log)) : s2 = s1 := by
  have he : s1.epoch = s1.lightEpoch := by
    unfold getLight at h1
    simp only at h1
    split at h1
    · cases h1
    · split at h1
      · have := (Prod.mk.inj (Outcome.ok.inj h1)).1
        rw [← this]
        unfold updateLight
        split
        · assumption
        · rfl
      · cases h1
  have hu : updateLight build s1 = s1 := by simp [updateLight, he]
  clear h1
  induction cs generalizing log with
  | nil => exact (Prod.mk.inj (Outcome.ok.inj h2)).1.symm
  | cons c cs ih =>
    have hcs : ∀ c ∈ cs, changes c = false := fun c hm => hc c (List.mem_cons_of_mem _ hm)
    have hstep : ∀ r, call build sizeM sizeL c s1 = .ok r → r.1 = s1 := by
      intro r hr
      have := hc c List.mem_cons_self
      cases c with
      | setMarkers => exact (congrArg Prod.fst (Outcome.ok.inj hr)).symm
      | adapt f => cases this
      | adaptGlobalRefine f => cases this
      | loadBalance f => cases this
      | loadBalanceUserdata f => cases this
      | updateLightOctree =>
        rw [← congrArg Prod.fst (Outcome.ok.inj hr)]
        exact hu
      | getLightOctree =>
        simp only [call, getLight, hu] at hr
        split at hr
        · cases hr
        · split at hr
          · exact (congrArg Prod.fst (Outcome.ok.inj hr)).symm
          · cases hr
    simp only [calls] at h2
    cases hcall : call build sizeM sizeL c s1 with
    | error => rw [hcall] at h2; cases h2
    | undefined => rw [hcall] at h2; cases h2
    | ok r =>
      rw [hcall] at h2
      simp only [Outcome.bind] at h2
      rw [hstep r hcall] at h2
      split at h2
      · cases h2
      · cases h2
      · rename_i q hq
        have hq1 := (Prod.mk.inj (Outcome.ok.inj h2)).1
        exact ih (log := q.2) hcs (by rw [hq, ← hq1])

/-! ## Examples -/

/-- Meshes are lists of levels; the second call of `getLightOctree` finds a changed mesh with the same number of octants,
which the assertions alone would not notice. -/
example : ∃ s, calls (μ := List ℕ) id (fun m => (m.length, 0)) (fun m => (m.length, 0))
    [.getLightOctree, .setMarkers, .adapt (fun m => m.map (· + 1)), .updateLightOctree, .getLightOctree,
      .getLightOctree, .loadBalance (fun m => m.drop 1), .getLightOctree] (newState [1, 1] 0) =
    .ok (s, [([1, 1], [1, 1]), ([2, 2], [2, 2]), ([2, 2], [2, 2]), ([2], [2])]) ∧ s.built = 3 ∧ s.epoch = 3 := by
  exact ⟨⟨[2], 3, some [2], 3, 3⟩, rfl, rfl, rfl⟩

example : (1 + 2 + ([.getLightOctree, .adapt id, .loadBalance id] : List (MeshCall ℕ)).countP changes) < 2 ^ 31 := by
  decide

end Verif.Front
