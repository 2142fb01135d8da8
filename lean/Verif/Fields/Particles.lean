import Verif.Fields.Props
import Verif.Comm.Props

/-!
# C29: particle attributes (`core/src/UserData_particles.h`)
-/

namespace Verif.Fields.Particles

open Verif.Comm

variable {N α : Type} [LinearOrder N] [Zero α]

/-- `UserData_particles.h` L148-153 `ParticleContainer` with `particles/ParticleArray.h` L38, L88-89:
`ncol` is the number of columns of `particle_data` (`nbfields()` too), `data i j` is attribute column
`j` of particle `i`, `pos` the positions. -/
structure PState (N α : Type) where
  nparts : ℕ
  ncol : ℕ
  data : ℕ → ℕ → α
  pos : ℕ → ℕ → α
  keys : Finset N
  idx : N → ℕ

/-- L33-35: a new array without attributes. -/
def PState.empty [Inhabited N] (nparts : ℕ) (pos : ℕ → ℕ → α) : PState N α :=
  ⟨nparts, 0, fun _ _ => 0, pos, ∅, fun _ => 0⟩

/-- L63-77, `first_free`. -/
def firstFree (s : PState N α) : Option ℕ :=
  (List.range s.ncol).find? fun i => decide (∀ n ∈ s.keys, s.idx n ≠ i)

/-- L40-91 and L187-192, `new_ParticleAttribute`. L46 is always true. `deep_copy` L51-54 throws if
the extents of source and destination differ. -/
def newAttribute (s : PState N α) (n : N) : Option (PState N α) :=
  let allocated := s.keys.card
  let needed := allocated + 1
  if n ∈ s.keys ∨ maxIndexCount < needed then none
  else if allocated ≠ 0 ∧ s.ncol ≠ allocated then none
  else
    let s' : PState N α := { s with
      ncol := needed
      data := fun i j => if allocated ≠ 0 ∧ j < allocated then s.data i j else 0 }
    (firstFree s').map fun j =>
      { s' with keys := insert n s'.keys, idx := Function.update s'.idx n j,
                data := fun i => Function.update (s'.data i) j 0 }

/-- L124-130, `move_ParticleAttribute`. -/
def moveAttribute (s : PState N α) (dest src : N) : Option (PState N α) :=
  if src ∈ s.keys then
    some { s with keys := (insert dest s.keys).erase src,
                  idx := Function.update s.idx dest (s.idx src) }
  else none

/-- L131-134, `delete_ParticleAttribute`. -/
def deleteAttribute (s : PState N α) (n : N) : PState N α := { s with keys := s.keys.erase n }

/-- L304-348: write through an accessor with this attribute. -/
def writeAttribute (s : PState N α) (n : N) (i : ℕ) (v : α) : Option (PState N α) :=
  if n ∈ s.keys then
    some { s with data := Function.update s.data i (Function.update (s.data i) (s.idx n) v) }
  else none

/-- L109-123, `getParticleAttribute`. -/
def getAttribute (s : PState N α) (n : N) : Option (ℕ → α) :=
  if n ∈ s.keys then some fun i => s.data i (s.idx n) else none

/-- L135-146, `distributeParticles` on rank `r`; `C` is the communicator of the particles'
owners (`particles/ForeachParticle.h` L59-93). The arrays are `LayoutLeft` and distributed along
the first dimension, so they are packed. -/
def distribute (C : Comm) (P : ℕ) (s : ℕ → PState N α) (ordData ordPos : Orders) (r : ℕ) : PState N α :=
  { s r with
    nparts := C.nbGhosts P r
    data := fun g j => (exchangePacked C P 0 [(s r).nparts, (s r).ncol]
      (fun q idx => (s q).data (idx.getD 0 0) (idx.getD 1 0)) ordData r [g, j]).getD 0
    pos := fun g j => (exchangePacked C P 0 [(s r).nparts, 3]
      (fun q idx => (s q).pos (idx.getD 0 0) (idx.getD 1 0)) ordPos r [g, j]).getD 0 }

/-! ### Specification -/

/-- Operations on attributes. -/
inductive POp (N α : Type)
  | create (n : N)
  | rename (dest src : N)
  | delete (n : N)
  | write (n : N) (i : ℕ) (v : α)

/-- When an operation is allowed. -/
def POp.Legal (st : Store N ℕ α) : POp N α → Prop
  | .create n => n ∉ st.names ∧ st.names.card < 64
  | .rename _ src => src ∈ st.names
  | .delete _ => True
  | .write n _ _ => n ∈ st.names

/-- Meaning of an operation on named arrays. -/
def POp.meaning (st : Store N ℕ α) : POp N α → Store N ℕ α
  | .create n => ⟨insert n st.names, Function.update st.data n fun _ => 0⟩
  | .rename dest src => ⟨if dest = src then st.names else (insert dest st.names).erase src,
      Function.update st.data dest (st.data src)⟩
  | .delete n => ⟨st.names.erase n, st.data⟩
  | .write n i v => ⟨st.names, Function.update st.data n (Function.update (st.data n) i v)⟩

/-- A legal sequence. -/
def LegalRun : Store N ℕ α → List (POp N α) → Prop
  | _, [] => True
  | st, op :: ops => op.Legal st ∧ LegalRun (op.meaning st) ops

/-- Meaning of a sequence. -/
def meaningRun (st : Store N ℕ α) (ops : List (POp N α)) : Store N ℕ α := ops.foldl POp.meaning st

/-- No attribute is renamed to itself, and none is created after another one was removed (deleted or
replaced), unless no attribute is left. `hole`: an attribute was removed. -/
def NoHole : Bool → Store N ℕ α → List (POp N α) → Prop
  | _, _, [] => True
  | hole, st, op :: ops =>
    match op with
    | .create _ => (hole = true → st.names = ∅) ∧ NoHole false (op.meaning st) ops
    | .rename dest src => dest ≠ src ∧ NoHole (hole || decide (dest ∈ st.names)) (op.meaning st) ops
    | .delete n => NoHole (hole || decide (n ∈ st.names)) (op.meaning st) ops
    | .write _ _ _ => NoHole hole (op.meaning st) ops

/-! ### Proofs -/

/-- One operation of the model. -/
def step (s : PState N α) : POp N α → Option (PState N α)
  | .create n => newAttribute s n
  | .rename dest src => moveAttribute s dest src
  | .delete n => some (deleteAttribute s n)
  | .write n i v => writeAttribute s n i v

/-- A sequence of operations. -/
def run (s : PState N α) (ops : List (POp N α)) : Option (PState N α) := ops.foldlM step s

/-- Invariant. -/
structure Inv (hole : Bool) (s : PState N α) : Prop where
  inj : ∀ a ∈ s.keys, ∀ b ∈ s.keys, s.idx a = s.idx b → a = b
  lt : ∀ a ∈ s.keys, s.idx a < s.ncol
  full : hole = false → s.ncol = s.keys.card

/-- The state holds the named arrays. -/
structure Holds (s : PState N α) (st : Store N ℕ α) : Prop where
  names : s.keys = st.names
  data : ∀ n ∈ s.keys, ∀ i, s.data i (s.idx n) = st.data n i

theorem create_spec {hole : Bool} {s : PState N α} (h : Inv hole s) {st : Store N ℕ α}
    (hs : Holds s st) {n : N} (hn : n ∉ st.names) (hc : st.names.card < 64)
    (hh : hole = true → st.names = ∅) :
    ∃ s', newAttribute s n = some s' ∧ Inv false s' ∧ Holds s' ((POp.create n).meaning st) ∧
      s'.pos = s.pos ∧ s'.nparts = s.nparts := by
  have hn' : n ∉ s.keys := by rw [hs.names]; exact hn
  have hcard : s.keys.card = st.names.card := by rw [hs.names]
  have hfull : s.keys.card = 0 ∨ s.ncol = s.keys.card := by
    cases hole with
    | false => exact Or.inr (h.full rfl)
    | true => left; rw [hcard, hh rfl]; rfl
  have hne : ∀ a ∈ s.keys, a ≠ n := fun a ha e => hn' (e ▸ ha)
  have hff : ∃ j, firstFree { s with
      ncol := s.keys.card + 1
      data := fun i j => if s.keys.card ≠ 0 ∧ j < s.keys.card then s.data i j else 0 } = some j ∧
      j < s.keys.card + 1 ∧ ∀ m ∈ s.keys, s.idx m ≠ j := by
    have := firstFree_some (s := (⟨s.keys.card + 1, fun _ _ => 0, s.keys, s.idx, 0⟩ :
      State N Unit Unit ℕ)) (by simp)
    obtain ⟨j, h1, h2, h3⟩ := this
    exact ⟨j, h1, h2, h3⟩
  obtain ⟨j, h1, h2, h3⟩ := hff
  refine ⟨{ s with
      ncol := s.keys.card + 1
      keys := insert n s.keys
      idx := Function.update s.idx n j
      data := fun i => Function.update
        (fun j => if s.keys.card ≠ 0 ∧ j < s.keys.card then s.data i j else 0) j 0 },
    ?_, ⟨?_, ?_, ?_⟩, ⟨?_, ?_⟩, rfl, rfl⟩
  · unfold newAttribute
    simp only
    rw [if_neg (by simp only [maxIndexCount]; push Not; exact ⟨hn', by omega⟩),
      if_neg (by push Not; intro h0; rcases hfull with h' | h' <;> omega), h1]
    rfl
  · intro a ha b hb
    simp only [Finset.mem_insert] at ha hb
    rcases ha with rfl | ha <;> rcases hb with rfl | hb
    · simp
    · simp only [Function.update_self, Function.update_of_ne (hne b hb)]
      exact fun e => absurd e.symm (h3 b hb)
    · simp only [Function.update_self, Function.update_of_ne (hne a ha)]
      exact fun e => absurd e (h3 a ha)
    · simp only [Function.update_of_ne (hne a ha), Function.update_of_ne (hne b hb)]
      exact h.inj a ha b hb
  · intro a ha
    simp only [Finset.mem_insert] at ha
    rcases ha with rfl | ha
    · simpa using h2
    · simp only [Function.update_of_ne (hne a ha)]
      have := h.lt a ha
      have : 0 < s.keys.card := Finset.card_pos.2 ⟨a, ha⟩
      omega
  · intro _
    simp only
    rw [Finset.card_insert_of_notMem hn']
  · simp only [POp.meaning]; rw [hs.names]
  · intro a ha i
    simp only [Finset.mem_insert] at ha
    simp only [POp.meaning]
    rcases ha with rfl | ha
    · simp
    · rw [Function.update_of_ne (hne a ha), Function.update_of_ne (hne a ha),
        Function.update_of_ne (h3 a ha), ← hs.data a ha i, if_pos]
      have := h.lt a ha
      have : 0 < s.keys.card := Finset.card_pos.2 ⟨a, ha⟩
      omega

theorem rename_spec {hole : Bool} {s : PState N α} (h : Inv hole s) {st : Store N ℕ α}
    (hs : Holds s st) {dest src : N} (hl : src ∈ st.names) (hds : dest ≠ src) :
    ∃ s', moveAttribute s dest src = some s' ∧ Inv (hole || decide (dest ∈ st.names)) s' ∧
      Holds s' ((POp.rename dest src).meaning st) ∧ s'.pos = s.pos ∧ s'.nparts = s.nparts := by
  have hsrc : src ∈ s.keys := by rw [hs.names]; exact hl
  unfold moveAttribute
  rw [if_pos hsrc]
  refine ⟨_, rfl, ⟨?_, ?_, ?_⟩, ⟨?_, ?_⟩, rfl, rfl⟩
  · intro a ha b hb
    simp only [Finset.mem_erase, Finset.mem_insert] at ha hb
    by_cases h1 : a = dest <;> by_cases h2 : b = dest
    · subst h1 h2; simp
    · subst h1
      simp only [Function.update_self, Function.update_of_ne h2]
      intro e
      exact absurd (h.inj src hsrc b (hb.2.resolve_left h2) e).symm hb.1
    · subst h2
      simp only [Function.update_self, Function.update_of_ne h1]
      intro e
      exact absurd (h.inj a (ha.2.resolve_left h1) src hsrc e) ha.1
    · simp only [Function.update_of_ne h1, Function.update_of_ne h2]
      exact h.inj a (ha.2.resolve_left h1) b (hb.2.resolve_left h2)
  · intro a ha
    simp only [Finset.mem_erase, Finset.mem_insert] at ha
    by_cases h1 : a = dest
    · subst h1
      simpa using h.lt src hsrc
    · simp only [Function.update_of_ne h1]
      exact h.lt a (ha.2.resolve_left h1)
  · intro hh
    rw [Bool.or_eq_false_iff] at hh
    have hd : dest ∉ s.keys := by rw [hs.names]; simpa using hh.2
    simp only
    rw [Finset.card_erase_of_mem (Finset.mem_insert_of_mem hsrc), Finset.card_insert_of_notMem hd,
      h.full hh.1]
    rfl
  · simp only [POp.meaning, if_neg hds]
    rw [hs.names]
  · intro a ha i
    simp only [Finset.mem_erase, Finset.mem_insert] at ha
    by_cases h1 : a = dest
    · subst h1
      simp only [Function.update_self, POp.meaning]
      exact hs.data src hsrc i
    · simp only [Function.update_of_ne h1, POp.meaning]
      exact hs.data a (ha.2.resolve_left h1) i

/-- C29 (partial: sequences without holes, see `C29_create_after_delete_fails` and
`C29_self_rename_fails`): the attributes hold what independent named arrays over the particles would
hold, and positions do not change. -/
theorem C29_attributes_are_named_arrays_partial [Inhabited N] (nparts : ℕ) (pos : ℕ → ℕ → α)
    (ops : List (POp N α)) (hl : LegalRun ⟨∅, fun _ _ => 0⟩ ops)
    (hno : NoHole false ⟨∅, fun _ _ => 0⟩ ops) :
    ∃ s : PState N α, run (PState.empty nparts pos) ops = some s ∧ s.pos = pos ∧ s.nparts = nparts ∧
      s.keys = (meaningRun ⟨∅, fun _ _ => 0⟩ ops).names ∧
      ∀ n ∈ s.keys, getAttribute s n = some ((meaningRun ⟨∅, fun _ _ => 0⟩ ops).data n) := by
  have key : ∀ (ops : List (POp N α)) (hole : Bool) (s : PState N α) (st : Store N ℕ α),
      Inv hole s → Holds s st → LegalRun st ops → NoHole hole st ops →
      ∃ s', run s ops = some s' ∧ Holds s' (meaningRun st ops) ∧ s'.pos = s.pos ∧
        s'.nparts = s.nparts := by
    intro ops
    induction ops with
    | nil => intro hole s st h hs _ _; exact ⟨s, rfl, hs, rfl, rfl⟩
    | cons op ops ih =>
      intro hole s st h hs hl hno
      have hstep : ∃ s1 hole', step s op = some s1 ∧ Inv hole' s1 ∧ Holds s1 (op.meaning st) ∧
          s1.pos = s.pos ∧ s1.nparts = s.nparts ∧ NoHole hole' (op.meaning st) ops := by
        cases op with
        | create n =>
          obtain ⟨s1, e, i1, h1, e2, e3⟩ := create_spec h hs hl.1.1 hl.1.2 hno.1
          exact ⟨s1, false, e, i1, h1, e2, e3, hno.2⟩
        | rename dest src =>
          obtain ⟨s1, e, i1, h1, e2, e3⟩ := rename_spec h hs hl.1 hno.1
          exact ⟨s1, _, e, i1, h1, e2, e3, hno.2⟩
        | delete n =>
          refine ⟨_, _, rfl, ⟨?_, ?_, ?_⟩, ⟨?_, ?_⟩, rfl, rfl, hno⟩
          · intro a ha b hb
            exact h.inj a (Finset.mem_of_mem_erase ha) b (Finset.mem_of_mem_erase hb)
          · intro a ha
            exact h.lt a (Finset.mem_of_mem_erase ha)
          · intro hh
            rw [Bool.or_eq_false_iff] at hh
            have hd : n ∉ s.keys := by rw [hs.names]; simpa using hh.2
            simp only [deleteAttribute]
            rw [Finset.erase_eq_of_notMem hd]
            exact h.full hh.1
          · simp only [deleteAttribute, POp.meaning]
            rw [hs.names]
          · intro a ha i
            exact hs.data a (Finset.mem_of_mem_erase ha) i
        | write n i v =>
          have hn : n ∈ s.keys := by rw [hs.names]; exact hl.1
          refine ⟨_, hole, if_pos hn, ⟨h.inj, h.lt, h.full⟩, ⟨hs.names, ?_⟩, rfl, rfl, hno⟩
          intro a ha k
          simp only at ha ⊢
          simp only [POp.meaning]
          by_cases e : a = n
          · subst e
            by_cases ek : k = i
            · subst ek; simp
            · rw [Function.update_of_ne ek, Function.update_self, Function.update_of_ne ek]
              exact hs.data a ha k
          · rw [Function.update_of_ne e, ← hs.data a ha k]
            by_cases ek : k = i
            · subst ek
              rw [Function.update_self, Function.update_of_ne fun e' => e (h.inj a ha n hn e')]
            · rw [Function.update_of_ne ek]
      obtain ⟨s1, hole', e1, i1, h1, p1, q1, n1⟩ := hstep
      obtain ⟨s2, e2, h2, p2, q2⟩ := ih hole' s1 _ i1 h1 hl.2 n1
      refine ⟨s2, ?_, h2, p2.trans p1, q2.trans q1⟩
      unfold run at e2 ⊢
      rw [List.foldlM_cons, e1]
      exact e2
  obtain ⟨s, e, hs, p, q⟩ := key ops false (PState.empty nparts pos) ⟨∅, fun _ _ => 0⟩
    ⟨by simp [PState.empty], by simp [PState.empty], by simp [PState.empty]⟩
    ⟨rfl, by simp [PState.empty]⟩ hl hno
  refine ⟨s, e, p, q, hs.names, fun n hn => ?_⟩
  unfold getAttribute
  rw [if_pos hn]
  congr 1
  funext i
  exact hs.data n hn i

/-- C29, the code violates the property: after an attribute was deleted, creating another one
throws (`deep_copy` between views of different extents) when other attributes are left. -/
theorem C29_create_after_delete_fails :
    ∃ ops : List (POp String ℤ), LegalRun ⟨∅, fun _ _ => 0⟩ ops ∧
      run (PState.empty 5 fun _ _ => 0) ops = none := by
  refine ⟨[.create "mass", .create "vx", .delete "mass", .create "vy"], ?_, ?_⟩
  · simp [LegalRun, POp.Legal, POp.meaning]
  · rfl

/-- C29, the code violates the property: renaming an attribute to itself deletes it. -/
theorem C29_self_rename_fails :
    ∃ (ops : List (POp String ℤ)) (s : PState String ℤ), LegalRun ⟨∅, fun _ _ => 0⟩ ops ∧
      run (PState.empty 5 fun _ _ => 0) ops = some s ∧
      "mass" ∈ (meaningRun ⟨∅, fun _ _ => 0⟩ ops).names ∧ "mass" ∉ s.keys := by
  refine ⟨[.create "mass", .rename "mass" "mass"], _, ?_, rfl, ?_, ?_⟩
  · simp [LegalRun, POp.Legal, POp.meaning]
  · simp [meaningRun, POp.meaning]
  · simp

/-- C29 (redistribution): rank `r` gets exactly the particles that it owns, and for each of them the
position and all attributes are those the particle had. -/
theorem C29_distribute [Inhabited N] {P : ℕ} (s : ℕ → PState N α) (domains : ℕ → List ℕ) {C : Comm}
    (hC : ofDomains P domains = some C) (hlen : ∀ q, (domains q).length = (s q).nparts)
    {r : ℕ} (hr : r < P) (hk : ∀ q, (s q).keys = (s r).keys ∧ (s q).idx = (s r).idx)
    (hlt : ∀ n ∈ (s r).keys, (s r).idx n < (s r).ncol) {ordData ordPos : Orders}
    (hd : ordData.OK C P 0 [(s r).nparts, (s r).ncol]) (hp : ordPos.OK C P 0 [(s r).nparts, 3]) :
    ∃ l : List (ℕ × ℕ), l.Nodup ∧
      (∀ q i, (q, i) ∈ l ↔ q < P ∧ i < (s q).nparts ∧ (domains q)[i]? = some r) ∧
      (distribute C P s ordData ordPos r).nparts = l.length ∧
      ∀ g q i, l[g]? = some (q, i) →
        (∀ j < 3, (distribute C P s ordData ordPos r).pos g j = (s q).pos i j) ∧
        ∀ n ∈ (s r).keys, ∃ A B, getAttribute (distribute C P s ordData ordPos r) n = some A ∧
          getAttribute (s q) n = some B ∧ A g = B i := by
  obtain ⟨l, h1, h2, h3, h4⟩ := C22_redistribute (α := α) hC (pos := 0)
    (shape := [(s r).nparts, (s r).ncol]) (by simp)
    (fun q idx => (s q).data (idx.getD 0 0) (idx.getD 1 0)) hd hr
  obtain ⟨l', h1', h2', h3', h4'⟩ := C22_redistribute (α := α) hC (pos := 0)
    (shape := [(s r).nparts, 3]) (by simp)
    (fun q idx => (s q).pos (idx.getD 0 0) (idx.getD 1 0)) hp hr
  have irr : ∀ a b : ℕ × ℕ, (a.1 < b.1 ∨ (a.1 = b.1 ∧ a.2 < b.2)) → a ≠ b := by
    rintro a b h rfl; omega
  have hll : l = l' := by
    refine List.Perm.eq_of_pairwise (le := fun a b : ℕ × ℕ => a.1 < b.1 ∨ (a.1 = b.1 ∧ a.2 < b.2))
      ?_ h1 h1' ?_
    · intro a b _ _ hab hba; omega
    · rw [List.perm_ext_iff_of_nodup (h1.imp fun h => irr _ _ h) (h1'.imp fun h => irr _ _ h)]
      rintro ⟨q, i⟩
      rw [h2, h2']
  subst hll
  refine ⟨l, h1.imp fun h => irr _ _ h, fun q i => ?_, h3, fun g q i hg => ⟨fun j hj => ?_, fun n hn => ?_⟩⟩
  · rw [h2]
    constructor
    · rintro ⟨a, b⟩
      refine ⟨a, ?_, b⟩
      rw [← hlen]
      exact (List.getElem?_eq_some_iff.1 b).1
    · rintro ⟨a, -, b⟩
      exact ⟨a, b⟩
  · have := h4' g q i [g, j] hg ⟨rfl, fun k n i hk h5 h6 => ?_⟩ rfl
    · simp only [distribute]
      rw [this]
      simp
    · match k with
      | 0 => exact absurd rfl hk
      | 1 =>
        simp only [List.getElem?_cons_succ, List.getElem?_cons_zero, Option.some.injEq] at h5 h6
        omega
      | k + 2 => simp at h5
  · refine ⟨_, _, if_pos hn, if_pos (by rw [(hk q).1]; exact hn), ?_⟩
    have := h4 g q i [g, (s r).idx n] hg ⟨rfl, fun k n' i hk h5 h6 => ?_⟩ rfl
    · simp only [distribute]
      rw [this]
      simp [(hk q).2]
    · match k with
      | 0 => exact absurd rfl hk
      | 1 =>
        simp only [List.getElem?_cons_succ, List.getElem?_cons_zero, Option.some.injEq] at h5 h6
        have := hlt n hn
        omega
      | k + 2 => simp at h5

/-- A sequence with writes, renaming and deletion that meets the hypotheses. -/
example : let ops : List (POp String ℤ) := [.create "mass", .create "vx", .write "vx" 3 7,
      .rename "v" "vx", .delete "mass", .delete "v", .create "age"]
    LegalRun ⟨∅, fun _ _ => 0⟩ ops ∧ NoHole false ⟨∅, fun _ _ => 0⟩ ops := by
  simp [LegalRun, NoHole, POp.Legal, POp.meaning]
  decide

/-- Two ranks with two and one particles that swap some of them. -/
def exRanks (q : ℕ) : PState String ℤ :=
  ⟨if q = 0 then 2 else 1, 1, fun i _ => 10 * q + i, fun i j => 100 * q + 10 * i + j, {"mass"}, fun _ => 0⟩

/-- Targets of the particles. -/
def exDomains (q : ℕ) : List ℕ := if q = 0 then [1, 0] else [0]

/-- The hypotheses of `C29_distribute` can be met: rank 0 ends up with two particles. -/
example : ∃ (C : Comm) (ordData ordPos : Orders), ofDomains 2 exDomains = some C ∧
    (∀ q, (exDomains q).length = (exRanks q).nparts) ∧
    (∀ q, (exRanks q).keys = (exRanks 0).keys ∧ (exRanks q).idx = (exRanks 0).idx) ∧
    (∀ n ∈ (exRanks 0).keys, (exRanks 0).idx n < (exRanks 0).ncol) ∧
    ordData.OK C 2 0 [(exRanks 0).nparts, (exRanks 0).ncol] ∧
    ordPos.OK C 2 0 [(exRanks 0).nparts, 3] ∧
    (distribute C 2 exRanks ordData ordPos 0).nparts = 2 := by
  obtain ⟨C, hC⟩ : ∃ C, ofDomains 2 exDomains = some C := by
    rw [← Option.isSome_iff_exists]; decide
  refine ⟨C, ⟨fun s => List.range _, fun s => List.range _, fun s => List.range _⟩,
    ⟨fun s => List.range _, fun s => List.range _, fun s => List.range _⟩, hC, ?_, ?_, ?_,
    ⟨fun _ _ => List.Perm.refl _, fun _ _ => List.Perm.refl _, fun _ _ => List.Perm.refl _⟩,
    ⟨fun _ _ => List.Perm.refl _, fun _ _ => List.Perm.refl _, fun _ _ => List.Perm.refl _⟩, ?_⟩
  · intro q; unfold exDomains exRanks; split <;> rfl
  · intro q; exact ⟨rfl, rfl⟩
  · intro n _; exact Nat.zero_lt_one
  · have h : (ofDomains 2 exDomains).map (fun C => C.nbGhosts 2 0) = some 2 := by decide
    rw [hC] at h
    simpa [distribute] using h

end Verif.Fields.Particles
