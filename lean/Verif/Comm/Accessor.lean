import Verif.Comm.Props
import Verif.Fields.Props

/-!
# C109: exchange and reduction of the ghosts of named fields

Model of `core/src/mpi/GhostCommunicator_full_blocks.h` L28-55 on `UserData_fields` (`Fields/Model.lean`)
with the exchange of one view (`Comm/Model.lean`). A cell of a local or ghost octant is (position in the
block, octant). All ranks enter the calls for the same fields in the same order, as every rank runs the
same program; the slots of a field may differ from rank to rank.
-/

namespace Verif.Comm

open Verif.Fields

variable {N α : Type} [LinearOrder N]

/-- The fields of one rank. -/
abbrev Rank (N α : Type) := State N (ℕ × ℕ) (ℕ × ℕ) α

/-- L33, L50: `Kokkos::subview( U.fields.U, ALL, [iVar, iVar+1), ALL )`. -/
def localView [Zero α] (s : Rank N α) (iVar : ℕ) : List ℕ → α
  | [c, k, o] => s.U (iVar + k) (.inl (c, o))
  | _ => 0

/-- L34, L51: `Kokkos::subview( U.fields.Ughost, ALL, [iVar, iVar+1), ALL )`. -/
def ghostView [Zero α] (s : Rank N α) (iVar : ℕ) : List ℕ → α
  | [c, k, g] => s.U (iVar + k) (.inr (c, g))
  | _ => 0

/-- Extents of these subviews; the extent of the last dimension is not used by the communicator. -/
def slotShape (cells : ℕ) : List ℕ := [cells, 1, 0]

/-- L32-36: one iteration of the loop of `exchange_ghosts`. The subviews are not contiguous
(`LayoutStride`), so the exchange is the one with packing. Entries that are not received keep their
value. -/
def exchangeField [Zero α] (C : Comm) (P cells : ℕ) (ord : ℕ → Orders) (acc : ℕ → Accessor)
    (st : ℕ → Rank N α) (i : ℕ) : ℕ → Rank N α := fun r =>
  { st r with U := fun j c => match c with
      | .inl l => (st r).U j (.inl l)
      | .inr (k, g) =>
        if j = (acc r).active.getD i 0 then
          (exchangePacked C P 2 (slotShape cells)
            (fun s => localView (st s) ((acc s).active.getD i 0)) (ord i) r [k, 0, g]).getD
              ((st r).U j (.inr (k, g)))
        else (st r).U j (.inr (k, g)) }

/-- L28-38, `exchange_ghosts( U )` with `U = getAccessor( infos )`; `none` if the accessor cannot be
made on a rank. -/
def exchangeFields [Zero α] (C : Comm) (P cells : ℕ) (ord : ℕ → Orders) (infos : List (N × ℕ))
    (st : ℕ → Rank N α) : Option (ℕ → Rank N α) :=
  if ∀ r < P, (getAccessor (st r) infos).isSome then
    some ((List.range infos.length).foldl
      (exchangeField C P cells ord fun r => (getAccessor (st r) infos).getD ⟨fun _ => none, []⟩) st)
  else none

/-- L49-53: one iteration of the loop of `reduce_ghosts`; `none` as in `reduceGhosts`. -/
def reduceField [Zero α] [Add α] (C : Comm) (P cells : ℕ) (ord ordAdd : ℕ → ℕ → List ℕ)
    (acc : ℕ → Accessor) (st : ℕ → Rank N α) (i : ℕ) : Option (ℕ → Rank N α) :=
  let out := fun r => reduceGhosts C P 2 (slotShape cells)
    (fun s => localView (st s) ((acc s).active.getD i 0))
    (fun s => ghostView (st s) ((acc s).active.getD i 0)) (ord i) (ordAdd i) r
  if ∀ r < P, (out r).isSome then
    some fun r => { st r with U := fun j c => match c with
      | .inl (k, o) =>
        if j = (acc r).active.getD i 0 ∧ k < cells then ((out r).getD fun _ => 0) [k, 0, o]
        else (st r).U j (.inl (k, o))
      | .inr g => (st r).U j (.inr g) }
  else none

/-- L45-55, `reduce_ghosts( U )` with `U = getAccessor( infos )`. -/
def reduceFields [Zero α] [Add α] (C : Comm) (P cells : ℕ) (ord ordAdd : ℕ → ℕ → List ℕ)
    (infos : List (N × ℕ)) (st : ℕ → Rank N α) : Option (ℕ → Rank N α) :=
  if ∀ r < P, (getAccessor (st r) infos).isSome then
    (List.range infos.length).foldlM
      (reduceField C P cells ord ordAdd fun r =>
        (getAccessor (st r) infos).getD ⟨fun _ => none, []⟩) st
  else none

/-! ### What is read from a field -/

/-- `user_data.getAccessor({{name, 0}}).at(iCell, 0)`. -/
def readField [Zero α] (s : Rank N α) (n : N) (c : (ℕ × ℕ) ⊕ (ℕ × ℕ)) : Option α :=
  (getAccessor s [(n, 0)]).bind fun a => accRead s a 0 c

/-- Fields made by some legal sequence of operations (C27). -/
def Made [Zero α] [Inhabited N] (s : Rank N α) : Prop :=
  ∃ ops : List (Op N ((ℕ × ℕ) ⊕ (ℕ × ℕ)) α), LegalRun ⟨∅, fun _ _ => 0⟩ ops ∧
    (∀ n, Op.rename n n ∉ ops) ∧ run State.empty ops = some s

theorem Made.inv [Zero α] [Inhabited N] {s : Rank N α} (h : Made s) : Inv s := by
  obtain ⟨ops, h1, h2, h3⟩ := h
  have key : ∀ (ops : List (Op N ((ℕ × ℕ) ⊕ (ℕ × ℕ)) α)) (s : Rank N α)
      (st : Store N ((ℕ × ℕ) ⊕ (ℕ × ℕ)) α),
      Inv s → Holds s st → LegalRun st ops → (∀ n, Op.rename n n ∉ ops) →
      ∃ s', run s ops = some s' ∧ Inv s' := by
    intro ops
    induction ops with
    | nil => intro s st h _ _ _; exact ⟨s, rfl, h⟩
    | cons op ops ih =>
      intro s st h hs hl hself
      obtain ⟨s1, e1, h1, hs1⟩ := step_spec h hs op hl.1 fun n e => hself n (by rw [e]; simp)
      obtain ⟨s2, e2, h2⟩ := ih s1 _ h1 hs1 hl.2 fun n hm => hself n (List.mem_cons_of_mem _ hm)
      refine ⟨s2, ?_, h2⟩
      unfold run at e2 ⊢
      rw [List.foldlM_cons, e1]
      exact e2
  obtain ⟨s', e, h⟩ := key ops State.empty ⟨∅, fun _ _ => 0⟩ empty_inv
    ⟨rfl, by simp [State.empty]⟩ h1 h2
  rw [h3] at e
  cases e
  exact h

theorem readField_eq [Zero α] (s : Rank N α) {n : N} (hn : n ∈ s.keys) (c : (ℕ × ℕ) ⊕ (ℕ × ℕ)) :
    readField s n c = some (s.U (s.idx n) c) := by
  simp [readField, getAccessor, accRead, hn, maxFieldCount, maxIndexCount, List.foldlM]

theorem inShape_slot {cells k g : ℕ} (hk : k < cells) : InShape 2 (slotShape cells) [k, 0, g] := by
  refine ⟨rfl, ?_⟩
  intro d n i hd hn hi
  match d with
  | 0 => simp [slotShape] at hn hi; omega
  | 1 => simp [slotShape] at hn hi; omega
  | 2 => exact absurd rfl hd
  | d + 3 => simp at hi

/-- The accessors of all ranks. -/
theorem accessors [Zero α] {P : ℕ} {infos : List (N × ℕ)} {st : ℕ → Rank N α} (h0 : infos ≠ [])
    (h32 : infos.length ≤ 32) (hid : (infos.map Prod.snd).Nodup) (h64 : ∀ p ∈ infos, p.2 < 64)
    (hk : ∀ r < P, ∀ p ∈ infos, p.1 ∈ (st r).keys) :
    ∀ r < P, (getAccessor (st r) infos).isSome ∧
      ∀ i, ∀ p : N × ℕ, infos[i]? = some p →
        ((getAccessor (st r) infos).getD ⟨fun _ => none, []⟩).active.getD i 0 = (st r).idx p.1 := by
  intro r hr
  obtain ⟨a, e1, e2, -⟩ := C27_accessor (st r) infos h0 h32 (fun p hp => ⟨hk r hr p hp, h64 p hp⟩) hid
  rw [e1]
  refine ⟨rfl, fun i p hp => ?_⟩
  rw [Option.getD_some, e2]
  simp [List.getD_eq_getElem?_getD, hp]

section Exchange

variable [Zero α] {C : Comm} {P cells : ℕ} {send : ℕ → ℕ → List ℕ}

/-- State of all ranks after the first `m` fields. -/
structure Exchanged (P cells : ℕ) (send : ℕ → ℕ → List ℕ) (infos : List (N × ℕ))
    (st st' : ℕ → Rank N α) (m : ℕ) : Prop where
  keys : ∀ r, (st' r).keys = (st r).keys
  idx : ∀ r, (st' r).idx = (st r).idx
  loc : ∀ r j l, (st' r).U j (.inl l) = (st r).U j (.inl l)
  other : ∀ r < P, ∀ j, (∀ i < m, ∀ p : N × ℕ, infos[i]? = some p → (st r).idx p.1 ≠ j) →
    ∀ h, (st' r).U j (.inr h) = (st r).U j (.inr h)
  got : ∀ r < P, ∀ i < m, ∀ p : N × ℕ, infos[i]? = some p → ∀ k < cells, ∀ g s o,
    (ghosts P send r)[g]? = some (s, o) →
    (st' r).U ((st r).idx p.1) (.inr (k, g)) = (st s).U ((st s).idx p.1) (.inl (k, o))

theorem ghosts_owner {r g s o : ℕ} (h : (ghosts P send r)[g]? = some (s, o)) : s < P := by
  have := List.mem_of_getElem? h
  simp only [ghosts, List.mem_flatMap, List.mem_range, List.mem_map, Prod.mk.injEq] at this
  obtain ⟨a, ha, _, _, rfl, _⟩ := this
  exact ha

omit [LinearOrder N] in
theorem Exchanged.next (h : Realises C P send) {ord : ℕ → Orders} {infos : List (N × ℕ)}
    {st st' : ℕ → Rank N α} {acc : ℕ → Accessor} {m : ℕ} (hord : (ord m).OK C P 2 (slotShape cells))
    (hinv : ∀ r < P, Inv (st r)) (hk : ∀ r < P, ∀ p ∈ infos, p.1 ∈ (st r).keys)
    (hacc : ∀ r < P, ∀ i, ∀ p : N × ℕ, infos[i]? = some p →
      (acc r).active.getD i 0 = (st r).idx p.1) {p : N × ℕ} (hp : infos[m]? = some p)
    (hm : Exchanged P cells send infos st st' m) :
    Exchanged P cells send infos st (exchangeField C P cells ord acc st' m) (m + 1) := by
  have hval : ∀ r < P, ∀ k < cells, ∀ g s o, (ghosts P send r)[g]? = some (s, o) →
      (exchangeField C P cells ord acc st' m r).U ((st r).idx p.1) (.inr (k, g)) =
        (st s).U ((st s).idx p.1) (.inl (k, o)) := by
    intro r hr k hkc g s o hg
    have e := C19_exchange_packed h (pos := 2) (shape := slotShape cells) (by simp [slotShape])
      (fun s => localView (st' s) ((acc s).active.getD m 0)) hord hr hg
      (inShape_slot (g := g) hkc) rfl
    simp only [exchangeField]
    rw [hacc r hr m p hp, if_pos rfl, e]
    simp only [Option.getD_some, List.set, localView, Nat.add_zero]
    rw [hacc s (ghosts_owner hg) m p hp, hm.loc]
  refine ⟨hm.keys, hm.idx, hm.loc, ?_, ?_⟩
  · intro r hr j hj hh
    rw [← hm.other r hr j (fun i hi => hj i (by omega)) hh]
    simp only [exchangeField]
    rw [hacc r hr m p hp, if_neg fun e => hj m (by omega) p hp e.symm]
  · intro r hr i hi q hq k hkc g s o hg
    by_cases e : (st r).idx q.1 = (st r).idx p.1
    · have e' := (hinv r hr).inj _ (hk r hr q (List.mem_of_getElem? hq)) _
        (hk r hr p (List.mem_of_getElem? hp)) e
      rw [e']
      exact hval r hr k hkc g s o hg
    · have hi' : i < m := by
        rcases Nat.lt_succ_iff_lt_or_eq.1 hi with hi | rfl
        · exact hi
        · rw [hp] at hq
          cases hq
          exact absurd rfl e
      rw [← hm.got r hr i hi' q hq k hkc g s o hg]
      simp only [exchangeField]
      rw [hacc r hr m p hp, if_neg e]

/-- C109 (exchange): all ranks exchange the ghosts of the fields `infos`. Then each of these fields has
in each ghost cell the value of the field with that name in the cell of the owner; all other values of
all fields are as before. The slots of the fields may be different on each rank. -/
theorem C109_exchange [Inhabited N] (h : Realises C P send) {ord : ℕ → Orders}
    (hord : ∀ i, (ord i).OK C P 2 (slotShape cells)) {st : ℕ → Rank N α} (hst : ∀ r < P, Made (st r))
    {infos : List (N × ℕ)} (h0 : infos ≠ []) (h32 : infos.length ≤ 32)
    (hid : (infos.map Prod.snd).Nodup) (h64 : ∀ p ∈ infos, p.2 < 64)
    (hk : ∀ r < P, ∀ p ∈ infos, p.1 ∈ (st r).keys) :
    ∃ st', exchangeFields C P cells ord infos st = some st' ∧ ∀ r < P, (st' r).keys = (st r).keys ∧
      ∀ n ∈ (st r).keys,
        (∀ c, readField (st' r) n (.inl c) = readField (st r) n (.inl c)) ∧
        (n ∈ infos.map Prod.fst → ∀ k < cells, ∀ g s o, (ghosts P send r)[g]? = some (s, o) →
          readField (st' r) n (.inr (k, g)) = readField (st s) n (.inl (k, o))) ∧
        (n ∉ infos.map Prod.fst → ∀ c, readField (st' r) n (.inr c) = readField (st r) n (.inr c)) := by
  have hacc := accessors h0 h32 hid h64 hk
  have hinv := fun r hr => (hst r hr).inv
  have key : ∀ m ≤ infos.length, Exchanged P cells send infos st ((List.range m).foldl
      (exchangeField C P cells ord fun r => (getAccessor (st r) infos).getD ⟨fun _ => none, []⟩) st)
      m := by
    intro m
    induction m with
    | zero =>
      intro _
      exact ⟨fun _ => rfl, fun _ => rfl, fun _ _ _ => rfl, fun _ _ _ _ _ => rfl,
        fun _ _ i hi => absurd hi (by omega)⟩
    | succ m ih =>
      intro hm
      rw [List.range_succ, List.foldl_append]
      exact Exchanged.next h (hord m) hinv hk (fun r hr => (hacc r hr).2)
        (List.getElem?_eq_getElem (by omega : m < infos.length)) (ih (by omega))
  have e := key _ (le_refl _)
  refine ⟨_, if_pos fun r hr => (hacc r hr).1, fun r hr => ⟨e.keys r, fun n hn => ⟨?_, ?_, ?_⟩⟩⟩
  · intro c
    rw [readField_eq _ ((e.keys r).symm ▸ hn), readField_eq _ hn, e.idx r, e.loc]
  · intro hm k hkc g s o hg
    obtain ⟨p, hp, rfl⟩ := List.mem_map.1 hm
    obtain ⟨i, hi⟩ := List.mem_iff_getElem?.1 hp
    have hil := (List.getElem?_eq_some_iff.1 hi).1
    rw [readField_eq _ ((e.keys r).symm ▸ hn), readField_eq _ (hk s (ghosts_owner hg) p hp), e.idx r,
      e.got r hr i hil p hi k hkc g s o hg]
  · intro hm c
    rw [readField_eq _ ((e.keys r).symm ▸ hn), readField_eq _ hn, e.idx r, e.other r hr]
    intro i _ p hp e'
    have hp' := List.mem_of_getElem? hp
    exact hm ((hinv r hr).inj _ (hk r hr p hp') _ hn e' ▸ List.mem_map_of_mem hp')

end Exchange

section Reduce

variable [AddCommMonoid α] {C : Comm} {P cells : ℕ} {send : ℕ → ℕ → List ℕ}

open Finset in
/-- State of all ranks after the first `m` fields. -/
structure Reduced (P cells : ℕ) (send : ℕ → ℕ → List ℕ) (infos : List (N × ℕ))
    (st st' : ℕ → Rank N α) (m : ℕ) : Prop where
  keys : ∀ r, (st' r).keys = (st r).keys
  idx : ∀ r, (st' r).idx = (st r).idx
  ghost : ∀ r j l, (st' r).U j (.inr l) = (st r).U j (.inr l)
  other : ∀ r < P, ∀ j, (∀ i < m, ∀ p : N × ℕ, infos[i]? = some p → (st r).idx p.1 ≠ j) →
    ∀ h, (st' r).U j (.inl h) = (st r).U j (.inl h)
  got : ∀ s < P, ∀ i < m, ∀ p : N × ℕ, infos[i]? = some p → ∀ k < cells, ∀ o,
    (st' s).U ((st s).idx p.1) (.inl (k, o)) = (st s).U ((st s).idx p.1) (.inl (k, o)) +
      ∑ r ∈ range P, ∑ g ∈ range (ghosts P send r).length,
        if (ghosts P send r)[g]? = some (s, o) then (st r).U ((st r).idx p.1) (.inr (k, g)) else 0

omit [LinearOrder N] in
theorem Reduced.next (h : Realises C P send) (hloc : ∀ r < P, send r r = [])
    {ord ordAdd : ℕ → ℕ → List ℕ} {infos : List (N × ℕ)}
    {st st' : ℕ → Rank N α} {acc : ℕ → Accessor} {m : ℕ}
    (hord : ∀ r < P, (ord m r).Perm (List.range (C.nbGhosts P r * cells)))
    (hadd : ∀ s < P, (ordAdd m s).Perm (List.range ((C.iOcts s).length * cells)))
    (hinv : ∀ r < P, Inv (st r)) (hk : ∀ r < P, ∀ p ∈ infos, p.1 ∈ (st r).keys)
    (hnd : (infos.map Prod.fst).Nodup)
    (hacc : ∀ r < P, ∀ i, ∀ p : N × ℕ, infos[i]? = some p →
      (acc r).active.getD i 0 = (st r).idx p.1) {p : N × ℕ} (hp : infos[m]? = some p)
    (hm : Reduced P cells send infos st st' m) :
    ∃ st'', reduceField C P cells ord ordAdd acc st' m = some st'' ∧
      Reduced P cells send infos st st'' (m + 1) := by
  have helts : eltsFrom 2 (slotShape cells) 0 = cells := by simp [slotShape, eltsFrom]
  have hex := fun s (hs : s < P) => C20_reduce_owner h (pos := 2) (shape := slotShape cells)
    (by simp [slotShape]) (fun s => localView (st' s) ((acc s).active.getD m 0))
    (fun s => ghostView (st' s) ((acc s).active.getD m 0)) (order := ord m) (orderAdd := ordAdd m)
    (by rw [helts]; exact hord) (by rw [helts]; exact hadd) hloc hs
  -- the slots of two different positions are different
  have hne : ∀ r < P, ∀ i < m, ∀ q : N × ℕ, infos[i]? = some q → (st r).idx q.1 ≠ (st r).idx p.1 := by
    intro r hr i hi q hq e
    have e' := (hinv r hr).inj _ (hk r hr q (List.mem_of_getElem? hq)) _
      (hk r hr p (List.mem_of_getElem? hp)) e
    have hil := (List.getElem?_eq_some_iff.1 hq).1
    have := (List.getElem?_inj (l := infos.map Prod.fst) (i := i) (j := m) (by simpa using hil) hnd).1
      (by rw [List.getElem?_map, List.getElem?_map, hq, hp]; simp [e'])
    omega
  refine ⟨_, if_pos fun r hr => by
    obtain ⟨U', e, -⟩ := hex r hr
    simp only [e, Option.isSome_some], hm.keys, hm.idx, hm.ghost, ?_, ?_⟩
  · intro r hr j hj hh
    rw [← hm.other r hr j (fun i hi => hj i (by omega)) hh]
    simp only
    rw [hacc r hr m p hp, if_neg fun e => hj m (by omega) p hp e.1.symm]
  · intro s hs i hi q hq k hkc o
    rcases Nat.lt_succ_iff_lt_or_eq.1 hi with hi | rfl
    · rw [← hm.got s hs i hi q hq k hkc o]
      simp only
      rw [hacc s hs m p hp, if_neg fun e => hne s hs i hi q hq e.1]
    · rw [hp] at hq
      cases hq
      obtain ⟨U', e, e2⟩ := hex s hs
      simp only [e]
      rw [hacc s hs i p hp, if_pos ⟨rfl, hkc⟩]
      simp only [Option.getD_some]
      rw [e2 _ o (inShape_slot hkc) rfl]
      simp only [List.set, localView, ghostView, Nat.add_zero]
      rw [hacc s hs i p hp, hm.other s hs _ fun a ha q hq => hne s hs a ha q hq]
      congr 1
      refine Finset.sum_congr rfl fun r hr => Finset.sum_congr rfl fun g _ => ?_
      rw [hacc r (Finset.mem_range.1 hr) i p hp, hm.ghost]

open Finset in
/-- C109 (reduction): all ranks reduce the ghosts of the fields `infos` (with different names). Then each
cell of these fields has its value plus the values of the field with that name in all ghost copies of
the cell; ghosts and other fields are as before. -/
theorem C109_reduce [Inhabited N] (h : Realises C P send) (hloc : ∀ r < P, send r r = [])
    {ord ordAdd : ℕ → ℕ → List ℕ}
    (hord : ∀ i, ∀ r < P, (ord i r).Perm (List.range (C.nbGhosts P r * cells)))
    (hadd : ∀ i, ∀ s < P, (ordAdd i s).Perm (List.range ((C.iOcts s).length * cells)))
    {st : ℕ → Rank N α} (hst : ∀ r < P, Made (st r))
    {infos : List (N × ℕ)} (h0 : infos ≠ []) (h32 : infos.length ≤ 32)
    (hid : (infos.map Prod.snd).Nodup) (h64 : ∀ p ∈ infos, p.2 < 64)
    (hnd : (infos.map Prod.fst).Nodup) (hk : ∀ r < P, ∀ p ∈ infos, p.1 ∈ (st r).keys) :
    ∃ st', reduceFields C P cells ord ordAdd infos st = some st' ∧
      ∀ s < P, (st' s).keys = (st s).keys ∧ ∀ n ∈ (st s).keys,
        (∀ c, readField (st' s) n (.inr c) = readField (st s) n (.inr c)) ∧
        (n ∈ infos.map Prod.fst → ∀ k < cells, ∀ o,
          readField (st' s) n (.inl (k, o)) = some ((readField (st s) n (.inl (k, o))).getD 0 +
            ∑ r ∈ range P, ∑ g ∈ range (ghosts P send r).length,
              if (ghosts P send r)[g]? = some (s, o) then (readField (st r) n (.inr (k, g))).getD 0
              else 0)) ∧
        (n ∉ infos.map Prod.fst → ∀ c, readField (st' s) n (.inl c) = readField (st s) n (.inl c)) := by
  have hacc := accessors h0 h32 hid h64 hk
  have hinv := fun r hr => (hst r hr).inv
  have key : ∀ m ≤ infos.length, ∃ st', (List.range m).foldlM
      (reduceField C P cells ord ordAdd fun r =>
        (getAccessor (st r) infos).getD ⟨fun _ => none, []⟩) st = some st' ∧
      Reduced P cells send infos st st' m := by
    intro m
    induction m with
    | zero =>
      intro _
      exact ⟨st, rfl, fun _ => rfl, fun _ => rfl, fun _ _ _ => rfl, fun _ _ _ _ _ => rfl,
        fun _ _ i hi => absurd hi (by omega)⟩
    | succ m ih =>
      intro hm
      obtain ⟨st', e1, e2⟩ := ih (by omega)
      obtain ⟨st'', e3, e4⟩ := Reduced.next h hloc (hord m) (hadd m) hinv hk hnd
        (fun r hr => (hacc r hr).2) (List.getElem?_eq_getElem (by omega : m < infos.length)) e2
      refine ⟨st'', ?_, e4⟩
      rw [List.range_succ, List.foldlM_append, e1]
      simp [e3]
  obtain ⟨st', e1, e⟩ := key _ (le_refl _)
  refine ⟨st', (if_pos fun r hr => (hacc r hr).1).trans e1, fun s hs => ⟨e.keys s, fun n hn => ⟨?_, ?_, ?_⟩⟩⟩
  · intro c
    rw [readField_eq _ ((e.keys s).symm ▸ hn), readField_eq _ hn, e.idx s, e.ghost]
  · intro hm k hkc o
    obtain ⟨p, hp, rfl⟩ := List.mem_map.1 hm
    obtain ⟨i, hi⟩ := List.mem_iff_getElem?.1 hp
    have hil := (List.getElem?_eq_some_iff.1 hi).1
    rw [readField_eq _ ((e.keys s).symm ▸ hn), readField_eq _ hn, e.idx s,
      e.got s hs i hil p hi k hkc o, Option.getD_some]
    congr 2
    refine sum_congr rfl fun r hr => sum_congr rfl fun g _ => ?_
    rw [readField_eq _ (hk r (mem_range.1 hr) p hp), Option.getD_some]
  · intro hm c
    rw [readField_eq _ ((e.keys s).symm ▸ hn), readField_eq _ hn, e.idx s, e.other s hs]
    intro i _ p hp e'
    have hp' := List.mem_of_getElem? hp
    exact hm ((hinv s hs).inj _ (hk s hs p hp') _ hn e' ▸ List.mem_map_of_mem hp')

end Reduce

/-! ### Examples -/

/-- Rank 0 has field 1 in slot 1, rank 1 in slot 0. -/
def exOps : ℕ → List (Op ℕ ((ℕ × ℕ) ⊕ (ℕ × ℕ)) ℤ)
  | 0 => [.create [0], .create [1], .write 1 (.inl (0, 1)) 7, .write 0 (.inl (0, 1)) 3]
  | _ => [.create [1], .create [0], .write 1 (.inr (0, 0)) 5, .write 0 (.inr (0, 0)) 2]

/-- The fields of the two ranks. -/
def exRank (r : ℕ) : Rank ℕ ℤ := (run State.empty (exOps r)).getD State.empty

theorem exRank_made (r : ℕ) : Made (exRank r) := by
  refine ⟨exOps r, ?_, ?_, ?_⟩
  · match r with
    | 0 => simp [exOps, LegalRun, Op.Legal, Op.meaning]
    | r + 1 => simp [exOps, LegalRun, Op.Legal, Op.meaning]
  · match r with
    | 0 => simp [exOps]
    | r + 1 => simp [exOps]
  · match r with
    | 0 => rfl
    | r + 1 => rfl

example : (exRank 0).idx 1 = 1 ∧ (exRank 1).idx 1 = 0 := by decide +kernel

/-- Rank 0 sends octant 1 to rank 1. -/
def exSend2 (s r : ℕ) : List ℕ := if s = 0 ∧ r = 1 then [1] else []

def exOrd2 : Orders :=
  ⟨fun s => List.range (packSize (ofMap 2 exSend2) 2 (slotShape 1) s),
   fun s => List.range ((ofMap 2 exSend2).sz s s * eltsFrom 2 (slotShape 1) 0),
   fun s => List.range (((ofMap 2 exSend2).nbGhosts 2 s - (ofMap 2 exSend2).sz s s) *
     eltsFrom 2 (slotShape 1) 0)⟩

theorem exRank_keys : ∀ r < 2, ∀ p ∈ [((1 : ℕ), 4)], p.1 ∈ (exRank r).keys := by decide +kernel

/-- The ghost of rank 1 receives field 1 and keeps field 0. -/
example : ∃ st', exchangeFields (ofMap 2 exSend2) 2 1 (fun _ => exOrd2) [(1, 4)] exRank = some st' ∧
    readField (st' 1) 1 (.inr (0, 0)) = some 7 ∧ readField (st' 1) 0 (.inr (0, 0)) = some 2 := by
  obtain ⟨st', h1, h2⟩ := C109_exchange (ofMap_realises 2 exSend2) (cells := 1) (ord := fun _ => exOrd2)
    (fun _ => ⟨fun _ _ => List.Perm.refl _, fun _ _ => List.Perm.refl _, fun _ _ => List.Perm.refl _⟩)
    (fun r _ => exRank_made r) (infos := [(1, 4)]) (by simp) (by simp) (by simp) (by simp) exRank_keys
  obtain ⟨-, h3⟩ := h2 1 (by omega)
  refine ⟨st', h1, ?_, ?_⟩
  · rw [(h3 1 (by decide +kernel)).2.1 (by simp) 0 (by omega) 0 0 1 (by decide)]
    decide +kernel
  · rw [(h3 0 (by decide +kernel)).2.2 (by simp)]
    decide +kernel

/-- Octant 1 of rank 0 gets the value 5 of the ghost of rank 1 in addition to its value 7. -/
example : ∃ st', reduceFields (ofMap 2 exSend2) 2 1
    (fun _ r => List.range ((ofMap 2 exSend2).nbGhosts 2 r * 1))
    (fun _ s => List.range (((ofMap 2 exSend2).iOcts s).length * 1)) [(1, 4)] exRank = some st' ∧
    readField (st' 0) 1 (.inl (0, 1)) = some 12 ∧ readField (st' 0) 0 (.inl (0, 1)) = some 3 := by
  obtain ⟨st', h1, h2⟩ := C109_reduce (ofMap_realises 2 exSend2) (by decide) (cells := 1)
    (fun _ _ _ => List.Perm.refl _) (fun _ _ _ => List.Perm.refl _)
    (fun r _ => exRank_made r) (infos := [(1, 4)]) (by simp) (by simp) (by simp) (by simp) (by simp)
    exRank_keys
  obtain ⟨-, h3⟩ := h2 0 (by omega)
  refine ⟨st', h1, ?_, ?_⟩
  · rw [(h3 1 (by decide +kernel)).2.1 (by simp) 0 (by omega) 1]
    decide +kernel
  · rw [(h3 0 (by decide +kernel)).2.2 (by simp)]
    decide +kernel

/-- C109, the names of a reduction must be different: an accessor with the same field under two ids is
accepted (`UserData_fields.h` L251 compares the number of ids), and the ghost value 5 is added twice. -/
theorem C109_reduce_twice_fails :
    (((reduceFields (ofMap 2 exSend2) 2 1
      (fun _ r => List.range ((ofMap 2 exSend2).nbGhosts 2 r * 1))
      (fun _ s => List.range (((ofMap 2 exSend2).iOcts s).length * 1)) [(1, 4), (1, 5)] exRank).map
        fun st' => readField (st' 0) 1 (.inl (0, 1))) = some (some 17)) ∧
      readField (exRank 0) 1 (.inl (0, 1)) = some 7 ∧ readField (exRank 1) 1 (.inr (0, 0)) = some 5 := by
  decide +kernel

end Verif.Comm
