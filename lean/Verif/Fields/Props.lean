import Verif.Fields.Spec
import Mathlib.Data.Finset.Basic
import Mathlib.Data.String.Basic

/-!
# C27, C28: named fields
-/

namespace Verif.Fields

variable {N L H L' H' α : Type} [LinearOrder N] [Zero α] [DecidableEq L] [DecidableEq H]

/-- One operation of the model. A write goes through an accessor made for that field alone. -/
def step (s : State N L H α) : Op N (L ⊕ H) α → Option (State N L H α)
  | .create names => newFields s names
  | .rename dest src => moveField s dest src
  | .delete n => some (deleteField s n)
  | .write n c v => (getAccessor s [(n, 0)]).bind fun a => accWrite s a 0 c v
  | .remap f => remapWith f s

/-- A sequence of operations of the model. -/
def run (s : State N L H α) (ops : List (Op N (L ⊕ H) α)) : Option (State N L H α) :=
  ops.foldlM step s

/-- Invariant: used slots are allocated and belong to one name. -/
structure Inv (s : State N L H α) : Prop where
  inj : ∀ a ∈ s.keys, ∀ b ∈ s.keys, s.idx a = s.idx b → a = b
  lt : ∀ a ∈ s.keys, s.idx a < s.nalloc
  le : s.nalloc ≤ s.maxCount
  lim : s.maxCount ≤ 64

/-- The state holds the named arrays of the store. -/
structure Holds (s : State N L H α) (st : Store N (L ⊕ H) α) : Prop where
  names : s.keys = st.names
  data : ∀ n ∈ s.keys, s.U (s.idx n) = st.data n

omit [Zero α] [DecidableEq L] [DecidableEq H] in
theorem Inv.card_le {s : State N L H α} (h : Inv s) : s.keys.card ≤ s.nalloc := by
  have : (s.keys.image s.idx) ⊆ Finset.range s.nalloc := by
    intro i hi
    rw [Finset.mem_image] at hi
    obtain ⟨a, ha, rfl⟩ := hi
    exact Finset.mem_range.2 (h.lt a ha)
  have h2 := Finset.card_le_card this
  rw [Finset.card_range, Finset.card_image_of_injOn (fun a ha b hb => h.inj a ha b hb)] at h2
  exact h2

omit [Zero α] [DecidableEq L] [DecidableEq H] in
theorem firstFree_some {s : State N L H α} (hlt : s.keys.card < s.nalloc) :
    ∃ i, firstFree s = some i ∧ i < s.nalloc ∧ ∀ n ∈ s.keys, s.idx n ≠ i := by
  have hex : ∃ i ∈ List.range s.nalloc, ∀ n ∈ s.keys, s.idx n ≠ i := by
    by_contra hcon
    push Not at hcon
    have : Finset.range s.nalloc ⊆ s.keys.image s.idx := by
      intro i hi
      obtain ⟨n, hn, e⟩ := hcon i (List.mem_range.2 (Finset.mem_range.1 hi))
      exact Finset.mem_image.2 ⟨n, hn, e⟩
    have h2 := Finset.card_le_card this
    rw [Finset.card_range] at h2
    have := Finset.card_image_le (s := s.keys) (f := s.idx)
    omega
  unfold firstFree
  obtain ⟨i, hi, hn⟩ := hex
  cases hf : (List.range s.nalloc).find? fun i => decide (∀ n ∈ s.keys, s.idx n ≠ i) with
  | none =>
    rw [List.find?_eq_none] at hf
    have := hf i hi
    simp only [decide_eq_true_eq] at this
    exact absurd hn this
  | some j =>
    refine ⟨j, rfl, ?_, ?_⟩
    · exact List.mem_range.1 (List.mem_of_find?_eq_some hf)
    · have := List.find?_some hf
      simpa using this

omit [DecidableEq L] [DecidableEq H] in
theorem newField_spec {s : State N L H α} (h : Inv s) {st : Store N (L ⊕ H) α} (hs : Holds s st)
    {n : N} (hn : n ∉ st.names) (hlt : s.keys.card < s.nalloc) :
    ∃ s', newField s n = some s' ∧ Inv s' ∧ s'.nalloc = s.nalloc ∧
      Holds s' ⟨insert n st.names, fun m => if m = n then fun _ => 0 else st.data m⟩ := by
  obtain ⟨i, h1, h2, h3⟩ := firstFree_some hlt
  have hn' : n ∉ s.keys := by rw [hs.names]; exact hn
  have hne : ∀ a ∈ s.keys, a ≠ n := fun a ha h => hn' (h ▸ ha)
  refine ⟨{ s with keys := insert n s.keys, idx := Function.update s.idx n i,
                   U := Function.update s.U i fun _ => 0 }, ?_, ⟨?_, ?_, h.le, h.lim⟩, rfl, ⟨?_, ?_⟩⟩
  · unfold newField
    rw [if_neg hn', h1]; rfl
  · intro a ha b hb
    simp only [Finset.mem_insert] at ha hb
    rcases ha with rfl | ha <;> rcases hb with rfl | hb
    · simp
    · simp only [Function.update_self, Function.update_of_ne (hne b hb)]
      exact fun e => absurd e.symm (h3 b hb)
    · simp only [Function.update_self, Function.update_of_ne (hne a ha)]
      exact fun e => absurd e (h3 a ha)
    · simp only [Function.update_of_ne (hne a ha), Function.update_of_ne (hne b hb)]
      exact h.inj a ha b hb
  · intro a ha
    simp only [Finset.mem_insert] at ha
    rcases ha with rfl | ha
    · simpa using h2
    · simp only [Function.update_of_ne (hne a ha)]
      exact h.lt a ha
  · simp only; rw [hs.names]
  · intro a ha
    simp only [Finset.mem_insert] at ha
    rcases ha with rfl | ha
    · simp
    · simp only [Function.update_of_ne (hne a ha), Function.update_of_ne (h3 a ha), if_neg (hne a ha)]
      exact hs.data a ha

omit [DecidableEq L] [DecidableEq H] in
theorem newFields_loop (names : List N) : ∀ {s : State N L H α} (_ : Inv s)
    {st : Store N (L ⊕ H) α} (_ : Holds s st), names.Nodup → (∀ n ∈ names, n ∉ st.names) →
    s.keys.card + names.length ≤ s.nalloc →
    ∃ s', names.foldlM newField s = some s' ∧ Inv s' ∧
      Holds s' ⟨st.names ∪ names.toFinset, fun n => if n ∈ names then fun _ => 0 else st.data n⟩ := by
  induction names with
  | nil =>
    intro s h st hs _ _ _
    refine ⟨s, rfl, h, ⟨by simpa using hs.names, fun n hn => by simpa using hs.data n hn⟩⟩
  | cons n names ih =>
    intro s h st hs hnd hnew hle
    rw [List.length_cons] at hle
    obtain ⟨s1, e1, h1, e2, hs1⟩ := newField_spec h hs (hnew n (by simp)) (by omega)
    rw [List.nodup_cons] at hnd
    have hn' : n ∉ st.names := hnew n (by simp)
    have hc : s1.keys.card = s.keys.card + 1 := by
      rw [hs1.names]
      simp only
      rw [Finset.card_insert_of_notMem hn', hs.names]
    obtain ⟨s2, e3, h2, hs2⟩ := ih h1 hs1 hnd.2 (fun m hm => by
      simp only [Finset.mem_insert, not_or]
      exact ⟨fun e => hnd.1 (e ▸ hm), hnew m (List.mem_cons_of_mem _ hm)⟩) (by omega)
    refine ⟨s2, by rw [List.foldlM_cons, e1]; exact e3, h2, ⟨?_, ?_⟩⟩
    · rw [hs2.names]
      ext m
      simp only [Finset.mem_union, Finset.mem_insert, List.mem_toFinset, List.mem_cons]
      tauto
    · intro m hm
      rw [hs2.data m hm]
      simp only [List.mem_cons]
      by_cases a1 : m ∈ names <;> by_cases a2 : m = n <;> simp [a1, a2]

omit [DecidableEq L] [DecidableEq H] in
theorem newFields_spec {s : State N L H α} (h : Inv s) {st : Store N (L ⊕ H) α} (hs : Holds s st)
    {names : List N} (hnd : names.Nodup) (hnew : ∀ n ∈ names, n ∉ st.names)
    (hle : st.names.card + names.length ≤ 64) :
    ∃ s', newFields s names = some s' ∧ Inv s' ∧
      Holds s' ⟨st.names ∪ names.toFinset, fun n => if n ∈ names then fun _ => 0 else st.data n⟩ := by
  have hcard : s.keys.card = st.names.card := by rw [hs.names]
  have hml := h.lim
  have hle' := h.le
  unfold newFields
  simp only
  by_cases hc : s.nalloc < s.keys.card + names.length
  · rw [if_pos hc]
    unfold extendFields
    rw [if_pos (by simp only [maxIndexCount]; omega), Option.bind_some]
    refine newFields_loop names
      (s := { s with maxCount := max s.maxCount (s.keys.card + names.length)
                     nalloc := max s.maxCount (s.keys.card + names.length)
                     U := fun i c => if i < s.nalloc then s.U i c else 0 })
      ⟨h.inj, fun a ha => ?_, le_refl _, ?_⟩ ⟨hs.names, fun a ha => ?_⟩ hnd hnew ?_
    · have := h.lt a ha
      simp only
      omega
    · simp only; omega
    · simp only
      rw [← hs.data a ha]
      have := h.lt a ha
      simp only [this, if_true]
    · simp only; omega
  · rw [if_neg hc, Option.bind_some]
    refine newFields_loop names
      (s := { s with maxCount := max s.maxCount (s.keys.card + names.length) })
      ⟨h.inj, h.lt, ?_, ?_⟩ ⟨hs.names, hs.data⟩ hnd hnew (by simp only; omega)
    · simp only; omega
    · simp only; omega

omit [Zero α] [DecidableEq L] [DecidableEq H] in
theorem rank_lt {keys : Finset N} {n : N} (hn : n ∈ keys) : rank keys n < keys.card := by
  unfold rank
  refine Finset.card_lt_card (Finset.filter_ssubset.2 ⟨n, hn, lt_irrefl n⟩)

omit [Zero α] [DecidableEq L] [DecidableEq H] in
theorem rank_strictMono {keys : Finset N} {a b : N} (ha : a ∈ keys) (hab : a < b) :
    rank keys a < rank keys b := by
  unfold rank
  refine Finset.card_lt_card ?_
  rw [Finset.ssubset_iff_of_subset (fun x hx => by
    rw [Finset.mem_filter] at hx ⊢
    exact ⟨hx.1, lt_trans hx.2 hab⟩)]
  exact ⟨a, Finset.mem_filter.2 ⟨ha, hab⟩, fun h => lt_irrefl a (Finset.mem_filter.1 h).2⟩

omit [Zero α] [DecidableEq L] [DecidableEq H] in
theorem rank_inj {keys : Finset N} {a b : N} (ha : a ∈ keys) (hb : b ∈ keys)
    (h : rank keys a = rank keys b) : a = b := by
  rcases lt_trichotomy a b with h1 | h1 | h1
  · have := rank_strictMono ha h1; omega
  · exact h1
  · have := rank_strictMono hb h1; omega

omit [Zero α] [DecidableEq L] [DecidableEq H] in
theorem find_rank {keys : Finset N} {n : N} (hn : n ∈ keys) :
    ((keys.sort (· ≤ ·)).find? fun m => rank keys m = rank keys n) = some n := by
  cases hf : (keys.sort (· ≤ ·)).find? fun m => rank keys m = rank keys n with
  | none =>
    rw [List.find?_eq_none] at hf
    have := hf n ((Finset.mem_sort _).2 hn)
    simp at this
  | some m =>
    have h1 := List.find?_some hf
    have h2 := (Finset.mem_sort _).1 (List.mem_of_find?_eq_some hf)
    rw [rank_inj h2 hn (by simpa using h1)]

omit [DecidableEq L] [DecidableEq H] in
theorem remapWith_spec {s : State N L H α} (h : Inv s) {st : Store N (L ⊕ H) α} (hs : Holds s st)
    (f : (L ⊕ H → α) → L' ⊕ H' → α) (h1 : 1 ≤ st.names.card) (h32 : st.names.card ≤ 32) :
    ∃ s' : State N L' H' α, remapWith f s = some s' ∧ Inv s' ∧
      Holds s' ⟨st.names, fun n => f (st.data n)⟩ ∧ ∀ n ∈ s'.keys, s'.idx n = rank s'.keys n := by
  have hc : s.keys.card = st.names.card := by rw [hs.names]
  have hcl := h.card_le
  unfold remapWith realloc
  rw [if_neg (by simp only [maxFieldCount]; omega)]
  refine ⟨_, rfl, ⟨?_, ?_, ?_, h.lim⟩, ⟨hs.names, ?_⟩, fun n _ => rfl⟩
  · intro a ha b hb e
    exact rank_inj ha hb e
  · intro a ha
    exact rank_lt ha
  · exact le_trans hcl h.le
  · intro n hn
    simp only at hn ⊢
    rw [find_rank hn]
    simp only
    rw [hs.data n hn]

/-- One step of the model does what the operation means, unless a field is renamed to itself. -/
theorem step_spec {s : State N L H α} (h : Inv s) {st : Store N (L ⊕ H) α} (hs : Holds s st)
    (op : Op N (L ⊕ H) α) (hl : op.Legal st) (hself : ∀ n, op ≠ .rename n n) :
    ∃ s', step s op = some s' ∧ Inv s' ∧ Holds s' (op.meaning st) := by
  cases op with
  | create names => exact newFields_spec h hs hl.1 hl.2.1 hl.2.2
  | rename dest src =>
    have hds : dest ≠ src := fun e => hself dest (by rw [e])
    have hsrc : src ∈ s.keys := by rw [hs.names]; exact hl
    unfold step moveField
    simp only
    rw [if_pos hsrc]
    refine ⟨_, rfl, ⟨?_, ?_, h.le, h.lim⟩, ⟨?_, ?_⟩⟩
    · intro a ha b hb
      simp only [Finset.mem_erase, Finset.mem_insert] at ha hb
      by_cases h1 : a = dest <;> by_cases h2 : b = dest
      · subst h1 h2; simp
      · subst h1
        simp only [Function.update_self, Function.update_of_ne h2]
        intro e
        exact absurd (h.inj src hsrc b (hb.2.resolve_left h2) e).symm hb.1
      · subst h2
        simp only [Function.update_self, Function.update_of_ne h1]
        intro e
        exact absurd (h.inj a (ha.2.resolve_left h1) src hsrc e) ha.1
      · simp only [Function.update_of_ne h1, Function.update_of_ne h2]
        exact h.inj a (ha.2.resolve_left h1) b (hb.2.resolve_left h2)
    · intro a ha
      simp only [Finset.mem_erase, Finset.mem_insert] at ha
      by_cases h1 : a = dest
      · subst h1
        simpa using h.lt src hsrc
      · simp only [Function.update_of_ne h1]
        exact h.lt a (ha.2.resolve_left h1)
    · simp only [Op.meaning, if_neg hds]
      rw [hs.names]
    · intro a ha
      simp only [Finset.mem_erase, Finset.mem_insert] at ha
      by_cases h1 : a = dest
      · subst h1
        simp only [Function.update_self, Op.meaning]
        exact hs.data src hsrc
      · simp only [Function.update_of_ne h1, Op.meaning]
        exact hs.data a (ha.2.resolve_left h1)
  | delete n =>
    refine ⟨_, rfl, ⟨?_, ?_, h.le, h.lim⟩, ⟨?_, ?_⟩⟩
    · intro a ha b hb
      exact h.inj a (Finset.mem_of_mem_erase ha) b (Finset.mem_of_mem_erase hb)
    · intro a ha
      exact h.lt a (Finset.mem_of_mem_erase ha)
    · simp only [deleteField, Op.meaning]
      rw [hs.names]
    · intro a ha
      exact hs.data a (Finset.mem_of_mem_erase ha)
  | write n c v =>
    have hn : n ∈ s.keys := by rw [hs.names]; exact hl
    refine ⟨{ s with U := Function.update s.U (s.idx n) (Function.update (s.U (s.idx n)) c v) }, ?_,
      ⟨h.inj, h.lt, h.le, h.lim⟩, ⟨hs.names, ?_⟩⟩
    · simp [step, getAccessor, accWrite, hn, maxFieldCount, maxIndexCount, List.foldlM]
    · intro a ha
      simp only [Op.meaning] at ha ⊢
      by_cases e : a = n
      · subst e
        rw [Function.update_self, Function.update_self, hs.data a ha]
      · rw [Function.update_of_ne e, Function.update_of_ne fun e' => e (h.inj a ha n hn e')]
        exact hs.data a ha
  | remap f =>
    obtain ⟨s', h1, h2, h3, -⟩ := remapWith_spec h hs f hl.1 hl.2
    exact ⟨s', h1, h2, h3⟩

theorem empty_inv [Inhabited N] : Inv (State.empty : State N L H α) :=
  ⟨by simp [State.empty], by simp [State.empty], le_refl _, by simp [State.empty]⟩

/-- C27 (partial: renaming a field to itself is left out, see `C27_self_rename_fails`): any legal
sequence of creations, renamings, deletions, writes and remappings succeeds, and the fields then hold
exactly what independent named arrays would hold. -/
theorem C27_fields_are_named_arrays_partial [Inhabited N] (ops : List (Op N (L ⊕ H) α))
    (hl : LegalRun ⟨∅, fun _ _ => 0⟩ ops) (hself : ∀ n, Op.rename n n ∉ ops) :
    ∃ s : State N L H α, run State.empty ops = some s ∧
      s.keys = (meaningRun ⟨∅, fun _ _ => 0⟩ ops).names ∧
      (∀ n ∈ s.keys, ∀ c, (getAccessor s [(n, 0)]).bind (fun a => accRead s a 0 c) =
        some ((meaningRun ⟨∅, fun _ _ => 0⟩ ops).data n c)) ∧
      ∀ n ∈ s.keys, ∃ F, getField s n = some F ∧
        ∀ l, F (.inl l) = (meaningRun ⟨∅, fun _ _ => 0⟩ ops).data n (.inl l) := by
  have key : ∀ (ops : List (Op N (L ⊕ H) α)) (s : State N L H α) (st : Store N (L ⊕ H) α),
      Inv s → Holds s st → LegalRun st ops → (∀ n, Op.rename n n ∉ ops) →
      ∃ s', run s ops = some s' ∧ Inv s' ∧ Holds s' (meaningRun st ops) := by
    intro ops
    induction ops with
    | nil => intro s st h hs _ _; exact ⟨s, rfl, h, hs⟩
    | cons op ops ih =>
      intro s st h hs hl hself
      obtain ⟨s1, e1, h1, hs1⟩ := step_spec h hs op hl.1 fun n e => hself n (by rw [e]; simp)
      obtain ⟨s2, e2, h2, hs2⟩ := ih s1 _ h1 hs1 hl.2 fun n hm => hself n (List.mem_cons_of_mem _ hm)
      refine ⟨s2, ?_, h2, hs2⟩
      unfold run at e2 ⊢
      rw [List.foldlM_cons, e1]
      exact e2
  obtain ⟨s, e, h, hs⟩ := key ops State.empty ⟨∅, fun _ _ => 0⟩ empty_inv
    ⟨rfl, by simp [State.empty]⟩ hl hself
  refine ⟨s, e, hs.names, fun n hn c => ?_, fun n hn => ?_⟩
  · rw [← hs.data n hn]
    simp [getAccessor, accRead, hn, maxFieldCount, maxIndexCount, List.foldlM]
  · refine ⟨_, if_pos hn, fun l => ?_⟩
    simp only
    rw [hs.data n hn]

/-- C27, the code violates the property: `move_field(n, n)` deletes the field. -/
theorem C27_self_rename_fails :
    ∃ (ops : List (Op String (Unit ⊕ Unit) ℤ)) (s : State String Unit Unit ℤ),
      LegalRun ⟨∅, fun _ _ => 0⟩ ops ∧ run State.empty ops = some s ∧
      "rho" ∈ (meaningRun ⟨∅, fun _ _ => 0⟩ ops).names ∧ "rho" ∉ s.keys := by
  refine ⟨[.create ["rho"], .rename "rho" "rho"], _, ?_, rfl, ?_, ?_⟩
  · refine ⟨⟨by decide, by simp, by simp⟩, ?_, trivial⟩
    simp [Op.Legal, Op.meaning]
  · simp [meaningRun, Op.meaning]
  · simp [deleteField]

/-- C27 (accessors): an accessor for several fields is made exactly for known fields and distinct
ids, and gives for each id the slot of the field paired with it, in the order of the list. -/
theorem C27_accessor (s : State N L H α) (infos : List (N × ℕ)) (h0 : infos ≠ [])
    (h32 : infos.length ≤ 32) (hk : ∀ p ∈ infos, p.1 ∈ s.keys ∧ p.2 < 64)
    (hid : (infos.map Prod.snd).Nodup) :
    ∃ a, getAccessor s infos = some a ∧ a.active = infos.map (fun p => s.idx p.1) ∧
      (∀ p ∈ infos, a.ivar p.2 = some (s.idx p.1)) ∧
      ∀ id, id ∉ infos.map Prod.snd → a.ivar id = none := by
  have key : ∀ (l : List (N × ℕ)) (a : Accessor), (∀ p ∈ l, p.1 ∈ s.keys ∧ p.2 < 64) →
      (l.map Prod.snd).Nodup → (∀ p ∈ l, a.ivar p.2 = none) →
      ∃ a', l.foldlM (fun (a : Accessor) (info : N × ℕ) =>
        if info.1 ∉ s.keys then none
        else if maxIndexCount ≤ info.2 then none
        else if (a.ivar info.2).isSome then none
        else some ⟨Function.update a.ivar info.2 (some (s.idx info.1)), a.active ++ [s.idx info.1]⟩)
        a = some a' ∧ a'.active = a.active ++ l.map (fun p => s.idx p.1) ∧
        (∀ p ∈ l, a'.ivar p.2 = some (s.idx p.1)) ∧
        ∀ id, id ∉ l.map Prod.snd → a'.ivar id = a.ivar id := by
    intro l
    induction l with
    | nil => intro a _ _ _; exact ⟨a, rfl, by simp, by simp, by simp⟩
    | cons p l ih =>
      intro a hk hid hnone
      obtain ⟨p1, p2⟩ := hk p (by simp)
      rw [List.map_cons, List.nodup_cons] at hid
      obtain ⟨a', e1, e2, e3, e4⟩ := ih
        ⟨Function.update a.ivar p.2 (some (s.idx p.1)), a.active ++ [s.idx p.1]⟩
        (fun q hq => hk q (List.mem_cons_of_mem _ hq)) hid.2 (fun q hq => by
          have : q.2 ≠ p.2 := fun e => hid.1 (e ▸ List.mem_map_of_mem hq)
          simp only [Function.update_of_ne this]
          exact hnone q (List.mem_cons_of_mem _ hq))
      refine ⟨a', ?_, ?_, ?_, ?_⟩
      · rw [List.foldlM_cons, if_neg (by simpa using p1), if_neg (by simp only [maxIndexCount]; omega),
          if_neg (by rw [hnone p (by simp)]; simp)]
        exact e1
      · rw [e2]; simp
      · intro q hq
        rcases List.mem_cons.1 hq with rfl | hq
        · rw [e4 _ hid.1]; simp
        · exact e3 q hq
      · intro id hnid
        rw [List.map_cons, List.mem_cons, not_or] at hnid
        rw [e4 id hnid.2]
        simp only [Function.update_of_ne hnid.1]
  obtain ⟨a, e1, e2, e3, e4⟩ := key infos ⟨fun _ => none, []⟩ hk hid (by simp)
  refine ⟨a, ?_, by simpa using e2, e3, fun id h => e4 id h⟩
  unfold getAccessor
  rw [if_neg h0, if_neg (by simp only [maxFieldCount]; omega)]
  exact e1

/-- The store read from a state. -/
def localData (s : State N L H α) (n : N) : L → α := fun l => s.U (s.idx n) (.inl l)

omit [DecidableEq L] [DecidableEq H] in
/-- C28 (partial: needs the slots to be in the order of the names, which holds after a remapping; see
`C28_stale_fields_fails`): after load balancing each name has its redistributed data. -/
theorem C28_loadbalance_partial {s : State N L H α} (h : Inv s) (R : (L → α) → L' → α)
    (h1 : 1 ≤ s.keys.card) (h32 : s.keys.card ≤ 32) (hord : ∀ n ∈ s.keys, s.idx n = rank s.keys n) :
    ∃ s' : State N L' H' α, exchangeLoadbalance R s = some s' ∧ Inv s' ∧ s'.keys = s.keys ∧
      (∀ n ∈ s.keys, s'.idx n = rank s'.keys n) ∧
      ∀ n ∈ s.keys, localData s' n = R (localData s n) := by
  have hcl := le_trans h.card_le h.le
  have hlim := h.lim
  unfold exchangeLoadbalance realloc extendFields
  rw [if_neg (by simp only [maxFieldCount]; omega), Option.bind_some,
    if_pos (by simp only [maxIndexCount]; omega)]
  refine ⟨_, rfl, ⟨?_, ?_, le_refl _, hlim⟩, rfl, fun n _ => rfl, ?_⟩
  · intro a ha b hb e
    exact rank_inj ha hb e
  · intro a ha
    exact lt_of_lt_of_le (rank_lt ha) hcl
  · intro n hn
    funext l
    have := rank_lt hn
    have e : localData s n = fun l => s.U (rank s.keys n) (.inl l) := by
      funext l
      unfold localData
      rw [hord n hn]
    rw [e]
    simp only [localData, this, if_true]

omit [DecidableEq L] [DecidableEq H] in
/-- C28 (after remapping): load balancing right after a remapping keeps the data of each name, for any
history of field operations before. -/
theorem C28_after_remap {s : State N L H α} (h : Inv s) (f : (L ⊕ H → α) → L ⊕ H → α)
    (R : (L → α) → L' → α) (h1 : 1 ≤ s.keys.card) (h32 : s.keys.card ≤ 32) :
    ∃ (s1 : State N L H α) (s' : State N L' H' α), remapWith f s = some s1 ∧
      exchangeLoadbalance R s1 = some s' ∧ s'.keys = s.keys ∧
      ∀ n ∈ s.keys, localData s' n = R (fun l => f (s.U (s.idx n)) (.inl l)) := by
  obtain ⟨s1, e1, i1, hs1, ho1⟩ := remapWith_spec h (st := ⟨s.keys, fun n => s.U (s.idx n)⟩)
    ⟨rfl, fun _ _ => rfl⟩ f h1 h32
  have hk : s1.keys = s.keys := hs1.names
  obtain ⟨s', e2, -, hk2, -, hd⟩ := C28_loadbalance_partial (H' := H') i1 R (by rw [hk]; exact h1)
    (by rw [hk]; exact h32) ho1
  refine ⟨s1, s', e1, e2, hk2.trans hk, fun n hn => ?_⟩
  rw [hd n (by rw [hk]; exact hn)]
  congr 1
  funext l
  unfold localData
  rw [hs1.data n (by rw [hk]; exact hn)]

/-- C28, the code violates the property: one time step as in `DyabloTimeLoop.h` L712-733 (create
`*_next`, compute, rename) and load balancing without a mesh adaptation in between. The fields go
back to their values before the step. -/
theorem C28_stale_fields_fails :
    ∃ (ops : List (Op String (Unit ⊕ Unit) ℤ)) (s : State String Unit Unit ℤ)
      (s' : State String Unit Unit ℤ),
      LegalRun ⟨∅, fun _ _ => 0⟩ ops ∧ (∀ n, Op.rename n n ∉ ops) ∧
      run State.empty ops = some s ∧ exchangeLoadbalance (fun x => x) s = some s' ∧
      localData s "rho" () = 11 ∧ localData s' "rho" () = 1 ∧
      localData s "e_tot" () = 12 ∧ localData s' "e_tot" () = 2 := by
  refine ⟨[.create ["e_tot", "rho"], .write "rho" (.inl ()) 1, .write "e_tot" (.inl ()) 2,
    .create ["e_tot_next", "rho_next"], .write "rho_next" (.inl ()) 11,
    .write "e_tot_next" (.inl ()) 12, .rename "rho" "rho_next", .rename "e_tot" "e_tot_next"],
    _, _, ?_, ?_, rfl, rfl, ?_, ?_, ?_, ?_⟩
  · simp [LegalRun, Op.Legal, Op.meaning]
  · intro n
    simp
    constructor <;> rintro rfl <;> decide
  all_goals decide

/-- A history with slot reuse: the invariants of the theorems hold on it. -/
example : LegalRun (N := String) (C := ℕ ⊕ ℕ) (α := ℤ) ⟨∅, fun _ _ => 0⟩
    [.create ["b"], .create ["a", "c"], .delete "b", .create ["d"], .rename "a" "c",
      .write "d" (.inr 3) 5, .remap fun f => f] := by
  simp [LegalRun, Op.Legal, Op.meaning]

end Verif.Fields
