import Verif.TimeLoop.StepSpec

/-!
# What the parts of a step do to named arrays
-/

namespace Verif.StepFields

open Verif.Fields

set_option linter.unusedSectionVars false

section Generic

variable {N L H α : Type} [LinearOrder N] [Zero α]

/-- The result is a state that holds the named arrays. -/
def Gives (o : Option (State N L H α)) (names : Finset N) (d : N → L ⊕ H → α) : Prop :=
  ∃ s', o = some s' ∧ Fields.Inv s' ∧ Holds s' ⟨names, d⟩

theorem Gives.bind {o : Option (State N L H α)} {F F' : Finset N} {d d' : N → L ⊕ H → α}
    {f : State N L H α → Option (State N L H α)} (h : Gives o F d)
    (hf : ∀ s', Fields.Inv s' → Holds s' ⟨F, d⟩ → Gives (f s') F' d') : Gives (o.bind f) F' d' := by
  obtain ⟨s, rfl, h1, h2⟩ := h
  exact hf s h1 h2

theorem Gives.congr {o : Option (State N L H α)} {F F' : Finset N} {d d' : N → L ⊕ H → α} (h : Gives o F d)
    (hF : F = F') (hd : ∀ n ∈ F', d n = d' n) : Gives o F' d' := by
  obtain ⟨s, rfl, h1, h2⟩ := h
  subst hF
  refine ⟨s, rfl, h1, h2.names, fun n hn => ?_⟩
  have e := h2.names
  rw [h2.data n hn]
  exact hd n (by rw [e] at hn; exact hn)

theorem Gives.some {s : State N L H α} {F : Finset N} {d : N → L ⊕ H → α} (h1 : Fields.Inv s) (h2 : Holds s ⟨F, d⟩) :
    Gives (some s) F d := ⟨s, rfl, h1, h2⟩

theorem accessor_some {s : State N L H α} {names : List N} (h0 : names ≠ []) (h32 : names.length ≤ 32)
    (hk : ∀ n ∈ names, n ∈ s.keys) : ∃ a, getAccessor s (infos names) = Option.some a := by
  classical
  obtain ⟨a, ha, -⟩ := C27_accessor s (infos names) (by simpa [infos] using h0) (by simpa [infos] using h32)
    (fun p hp => by
      have := List.mem_zipIdx hp
      refine ⟨hk _ ?_, by omega⟩
      rw [this.2.2]
      exact List.getElem_mem _) (by
      rw [infos, List.zipIdx_map_snd]
      exact List.nodup_range')
  exact ⟨a, ha⟩

theorem accessor_none {s : State N L H α} {names : List N} {n : N} (hn : n ∈ names) (hk : n ∉ s.keys) :
    getAccessor s (infos names) = none := by
  unfold getAccessor
  split_ifs
  · rfl
  · rfl
  have key : ∀ (l : List (N × ℕ)) (a : Accessor), n ∈ l.map Prod.fst →
      l.foldlM (fun (a : Accessor) (info : N × ℕ) =>
        if info.1 ∉ s.keys then none
        else if maxIndexCount ≤ info.2 then none
        else if (a.ivar info.2).isSome then none
        else Option.some (⟨Function.update a.ivar info.2 (Option.some (s.idx info.1)), a.active ++ [s.idx info.1]⟩ : Accessor)) a
        = none := by
    intro l
    induction l with
    | nil => intro a h; simp at h
    | cons p l ih =>
      intro a h
      rw [List.foldlM_cons]
      rw [List.map_cons, List.mem_cons] at h
      by_cases h1 : p.1 ∉ s.keys
      · rw [if_pos h1]; rfl
      rw [if_neg h1]
      by_cases h2 : maxIndexCount ≤ p.2
      · rw [if_pos h2]; rfl
      rw [if_neg h2]
      by_cases h3 : (a.ivar p.2).isSome
      · rw [if_pos h3]; rfl
      rw [if_neg h3]
      rcases h with h | h
      · rw [← h] at h1; exact absurd hk h1
      · exact ih _ h
  exact key _ _ (by rw [infos, List.zipIdx_map_fst]; exact hn)

theorem kernel_spec {s : State N L H α} {F : Finset N} {d : N → L ⊕ H → α} (h : Fields.Inv s) (hs : Holds s ⟨F, d⟩)
    {ins outs : List N} {nm : N → N} {f : (N → L ⊕ H → α) → N → L ⊕ H → α} (hi : ins ≠ []) (hi32 : ins.length ≤ 32)
    (hik : ∀ n ∈ ins, n ∈ F) (ho : outs ≠ []) (ho32 : outs.length ≤ 32) (hok : ∀ k ∈ outs, nm k ∈ F)
    (d' : N → L ⊕ H → α)
    (hout : ∀ k ∈ outs, d' (nm k) = f (fun n => if n ∈ ins ++ outs.map nm then d n else fun _ => 0) k)
    (hrest : ∀ n ∈ F, n ∉ outs.map nm → d' n = d n) :
    Gives (kernel ins outs nm f s) F d' := by
  have hkeys : s.keys = F := hs.names
  obtain ⟨a, ha⟩ := accessor_some (s := s) hi hi32 (fun n hn => hkeys ▸ hik n hn)
  obtain ⟨b, hb⟩ := accessor_some (s := s) (names := outs.map nm) (by simpa using ho) (by simpa using ho32)
    (fun n hn => by
      rw [List.mem_map] at hn
      obtain ⟨k, hk, rfl⟩ := hn
      exact hkeys ▸ hok k hk)
  unfold kernel
  rw [ha, Option.bind_some, hb, Option.bind_some]
  refine ⟨_, rfl, ⟨h.inj, h.lt, h.le, h.lim⟩, hs.names, fun n hn => ?_⟩
  have hseen : seen s (ins ++ outs.map nm) = fun n => if n ∈ ins ++ outs.map nm then d n else fun _ => 0 := by
    funext m
    unfold seen
    split_ifs with hm
    · refine hs.data m (hkeys ▸ ?_)
      rw [List.mem_append, List.mem_map] at hm
      rcases hm with hm | ⟨k, hk, rfl⟩
      · exact hik m hm
      · exact hok k hk
    · rfl
  have hnF : n ∈ F := hkeys ▸ hn
  simp only [hseen]
  change (match outs.find? fun k => s.idx (nm k) = s.idx n with | Option.some k => _ | none => _) = d' n
  cases hf : outs.find? fun k => s.idx (nm k) = s.idx n with
  | none =>
    rw [List.find?_eq_none] at hf
    simp only
    rw [hs.data n hn, hrest n hnF]
    intro hm
    rw [List.mem_map] at hm
    obtain ⟨k, hk, rfl⟩ := hm
    exact hf k hk (by simp)
  | some k =>
    have h1 := List.mem_of_find?_eq_some hf
    have h2 := List.find?_some hf
    simp only [decide_eq_true_eq] at h2
    have h3 := h.inj _ (hkeys ▸ hok k h1) n hn h2
    subst h3
    exact (hout k h1).symm

theorem look_spec {M : Type} {s : State N L H α} {F : Finset N} {d : N → L ⊕ H → α} (hs : Holds s ⟨F, d⟩)
    {ins : List N} {g : (N → L ⊕ H → α) → M} (hi : ins ≠ []) (hi32 : ins.length ≤ 32) (hik : ∀ n ∈ ins, n ∈ F) :
    look ins g s = some (g fun n => if n ∈ ins then d n else fun _ => 0) := by
  have hkeys : s.keys = F := hs.names
  obtain ⟨a, ha⟩ := accessor_some (s := s) hi hi32 (fun n hn => hkeys ▸ hik n hn)
  unfold look
  rw [ha, Option.map_some]
  congr 2
  funext m
  unfold seen
  split_ifs with hm
  · exact hs.data m (hkeys ▸ hik m hm)
  · rfl

theorem newFields_gives {s : State N L H α} {F : Finset N} {d : N → L ⊕ H → α} (h : Fields.Inv s) (hs : Holds s ⟨F, d⟩)
    {names : List N} (hnd : names.Nodup) (hnew : ∀ n ∈ names, n ∉ F) (hle : F.card + names.length ≤ 64) :
    Gives (newFields s names) (F ∪ names.toFinset) fun n => if n ∈ names then fun _ => 0 else d n :=
  newFields_spec h hs hnd hnew hle

theorem moveField_gives [DecidableEq L] [DecidableEq H] {s : State N L H α} {F : Finset N} {d : N → L ⊕ H → α} (h : Fields.Inv s)
    (hs : Holds s ⟨F, d⟩) {dest src : N} (hsrc : src ∈ F) (hne : dest ≠ src) :
    Gives (moveField s dest src) ((insert dest F).erase src) (Function.update d dest (d src)) := by
  obtain ⟨s', h1, h2, h3⟩ := step_spec h hs (.rename dest src) hsrc (by
    intro n hn
    injection hn with e1 e2
    exact hne (e1.trans e2.symm))
  simp only [Op.meaning, if_neg hne] at h3
  exact ⟨s', h1, h2, h3⟩

theorem deleteField_gives {s : State N L H α} {F : Finset N} {d : N → L ⊕ H → α} (h : Fields.Inv s)
    (hs : Holds s ⟨F, d⟩) (n : N) : Fields.Inv (deleteField s n) ∧ Holds (deleteField s n) ⟨F.erase n, d⟩ := by
  have hkeys : s.keys = F := hs.names
  refine ⟨⟨fun a ha b hb => h.inj a (Finset.mem_of_mem_erase ha) b (Finset.mem_of_mem_erase hb),
    fun a ha => h.lt a (Finset.mem_of_mem_erase ha), h.le, h.lim⟩, ?_, fun a ha => hs.data a (Finset.mem_of_mem_erase ha)⟩
  simp only [deleteField, hkeys]

theorem extendFields_some {s : State N L H α} {F : Finset N} {d : N → L ⊕ H → α} (h : Fields.Inv s) (hs : Holds s ⟨F, d⟩) :
    ∃ s', extendFields s = some s' ∧ Fields.Inv s' ∧ Holds s' ⟨F, d⟩ ∧ s'.idx = s.idx := by
  unfold extendFields
  rw [if_pos ⟨h.lim, h.le⟩]
  refine ⟨_, rfl, ⟨h.inj, fun a ha => lt_of_lt_of_le (h.lt a ha) h.le, le_refl _, h.lim⟩,
    ⟨hs.names, fun n hn => ?_⟩, rfl⟩
  simp only [if_pos (h.lt n hn)]
  exact hs.data n hn

theorem remap_gives {s : State N L H α} {F : Finset N} {d : N → L ⊕ H → α} (h : Fields.Inv s) (hs : Holds s ⟨F, d⟩)
    (f : (L ⊕ H → α) → L ⊕ H → α) (h1 : 1 ≤ F.card) (h32 : F.card ≤ 32) :
    ∃ s', remap f s = some s' ∧ Fields.Inv s' ∧ Holds s' ⟨F, fun n => f (d n)⟩ ∧ ∀ n ∈ s'.keys, s'.idx n = rank s'.keys n := by
  obtain ⟨s1, e1, i1, k1, o1⟩ := remapWith_spec h hs f h1 h32
  obtain ⟨s2, e2, i2, k2, o2⟩ := extendFields_some i1 k1
  refine ⟨s2, by unfold remap; rw [e1, Option.bind_some, e2], i2, k2, fun n hn => ?_⟩
  have hk : s2.keys = s1.keys := k2.names.trans k1.names.symm
  rw [o2, hk]
  exact o1 n (hk ▸ hn)

theorem balance_gives {s : State N L H α} {F : Finset N} {d : N → L ⊕ H → α} (h : Fields.Inv s) (hs : Holds s ⟨F, d⟩)
    (R : (L → α) → L → α) (h1 : 1 ≤ F.card) (h32 : F.card ≤ 32) (hord : ∀ n ∈ s.keys, s.idx n = rank s.keys n) :
    Gives (H := H) (exchangeLoadbalance R s) F fun n => Sum.elim (R fun l => d n (.inl l)) fun _ => 0 := by
  have hkeys : s.keys = F := hs.names
  have hcl := le_trans h.card_le h.le
  have hlim := h.lim
  unfold exchangeLoadbalance realloc
  rw [if_neg (by rw [hkeys]; simp only [maxFieldCount]; omega), Option.bind_some]
  let s1 : State N L H α := ⟨s.keys.card, fun j c => match c with
      | .inl l => if j < s.keys.card then R (fun l => s.U j (.inl l)) l else 0
      | .inr _ => 0, s.keys, rank s.keys, s.maxCount⟩
  have hi : Fields.Inv s1 := ⟨fun a ha b hb e => rank_inj ha hb e, fun a ha => rank_lt ha, hcl, hlim⟩
  have hh : Holds s1 ⟨F, fun n => Sum.elim (R fun l => d n (.inl l)) fun _ => 0⟩ := by
    refine ⟨hkeys, fun n hn => ?_⟩
    have hn' : n ∈ s.keys := hn
    funext c
    change (match c with
      | .inl l => if rank s.keys n < s.keys.card then R (fun l => s.U (rank s.keys n) (.inl l)) l else 0
      | .inr _ => 0) = _
    cases c with
    | inl l =>
      simp only [if_pos (rank_lt hn'), Sum.elim_inl]
      rw [← hord n hn', hs.data n hn']
    | inr c => rfl
  obtain ⟨s2, e2, i2, k2, -⟩ := extendFields_some hi hh
  exact ⟨s2, e2, i2, k2⟩

end Generic

end Verif.StepFields
