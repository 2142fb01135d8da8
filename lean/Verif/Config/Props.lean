import Verif.Config.Write
import Mathlib.Tactic.Basic
import Mathlib.Order.Basic

/-!
# C31, C32: configuration files and lookups
-/

namespace Verif.Config

/-! ### Maps -/

theorem alter_last {β : Type} {k : Str} {f : Option β → β} : ∀ {m : List (Str × β)},
    (∀ e ∈ m, e.1 < k) → alter k f m = m ++ [(k, f none)]
  | [], _ => rfl
  | (k', v) :: m, h => by
    have h1 : k' < k := h (k', v) (by simp)
    rw [alter, if_neg h1.ne', if_neg h1.asymm, alter_last fun e he => h e (by simp [he])]
    rfl

theorem alter_at_last {β : Type} {k : Str} {f : Option β → β} {v : β} : ∀ {m : List (Str × β)},
    (∀ e ∈ m, e.1 < k) → alter k f (m ++ [(k, v)]) = m ++ [(k, f (some v))]
  | [], _ => by simp [alter]
  | (k', v') :: m, h => by
    have h1 : k' < k := h (k', v') (by simp)
    rw [List.cons_append, alter, if_neg h1.ne', if_neg h1.asymm,
      alter_at_last fun e he => h e (by simp [he])]
    rfl

theorem get?_cons {β : Type} (k k' : Str) (v : β) (m : List (Str × β)) :
    get? k ((k', v) :: m) = if k' = k then some v else get? k m := by
  unfold get?
  by_cases h : k' = k
  · rw [List.find?_cons_of_pos (by simpa using h), if_pos h]; rfl
  · rw [List.find?_cons_of_neg (by simpa using h), if_neg h]

/-- In a sorted map only the entry of the key changes. -/
theorem get?_alter {β : Type} (k k' : Str) (f : Option β → β) : ∀ {m : List (Str × β)},
    m.Pairwise (fun a b => a.1 < b.1) →
    get? k' (alter k f m) = if k' = k then some (f (get? k m)) else get? k' m
  | [], _ => by
    rw [alter, get?_cons]
    by_cases h : k = k'
    · subst h; rw [if_pos rfl, if_pos rfl]; rfl
    · rw [if_neg h, if_neg (Ne.symm h)]
  | (k₁, v) :: m, h => by
    rw [List.pairwise_cons] at h
    rw [alter]
    split
    · rename_i e
      subst e
      rw [get?_cons, get?_cons]
      by_cases e : k = k'
      · subst e; simp
      · rw [if_neg e, if_neg (Ne.symm e), get?_cons, if_neg e]
    · rename_i e1
      split
      · rename_i e2
        have hno : get? k ((k₁, v) :: m) = none := by
          unfold get?
          rw [Option.map_eq_none_iff, List.find?_eq_none]
          intro x hx
          rcases List.mem_cons.1 hx with rfl | hx
          · simpa using Ne.symm e1
          · simpa using (lt_trans e2 (h.1 x hx)).ne'
        rw [get?_cons, hno]
        by_cases e : k = k'
        · rw [if_pos e, if_pos e.symm]
        · rw [if_neg e, if_neg (Ne.symm e)]
      · rw [get?_cons, get?_cons, get?_alter k k' f h.2, get?_cons, if_neg (Ne.symm e1)]
        by_cases e : k' = k
        · subst e; rw [if_neg (Ne.symm e1), if_pos rfl, if_pos rfl]
        · rw [if_neg e, if_neg e]

theorem alter_keys {β : Type} {k : Str} {f : Option β → β} : ∀ {m : List (Str × β)} {e : Str × β},
    e ∈ alter k f m → e.1 = k ∨ e ∈ m
  | [], e, h => by simp only [alter, List.mem_singleton] at h; subst h; exact Or.inl rfl
  | (k₁, v) :: m, e, h => by
    rw [alter] at h
    split at h
    · rcases List.mem_cons.1 h with rfl | h
      · exact Or.inl rfl
      · exact Or.inr (by simp [h])
    · split at h
      · rcases List.mem_cons.1 h with rfl | h
        · exact Or.inl rfl
        · exact Or.inr h
      · rcases List.mem_cons.1 h with rfl | h
        · exact Or.inr (by simp)
        · rcases alter_keys h with h | h
          · exact Or.inl h
          · exact Or.inr (by simp [h])

/-- An entry of the changed map is an old one or the changed one. -/
theorem mem_alter {β : Type} {k : Str} {f : Option β → β} : ∀ {m : List (Str × β)} {e : Str × β},
    e ∈ alter k f m → (e ∈ m) ∨ (e = (k, f none)) ∨ ∃ v, (k, v) ∈ m ∧ e = (k, f (some v))
  | [], e, h => by simp only [alter, List.mem_singleton] at h; exact Or.inr (Or.inl h)
  | (k₁, v) :: m, e, h => by
    rw [alter] at h
    split at h
    · rename_i e1
      subst e1
      rcases List.mem_cons.1 h with rfl | h
      · exact Or.inr (Or.inr ⟨v, by simp, rfl⟩)
      · exact Or.inl (by simp [h])
    · split at h
      · rcases List.mem_cons.1 h with rfl | h
        · exact Or.inr (Or.inl rfl)
        · exact Or.inl h
      · rcases List.mem_cons.1 h with rfl | h
        · exact Or.inl (by simp)
        · rcases mem_alter h with h | h | ⟨w, h1, h2⟩
          · exact Or.inl (by simp [h])
          · exact Or.inr (Or.inl h)
          · exact Or.inr (Or.inr ⟨w, by simp [h1], h2⟩)

theorem alter_sorted {β : Type} {k : Str} {f : Option β → β} : ∀ {m : List (Str × β)},
    m.Pairwise (fun a b => a.1 < b.1) → (alter k f m).Pairwise fun a b => a.1 < b.1
  | [], _ => by simp [alter]
  | (k₁, v) :: m, h => by
    have h' := h
    rw [List.pairwise_cons] at h'
    rw [alter]
    split
    · rename_i e
      subst e
      exact List.pairwise_cons.2 ⟨h'.1, h'.2⟩
    · rename_i e1
      split
      · rename_i e2
        refine List.pairwise_cons.2 ⟨fun e he => ?_, h⟩
        rcases List.mem_cons.1 he with rfl | he
        · exact e2
        · exact lt_trans e2 (h'.1 e he)
      · rename_i e2
        refine List.pairwise_cons.2 ⟨fun e he => ?_, alter_sorted h'.2⟩
        rcases alter_keys he with he | he
        · rw [he]; exact lt_of_le_of_ne (not_lt.1 e2) (Ne.symm e1)
        · exact h'.1 e he

theorem alter_ne_nil {β : Type} {k : Str} {f : Option β → β} (m : List (Str × β)) :
    alter k f m ≠ [] := by
  cases m with
  | nil => simp [alter]
  | cons e m =>
    obtain ⟨k', v⟩ := e
    rw [alter]
    split
    · simp
    · split <;> simp

/-! ### C31 -/

theorem fold_vars {sec : Str} (hsec : lower sec = sec) : ∀ (vs done : List (Str × Val)) (m : Values),
    (∀ s ∈ m, s.1 < sec) → (done ++ vs).Pairwise (fun a b => a.1 < b.1) →
    (∀ v ∈ vs, lower v.1 = v.1) → done ≠ [] →
    (vs.map fun v => (⟨sec, v.1, v.2.value⟩ : Event)).foldl valueHandler (m ++ [(sec, done)]) =
      m ++ [(sec, done ++ vs.map fun v => (v.1, ⟨v.2.value, true, false⟩))]
  | [], done, m, _, _, _, _ => by simp
  | v :: vs, done, m, hm, hd, hl, h0 => by
    rw [List.map_cons, List.foldl_cons]
    have hlast : ∀ e ∈ done, e.1 < v.1 := fun e he => (List.pairwise_append.1 hd).2.2 e he v (by simp)
    have e1 : valueHandler (m ++ [(sec, done)]) ⟨sec, v.1, v.2.value⟩ =
        m ++ [(sec, done ++ [(v.1, ⟨v.2.value, true, false⟩)])] := by
      unfold valueHandler Values.alter
      simp only
      rw [hsec, hl v (by simp), alter_at_last hm, Option.getD_some, alter_last hlast]
    rw [e1, fold_vars hsec vs _ m hm ?_ (fun w hw => hl w (by simp [hw])) (by simp)]
    · simp
    · have h2 := List.pairwise_append.1 hd
      have h3 := List.pairwise_cons.1 h2.2.1
      rw [List.append_assoc]
      refine List.pairwise_append.2 ⟨h2.1, List.pairwise_cons.2 ⟨fun e he => h3.1 e he, h3.2⟩, ?_⟩
      intro a ha b hb
      rcases List.mem_append.1 hb with hb | hb
      · rw [List.mem_singleton.1 hb]; exact hlast a ha
      · exact h2.2.2 a ha b (by simp [hb])

theorem fold_events : ∀ (m done : Values), Normal (done ++ m) →
    (eventsOf m).foldl valueHandler (asRead done) = asRead (done ++ m)
  | [], done, _ => by simp [eventsOf]
  | s :: m, done, h => by
    obtain ⟨sec, vs⟩ := s
    have hs : (sec, vs) ∈ done ++ (sec, vs) :: m := by simp
    have hlt : ∀ s ∈ asRead done, s.1 < sec := by
      intro s hs
      unfold asRead at hs
      obtain ⟨s', hs', rfl⟩ := List.mem_map.1 hs
      exact (List.pairwise_append.1 h.sorted).2.2 s' hs' (sec, vs) (by simp)
    have e1 : (vs.map fun v => (⟨sec, v.1, v.2.value⟩ : Event)).foldl valueHandler (asRead done) =
        asRead (done ++ [(sec, vs)]) := by
      cases vs with
      | nil => exact absurd rfl (h.nonempty _ hs)
      | cons v vs =>
        rw [List.map_cons, List.foldl_cons]
        have e2 : valueHandler (asRead done) ⟨sec, v.1, v.2.value⟩ =
            asRead done ++ [(sec, [(v.1, ⟨v.2.value, true, false⟩)])] := by
          unfold valueHandler Values.alter
          simp only
          rw [h.lowSec _ hs, h.lowName _ hs v (by simp), alter_last hlt]
          rfl
        rw [e2, fold_vars (h.lowSec _ hs) vs _ _ hlt ?_ (fun w hw => h.lowName _ hs w (by simp [hw]))
          (by simp)]
        · simp [asRead]
        · have h3 := List.pairwise_cons.1 (h.names _ hs)
          exact List.pairwise_cons.2 ⟨fun e he => h3.1 e he, h3.2⟩
    have e3 : eventsOf ((sec, vs) :: m) =
        (vs.map fun v => (⟨sec, v.1, v.2.value⟩ : Event)) ++ eventsOf m := by
      simp [eventsOf]
    rw [e3, List.foldl_append, e1, fold_events m (done ++ [(sec, vs)]) (by simpa using h)]
    simp

theorem asRead_get? (m : Values) (s n : Str) :
    ((asRead m).get? s n).map (·.value) = (m.get? s n).map (·.value) := by
  have h1 : ∀ (vs : List (Str × Val)), (get? n (vs.map fun v => (v.1,
      (⟨v.2.value, true, false⟩ : Val)))).map (·.value) = (get? n vs).map (·.value) := by
    intro vs
    induction vs with
    | nil => rfl
    | cons v vs ih =>
      rw [List.map_cons, get?_cons, show v = (v.1, v.2) from rfl, get?_cons]
      split
      · rfl
      · exact ih
  unfold Values.get?
  induction m with
  | nil => rfl
  | cons e m ih =>
    have e1 : asRead (e :: m) = (e.1, e.2.map fun v => (v.1, (⟨v.2.value, true, false⟩ : Val))) ::
      asRead m := rfl
    rw [e1, get?_cons, show e = (e.1, e.2) from rfl, get?_cons]
    split
    · exact h1 e.2
    · exact ih

/-- C31: a written configuration is read back without error and with the same sections, names and
values (all marked as given in the file). -/
theorem C31_written_config_reads_back {m : Values} (hn : Normal m) (hw : Writable m) :
    ∃ st, iniParseString (output m) = some st ∧ st.error = 0 ∧
      st.events.foldl valueHandler [] = asRead m ∧
      ∀ s n, ((st.events.foldl valueHandler []).get? s n).map (·.value) = (m.get? s n).map (·.value) := by
  obtain ⟨st, h1, h2, h3⟩ := parse_output hw
  have e : st.events.foldl valueHandler [] = asRead m := by
    rw [h3]
    have := fold_events m [] (by simpa using hn)
    simpa [asRead] using this
  exact ⟨st, h1, h2, e, fun s n => by rw [e]; exact asRead_get? m s n⟩

end Verif.Config
