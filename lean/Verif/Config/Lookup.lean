import Verif.Config.Props
import Verif.Config.Lower

/-!
# C32: lookups
-/

namespace Verif.Config

/-- Any lookup of the model. -/
def Lookup.run (l : Lookup) (m : Values) : Option (l.T × Values) :=
  match l.default with
  | some d => @getValueDefault l.T l.dec l.codec m l.sec l.name d
  | none => getValue l.codec m l.sec l.name

/-- A sequence of lookups. -/
def runAll (m : Values) (ls : List Lookup) : Option Values :=
  ls.foldlM (fun m l => (l.run m).map (·.2)) m

theorem get?_mem {β : Type} {k : Str} {m : List (Str × β)} {v : β} (h : get? k m = some v) :
    (k, v) ∈ m := by
  unfold get? at h
  obtain ⟨e, h1, h2⟩ := Option.map_eq_some_iff.1 h
  have h3 := List.find?_some h1
  have h4 := List.mem_of_find?_eq_some h1
  simp only [decide_eq_true_eq] at h3
  rw [← h3, ← h2]; exact h4

theorem Normal.nil : Normal [] := ⟨by simp, by simp, by simp, by simp, by simp⟩

/-- Changing an entry keeps the map normal. -/
theorem Normal.alter {m : Values} (h : Normal m) (s n : Str) (f : Option Val → Val) :
    Normal (m.alter (lower s) (lower n) f) := by
  unfold Values.alter
  refine ⟨alter_sorted h.sorted, ?_, ?_, ?_, ?_⟩
  · intro e he
    rcases alter_keys he with he | he
    · rw [he, lower_lower]
    · exact h.lowSec e he
  · intro e he
    rcases mem_alter he with he | rfl | ⟨v, -, rfl⟩
    · exact h.nonempty e he
    · exact alter_ne_nil _
    · exact alter_ne_nil _
  · intro e he
    rcases mem_alter he with he | rfl | ⟨v, hv, rfl⟩
    · exact h.names e he
    · exact alter_sorted (by simp)
    · exact alter_sorted (h.names _ hv)
  · intro e he
    rcases mem_alter he with he | rfl | ⟨v, hv, rfl⟩
    · exact h.lowName e he
    · intro w hw
      rcases alter_keys hw with hw | hw
      · rw [hw, lower_lower]
      · simp at hw
    · intro w hw
      rcases alter_keys hw with hw | hw
      · rw [hw, lower_lower]
      · exact h.lowName _ hv w hw

theorem Values.get?_alter {m : Values} (h : Normal m) (s n s' n' : Str) (f : Option Val → Val) :
    (m.alter s n f).get? s' n' = if s' = s ∧ n' = n then some (f (m.get? s n)) else m.get? s' n' := by
  unfold Values.get? Values.alter
  rw [Config.get?_alter _ _ _ h.sorted]
  by_cases hs : s' = s
  · subst hs
    rw [if_pos rfl, Option.bind_some]
    have hp : ((Config.get? s' m).getD []).Pairwise fun a b => a.1 < b.1 := by
      cases e : Config.get? s' m with
      | none => simp
      | some vs => exact h.names _ (get?_mem e)
    rw [Config.get?_alter _ _ _ hp]
    have e2 : ∀ n, Config.get? n ((Config.get? s' m).getD []) =
        (Config.get? s' m).bind (Config.get? n) := by
      intro n
      cases Config.get? s' m <;> rfl
    by_cases hn : n' = n
    · rw [if_pos hn, if_pos ⟨rfl, hn⟩, e2]
    · rw [if_neg hn, if_neg fun h => hn h.2, e2]
  · rw [if_neg hs, if_neg fun h => hs h.1]

theorem handler_normal (E : List Event) : Normal (E.foldl valueHandler []) := by
  have : ∀ (E : List Event) (m : Values), Normal m → Normal (E.foldl valueHandler m) := by
    intro E
    induction E with
    | nil => intro m h; exact h
    | cons e E ih => intro m h; exact ih _ (h.alter _ _ _)
  exact this E [] .nil

/-- What the file gives. -/
theorem handler_get? (E : List Event) (s n : Str) :
    (E.foldl valueHandler []).get? (lower s) (lower n) =
      (lastGiven E s n).map fun v => ⟨v, true, false⟩ := by
  induction E using List.reverseRecOn with
  | nil => rfl
  | append_singleton E e ih =>
    rw [List.foldl_append, List.foldl_cons, List.foldl_nil]
    rw [valueHandler, Values.get?_alter (handler_normal E)]
    unfold lastGiven
    rw [List.reverse_append, List.reverse_singleton, List.singleton_append]
    by_cases h : lower s = lower e.sec ∧ lower n = lower e.name
    · rw [if_pos h, List.find?_cons_of_pos]
      · rfl
      · exact decide_eq_true ⟨h.1.symm, h.2.symm⟩
    · rw [if_neg h, List.find?_cons_of_neg]
      · exact ih
      · intro h'
        have h' : SameKey e.sec e.name s n := of_decide_eq_true h'
        exact h ⟨h'.1.symm, h'.2.symm⟩

/-- `getValue` of a present key. -/
theorem getValue_spec {T : Type} {c : Codec T} {m : Values} (h : Normal m) (s n : Str) :
    getValue c m s n = (m.get? (lower s) (lower n)).bind fun v => (c.ofStr v.value).map fun t =>
      (t, m.alter (lower s) (lower n) markUsed) := by
  unfold getValue hasValue
  cases e : m.get? (lower s) (lower n) with
  | none => simp
  | some v =>
    rw [if_pos (by simp)]
    simp only
    rw [Values.get?_alter h, if_pos ⟨rfl, rfl⟩, e]
    simp [markUsed]

theorem getValue_result {T : Type} {c : Codec T} {m m' : Values} (h : Normal m) {s n : Str} {t : T}
    (e : getValue c m s n = some (t, m')) :
    ∃ v, m.get? (lower s) (lower n) = some v ∧ c.ofStr v.value = some t ∧ Normal m' ∧
      ∀ s' n', m'.get? (lower s') (lower n') =
        if SameKey s n s' n' then some { v with used := true }
        else m.get? (lower s') (lower n') := by
  rw [getValue_spec h] at e
  obtain ⟨v, hv, e⟩ := Option.bind_eq_some_iff.1 e
  obtain ⟨t', ht, e⟩ := Option.map_eq_some_iff.1 e
  simp only [Prod.mk.injEq] at e
  obtain ⟨rfl, rfl⟩ := e
  refine ⟨v, hv, ht, h.alter _ _ _, fun s' n' => ?_⟩
  rw [Values.get?_alter h, hv]
  by_cases h1 : SameKey s n s' n'
  · rw [if_pos h1, if_pos ⟨h1.1.symm, h1.2.symm⟩]; rfl
  · rw [if_neg h1, if_neg fun h' => h1 ⟨h'.1.symm, h'.2.symm⟩]

theorem getValueDefault_result {T : Type} [DecidableEq T] {c : Codec T} {m m' : Values} (h : Normal m)
    {s n : Str} {d t : T} (e : getValueDefault c m s n d = some (t, m')) :
    Normal m' ∧ ∃ v, c.ofStr v.value = some t ∧
      (m.get? (lower s) (lower n) = some v ∨ m.get? (lower s) (lower n) = none ∧ t = d ∧
        ∃ x, c.toStr d = some x ∧ v = ⟨x, false, false⟩) ∧
      ∀ s' n', m'.get? (lower s') (lower n') =
        if SameKey s n s' n' then some { v with used := true }
        else m.get? (lower s') (lower n') := by
  unfold getValueDefault at e
  simp only at e
  by_cases hp : hasValue m s n = true
  · rw [if_pos hp, Option.bind_some, if_pos hp, if_pos hp] at e
    obtain ⟨⟨t', m''⟩, h1, h2⟩ := Option.bind_eq_some_iff.1 e
    rw [if_pos (Or.inl hp)] at h2
    cases h2
    obtain ⟨v, a1, a2, a3, a4⟩ := getValue_result h h1
    exact ⟨a3, v, a2, Or.inl a1, a4⟩
  · rw [if_neg hp, if_neg hp, if_neg hp] at e
    obtain ⟨m1, h1, h2⟩ := Option.bind_eq_some_iff.1 e
    obtain ⟨x, hx, rfl⟩ := Option.map_eq_some_iff.1 h1
    obtain ⟨⟨t', m''⟩, h3, h4⟩ := Option.bind_eq_some_iff.1 h2
    have hnone : m.get? (lower s) (lower n) = none := by
      unfold hasValue at hp
      simpa using hp
    split at h4
    · rename_i h5
      cases h4
      have h6 : d = t := h5.resolve_left hp
      have hN := h.alter s n (setText x)
      obtain ⟨v, a1, a2, a3, a4⟩ := getValue_result hN h3
      rw [lower_lower, lower_lower, Values.get?_alter h, if_pos ⟨rfl, rfl⟩, hnone] at a1
      simp only [setText, Option.some.injEq] at a1
      subst a1
      refine ⟨a3, _, a2, Or.inr ⟨hnone, h6.symm, x, hx, rfl⟩, fun s' n' => ?_⟩
      rw [a4]
      have hk : SameKey (lower s) (lower n) s' n' ↔ SameKey s n s' n' := by
        unfold SameKey
        rw [lower_lower, lower_lower]
      by_cases h1 : SameKey s n s' n'
      · rw [if_pos h1, if_pos (hk.2 h1)]
      · rw [if_neg h1, if_neg fun h => h1 (hk.1 h), Values.get?_alter h, if_neg fun h' => h1 ⟨h'.1.symm, h'.2.symm⟩]
    · simp at h4

/-- One lookup, with or without default. -/
theorem Lookup.run_result {l : Lookup} {m m' : Values} (h : Normal m) {t : l.T}
    (e : l.run m = some (t, m')) :
    Normal m' ∧ ∃ v, l.codec.ofStr v.value = some t ∧
      (m.get? (lower l.sec) (lower l.name) = some v ∨ m.get? (lower l.sec) (lower l.name) = none ∧
        l.default = some t ∧ ∃ x, l.codec.toStr t = some x ∧ v = ⟨x, false, false⟩) ∧
      ∀ s' n', m'.get? (lower s') (lower n') =
        if SameKey l.sec l.name s' n' then some { v with used := true }
        else m.get? (lower s') (lower n') := by
  unfold Lookup.run at e
  cases hd : l.default with
  | none =>
    rw [hd] at e
    obtain ⟨v, a1, a2, a3, a4⟩ := getValue_result h e
    exact ⟨a3, v, a2, Or.inl a1, a4⟩
  | some d =>
    rw [hd] at e
    obtain ⟨a1, v, a2, a3, a4⟩ := @getValueDefault_result l.T l.dec l.codec m m' h l.sec l.name d t e
    refine ⟨a1, v, a2, ?_, a4⟩
    rcases a3 with a3 | ⟨b1, b2, b3⟩
    · exact Or.inl a3
    · subst b2; exact Or.inr ⟨b1, rfl, b3⟩

theorem SameKey.symm {s n s' n' : Str} (h : SameKey s n s' n') : SameKey s' n' s n :=
  ⟨h.1.symm, h.2.symm⟩

/-- C32: after reading a file and any lookups, an entry has the text last given in the file, otherwise
that of the first default; it is marked as used if and only if it was looked up, and as given in the
file if and only if it was. -/
theorem C32_entries (E : List Event) : ∀ (ls : List Lookup) {m : Values},
    runAll (E.foldl valueHandler []) ls = some m →
    Normal m ∧ (∀ s n, m.get? (lower s) (lower n) = (textOf E ls s n).map fun v =>
        ⟨v, (lastGiven E s n).isSome, ls.any fun l => SameKey l.sec l.name s n⟩) ∧
      ∀ l ∈ ls, (textOf E ls l.sec l.name).isSome := by
  intro ls
  induction ls using List.reverseRecOn with
  | nil =>
    intro m h
    simp only [runAll, List.foldlM_nil, Option.pure_def, Option.some.injEq] at h
    subst h
    refine ⟨handler_normal E, fun s n => ?_, by simp⟩
    rw [handler_get?]
    unfold textOf firstDefault
    cases lastGiven E s n <;> rfl
  | append_singleton ls l ih =>
    intro m h
    unfold runAll at h ih
    rw [List.foldlM_append] at h
    obtain ⟨m0, h0, h⟩ := Option.bind_eq_some_iff.1 h
    obtain ⟨hN, ih, ih2⟩ := ih h0
    simp only [List.foldlM_cons, List.foldlM_nil] at h
    obtain ⟨m1, h1, h⟩ := Option.bind_eq_some_iff.1 h
    simp only [Option.pure_def, Option.some.injEq] at h
    subst h
    obtain ⟨⟨t, m'⟩, h2, rfl⟩ := Option.map_eq_some_iff.1 h1
    obtain ⟨hN', v, hv, hor, hg⟩ := Lookup.run_result hN h2
    have hlast : ∀ s n s' n' : Str, SameKey s n s' n' → textOf E ls s n = textOf E ls s' n' := by
      intro s n s' n' h
      have e : ∀ a b, decide (SameKey a b s n) = decide (SameKey a b s' n') := by
        intro a b
        refine decide_eq_decide.2 ?_
        unfold SameKey
        rw [h.1, h.2]
      unfold textOf lastGiven firstDefault
      simp only [e]
    have hfd : ∀ s n, firstDefault (ls ++ [l]) s n = if ls.any (fun l => SameKey l.sec l.name s n) then
        firstDefault ls s n else if SameKey l.sec l.name s n then l.default.bind l.codec.toStr else
          none := by
      intro s n
      unfold firstDefault
      rw [List.find?_append]
      cases hf : ls.find? fun l => SameKey l.sec l.name s n with
      | some l' =>
        have h1 := List.find?_some hf
        have h2 := List.mem_of_find?_eq_some hf
        rw [if_pos (List.any_eq_true.2 ⟨l', h2, h1⟩)]
        rfl
      | none =>
        rw [if_neg]
        · by_cases hk : SameKey l.sec l.name s n
          · rw [if_pos hk, List.find?_cons_of_pos (by simpa using hk)]; rfl
          · rw [if_neg hk, List.find?_cons_of_neg (by simpa using hk)]; rfl
        · rw [List.any_eq_true]
          rintro ⟨l', h2, h1⟩
          exact List.find?_eq_none.1 hf l' h2 h1
    have hany : ∀ s n, (ls.any fun l => decide (SameKey l.sec l.name s n)) = false →
        firstDefault ls s n = none := by
      intro s n h
      unfold firstDefault
      rw [List.find?_eq_none.2, Option.bind_none]
      intro l' hl' hk
      rw [List.any_eq_false] at h
      exact h l' hl' hk
    have key : ∀ s n, m'.get? (lower s) (lower n) = (textOf E (ls ++ [l]) s n).map fun v =>
        ⟨v, (lastGiven E s n).isSome, (ls ++ [l]).any fun l => SameKey l.sec l.name s n⟩ := ?_
    · refine ⟨hN', key, fun l' hl' => ?_⟩
      have h1 := key l'.sec l'.name
      rw [hg] at h1
      by_cases hk : SameKey l.sec l.name l'.sec l'.name
      · rw [if_pos hk] at h1
        cases h2 : textOf E (ls ++ [l]) l'.sec l'.name with
        | some x => rfl
        | none => rw [h2] at h1; simp at h1
      · rw [if_neg hk, ih] at h1
        rcases List.mem_append.1 hl' with hl' | hl'
        · have h3 := ih2 l' hl'
          cases h2 : textOf E (ls ++ [l]) l'.sec l'.name with
          | some x => rfl
          | none =>
            obtain ⟨x, hx⟩ := Option.isSome_iff_exists.1 h3
            rw [h2, hx] at h1; simp at h1
        · rw [List.mem_singleton.1 hl'] at hk
          exact absurd ⟨rfl, rfl⟩ hk
    intro s n
    rw [hg]
    by_cases hk : SameKey l.sec l.name s n
    · rw [if_pos hk]
      have hs : lower s = lower l.sec := hk.1.symm
      have hn : lower n = lower l.name := hk.2.symm
      have hih := ih s n
      rw [hs, hn] at hih
      rw [hih] at hor
      have hu : ((ls ++ [l]).any fun l => decide (SameKey l.sec l.name s n)) = true := by
        simp [hk]
      rw [hu]
      rcases hor with hor | ⟨hor, hdef, x, hx, rfl⟩
      · obtain ⟨w, hw, rfl⟩ := Option.map_eq_some_iff.1 hor
        have : textOf E (ls ++ [l]) s n = some w := by
          unfold textOf at hw ⊢
          cases hlg : lastGiven E s n with
          | some y => rw [hlg] at hw; exact hw
          | none =>
            rw [hlg, Option.none_or] at hw
            rw [Option.none_or, hfd, if_pos]
            · exact hw
            · by_contra hcon
              rw [Bool.not_eq_true] at hcon
              rw [hany s n hcon] at hw
              simp at hw
        rw [this]
        rfl
      · rw [Option.map_eq_none_iff] at hor
        unfold textOf at hor
        have hlg : lastGiven E s n = none := (Option.or_eq_none_iff.1 hor).1
        have hfn : firstDefault ls s n = none := (Option.or_eq_none_iff.1 hor).2
        have hnone : m0.get? (lower l.sec) (lower l.name) = none := by
          rw [hih, Option.map_eq_none_iff]
          exact hor
        have hno : (ls.any fun l => decide (SameKey l.sec l.name s n)) = false := by
          by_contra hcon
          rw [Bool.not_eq_false, List.any_eq_true] at hcon
          obtain ⟨l', hl', hk'⟩ := hcon
          have h3 := ih2 l' hl'
          rw [hlast _ _ _ _ (of_decide_eq_true hk')] at h3
          unfold textOf at h3
          rw [hor] at h3
          simp at h3
        have : textOf E (ls ++ [l]) s n = some x := by
          unfold textOf
          rw [hlg, Option.none_or, hfd, if_neg (by simp [hno]), if_pos hk, hdef]
          exact hx
        rw [this, hlg]
        rfl
    · rw [if_neg hk, ih]
      have h1 : textOf E (ls ++ [l]) s n = textOf E ls s n := by
        unfold textOf
        rw [hfd]
        split
        · rfl
        · rename_i h
          rw [hany s n (by simpa using h)]
      have h2 : ((ls ++ [l]).any fun l => decide (SameKey l.sec l.name s n)) =
          ls.any fun l => decide (SameKey l.sec l.name s n) := by
        simp [hk]
      rw [h1, h2]

/-- C32: the value returned is that of the text given, otherwise the default; the same lookup with any
default then returns the same value. -/
theorem C32_lookup {E : List Event} {ls : List Lookup} {m m' : Values}
    (hrun : runAll (E.foldl valueHandler []) ls = some m) {T : Type} [DecidableEq T] {c : Codec T}
    {s n : Str} {d t : T} (h : getValueDefault c m s n d = some (t, m')) :
    (match textOf E ls s n with
      | some x => c.ofStr x = some t
      | none => t = d) ∧
    ∀ s' n' d', SameKey s n s' n' → ∃ m'', getValueDefault c m' s' n' d' = some (t, m'') := by
  obtain ⟨hN, hg, -⟩ := C32_entries E ls hrun
  obtain ⟨hN', v, hv, hor, hg'⟩ := getValueDefault_result hN h
  constructor
  · rw [hg] at hor
    rcases hor with hor | ⟨hor, ht, -⟩
    · obtain ⟨x, hx, rfl⟩ := Option.map_eq_some_iff.1 hor
      rw [hx]
      exact hv
    · rw [Option.map_eq_none_iff] at hor
      rw [hor]
      exact ht
  · intro s' n' d' hk
    have h1 : m'.get? (lower s') (lower n') = some { v with used := true } := by
      rw [hg', if_pos hk]
    have hp : hasValue m' s' n' = true := by
      unfold hasValue
      rw [h1]; rfl
    unfold getValueDefault
    simp only
    rw [if_pos hp, Option.bind_some, if_pos hp, if_pos hp, getValue_spec hN', h1]
    simp only [Option.bind_some]
    rw [hv]
    exact ⟨_, by rw [Option.map_some, Option.bind_some, if_pos (Or.inl hp)]⟩

/-- C32: a lookup succeeds if the text can be converted, or if there is no text and the default survives
the conversion; without text and without default it fails. -/
theorem C32_lookup_succeeds {E : List Event} {ls : List Lookup} {m : Values}
    (hrun : runAll (E.foldl valueHandler []) ls = some m) {T : Type} [DecidableEq T] {c : Codec T}
    (s n : Str) :
    (∀ x t d, textOf E ls s n = some x → c.ofStr x = some t →
      ∃ m', getValueDefault c m s n d = some (t, m')) ∧
    (∀ d, textOf E ls s n = none → (c.toStr d).bind c.ofStr = some d →
      ∃ m', getValueDefault c m s n d = some (d, m')) ∧
    (textOf E ls s n = none → getValue c m s n = none) := by
  obtain ⟨hN, hg, -⟩ := C32_entries E ls hrun
  refine ⟨?_, ?_, ?_⟩
  · intro x t d hx ht
    have h1 := hg s n
    rw [hx, Option.map_some] at h1
    have hp : hasValue m s n = true := by
      unfold hasValue
      rw [h1]; rfl
    unfold getValueDefault
    simp only
    rw [if_pos hp, Option.bind_some, if_pos hp, if_pos hp, getValue_spec hN, h1]
    simp only [Option.bind_some]
    rw [ht]
    exact ⟨_, by rw [Option.map_some, Option.bind_some, if_pos (Or.inl hp)]⟩
  · intro d hx hd
    have h1 := hg s n
    rw [hx, Option.map_none] at h1
    have hp : ¬ hasValue m s n = true := by
      unfold hasValue
      rw [h1]; simp
    obtain ⟨x, hx, hd⟩ := Option.bind_eq_some_iff.1 hd
    unfold getValueDefault
    simp only
    rw [if_neg hp, if_neg hp, if_neg hp, hx, Option.map_some, Option.bind_some,
      getValue_spec (hN.alter _ _ _), lower_lower, lower_lower, Values.get?_alter hN,
      if_pos ⟨rfl, rfl⟩, h1]
    simp only [setText, Option.bind_some]
    rw [hd]
    exact ⟨_, by rw [Option.map_some, Option.bind_some, if_pos (Or.inr rfl)]⟩
  · intro hx
    rw [getValue_spec hN, hg, hx]
    rfl

/-- C32: in the written configuration there is a line for every entry; it says "Unused" if and only if
no lookup asked for it, and "Default" if and only if it is not in the file. -/
theorem C32_unused_reported {E : List Event} {ls : List Lookup} {m : Values}
    (hrun : runAll (E.foldl valueHandler []) ls = some m) (s n x : Str)
    (hx : textOf E ls s n = some x) :
    ∃ (a b : ℕ) (pre post : Str), output m = pre ++
      (lower n ++ List.replicate a ' ' ++ [' ', '=', ' '] ++ x ++ List.replicate b ' ' ++
        (if ∃ l ∈ ls, SameKey l.sec l.name s n then [] else " ; Unused".toList) ++
        (if ∃ e ∈ E, SameKey e.sec e.name s n then [] else " ; Default".toList) ++ ['\n']) ++ post := by
  obtain ⟨-, hg, -⟩ := C32_entries E ls hrun
  have h1 := hg s n
  rw [hx, Option.map_some] at h1
  obtain ⟨vs, h2, h3⟩ := Option.bind_eq_some_iff.1 h1
  have h4 := get?_mem h2
  have h5 := get?_mem h3
  obtain ⟨m1, m2, hm⟩ := List.append_of_mem h4
  obtain ⟨v1, v2, hvs⟩ := List.append_of_mem h5
  have hu : (ls.any fun l => decide (SameKey l.sec l.name s n)) =
      decide (∃ l ∈ ls, SameKey l.sec l.name s n) := by
    rw [Bool.eq_iff_iff, List.any_eq_true]
    simp
  have hf : (lastGiven E s n).isSome = decide (∃ e ∈ E, SameKey e.sec e.name s n) := by
    unfold lastGiven
    rw [Bool.eq_iff_iff, Option.isSome_map, List.find?_isSome]
    simp
  rw [hu, hf] at hvs
  refine ⟨max (lower n).length 20 - (lower n).length, max x.length 20 - x.length,
    output m1 ++ ('[' :: lower s ++ [']', '\n']) ++ (v1.flatMap fun v => varLine v.1 v.2 ++ ['\n']),
    (v2.flatMap fun v => varLine v.1 v.2 ++ ['\n']) ++ output m2, ?_⟩
  have e1 : output m = output m1 ++ (('[' :: lower s ++ [']', '\n']) ++
      vs.flatMap fun v => varLine v.1 v.2 ++ ['\n']) ++ output m2 := by
    rw [hm]; unfold output; simp
  rw [e1, hvs, List.flatMap_append, List.flatMap_cons]
  have e2 : ∀ (u f : Bool), varLine (lower n) ⟨x, f, u⟩ = lower n ++
      List.replicate (max (lower n).length 20 - (lower n).length) ' ' ++ [' ', '=', ' '] ++ x ++
      List.replicate (max x.length 20 - x.length) ' ' ++
      (if u then [] else " ; Unused".toList) ++ (if f then [] else " ; Default".toList) := by
    intro u f
    unfold varLine padRight
    simp only [List.append_assoc]
    cases u <;> cases f <;> rfl
  rw [e2]
  simp only [decide_eq_true_eq, List.append_assoc]

end Verif.Config
