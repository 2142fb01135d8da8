import Verif.Config.Read

/-!
# Reading what was written: files
-/

namespace Verif.Config

theorem lskip_stripped {s w : Str} {c : Char} (hc : isSpace c = false) :
    lskip (rstrip (c :: s ++ w)) = rstrip (c :: s ++ w) := by
  refine lskip_eq fun x hx => ?_
  rw [List.cons_append, show c :: (s ++ w) = [] ++ c :: (s ++ w) from rfl, rstrip_mid hc] at hx
  simp only [List.nil_append, List.head?_cons, Option.some.injEq] at hx
  rw [← hx]; exact hc

theorem not_bom_bracket (s : Str) : ¬ bom <+: '[' :: s := by
  rintro ⟨t, h⟩
  unfold bom at h
  simp only [List.cons_append, List.cons.injEq] at h
  exact absurd h.1 (by decide)

theorem parseLine_section {s : Str} (h : GoodSection s) (lineno : ℕ) (st : ParseState) :
    parseLine lineno ('[' :: s ++ [']'] ++ ['\n']) st = { st with sec := s, prevName := [] } := by
  have e1 : rstrip ('[' :: s ++ [']'] ++ ['\n']) = '[' :: s ++ [']'] := by
    rw [rstrip_append (by decide), rstrip_eq]
    intro c hc
    rw [List.getLast?_append] at hc
    simp only [List.getLast?_singleton, Option.some_or, Option.some.injEq] at hc
    rw [← hc]; rfl
  have e2 : lskip ('[' :: s ++ [']']) = '[' :: s ++ [']'] := lskip_eq fun c hc => by
    simp only [List.cons_append, List.head?_cons, Option.some.injEq] at hc
    rw [← hc]; rfl
  have hb : ¬(lineno = 1 ∧ bom <+: '[' :: s ++ [']'] ++ ['\n']) := fun h => not_bom_bracket _ h.2
  have e3 : findCharsOrComment [']'] false (s ++ [']']) = (s, [']']) := by
    rw [find_append]
    · simp [findCharsOrComment]
    · refine clean_of (fun c hc => ?_) h.comment (fun h => absurd h (by decide))
      simp only [List.mem_singleton]
      intro e
      exact h.close (e ▸ hc)
  unfold parseLine
  simp only [if_neg hb]
  rw [e1, e2]
  simp only [List.cons_append]
  rw [if_neg (by decide), if_neg (by rintro ⟨-, h | h⟩; exacts [hb h, h rfl]), if_pos trivial, e3]
  simp only [strncpy0]
  rw [List.take_of_length_le (by have := h.short; omega)]

/-- The value read from what follows `=`. -/
theorem value_read {v : Str} (h : GoodValue v) (n : ℕ) (suf : Str)
    (hs : suf = [] ∨ (∃ t, suf = ' ' :: ';' :: t) ∧ ∀ c, suf.getLast? = some c → isSpace c = false) :
    rstrip (lskip (findCharsOrComment [] false
      (rstrip (' ' :: v ++ List.replicate n ' ' ++ suf ++ ['\n']))).1) = v := by
  have hv : Clean [] true v := clean_of (by simp) h.comment (fun _ c hc => h.first c hc)
  have hbl : ∀ c ∈ List.replicate n ' ', isSpace c = true := fun c hc => by
    rw [List.eq_of_mem_replicate hc]; rfl
  have hsp : Clean [] false (' ' :: v) := ⟨by simp, by simp, hv⟩
  have hlv : lskip v = v := lskip_eq h.trimmed.1
  have hrv : rstrip v = v := rstrip_eq h.trimmed.2
  rw [rstrip_append (by decide)]
  rcases hs with rfl | ⟨⟨t, rfl⟩, hlast⟩
  · rw [List.append_nil, rstrip_append hbl]
    by_cases h0 : v = []
    · subst h0; rfl
    · have e : rstrip (' ' :: v) = ' ' :: v := rstrip_eq fun c hc => by
        refine h.trimmed.2 c ?_
        rw [List.getLast?_cons] at hc
        cases h1 : v.getLast? with
        | none => exact absurd (List.getLast?_eq_none_iff.1 h1) h0
        | some d => rw [h1] at hc; exact hc
      rw [e, find_clean hsp, show ' ' :: v = [' '] ++ v from rfl, lskip_append (by decide), hlv, hrv]
  · have e : rstrip (' ' :: v ++ List.replicate n ' ' ++ ' ' :: ';' :: t) =
        ' ' :: v ++ List.replicate n ' ' ++ ' ' :: ';' :: t := rstrip_eq fun c hc => by
      refine hlast c ?_
      rw [List.getLast?_append] at hc
      cases h1 : (' ' :: ';' :: t).getLast? with
      | none => exact absurd (List.getLast?_eq_none_iff.1 h1) (by simp)
      | some d => rw [h1] at hc; exact hc
    rw [e, show ' ' :: v ++ List.replicate n ' ' ++ ' ' :: ';' :: t =
      (' ' :: v ++ List.replicate n ' ' ++ [' ']) ++ ';' :: t by simp, find_append]
    · have e2 : endSpace false (' ' :: v ++ List.replicate n ' ' ++ [' ']) = true := by
        have : ∀ (w : Bool) (a : Str), endSpace w (a ++ [' ']) = true := by
          intro w a
          induction a generalizing w with
          | nil => rfl
          | cons c a ih => exact ih _
        exact this _ _
      rw [e2, show findCharsOrComment [] true (';' :: t) = ([], ';' :: t) by simp [findCharsOrComment]]
      simp only [List.append_nil]
      rw [show ' ' :: v ++ List.replicate n ' ' ++ [' '] = [' '] ++ (v ++ (List.replicate n ' ' ++ [' ']))
        by simp, lskip_append (by decide)]
      by_cases h0 : v = []
      · subst h0
        rw [List.nil_append]
        have : lskip (List.replicate n ' ' ++ [' ']) = [] := by
          rw [lskip_append hbl]; rfl
        rw [this]; rfl
      · rw [lskip_eq (s := v ++ _), rstrip_append, hrv]
        · intro c hc
          rcases List.mem_append.1 hc with hc | hc
          · exact hbl c hc
          · rw [List.mem_singleton.1 hc]; rfl
        · intro c hc
          refine h.trimmed.1 c ?_
          rw [List.head?_append] at hc
          cases h1 : v.head? with
          | none => exact absurd (List.head?_eq_none_iff.1 h1) h0
          | some d => rw [h1] at hc; exact hc
    · refine clean_append (clean_append hsp (clean_blanks (by simp) n)) ⟨by simp, by simp, trivial⟩

theorem varLine_eq (name : Str) (v : Val) : ∃ n n' suf, varLine name v =
    name ++ List.replicate n ' ' ++ [' '] ++ '=' :: (' ' :: v.value ++ List.replicate n' ' ' ++ suf) ∧
      (suf = [] ∨ (∃ t, suf = ' ' :: ';' :: t) ∧ ∀ c, suf.getLast? = some c → isSpace c = false) ∧
      '\n' ∉ suf ∧ '\x00' ∉ suf ∧
      suf.length = (if v.used then 0 else 9) + (if v.fromFile then 0 else 10) ∧
      name.length + n = max name.length 20 ∧ v.value.length + n' = max v.value.length 20 := by
  refine ⟨max name.length 20 - name.length, max v.value.length 20 - v.value.length,
    (if v.used then [] else [' ', ';', ' ', 'U', 'n', 'u', 's', 'e', 'd']) ++
      (if v.fromFile then [] else [' ', ';', ' ', 'D', 'e', 'f', 'a', 'u', 'l', 't']),
    ?_, ?_, ?_, ?_, ?_, by omega, by omega⟩
  · unfold varLine padRight
    simp only [List.append_assoc, List.cons_append, List.nil_append]
  · cases v.used <;> cases v.fromFile
    · exact Or.inr ⟨⟨_, rfl⟩, by decide⟩
    · exact Or.inr ⟨⟨_, rfl⟩, by decide⟩
    · exact Or.inr ⟨⟨_, rfl⟩, by decide⟩
    · exact Or.inl rfl
  all_goals cases v.used <;> cases v.fromFile <;> decide

theorem parseLine_var {name : Str} {v : Val} (hn : GoodName name) (hv : GoodValue v.value) {lineno : ℕ}
    (hl : lineno ≠ 1) (st : ParseState) :
    parseLine lineno (varLine name v ++ ['\n']) st =
      { st with prevName := strncpy0 name 50 }.call name v.value := by
  obtain ⟨n, n', suf, e, hs, -⟩ := varLine_eq name v
  rw [e]
  clear e
  cases name with
  | nil => exact absurd rfl hn.nonempty
  | cons c name =>
    have hc : isSpace c = false := hn.trimmed.1 c rfl
    have hbl : ∀ c ∈ List.replicate n ' ', isSpace c = true := fun c hc => by
      rw [List.eq_of_mem_replicate hc]; rfl
    generalize hw : ' ' :: v.value ++ List.replicate n' ' ' ++ suf = w
    have e1 : rstrip (c :: name ++ List.replicate n ' ' ++ [' '] ++ '=' :: w ++ ['\n']) =
        c :: name ++ List.replicate n ' ' ++ [' '] ++ '=' :: rstrip (w ++ ['\n']) := by
      rw [List.append_assoc, List.cons_append (as := w), rstrip_mid (by rfl)]
    have hval : rstrip (lskip (findCharsOrComment [] false (rstrip (w ++ ['\n']))).1) = v.value := by
      rw [← hw]; exact value_read hv n' suf hs
    have e2 : lskip (c :: name ++ List.replicate n ' ' ++ [' '] ++ '=' :: rstrip (w ++ ['\n'])) =
        c :: name ++ List.replicate n ' ' ++ [' '] ++ '=' :: rstrip (w ++ ['\n']) :=
      lskip_eq fun x hx => by
        simp only [List.cons_append, List.head?_cons, Option.some.injEq] at hx
        rw [← hx]; exact hc
    have e3 : findCharsOrComment ['=', ':'] false
        (c :: name ++ List.replicate n ' ' ++ [' '] ++ '=' :: rstrip (w ++ ['\n'])) =
        (c :: name ++ List.replicate n ' ' ++ [' '], '=' :: rstrip (w ++ ['\n'])) := by
      rw [find_append]
      · simp [findCharsOrComment]
      · refine clean_append (clean_append ?_ (clean_blanks (by decide) n)) ⟨by decide, by simp, trivial⟩
        refine clean_of (fun x hx => ?_) hn.comment (fun h => absurd h (by decide))
        simp only [List.mem_cons, List.not_mem_nil, or_false, not_or]
        exact ⟨fun e => hn.eq (e ▸ hx), fun e => hn.colon (e ▸ hx)⟩
    have e4 : rstrip (c :: name ++ List.replicate n ' ' ++ [' ']) = c :: name := by
      rw [rstrip_append (by decide), rstrip_append hbl, rstrip_eq hn.trimmed.2]
    have hf := hn.first c rfl
    unfold parseLine
    simp only [if_neg (show ¬(lineno = 1 ∧ _) from fun h => hl h.1)]
    rw [e1, e2]
    simp only [List.cons_append] at e3 e4 ⊢
    rw [if_neg (by rintro (h | h); exacts [hf.1 h, hf.2.1 h]),
      if_neg (by rintro ⟨-, h | h⟩; exacts [hl h.1, h rfl]), if_neg hf.2.2, e3]
    simp only [true_or, if_true]
    rw [e4, hval]

theorem varLine_newline {name : Str} {v : Val} (hn : GoodName name) (hv : GoodValue v.value) :
    '\n' ∉ varLine name v ∧ '\x00' ∉ varLine name v ∧ (varLine name v).length = width name v := by
  obtain ⟨n, n', suf, e, -, h1, h2, h3, h4, h5⟩ := varLine_eq name v
  rw [e]
  refine ⟨?_, ?_, ?_⟩
  · have := hn.line.1
    have := hv.line.1
    simp [*]
  · have := hn.line.2
    have := hv.line.2
    simp [*]
  · simp only [List.length_append, List.length_cons, List.length_replicate, List.length_nil]
    unfold width
    omega

/-- The calls of the handler for a configuration that was written. -/
def eventsOf (m : Values) : List Event :=
  m.flatMap fun s => s.2.map fun v => ⟨s.1, v.1, v.2.value⟩

theorem parseLoop_vars {sec : Str} : ∀ (vs : List (Str × Val)),
    (∀ v ∈ vs, GoodName v.1 ∧ GoodValue v.2.value ∧ width v.1 v.2 ≤ 198) →
    ∀ (rest : Str) (fuel lineno : ℕ) (prev : Str) (ev : List Event), 0 < lineno →
    ((vs.flatMap fun v => varLine v.1 v.2 ++ ['\n']) ++ rest).length ≤ fuel →
    ∃ lineno' prev', 0 < lineno' ∧
      parseLoop fuel lineno ((vs.flatMap fun v => varLine v.1 v.2 ++ ['\n']) ++ rest)
        ⟨sec, prev, 0, ev⟩ =
      parseLoop fuel lineno' rest ⟨sec, prev', 0, ev ++ vs.map fun v => ⟨sec, v.1, v.2.value⟩⟩
  | [], _, rest, fuel, lineno, prev, ev, h0, _ => ⟨lineno, prev, h0, by simp⟩
  | v :: vs, h, rest, fuel, lineno, prev, ev, h0, hf => by
    obtain ⟨h1, h2, h3⟩ := h v (by simp)
    obtain ⟨n1, n2, n3⟩ := varLine_newline h1 h2
    have e : ((v :: vs).flatMap fun v => varLine v.1 v.2 ++ ['\n']) ++ rest =
      varLine v.1 v.2 ++ '\n' :: ((vs.flatMap fun v => varLine v.1 v.2 ++ ['\n']) ++ rest) := by
      simp
    rw [e] at hf ⊢
    rw [parseLoop_line n1 (by omega) hf, parseLine_var h1 h2 (by omega)]
    obtain ⟨lineno', prev', hl', e'⟩ := parseLoop_vars (sec := sec) vs
      (fun w hw => h w (by simp [hw])) rest fuel (lineno + 1) (strncpy0 v.1 50)
      (ev ++ [⟨sec, v.1, v.2.value⟩]) (by omega) (by
        simp only [List.length_append, List.length_cons] at hf ⊢; omega)
    refine ⟨lineno', prev', hl', ?_⟩
    simp only [ParseState.call]
    rw [e']
    simp

theorem parseLoop_output : ∀ (m : Values), Writable m →
    ∀ (fuel lineno : ℕ) (sec prev : Str) (ev : List Event), (output m).length ≤ fuel →
    ∃ st, parseLoop fuel lineno (output m) ⟨sec, prev, 0, ev⟩ = some st ∧ st.error = 0 ∧
      st.events = ev ++ eventsOf m
  | [], _, fuel, lineno, sec, prev, ev, _ => by
    refine ⟨⟨sec, prev, 0, ev⟩, ?_, rfl, by simp [eventsOf]⟩
    cases fuel <;> simp [output, parseLoop]
  | s :: m, h, fuel, lineno, sec, prev, ev, hf => by
    obtain ⟨h1, h2⟩ := h s (by simp)
    have e : output (s :: m) = ('[' :: s.1 ++ [']']) ++ '\n' ::
        ((s.2.flatMap fun v => varLine v.1 v.2 ++ ['\n']) ++ output m) := by
      unfold output
      simp
    rw [e] at hf ⊢
    have hl : '\n' ∉ '[' :: s.1 ++ [']'] := by
      have := h1.line.1
      simp [this]
    have hlen : ('[' :: s.1 ++ [']']).length ≤ 198 := by
      have := h1.short
      simp only [List.length_append, List.length_cons, List.length_nil]
      omega
    rw [parseLoop_line hl hlen hf, parseLine_section h1]
    simp only
    obtain ⟨lineno', prev', -, e'⟩ := parseLoop_vars (sec := s.1) s.2 h2 (output m) fuel (lineno + 1)
      [] ev (by omega) (by simp only [List.length_append, List.length_cons] at hf ⊢; omega)
    rw [e']
    obtain ⟨st, e3, e4, e5⟩ := parseLoop_output m (fun s' hs' => h s' (by simp [hs'])) fuel lineno'
      s.1 prev' (ev ++ s.2.map fun v => ⟨s.1, v.1, v.2.value⟩) (by
        simp only [List.length_append, List.length_cons] at hf ⊢; omega)
    refine ⟨st, e3, e4, ?_⟩
    rw [e5]
    simp [eventsOf]

theorem output_no_zero (m : Values) (h : Writable m) : '\x00' ∉ output m := by
  unfold output
  rw [List.mem_flatMap]
  rintro ⟨s, hs, hc⟩
  obtain ⟨h1, h2⟩ := h s hs
  rcases List.mem_append.1 hc with hc | hc
  · have := h1.line.2
    simp [this] at hc
  · rw [List.mem_flatMap] at hc
    obtain ⟨v, hv, hc⟩ := hc
    obtain ⟨a, b, -⟩ := h2 v hv
    have := (varLine_newline a b).2.1
    simp [this] at hc

/-- Parsing a written configuration calls the handler once per variable, in order. -/
theorem parse_output {m : Values} (h : Writable m) :
    ∃ st, iniParseString (output m) = some st ∧ st.error = 0 ∧ st.events = eventsOf m := by
  unfold iniParseString
  have e : (output m).takeWhile (fun c => decide (c ≠ '\x00')) = output m := by
    rw [List.takeWhile_eq_self_iff]
    intro c hc
    simp only [decide_eq_true_eq]
    rintro rfl
    exact output_no_zero m h hc
  simp only [e]
  obtain ⟨st, h1, h2, h3⟩ := parseLoop_output m h _ 0 [] [] [] (le_refl _)
  exact ⟨st, h1, h2, by simpa using h3⟩

end Verif.Config
