import Verif.Config.Spec

/-!
# Reading what was written: lines
-/

namespace Verif.Config

theorem isSpace_blank : isSpace ' ' = true := rfl

/-! ### Stripping -/

theorem lskip_append {a b : Str} (h : ∀ c ∈ a, isSpace c = true) : lskip (a ++ b) = lskip b := by
  unfold lskip
  rw [List.dropWhile_append, if_pos]
  rw [List.isEmpty_iff, List.dropWhile_eq_nil_iff]
  exact fun c hc => h c hc

theorem rstrip_append {a b : Str} (h : ∀ c ∈ b, isSpace c = true) : rstrip (a ++ b) = rstrip a := by
  unfold rstrip List.rdropWhile
  rw [List.reverse_append]
  congr 1
  exact lskip_append (fun c hc => h c (List.mem_reverse.1 hc))

theorem lskip_eq {s : Str} (h : ∀ c, s.head? = some c → isSpace c = false) : lskip s = s := by
  unfold lskip
  cases s with
  | nil => rfl
  | cons c s => rw [List.dropWhile_cons_of_neg]; simp [h c rfl]

theorem rstrip_eq {s : Str} (h : ∀ c, s.getLast? = some c → isSpace c = false) : rstrip s = s := by
  unfold rstrip List.rdropWhile
  rw [show List.dropWhile isSpace s.reverse = s.reverse from ?_, List.reverse_reverse]
  refine lskip_eq fun c hc => h c ?_
  rwa [List.head?_reverse] at hc

theorem rstrip_mid {a w : Str} {c : Char} (h : isSpace c = false) :
    rstrip (a ++ c :: w) = a ++ c :: rstrip w := by
  unfold rstrip List.rdropWhile
  rw [List.reverse_append, List.reverse_cons, List.append_assoc, List.dropWhile_append]
  split
  · rename_i h1
    rw [List.isEmpty_iff] at h1
    rw [h1]
    rw [List.singleton_append, List.dropWhile_cons_of_neg (by simp [h])]
    simp
  · simp

/-! ### The search for a character or a comment -/

/-- The search does not stop in the string. -/
def Clean (chars : Str) : Bool → Str → Prop
  | _, [] => True
  | w, c :: s => c ∉ chars ∧ ¬(w = true ∧ c = ';') ∧ Clean chars (isSpace c) s

/-- `was_space` after the string. -/
def endSpace : Bool → Str → Bool
  | w, [] => w
  | _, c :: s => endSpace (isSpace c) s

theorem find_append {chars : Str} (t : Str) : ∀ {w : Bool} {s : Str}, Clean chars w s →
    findCharsOrComment chars w (s ++ t) =
      (s ++ (findCharsOrComment chars (endSpace w s) t).1,
        (findCharsOrComment chars (endSpace w s) t).2)
  | w, [], _ => rfl
  | w, c :: s, h => by
    rw [List.cons_append, findCharsOrComment, if_neg]
    · rw [find_append t h.2.2]; rfl
    · rintro (h1 | h1)
      · exact h.1 h1
      · exact h.2.1 h1

theorem find_clean {chars : Str} {w : Bool} {s : Str} (h : Clean chars w s) :
    findCharsOrComment chars w s = (s, []) := by
  have := find_append [] h
  simpa [findCharsOrComment] using this

theorem clean_append {chars : Str} {t : Str} : ∀ {w : Bool} {s : Str},
    Clean chars w s → Clean chars (endSpace w s) t → Clean chars w (s ++ t)
  | _, [], _, h => h
  | _, _ :: _, h1, h2 => ⟨h1.1, h1.2.1, clean_append h1.2.2 h2⟩

theorem clean_blanks {chars : Str} (h : ' ' ∉ chars) : ∀ (n : ℕ) {w : Bool},
    Clean chars w (List.replicate n ' ')
  | 0, _ => trivial
  | n + 1, _ => ⟨h, fun h => by exact absurd h.2 (by decide), clean_blanks h n⟩

theorem NoComment.tail {c : Char} {s : Str} (h : NoComment (c :: s)) : NoComment s :=
  fun a b x e => h (c :: a) b x (by rw [e]; rfl)

theorem clean_of {chars : Str} : ∀ {w : Bool} {s : Str}, (∀ c ∈ s, c ∉ chars) → NoComment s →
    (w = true → ∀ c, s.head? = some c → c ≠ ';') → Clean chars w s
  | _, [], _, _, _ => trivial
  | w, c :: s, h1, h2, h3 => by
    refine ⟨h1 c (by simp), fun h => h3 h.1 c rfl h.2,
      clean_of (fun c' hc => h1 c' (by simp [hc])) h2.tail ?_⟩
    intro hc c' hc' e
    subst e
    cases s with
    | nil => simp at hc'
    | cons d s =>
      simp only [List.head?_cons, Option.some.injEq] at hc'
      subst hc'
      have := h2 [] s c rfl
      rw [this] at hc
      exact absurd hc (by decide)

/-! ### Reading lines -/

theorem readLine_line {l rest : Str} (h : '\n' ∉ l) : ∀ {n : ℕ}, l.length < n →
    readLine n (l ++ '\n' :: rest) = (l ++ ['\n'], rest) := by
  induction l with
  | nil => intro n hn; cases n with
    | zero => exact absurd hn (by simp)
    | succ n => simp [readLine]
  | cons c l ih =>
    intro n hn
    cases n with
    | zero => exact absurd hn (by simp)
    | succ n =>
      simp only [List.mem_cons, not_or] at h
      simp only [List.length_cons] at hn
      rw [List.cons_append, readLine, if_neg (fun e => h.1 e.symm), ih h.2 (by omega)]
      rfl

theorem readLine_length : ∀ (n : ℕ) (s : Str), (readLine n s).2.length ≤ s.length
  | 0, s => le_refl _
  | _ + 1, [] => le_refl _
  | n + 1, c :: s => by
    rw [readLine]
    split
    · simp
    · have := readLine_length n s
      simp only [List.length_cons]
      omega

theorem readLine_lt (n : ℕ) (c : Char) (s : Str) :
    (readLine (n + 1) (c :: s)).2.length < (c :: s).length := by
  rw [readLine]
  split
  · simp
  · have := readLine_length n s
    simp only [List.length_cons]
    omega

/-- More fuel changes nothing. -/
theorem parseLoop_mono : ∀ {fuel fuel' lineno : ℕ} {s : Str} {st : ParseState}, s.length ≤ fuel →
    s.length ≤ fuel' → parseLoop fuel lineno s st = parseLoop fuel' lineno s st := by
  intro fuel
  induction fuel with
  | zero =>
    intro fuel' lineno s st h h'
    cases s with
    | nil => cases fuel' <;> simp [parseLoop]
    | cons => simp at h
  | succ fuel ih =>
    intro fuel' lineno s st h h'
    cases s with
    | nil => cases fuel' <;> simp [parseLoop]
    | cons c s =>
      cases fuel' with
      | zero => simp at h'
      | succ fuel' =>
        simp only [parseLoop]
        have : (readLine 199 (c :: s)).2.length < (c :: s).length := readLine_lt 198 c s
        exact ih (by omega) (by omega)

theorem parseLoop_isSome : ∀ {fuel lineno : ℕ} {s : Str} {st : ParseState}, s.length ≤ fuel →
    (parseLoop fuel lineno s st).isSome := by
  intro fuel
  induction fuel with
  | zero =>
    intro lineno s st h
    cases s with
    | nil => simp [parseLoop]
    | cons => simp at h
  | succ fuel ih =>
    intro lineno s st h
    cases s with
    | nil => simp [parseLoop]
    | cons c s =>
      simp only [parseLoop]
      have : (readLine 199 (c :: s)).2.length < (c :: s).length := readLine_lt 198 c s
      exact ih (by omega)

/-- The parser always ends. -/
theorem iniParseString_isSome (text : Str) : (iniParseString text).isSome :=
  parseLoop_isSome (le_refl _)

/-- A line of at most 198 characters is read at once. -/
theorem parseLoop_line {l rest : Str} (hl : '\n' ∉ l) (hn : l.length ≤ 198) {fuel lineno : ℕ}
    {st : ParseState} (hf : (l ++ '\n' :: rest).length ≤ fuel) :
    parseLoop fuel lineno (l ++ '\n' :: rest) st =
      parseLoop fuel (lineno + 1) rest (parseLine (lineno + 1) (l ++ ['\n']) st) := by
  have hlen : (l ++ '\n' :: rest).length = l.length + (rest.length + 1) := by simp
  have e : ∃ c s, l ++ '\n' :: rest = c :: s := by
    cases l with
    | nil => exact ⟨_, _, rfl⟩
    | cons c l => exact ⟨_, _, rfl⟩
  obtain ⟨c, s, e⟩ := e
  cases fuel with
  | zero => rw [hlen] at hf; omega
  | succ fuel =>
    have h1 : parseLoop (fuel + 1) lineno (c :: s) st = parseLoop fuel (lineno + 1)
      (readLine 199 (c :: s)).2 (parseLine (lineno + 1) (readLine 199 (c :: s)).1 st) := rfl
    rw [e, h1, ← e, readLine_line hl (by omega)]
    exact parseLoop_mono (by simp only at *; omega) (by simp only at *; omega)

end Verif.Config
