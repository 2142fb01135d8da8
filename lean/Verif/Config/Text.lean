import Verif.Config.Lookup

/-!
# C31: what the parser can return
-/

namespace Verif.Config

theorem NoComment.infix {a b : Str} (h : NoComment b) (hab : a <:+: b) : NoComment a := by
  obtain ⟨l, r, rfl⟩ := hab
  intro x y c e
  exact h (l ++ x) (y ++ r) c (by rw [e]; simp)

theorem OneLine.infix {a b : Str} (h : OneLine b) (hab : a <:+: b) : OneLine a :=
  ⟨fun h' => h.1 (hab.mem h'), fun h' => h.2 (hab.mem h')⟩

theorem rstrip_prefix (s : Str) : rstrip s <+: s := List.rdropWhile_prefix _ _

theorem lskip_suffix (s : Str) : lskip s <:+ s := List.dropWhile_suffix _

theorem find_prefix (chars : Str) : ∀ (w : Bool) (s : Str), (findCharsOrComment chars w s).1 <+: s
  | _, [] => List.prefix_refl _
  | w, c :: s => by
    rw [findCharsOrComment]
    split
    · exact List.nil_prefix
    · exact List.cons_prefix_cons.2 ⟨rfl, find_prefix chars _ s⟩

theorem find_suffix (chars : Str) : ∀ (w : Bool) (s : Str), (findCharsOrComment chars w s).2 <:+ s
  | _, [] => List.suffix_refl _
  | w, c :: s => by
    rw [findCharsOrComment]
    split
    · exact List.suffix_refl _
    · exact (find_suffix chars _ s).trans (List.suffix_cons _ _)

theorem find_clean' (chars : Str) : ∀ (w : Bool) (s : Str), Clean chars w (findCharsOrComment chars w s).1
  | _, [] => trivial
  | w, c :: s => by
    rw [findCharsOrComment]
    split
    · trivial
    · rename_i h
      rw [not_or] at h
      exact ⟨h.1, h.2, find_clean' chars _ s⟩

theorem Clean.mem {chars : Str} : ∀ {w : Bool} {s : Str}, Clean chars w s → ∀ c ∈ s, c ∉ chars
  | _, [], _, _, h => by simp at h
  | _, _ :: s, h, c, hc => by
    rcases List.mem_cons.1 hc with rfl | hc
    · exact h.1
    · exact h.2.2.mem c hc

theorem Clean.noComment {chars : Str} : ∀ {w : Bool} {s : Str}, Clean chars w s → NoComment s
  | _, [], _ => fun a b x e => by simp at e
  | _, c :: s, h => by
    intro a b x e
    cases a with
    | nil =>
      simp only [List.nil_append, List.cons.injEq] at e
      obtain ⟨rfl, rfl⟩ := e
      have := h.2.2.2.1
      cases hx : isSpace c with
      | false => rfl
      | true => exact absurd ⟨hx, rfl⟩ this
    | cons d a =>
      simp only [List.cons_append, List.cons.injEq] at e
      exact h.2.2.noComment a b x e.2

theorem rstrip_last (s : Str) : ∀ c, (rstrip s).getLast? = some c → isSpace c = false := by
  intro c hc
  unfold rstrip List.rdropWhile at hc
  rw [List.getLast?_reverse] at hc
  have := List.head?_dropWhile_not isSpace s.reverse
  rw [hc] at this
  simpa using this

theorem lskip_head (s : Str) : ∀ c, (lskip s).head? = some c → isSpace c = false := by
  intro c hc
  have := List.head?_dropWhile_not isSpace s
  unfold lskip at hc
  rw [hc] at this
  simpa using this

theorem head_of_prefix {a b : Str} (h : a <+: b) {c : Char} (hc : a.head? = some c) :
    b.head? = some c := by
  obtain ⟨t, rfl⟩ := h
  cases a with
  | nil => simp at hc
  | cons d a => simpa using hc

theorem trimmed_of {s : Str} (h : ∀ c, s.head? = some c → isSpace c = false) : Trimmed (rstrip s) :=
  ⟨fun c hc => h c (head_of_prefix (rstrip_prefix s) hc), rstrip_last s⟩

/-- A name as the parser returns it: it may be empty. -/
structure NameOK (s : Str) : Prop where
  line : OneLine s
  comment : NoComment s
  trimmed : Trimmed s
  eq : '=' ∉ s
  colon : ':' ∉ s
  first : ∀ c, s.head? = some c → c ≠ ';' ∧ c ≠ '#' ∧ c ≠ '['

theorem NameOK.nil : NameOK [] :=
  ⟨⟨by simp, by simp⟩, fun a b x e => by simp at e, ⟨by simp, by simp⟩, by simp, by simp, by simp⟩

theorem NameOK.good {s : Str} (h : NameOK s) (h0 : s ≠ []) : GoodName s :=
  ⟨h.line, h.comment, h.trimmed, h0, h.eq, h.colon, h.first⟩

/-- A value as the parser returns it: it may begin with `;`. -/
structure ValueOK (s : Str) : Prop where
  line : OneLine s
  comment : NoComment s
  trimmed : Trimmed s

theorem ValueOK.good {s : Str} (h : ValueOK s) (h0 : ∀ c, s.head? = some c → c ≠ ';') : GoodValue s :=
  ⟨h.line, h.comment, h.trimmed, h0⟩

/-- What the parser keeps. -/
structure StateOK (st : ParseState) : Prop where
  sec : GoodSection st.sec
  prev : NameOK st.prevName ∨ st.prevName.length = 49
  events : ∀ e ∈ st.events, GoodSection e.sec ∧ (NameOK e.name ∨ e.name.length = 49) ∧ ValueOK e.value

theorem StateOK.fail {st : ParseState} (h : StateOK st) (lineno : ℕ) : StateOK (st.fail lineno) :=
  ⟨h.sec, h.prev, h.events⟩

theorem StateOK.call {st : ParseState} (h : StateOK st) {n v : Str}
    (hn : NameOK n ∨ n.length = 49) (hv : ValueOK v) : StateOK (st.call n v) := by
  refine ⟨h.sec, h.prev, fun e he => ?_⟩
  rcases List.mem_append.1 he with he | he
  · exact h.events e he
  · rw [List.mem_singleton.1 he]
    exact ⟨h.sec, hn, hv⟩

theorem parseLine_ok {st : ParseState} (h : StateOK st) (lineno : ℕ) {line : Str}
    (hl : OneLine (rstrip line)) : StateOK (parseLine lineno line st) := by
  have hone : OneLine (rstrip (if lineno = 1 ∧ bom <+: line then line.drop 3 else line)) := by
    split
    · rename_i hb
      obtain ⟨r, rfl⟩ := hb.2
      have e : rstrip (bom ++ r) = bom ++ rstrip r := by
        rw [show bom ++ r = [Char.ofNat 0xEF, Char.ofNat 0xBB] ++ Char.ofNat 0xBF :: r from rfl,
          rstrip_mid (by decide)]
        rfl
      rw [e] at hl
      exact hl.infix (List.suffix_append _ _).isInfix
    · exact hl
  unfold parseLine
  simp only
  generalize rstrip (if lineno = 1 ∧ bom <+: line then line.drop 3 else line) = stripped at hone
  cases hs : lskip stripped with
  | nil => exact h
  | cons c rest =>
    have hsuf : c :: rest <:+ stripped := hs ▸ lskip_suffix stripped
    have hone' : OneLine (c :: rest) := hone.infix hsuf.isInfix
    have hc : isSpace c = false := lskip_head stripped c (by rw [hs]; rfl)
    simp only
    split
    · exact h
    · rename_i hcom
      rw [not_or] at hcom
      split
      · refine h.call h.prev ?_
        have hp := find_prefix [] false (c :: rest)
        refine ⟨hone'.infix ((rstrip_prefix _).trans hp).isInfix,
          (find_clean' [] false (c :: rest)).noComment.infix (rstrip_prefix _).isInfix, trimmed_of ?_⟩
        intro x hx
        have := head_of_prefix hp hx
        simp only [List.head?_cons, Option.some.injEq] at this
        rw [← this]; exact hc
      · split
        · split
          · rename_i s x hx
            have hp := find_prefix [']'] false rest
            have hcl := find_clean' [']'] false rest
            rw [hx] at hp hcl
            simp only at hp hcl
            have htake : s.take 49 <:+: s := (List.take_prefix _ _).isInfix
            have hr : rest <:+: c :: rest := (List.suffix_cons _ _).isInfix
            refine ⟨⟨(hone'.infix (hp.isInfix.trans hr)).infix htake, hcl.noComment.infix htake, ?_, ?_⟩,
              Or.inl NameOK.nil, h.events⟩
            · intro h'
              exact hcl.mem _ (htake.mem h') (by simp)
            · simp only [strncpy0, List.length_take]
              omega
          · exact h.fail _
        · rename_i hbr
          split
          · rename_i n e v hx
            split
            · have hp := find_prefix ['=', ':'] false (c :: rest)
              have hsf := find_suffix ['=', ':'] false (c :: rest)
              have hcl := find_clean' ['=', ':'] false (c :: rest)
              rw [hx] at hp hsf hcl
              simp only at hp hsf hcl
              have hn : NameOK (rstrip n) := by
                have hpre : rstrip n <+: c :: rest := (rstrip_prefix n).trans hp
                have hh : ∀ x, (rstrip n).head? = some x → x = c := fun x hx => by
                  have := head_of_prefix hpre hx
                  simp only [List.head?_cons, Option.some.injEq] at this
                  exact this.symm
                refine ⟨hone'.infix hpre.isInfix, hcl.noComment.infix (rstrip_prefix n).isInfix,
                  ⟨fun x hx => by rw [hh x hx]; exact hc, rstrip_last n⟩, ?_, ?_, ?_⟩
                · intro h'
                  exact hcl.mem _ ((rstrip_prefix n).isInfix.mem h') (by simp)
                · intro h'
                  exact hcl.mem _ ((rstrip_prefix n).isInfix.mem h') (by simp)
                · intro x hx
                  rw [hh x hx]
                  exact ⟨hcom.1, hcom.2, hbr⟩
              have hv : ValueOK (rstrip (lskip (findCharsOrComment [] false v).1)) := by
                have hv' : v <:+: c :: rest := (List.suffix_cons e v).isInfix.trans hsf.isInfix
                have hi : rstrip (lskip (findCharsOrComment [] false v).1) <:+:
                    (findCharsOrComment [] false v).1 :=
                  (rstrip_prefix _).isInfix.trans (lskip_suffix _).isInfix
                exact ⟨hone'.infix ((hi.trans (find_prefix _ _ _).isInfix).trans hv'),
                  (find_clean' [] false v).noComment.infix hi, trimmed_of (lskip_head _)⟩
              refine StateOK.call (st := { st with prevName := strncpy0 (rstrip n) 50 }) ⟨h.sec, ?_, h.events⟩ (Or.inl hn) hv
              simp only [strncpy0]
              by_cases hlen : (rstrip n).length ≤ 49
              · rw [List.take_of_length_le (by omega)]
                exact Or.inl hn
              · right
                rw [List.length_take]
                omega
            · exact h.fail _
          · exact h.fail _

theorem readLine_shape : ∀ (n : ℕ) {s : Str}, '\x00' ∉ s →
    (∃ a, OneLine a ∧ ((readLine n s).1 = a ∨ (readLine n s).1 = a ++ ['\n'])) ∧
      '\x00' ∉ (readLine n s).2
  | 0, s, h => ⟨⟨[], ⟨by simp, by simp⟩, Or.inl rfl⟩, h⟩
  | _ + 1, [], h => ⟨⟨[], ⟨by simp, by simp⟩, Or.inl rfl⟩, h⟩
  | n + 1, c :: s, h => by
    simp only [List.mem_cons, not_or] at h
    rw [readLine]
    split
    · rename_i e
      subst e
      exact ⟨⟨[], ⟨by simp, by simp⟩, Or.inr rfl⟩, h.2⟩
    · rename_i e
      obtain ⟨⟨a, ha, h1⟩, h2⟩ := readLine_shape n h.2
      refine ⟨⟨c :: a, ⟨?_, ?_⟩, ?_⟩, h2⟩
      · simp only [List.mem_cons, not_or]; exact ⟨fun h => e h.symm, ha.1⟩
      · simp only [List.mem_cons, not_or]; exact ⟨h.1, ha.2⟩
      · rcases h1 with h1 | h1
        · exact Or.inl (by simp [h1])
        · exact Or.inr (by simp [h1])

theorem readLine_oneLine (n : ℕ) {s : Str} (h : '\x00' ∉ s) : OneLine (rstrip (readLine n s).1) := by
  obtain ⟨⟨a, ha, h1 | h1⟩, -⟩ := readLine_shape n h
  · rw [h1]; exact ha.infix (rstrip_prefix _).isInfix
  · rw [h1, rstrip_append (by decide)]; exact ha.infix (rstrip_prefix _).isInfix

theorem parseLoop_ok : ∀ {fuel lineno : ℕ} {s : Str} {st st' : ParseState}, '\x00' ∉ s → StateOK st →
    parseLoop fuel lineno s st = some st' → StateOK st' := by
  intro fuel
  induction fuel with
  | zero =>
    intro lineno s st st' h0 h e
    cases s with
    | nil => simp only [parseLoop, Option.some.injEq] at e; rw [← e]; exact h
    | cons => simp [parseLoop] at e
  | succ fuel ih =>
    intro lineno s st st' h0 h e
    cases s with
    | nil => simp only [parseLoop, Option.some.injEq] at e; rw [← e]; exact h
    | cons c s =>
      simp only [parseLoop] at e
      exact ih (readLine_shape 199 h0).2 (parseLine_ok h _ (readLine_oneLine 199 h0)) e

theorem iniParseString_ok {text : Str} {st : ParseState} (h : iniParseString text = some st) :
    StateOK st := by
  unfold iniParseString at h
  refine parseLoop_ok ?_ ?_ h
  · intro h'
    have := List.mem_takeWhile_imp h'
    simp at this
  · exact ⟨⟨⟨by simp [ParseState.init], by simp [ParseState.init]⟩, fun a b x e => by
      simp [ParseState.init] at e, by simp [ParseState.init], by simp [ParseState.init]⟩,
      Or.inl NameOK.nil, by simp [ParseState.init]⟩

/-! ### Lower case keeps the form -/

theorem toLower_eq_iff' {c x : Char} (h : x.toNat < 65 ∨ 90 < x.toNat ∧ x.toNat < 97) :
    c.toLower = x ↔ c = x := by
  constructor
  · intro e
    refine char_ext ?_
    have := congrArg Char.toNat e
    rw [toLower_toNat] at this
    split at this <;> omega
  · rintro rfl
    refine char_ext ?_
    rw [toLower_toNat, if_neg (by omega)]

theorem isSpace_iff (c : Char) : isSpace c = true ↔ c.toNat = 32 ∨ 9 ≤ c.toNat ∧ c.toNat ≤ 13 := by
  unfold isSpace
  simp only [Bool.or_eq_true, beq_iff_eq, Bool.and_eq_true, decide_eq_true_eq]
  constructor
  · rintro (rfl | h)
    · exact Or.inl rfl
    · exact Or.inr h
  · rintro (h | h)
    · exact Or.inl (char_ext h)
    · exact Or.inr h

theorem isSpace_toLower (c : Char) : isSpace c.toLower = isSpace c := by
  rw [Bool.eq_iff_iff, isSpace_iff, isSpace_iff, toLower_toNat]
  split <;> omega

theorem mem_lower {s : Str} {x : Char} (h : x.toNat < 65 ∨ 90 < x.toNat ∧ x.toNat < 97) :
    x ∈ lower s ↔ x ∈ s := by
  unfold lower
  rw [List.mem_map]
  constructor
  · rintro ⟨c, hc, e⟩
    rw [toLower_eq_iff' h] at e
    exact e ▸ hc
  · intro hx
    exact ⟨x, hx, (toLower_eq_iff' h).2 rfl⟩

theorem NoComment.lower {s : Str} (h : NoComment s) : NoComment (lower s) := by
  intro a b x e
  unfold Config.lower at e
  obtain ⟨a', t, rfl, -, e1⟩ := List.map_eq_append_iff.1 e
  obtain ⟨x', t', rfl, rfl, e2⟩ := List.map_eq_cons_iff.1 e1
  obtain ⟨y', t'', rfl, e3, -⟩ := List.map_eq_cons_iff.1 e2
  rw [toLower_eq_iff' (by decide)] at e3
  subst e3
  rw [isSpace_toLower]
  exact h a' t'' x' rfl

theorem head_lower {s : Str} {c : Char} (h : (lower s).head? = some c) :
    ∃ c', s.head? = some c' ∧ c = c'.toLower := by
  unfold lower at h
  rw [List.head?_map] at h
  obtain ⟨c', h1, h2⟩ := Option.map_eq_some_iff.1 h
  exact ⟨c', h1, h2.symm⟩

theorem GoodSection.lower {s : Str} (h : GoodSection s) : GoodSection (lower s) :=
  ⟨⟨fun h' => h.line.1 ((mem_lower (by decide)).1 h'), fun h' => h.line.2 ((mem_lower (by decide)).1 h')⟩,
    h.comment.lower, fun h' => h.close ((mem_lower (by decide)).1 h'), by
      unfold Config.lower; rw [List.length_map]; exact h.short⟩

theorem GoodName.lower {s : Str} (h : GoodName s) : GoodName (lower s) := by
  refine ⟨⟨fun h' => h.line.1 ((mem_lower (by decide)).1 h'),
    fun h' => h.line.2 ((mem_lower (by decide)).1 h')⟩, h.comment.lower, ⟨?_, ?_⟩, ?_,
    fun h' => h.eq ((mem_lower (by decide)).1 h'), fun h' => h.colon ((mem_lower (by decide)).1 h'), ?_⟩
  · intro c hc
    obtain ⟨c', h1, rfl⟩ := head_lower hc
    rw [isSpace_toLower]; exact h.trimmed.1 c' h1
  · intro c hc
    unfold Config.lower at hc
    rw [List.getLast?_map] at hc
    obtain ⟨c', h1, rfl⟩ := Option.map_eq_some_iff.1 hc
    rw [isSpace_toLower]; exact h.trimmed.2 c' h1
  · unfold Config.lower
    rw [Ne, List.map_eq_nil_iff]; exact h.nonempty
  · intro c hc
    obtain ⟨c', h1, rfl⟩ := head_lower hc
    have := h.first c' h1
    rw [Ne, Ne, Ne, toLower_eq_iff' (by decide), toLower_eq_iff' (by decide), toLower_eq_iff' (by decide)]
    exact this

/-! ### C31 for files -/

/-- The lookup of the constructor, `ConfigMap.h` L199. -/
def printConfig : Lookup :=
  ⟨Bool, inferInstance, boolCodec, "ini".toList, "print_config".toList, some false⟩

theorem ofText_spec {text : Str} {b : Bool} {m : Values} (h : ofText text = some (b, m)) :
    ∃ st, iniParseString text = some st ∧ st.error = 0 ∧
      runAll (st.events.foldl valueHandler []) [printConfig] = some m := by
  unfold ofText at h
  obtain ⟨st, h1, h2⟩ := Option.bind_eq_some_iff.1 h
  split at h2
  · rename_i h3
    refine ⟨st, h1, h3, ?_⟩
    unfold runAll
    simp only [List.foldlM_cons, List.foldlM_nil]
    unfold Lookup.run printConfig
    simp only
    rw [h2]
    rfl
  · simp at h2

theorem mem_get? {β : Type} : ∀ {m : List (Str × β)}, m.Pairwise (fun a b => a.1 < b.1) →
    ∀ {e : Str × β}, e ∈ m → get? e.1 m = some e.2
  | [], _, _, h => by simp at h
  | (k, v) :: m, hp, e, h => by
    rw [List.pairwise_cons] at hp
    rw [get?_cons]
    rcases List.mem_cons.1 h with rfl | h
    · rw [if_pos rfl]
    · rw [if_neg (hp.1 e h).ne, mem_get? hp.2 h]

/-- C31 for a file and any lookups: the configuration written at the end reads back with the same
values. The form of the entries of the file follows from parsing; required are names that are not
empty and of less than 49 characters, values that do not begin with `;`, defaults and keys of lookups
that can be written, and lines that fit in the buffer of the parser. -/
theorem C31_file_written_reads_back {text : Str} {b : Bool} {m₀ m : Values} {ls : List Lookup}
    (hm : ofText text = some (b, m₀)) (hrun : runAll m₀ ls = some m)
    (hfile : ∀ st, iniParseString text = some st → ∀ e ∈ st.events,
      e.name ≠ [] ∧ e.name.length < 49 ∧ ∀ c, e.value.head? = some c → c ≠ ';')
    (hls : ∀ l ∈ ls, GoodSection l.sec ∧ GoodName l.name ∧
      ∀ x, l.default.bind l.codec.toStr = some x → GoodValue x)
    (hlen : ∀ s ∈ m, ∀ v ∈ s.2, width v.1 v.2 ≤ 198) :
    ∃ st, iniParseString (output m) = some st ∧ st.error = 0 ∧
      ∀ s n, ((st.events.foldl valueHandler []).get? s n).map (·.value) = (m.get? s n).map (·.value) := by
  obtain ⟨st, h1, -, h3⟩ := ofText_spec hm
  have hrun' : runAll (st.events.foldl valueHandler []) (printConfig :: ls) = some m := by
    unfold runAll at h3 hrun ⊢
    rw [show printConfig :: ls = [printConfig] ++ ls from rfl, List.foldlM_append, h3]
    exact hrun
  obtain ⟨hN, hg, -⟩ := C32_entries st.events _ hrun'
  have hok := iniParseString_ok h1
  have hev : ∀ e ∈ st.events, GoodSection e.sec ∧ GoodName e.name ∧ GoodValue e.value := by
    intro e he
    obtain ⟨a1, a2, a3⟩ := hok.events e he
    obtain ⟨b1, b2, b3⟩ := hfile st h1 e he
    exact ⟨a1, (a2.resolve_right (by omega)).good b1, a3.good b3⟩
  have hls' : ∀ l ∈ printConfig :: ls, GoodSection l.sec ∧ GoodName l.name ∧
      ∀ x, l.default.bind l.codec.toStr = some x → GoodValue x := by
    intro l hl
    rcases List.mem_cons.1 hl with rfl | hl
    · have nc : ∀ s : Str, ';' ∉ s → NoComment s := fun s hs a b x e => by
        exact absurd (by rw [e]; simp) hs
      refine ⟨⟨⟨by decide, by decide⟩, nc _ (by decide), by decide, by decide⟩,
        ⟨⟨by decide, by decide⟩, nc _ (by decide), ⟨?_, ?_⟩, by decide, by decide, by decide, ?_⟩, ?_⟩
      · rintro c ⟨⟩; decide
      · rintro c ⟨⟩; decide
      · rintro c ⟨⟩; decide
      · rintro x ⟨⟩
        refine ⟨⟨by decide, by decide⟩, nc _ (by decide), ⟨?_, ?_⟩, ?_⟩
        all_goals rintro c ⟨⟩; decide
    · exact hls l hl
  have hw : Writable m := by
    intro s hs
    have key : ∀ v ∈ s.2, GoodSection s.1 ∧ GoodName v.1 ∧ GoodValue v.2.value := by
      intro v hv
      have e1 : m.get? s.1 v.1 = some v.2 := by
        unfold Values.get?
        rw [mem_get? hN.sorted hs, Option.bind_some, mem_get? (hN.names s hs) hv]
      have e2 := hg s.1 v.1
      rw [hN.lowSec s hs, hN.lowName s hs v hv, e1] at e2
      obtain ⟨x, hx, e3⟩ := Option.map_eq_some_iff.1 e2.symm
      have e4 : v.2.value = x := by rw [← e3]
      unfold textOf at hx
      cases hlg : lastGiven st.events s.1 v.1 with
      | some y =>
        rw [hlg, Option.some_or, Option.some.injEq] at hx
        unfold lastGiven at hlg
        obtain ⟨e, hf, e5⟩ := Option.map_eq_some_iff.1 hlg
        have hmem : e ∈ st.events := List.mem_reverse.1 (List.mem_of_find?_eq_some hf)
        have hk : SameKey e.sec e.name s.1 v.1 := by
          have := List.find?_some hf
          exact of_decide_eq_true this
        obtain ⟨g1, g2, g3⟩ := hev e hmem
        have k1 : lower e.sec = s.1 := hk.1.trans (hN.lowSec s hs)
        have k2 : lower e.name = v.1 := hk.2.trans (hN.lowName s hs v hv)
        refine ⟨k1 ▸ g1.lower, k2 ▸ g2.lower, ?_⟩
        rw [e4, ← hx, ← e5]; exact g3
      | none =>
        rw [hlg, Option.none_or] at hx
        unfold firstDefault at hx
        obtain ⟨l, hf, e5⟩ := Option.bind_eq_some_iff.1 hx
        have hk : SameKey l.sec l.name s.1 v.1 := by
          have := List.find?_some hf
          exact of_decide_eq_true this
        obtain ⟨g1, g2, g3⟩ := hls' l (List.mem_of_find?_eq_some hf)
        have k1 : lower l.sec = s.1 := hk.1.trans (hN.lowSec s hs)
        have k2 : lower l.name = v.1 := hk.2.trans (hN.lowName s hs v hv)
        refine ⟨k1 ▸ g1.lower, k2 ▸ g2.lower, ?_⟩
        rw [e4]; exact g3 x e5
    obtain ⟨v, hv⟩ := List.exists_mem_of_ne_nil _ (hN.nonempty s hs)
    exact ⟨(key v hv).1, fun v hv => ⟨(key v hv).2.1, (key v hv).2.2, hlen s hs v hv⟩⟩
  obtain ⟨st', a1, a2, -, a4⟩ := C31_written_config_reads_back hN hw
  exact ⟨st', a1, a2, a4⟩

end Verif.Config
