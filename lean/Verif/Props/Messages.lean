import Verif.Model.Message

/-!
# Property C64: error messages say which error it is
-/

namespace LatexAst

/-- Hexadecimal digits determine the number. -/
theorem hex_injective : ∀ n m, Nat.toDigits 16 n = Nat.toDigits 16 m → n = m := by
  have digit' : ∀ a, a < 16 → ∀ b, b < 16 → Nat.digitChar a = Nat.digitChar b → a = b := by decide
  have digit : ∀ a b, a < 16 → b < 16 → Nat.digitChar a = Nat.digitChar b → a = b := fun a b ha hb => digit' a ha b hb
  intro n
  induction n using Nat.strongRecOn with
  | _ n ih =>
    intro m h
    by_cases hn : n < 16 <;> by_cases hm : m < 16
    · rw [Nat.toDigits_of_lt_base hn, Nat.toDigits_of_lt_base hm] at h
      exact digit n m hn hm (by simpa using h)
    · rw [Nat.toDigits_of_lt_base hn, Nat.toDigits_of_base_le (by decide) (by omega)] at h
      have h1 := congrArg List.length h
      have h2 := @Nat.length_toDigits_pos 16 (m / 16)
      simp only [List.length_append, List.length_singleton] at h1
      omega
    · rw [Nat.toDigits_of_lt_base hm, Nat.toDigits_of_base_le (by decide) (by omega)] at h
      have h1 := congrArg List.length h
      have h2 := @Nat.length_toDigits_pos 16 (n / 16)
      simp only [List.length_append, List.length_singleton] at h1
      omega
    · rw [Nat.toDigits_of_base_le (n := n) (by decide) (by omega), Nat.toDigits_of_base_le (n := m) (by decide) (by omega)] at h
      have h1 := List.append_inj' h rfl
      have h2 := ih (n / 16) (by omega) _ h1.1
      have h3 := digit _ _ (Nat.mod_lt n (by decide)) (Nat.mod_lt m (by decide)) (by simpa using h1.2)
      omega

/-- A hexadecimal digit is not a closing brace. -/
theorem brace_notin_hex (n : Nat) : '}' ∉ Nat.toDigits 16 n := by
  have digit : ∀ a, a < 16 → '}' ≠ Nat.digitChar a := by decide
  induction n using Nat.strongRecOn with
  | _ n ih =>
    by_cases hn : n < 16
    · rw [Nat.toDigits_of_lt_base hn]
      simpa using digit n hn
    · rw [Nat.toDigits_of_base_le (by decide) (by omega)]
      simp only [List.mem_append, List.mem_singleton, not_or]
      exact ⟨ih _ (by omega), digit _ (Nat.mod_lt n (by decide))⟩

/-- What is before the first occurrence of a separator is determined. -/
theorem before_separator {a b x y : Str} {c : Char} (ha : c ∉ a) (hb : c ∉ b) (h : a ++ c :: x = b ++ c :: y) :
    a = b ∧ x = y := by
  induction a generalizing b with
  | nil =>
    cases b with
    | nil => simpa using h
    | cons d b => simp at h hb; exact absurd h.1 hb.1
  | cons d a ih =>
    cases b with
    | nil => simp at h ha; exact absurd h.1.symm ha.1
    | cons e b =>
      simp only [List.cons_append, List.cons.injEq, List.mem_cons, not_or] at h ha hb
      obtain ⟨rfl, h⟩ := h
      have := ih ha.2 hb.2 h
      simp [this]

/-- Decimal digits are digits. -/
theorem notin_decimal {c : Char} (n : Nat) (h : c.isDigit = false) : c ∉ decimal n := by
  intro hc
  have := Nat.isDigit_of_mem_toDigits (by decide) (by decide) hc
  simp [h] at this

theorem decimal_injective {n m : Nat} (h : decimal n = decimal m) : n = m := by
  have := congrArg (Nat.ofDigitChars 10 · 0) h
  simpa [decimal, Nat.ofDigitChars_ten_toDigits] using this

theorem decimal_then {n m : Nat} {x y : Str} {c : Char} (hc : c.isDigit = false) (h : decimal n ++ c :: x = decimal m ++ c :: y) :
    n = m ∧ x = y := by
  have := before_separator (notin_decimal n hc) (notin_decimal m hc) h
  exact ⟨decimal_injective this.1, this.2⟩

/-- One escaped character can be told from what follows it. -/
theorem escapeChar_then {plain : Char → Bool} {q a b : Char} {x y : Str} (hq : q = '"' ∨ q = '\'')
    (h : escapeChar plain q a ++ x = escapeChar plain q b ++ y) : a = b ∧ x = y := by
  have key : ∀ c, (c ∈ ['\x00', '\t', '\r', '\n', '\\', q] ∧ ∃ k, k ∈ ['0', 't', 'r', 'n', '\\', q] ∧ escapeChar plain q c = ['\\', k] ∧
        (c, k) ∈ [('\x00', '0'), ('\t', 't'), ('\r', 'r'), ('\n', 'n'), ('\\', '\\'), (q, q)]) ∨
      (c ≠ '\\' ∧ escapeChar plain q c = [c]) ∨ escapeChar plain q c = escapeUnicode c := by
    intro c
    unfold escapeChar
    by_cases h1 : c = '\x00'
    · exact .inl ⟨by simp [h1], '0', by simp, by simp [h1], by simp [h1]⟩
    by_cases h2 : c = '\t'
    · exact .inl ⟨by simp [h2], 't', by simp, by simp [h2], by simp [h2]⟩
    by_cases h3 : c = '\r'
    · exact .inl ⟨by simp [h3], 'r', by simp, by simp [h3], by simp [h3]⟩
    by_cases h4 : c = '\n'
    · exact .inl ⟨by simp [h4], 'n', by simp, by simp [h4], by simp [h4]⟩
    by_cases h5 : c = '\\'
    · exact .inl ⟨by simp [h5], '\\', by simp, by simp [h5], by simp [h5]⟩
    by_cases h6 : c = q
    · exact .inl ⟨by simp [h6], q, by simp, by rw [h6] at h1 h2 h3 h4 h5; simp [h1, h2, h3, h4, h5, h6], by simp [h6]⟩
    by_cases h7 : plain c
    · exact .inr (.inl ⟨h5, by simp [h1, h2, h3, h4, h5, h6, h7]⟩)
    · exact .inr (.inr (by simp [h1, h2, h3, h4, h5, h6, h7]))
  have hu : ∀ k, k ∈ ['0', 't', 'r', 'n', '\\', q] → k ≠ 'u' := by
    rcases hq with rfl | rfl <;> decide
  have same : ∀ a b k, (a, k) ∈ [('\x00', '0'), ('\t', 't'), ('\r', 'r'), ('\n', 'n'), ('\\', '\\'), (q, q)] →
      (b, k) ∈ [('\x00', '0'), ('\t', 't'), ('\r', 'r'), ('\n', 'n'), ('\\', '\\'), (q, q)] → a = b := by
    intro a b k
    rcases hq with rfl | rfl <;>
    · simp only [List.mem_cons, Prod.mk.injEq, List.not_mem_nil, or_false]
      rintro (⟨rfl, rfl⟩ | ⟨rfl, rfl⟩ | ⟨rfl, rfl⟩ | ⟨rfl, rfl⟩ | ⟨rfl, rfl⟩ | ⟨rfl, rfl⟩) <;> simp (config := { contextual := true })
  have hex : ∀ c d, escapeUnicode c ++ x = escapeUnicode d ++ y → c = d ∧ x = y := by
    intro c d h
    simp only [escapeUnicode, List.append_assoc, List.cons_append, List.nil_append, List.cons.injEq, true_and] at h
    have := before_separator (brace_notin_hex _) (brace_notin_hex _) h
    exact ⟨Char.toNat_inj.1 (hex_injective _ _ this.1), this.2⟩
  rcases key a with ⟨_, k, hk, he, hm⟩ | ⟨ha, he⟩ | he <;> rcases key b with ⟨_, k', hk', he', hm'⟩ | ⟨hb, he'⟩ | he' <;>
    rw [he, he'] at h
  · simp only [List.cons_append, List.nil_append, List.cons.injEq, true_and] at h
    obtain ⟨rfl, h⟩ := h
    exact ⟨same _ _ _ hm hm', h⟩
  · simp at h; exact absurd h.1.symm hb
  · simp [escapeUnicode] at h; exact absurd h.1 (hu k hk)
  · simp at h; exact absurd h.1 ha
  · simpa using h
  · simp [escapeUnicode] at h; exact absurd h.1 ha
  · simp [escapeUnicode] at h; exact absurd h.1.symm (hu k' hk')
  · simp [escapeUnicode] at h; exact absurd h.1.symm hb
  · exact hex _ _ h

/-- An escaped character does not start with the quote. -/
theorem escapeChar_head (plain : Char → Bool) (q c : Char) (hq : q = '"' ∨ q = '\'') :
    ∃ d r, escapeChar plain q c = d :: r ∧ d ≠ q := by
  have hb : '\\' ≠ q := by rcases hq with rfl | rfl <;> decide
  unfold escapeChar
  repeat' split
  all_goals first
    | exact ⟨'\\', _, rfl, hb⟩
    | (rename_i h _; exact ⟨c, [], rfl, h⟩)

theorem debugStr_then {plain : Char → Bool} {s t x y : Str} (h : debugStr plain s ++ x = debugStr plain t ++ y) :
    s = t ∧ x = y := by
  simp only [debugStr, List.append_assoc, List.cons_append, List.nil_append, List.cons.injEq, true_and] at h
  induction s generalizing t with
  | nil =>
    cases t with
    | nil => simpa [escapeStr] using h
    | cons c t =>
      obtain ⟨d, r, h1, h2⟩ := escapeChar_head plain '"' c (.inl rfl)
      simp only [escapeStr, h1, List.nil_append, List.cons_append, List.cons.injEq] at h
      exact absurd h.1.symm h2
  | cons c s ih =>
    cases t with
    | nil =>
      obtain ⟨d, r, h1, h2⟩ := escapeChar_head plain '"' c (.inl rfl)
      simp only [escapeStr, h1, List.nil_append, List.cons_append, List.cons.injEq] at h
      exact absurd h.1 h2
    | cons c' t =>
      simp only [escapeStr, List.append_assoc] at h
      obtain ⟨rfl, h'⟩ := escapeChar_then (.inl rfl) h
      have := ih h'
      simp [this]

theorem debugChar_then {plain : Char → Bool} {a b : Char} {x y : Str} (h : debugChar plain a ++ x = debugChar plain b ++ y) :
    a = b ∧ x = y := by
  simp only [debugChar, List.append_assoc, List.cons_append, List.nil_append, List.cons.injEq, true_and] at h
  have := escapeChar_then (.inr rfl) h
  simpa using this

theorem debugVariant_then {a b : ScopeVariant} {x y : Str} (h : a.debug ++ x = b.debug ++ y) : a = b ∧ x = y := by
  cases a <;> cases b <;> simp_all [ScopeVariant.debug]

/-- C64, internal errors: different errors have different messages. -/
theorem C64_internal (plain : Char → Bool) (a b : InternalError) (h : a.message plain = b.message plain) : a = b := by
  cases a <;> cases b <;> simp only [InternalError.message, List.append_assoc, List.cons_append, List.nil_append, List.cons.injEq, reduceCtorEq, Char.reduceEq, false_and, and_false, true_and, and_true] at h
  all_goals first
    | rfl
    | (have := debugChar_then h; simp [this])
    | skip
  obtain ⟨rfl, h'⟩ := decimal_then (by decide) h
  simp only [List.cons.injEq, true_and] at h'
  obtain ⟨rfl, _⟩ := decimal_then (by decide) h'
  rfl

/-- C64: different errors have different messages: the message says on which line, which problem, and with which
label, bracket or character, however these are escaped. -/
theorem C64 (plain : Char → Bool) (a b : Error) (h : a.message plain = b.message plain) : a = b := by
  obtain ⟨l, t⟩ := a
  obtain ⟨l', t'⟩ := b
  simp only [Error.message, List.append_assoc, List.cons_append, List.nil_append, List.cons.injEq, true_and] at h
  obtain ⟨rfl, h'⟩ := decimal_then (by decide) h
  simp only [List.cons.injEq, true_and] at h'
  have ht : t.debug plain = t'.debug plain := List.append_cancel_right h'
  clear h h'
  cases t <;> cases t' <;> simp only [ErrorType.debug, List.append_assoc, List.cons_append, List.nil_append, List.cons.injEq, reduceCtorEq, Char.reduceEq, false_and, and_false, true_and, and_true] at ht
  all_goals first
    | rfl
    | (have := debugStr_then ht; simp [this])
    | (have := debugVariant_then ht; simp [this])
    | skip
  have := C64_internal plain _ _ (List.append_cancel_right ht)
  simp [this]

/-- C64: the message starts with the line, in decimal digits. -/
theorem C64_line (plain : Char → Bool) (e : Error) :
    ∃ digits rest, e.message plain = chars!"Error { line: " ++ digits ++ chars!", type: " ++ rest ∧
      (∀ c ∈ digits, c.isDigit) ∧ Nat.ofDigitChars 10 digits 0 = e.line := by
  refine ⟨decimal e.line, e.type.debug plain ++ chars!" }", by simp [Error.message], ?_, Nat.ofDigitChars_ten_toDigits⟩
  intro c hc
  exact Nat.isDigit_of_mem_toDigits (by decide) (by decide) hc

/-- C64: the message is on one line, whatever the label. -/
theorem C64_one_line (plain : Char → Bool) (e : Error) : '\n' ∉ e.message plain := by
  have hd : ∀ n, '\n' ∉ decimal n := fun n => notin_decimal n (by decide)
  have hx : ∀ n, '\n' ∉ Nat.toDigits 16 n := by
    have digit : ∀ a, a < 16 → '\n' ≠ Nat.digitChar a := by decide
    intro n
    induction n using Nat.strongRecOn with
    | _ n ih =>
      by_cases hn : n < 16
      · rw [Nat.toDigits_of_lt_base hn]
        simpa using digit n hn
      · rw [Nat.toDigits_of_base_le (by decide) (by omega)]
        simp only [List.mem_append, List.mem_singleton, not_or]
        exact ⟨ih _ (by omega), digit _ (Nat.mod_lt n (by decide))⟩
  have he : ∀ q c, '\n' ≠ q → '\n' ∉ escapeChar plain q c := by
    intro q c hq
    unfold escapeChar
    repeat' split
    all_goals first
      | decide
      | (simp [escapeUnicode, hx]; done)
      | (simpa using hq)
      | (rename_i h1 _ _ _; simpa using Ne.symm h1)
  have hs : ∀ s, '\n' ∉ escapeStr plain s := by
    intro s
    induction s with
    | nil => simp [escapeStr]
    | cons c s ih => simp [escapeStr, ih, he '"' c (by decide)]
  have hi : ∀ i : InternalError, '\n' ∉ i.message plain := by
    intro i
    cases i <;> simp [InternalError.message, debugChar, he, hd]
  have hv : ∀ v : ScopeVariant, '\n' ∉ v.debug := by
    intro v; cases v <;> decide
  obtain ⟨l, t⟩ := e
  cases t <;> simp [Error.message, ErrorType.debug, debugStr, hd, hs, hi, hv]

/-- A label over two lines, with quotes and a backslash. -/
example : Error.message (fun c => 32 ≤ c.toNat && c.toNat < 127) ⟨12, .unexpectedEnd ['a', '\n', '"', '\\', 'é']⟩ =
    chars!"Error { line: 12, type: UnexpectedEnd(\"a\\n\\\"\\\\\\u{e9}\") }" := by decide +kernel

example : Error.message (fun _ => true) ⟨3, .internal (.incorrectChunkLineNumber 10 7)⟩ =
    chars!"Error { line: 3, type: Internal(IncorrectChunkLineNumber { expected: 10, got: 7 }) }" := by decide +kernel

end LatexAst
