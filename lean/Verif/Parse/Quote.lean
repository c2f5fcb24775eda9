import Verif.Base.C

/-! # Quoting strings for SQL (C35) -/

namespace Apop.Parse

/-- What `atof` of a whole number string is, as far as the code asks: `isinf(..)==1`, `isinf(..)==-1`, `isnan`, or none. -/
inductive NumClass where
  | inf | ninf | nan | other
  deriving DecidableEq

/-- `strtod`, from the C library: how many bytes of the string it uses, and what the number is. Nothing is assumed about it. -/
structure Strtod where
  used : CStr → Nat
  cls : CStr → NumClass

/-- Lines 1006-1016: a number. -/
def prepNumber (st : Strtod) (s : CStr) : CStr :=
  match st.cls s with
  | .inf => str "9e9999999"
  | .ninf => str "-9e9999999"
  | .nan => str "0.0/0.0"
  | .other => if s.head? = some 46 then 48 :: s else s

/-- Lines 999-1005: not a number. -/
def prepText (prepared : Bool) (s : CStr) : CStr :=
  if prepared then s
  else if (39 : UInt8) ∈ s then [34] ++ s ++ [34]
  else [39] ++ s ++ [39]

/-- Is it the NaN string (line 992)? -/
def isNan (nan : Option CStr) (s : CStr) : Bool :=
  match nan with
  | none => false
  | some n => caseEq n s

/-- `prep_string_for_sqlite`, apop_conversions.m4.c:990-1019; `none` is NULL. `nan` is `apop_opts.nan_string`. -/
def prepString (st : Strtod) (nan : Option CStr) (prepared : Bool) (s : CStr) : Option CStr :=
  if s = [] ∨ isNan nan s = true then none
  else if st.used s ≠ s.length then some (prepText prepared s)
  else some (prepNumber st s)

/-! ## Specification: SQL tokens in quotes -/

/-- What is after the opening quote: up to a quote that is not doubled; the text, and what comes after the token. -/
def sqlBody (q : UInt8) : List UInt8 → Option (List UInt8 × List UInt8)
  | [] => none
  | [c] => if c = q then some ([], []) else none
  | c :: d :: r =>
    if c = q then
      if d = q then (sqlBody q r).map (fun x => (q :: x.1, x.2)) else some ([], d :: r)
    else (sqlBody q (d :: r)).map (fun x => (c :: x.1, x.2))

/-- The bytes are one token in the quotes `q`, for this text. -/
def sqlToken (q : UInt8) (tok text : List UInt8) : Prop := ∃ r, tok = q :: r ∧ sqlBody q r = some (text, [])

/-- A string literal of SQL: in single quotes. -/
def sqlLiteral (tok text : List UInt8) : Prop := sqlToken 39 tok text

/-! ## The theorems -/

theorem sqlBody_plain (q : UInt8) : ∀ (s : List UInt8), q ∉ s → sqlBody q (s ++ [q]) = some (s, [])
  | [], _ => by simp [sqlBody]
  | [c], h => by
    have : c ≠ q := fun e => h (by simp [e])
    simp [sqlBody, this]
  | c :: d :: r, h => by
    have h1 : c ≠ q := fun e => h (by simp [e])
    have := sqlBody_plain q (d :: r) (fun e => h (by simp at e ⊢; exact Or.inr e))
    simp only [List.cons_append] at this ⊢
    simp [sqlBody, h1, this]

theorem sqlBody_length (q : UInt8) : ∀ (l t r : List UInt8), sqlBody q l = some (t, r) → l.length = t.length + t.count q + 1 + r.length
  | [], t, r, h => by simp [sqlBody] at h
  | [c], t, r, h => by
    simp only [sqlBody] at h
    split at h
    · simp at h; obtain ⟨rfl, rfl⟩ := h; simp
    · simp at h
  | c :: d :: l, t, r, h => by
    rw [sqlBody] at h
    split at h
    · split at h
      · rw [Option.map_eq_some_iff] at h
        obtain ⟨⟨t', r'⟩, h1, h2⟩ := h
        simp only [Prod.mk.injEq] at h2
        obtain ⟨rfl, rfl⟩ := h2
        have := sqlBody_length q l t' r' h1
        simp only [List.length_cons, List.count_cons_self]
        omega
      · simp at h; obtain ⟨rfl, rfl⟩ := h; simp; omega
    · rename_i hc
      rw [Option.map_eq_some_iff] at h
      obtain ⟨⟨t', r'⟩, h1, h2⟩ := h
      simp only [Prod.mk.injEq] at h2
      obtain ⟨rfl, rfl⟩ := h2
      have := sqlBody_length q (d :: l) t' r' h1
      simp only [List.length_cons, List.count_cons_of_ne hc] at this ⊢
      omega

/-- **C35, missing values.** A string is NULL exactly when it is empty or is, up to case, the NaN string. -/
theorem C35_missing (st : Strtod) (nan : Option CStr) (prepared : Bool) (s : CStr) :
    prepString st nan prepared s = none ↔ s = [] ∨ ∃ n, nan = some n ∧ n.map lower = s.map lower := by
  have hn : isNan nan s = true ↔ ∃ n, nan = some n ∧ n.map lower = s.map lower := by
    cases nan <;> simp [isNan, caseEq_iff]
  unfold prepString
  rw [← hn]
  split
  · rename_i h; exact ⟨fun _ => h, fun _ => rfl⟩
  · rename_i h
    split <;> simp [h]

theorem not_missing {nan : Option CStr} {s : CStr} (h1 : s ≠ []) (h2 : ∀ n, nan = some n → caseEq n s = false) : ¬(s = [] ∨ isNan nan s = true) := by
  rintro (h | h)
  · exact h1 h
  · cases hn : nan with
    | none => rw [hn] at h; simp [isNan] at h
    | some n => rw [hn] at h; simp only [isNan, h2 n hn] at h; simp at h

theorem prepString_text (st : Strtod) (nan : Option CStr) (prepared : Bool) (s : CStr) (h1 : s ≠ []) (h2 : ∀ n, nan = some n → caseEq n s = false)
    (h3 : st.used s ≠ s.length) : prepString st nan prepared s = some (prepText prepared s) := by
  unfold prepString
  rw [if_neg, if_pos h3]
  exact not_missing h1 h2

/-- **C35 (strings with no apostrophe).** A string that is not missing and no number is made a string literal of SQL for that string. Outside of this: strings with an
apostrophe (`C35_apostrophe_no_literal`, `C35_both_quotes_broken`). -/
theorem C35_literal (st : Strtod) (nan : Option CStr) (s : CStr) (h1 : s ≠ []) (h2 : ∀ n, nan = some n → caseEq n s = false)
    (h3 : st.used s ≠ s.length) (h : (39 : UInt8) ∉ s) : ∃ out, prepString st nan false s = some out ∧ sqlLiteral out s :=
  ⟨_, prepString_text st nan false s h1 h2 h3, s ++ [39], by simp [prepText, h], sqlBody_plain 39 s h⟩

/-- With prepared statements the string is passed on as it is. -/
theorem C35_prepared_text (st : Strtod) (nan : Option CStr) (s : CStr) (h1 : s ≠ []) (h2 : ∀ n, nan = some n → caseEq n s = false)
    (h3 : st.used s ≠ s.length) : prepString st nan true s = some s :=
  prepString_text st nan true s h1 h2 h3

/-- **A string with an apostrophe is not made a literal**: it is put in double quotes, which in SQL delimit the name of a column. -/
theorem C35_apostrophe_no_literal (st : Strtod) (nan : Option CStr) (s : CStr) (h1 : s ≠ []) (h2 : ∀ n, nan = some n → caseEq n s = false)
    (h3 : st.used s ≠ s.length) (h : (39 : UInt8) ∈ s) : ∃ out, prepString st nan false s = some out ∧ ¬∃ t, sqlLiteral out t := by
  refine ⟨_, prepString_text st nan false s h1 h2 h3, ?_⟩
  rintro ⟨t, r, hr, _⟩
  simp [prepText, h] at hr

/-- **A string with an apostrophe and a double quote** is not even one token in double quotes for that string: the statement is broken, or says something else. -/
theorem C35_both_quotes_broken (st : Strtod) (nan : Option CStr) (s : CStr) (h1 : s ≠ []) (h2 : ∀ n, nan = some n → caseEq n s = false)
    (h3 : st.used s ≠ s.length) (h : (39 : UInt8) ∈ s) (h' : (34 : UInt8) ∈ s) : ∃ out, prepString st nan false s = some out ∧ ¬sqlToken 34 out s ∧ ¬sqlToken 39 out s := by
  refine ⟨_, prepString_text st nan false s h1 h2 h3, ?_, ?_⟩
  · rintro ⟨r, hr, hb⟩
    simp [prepText, h] at hr
    subst hr
    have := sqlBody_length 34 _ _ _ hb
    have hc : 0 < s.count 34 := List.count_pos_iff.2 h'
    simp at this
    omega
  · rintro ⟨r, hr, hb⟩
    simp [prepText, h] at hr

/-- **A NaN that is not the NaN string** (`-nan`, or `nan` when the NaN string is something else) is made the text `0.0/0.0`. In a statement that is an expression with value NULL, but with prepared
statements this text is bound to the field as it is. -/
theorem C35_nan_text (st : Strtod) (nan : Option CStr) (prepared : Bool) (s : CStr) (h1 : s ≠ []) (h2 : ∀ n, nan = some n → caseEq n s = false)
    (h3 : st.used s = s.length) (h : st.cls s = .nan) : prepString st nan prepared s = some (str "0.0/0.0") := by
  unfold prepString
  rw [if_neg, if_neg (by simp [h3])]
  · simp [prepNumber, h]
  · exact not_missing h1 h2

/-- A finite number is passed on as it is, but with a zero before a leading point. -/
theorem C35_number (st : Strtod) (nan : Option CStr) (prepared : Bool) (s : CStr) (h1 : s ≠ []) (h2 : ∀ n, nan = some n → caseEq n s = false)
    (h3 : st.used s = s.length) (h : st.cls s = .other) :
    ∃ out, prepString st nan prepared s = some out ∧ ((s.head? ≠ some 46 ∧ out = s) ∨ ∃ r, s = 46 :: r ∧ out = [48, 46] ++ r) := by
  refine ⟨prepNumber st s, ?_, ?_⟩
  · unfold prepString
    rw [if_neg, if_neg (by simp [h3])]
    exact not_missing h1 h2
  · simp only [prepNumber, h]
    by_cases hd : s.head? = some 46
    · right
      rw [if_pos hd]
      cases s with
      | nil => exact absurd rfl h1
      | cons c r => simp at hd; subst hd; exact ⟨r, rfl, rfl⟩
    · left
      rw [if_neg hd]
      exact ⟨hd, rfl⟩

/-- A number reader for the examples: no string is a number. -/
def noNumbers : Strtod := ⟨fun _ => 0, fun _ => .other⟩

/-- The hypotheses can be met: `abc` is quoted, `it's` goes into double quotes, and `NAN` is missing. -/
example : prepString noNumbers (some (str "NaN")) false (str "abc") = some (str "'abc'") ∧
    prepString noNumbers (some (str "NaN")) false (str "it's") = some (str "\"it's\"") ∧
    prepString noNumbers (some (str "NaN")) false (str "NAN") = none := by
  refine ⟨?_, ?_, ?_⟩
  · rw [prepString_text _ _ _ _ (by decide +kernel) (by intro n hn; simp at hn; subst hn; decide +kernel) (by decide +kernel)]; decide +kernel
  · rw [prepString_text _ _ _ _ (by decide +kernel) (by intro n hn; simp at hn; subst hn; decide +kernel) (by decide +kernel)]; decide +kernel
  · exact (C35_missing _ _ _ _).2 (Or.inr ⟨_, rfl, by decide +kernel⟩)

end Apop.Parse
