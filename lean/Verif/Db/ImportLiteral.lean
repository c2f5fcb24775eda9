import Verif.Db.Import

/-! # C178: the values in the text of an import of more than 999 columns -/

namespace Apop.Db.Import
open Apop.Parse

/-- **C178 (wide, the values).** What a field becomes in the text of the insert: NULL exactly if it is empty or, up to case, the NaN string; a string literal for itself if it isn't, is no number and has no apostrophe; itself, or itself with a zero before
a leading point, if it is a finite number. -/
theorem C178_literal (o : Opts) (s : CStr) :
    ((s = [] ∨ ∃ n, o.nan = some n ∧ n.map lower = s.map lower) → literal o s = str " NULL") ∧
    (s ≠ [] → (∀ n, o.nan = some n → n.map lower ≠ s.map lower) →
      (o.st.used s ≠ s.length → (39 : UInt8) ∉ s → sqlLiteral (literal o s) s) ∧
      (o.st.used s = s.length → o.st.cls s = .other → literal o s = if s.head? = some 46 then 48 :: s else s)) := by
  refine ⟨fun h => ?_, fun h1 h2 => ?_⟩
  · rw [literal, (C35_missing o.st o.nan false s).2 h]; rfl
  · have h2' : ∀ n, o.nan = some n → caseEq n s = false := by
      intro n hn
      cases hc : caseEq n s with
      | false => rfl
      | true => exact absurd (caseEq_iff.1 hc) (h2 n hn)
    refine ⟨fun h3 h => ?_, fun h3 h => ?_⟩
    · obtain ⟨out, ho, hl⟩ := C35_literal o.st o.nan s h1 h2' h3 h
      rw [literal, ho]; exact hl
    · obtain ⟨out, ho, hl⟩ := C35_number o.st o.nan false s h1 h2' h3 h
      rw [literal, ho]
      rcases hl with ⟨hh, rfl⟩ | ⟨r, rfl, rfl⟩
      · rw [if_neg hh]; rfl
      · rfl

/-- A case: `.5` and `O` and an empty field, with a `strtod` that takes `.5` for a number. -/
example : let o : Opts := ⟨⟨fun s => if s = str ".5" then 2 else 0, fun _ => .other⟩, some (str "NaN"), fun _ => none⟩
    (literal o (str ".5"), literal o (str "O"), literal o [], literal o (str "nan")) = (str "0.5", str "'O'", str " NULL", str " NULL") := by
  decide +kernel

end Apop.Db.Import
