import Verif.Out.Print

/-! # C115: the title -/

namespace Apop.Out

/-- **C115 (title).** A set with a title is printed as a tab, the title and two newlines, followed by what is printed for the set without it; an empty title is no title. -/
theorem C115_title (d : CStr) (screen : Bool) (s : PSet) (t : CStr) (h : s.title = some t) :
    printCore d screen (some s) = (printCore d screen (some { s with title := none })).bind fun out => .ok ((if t = [] then [] else [9] ++ t ++ [10, 10]) ++ out) := by
  have e1 : ∀ j, printRow d screen { s with title := none } j = printRow d screen s j := fun j => rfl
  have e2 : printHead d screen s = .ok (printTitle s) :: (printHead d screen s).tail := rfl
  have e3 : printHead d screen { s with title := none } = .ok [] :: (printHead d screen s).tail := rfl
  have e4 : printTitle s = if t = [] then [] else [9] ++ t ++ [10, 10] := by
    unfold printTitle; rw [h]; rfl
  have e5 : (fun j => printRow d screen { s with title := none } j) = fun j => printRow d screen s j := rfl
  show cat (printHead d screen s ++ (List.range s.rowend).flatMap (printRow d screen s)) = (cat (printHead d screen { s with title := none } ++ (List.range s.rowend).flatMap (printRow d screen s))).bind _
  rw [e2, e3, e4]
  simp only [List.cons_append, cat]
  cases cat ((printHead d screen s).tail ++ (List.range s.rowend).flatMap (printRow d screen s)) <;> rfl

/-- A case that meets the hypothesis. -/
example : printCore [44] false (some { title := some [84], texts := [[97], [98]], text := some ⟨2, [[[120], [121]]]⟩ }) = .ok ([9, 84, 10, 10] ++ [97, 44, 98, 10] ++ [120, 44, 121, 10]) := by
  decide +kernel

end Apop.Out
