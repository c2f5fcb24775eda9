import Verif.Name.Props

/-! # C01: `apop_data_add_names` -/

namespace Apop.Names

/-- The loop of `apop_data_add_names_base`, apop_data.m4.c:957-958, over an array of strings that is to end with NULL; an array that does not is read past its end. -/
def addNamesLoop (type : Char) : Names → List (Option CStr) → Res Names
  | _, [] => .ub
  | n, none :: _ => .ok n
  | n, some s :: rest => addNamesLoop type (n.add (some s) type).1 rest

/-- `apop_data_add_names_base`, apop_data.m4.c:955-959: names are allocated if there are none. -/
def addNamesBase (n : Option Names) (type : Char) (names : List (Option CStr)) : Res Names := addNamesLoop type (n.getD alloc) names

/-- The macro `apop_data_add_names`, apop.m4.h:173, which puts a NULL at the end. -/
def addNames (n : Option Names) (type : Char) (args : List (Option CStr)) : Res Names := addNamesBase n type (args ++ [none])

/-- The strings before the first NULL. -/
def upToNull : List (Option CStr) → List CStr
  | some s :: rest => s :: upToNull rest
  | _ => []

theorem addNamesLoop_eq (type : Char) (n : Names) (l : List (Option CStr)) (h : none ∈ l) :
    addNamesLoop type n l = .ok (n.runAdds ((upToNull l).map fun s => (some s, type))).1 := by
  induction l generalizing n with
  | nil => cases h
  | cons a l ih =>
    cases a with
    | none => rfl
    | some s =>
      have h' : none ∈ l := by simpa using h
      simp only [addNamesLoop, upToNull, List.map_cons, runAdds]
      rw [ih _ h']

theorem upToNull_args (l : List CStr) : upToNull (l.map some ++ [none]) = l := by
  induction l with
  | nil => rfl
  | cons a l ih => simp [upToNull, ih]

theorem upToNull_stop (l : List CStr) (rest : List (Option CStr)) : upToNull (l.map some ++ none :: rest) = l := by
  induction l with
  | nil => rfl
  | cons a l ih => simp [upToNull, ih]

theorem given_all (p : Char → Bool) (type : Char) (l : List CStr) : given p (l.map fun s => (some s, type)) = if p type then l else [] := by
  induction l with
  | nil => simp [given]
  | cons a l ih =>
    simp only [given] at ih ⊢
    by_cases h : p type = true <;> simp_all

/-- **C01, `apop_data_add_names`**: the strings given are put at the end of the list of their type, in order, and the other lists are left (a data set without names starts with empty ones); of a title or vector's name the last counts. -/
theorem C01_add_names (n : Option Names) (type : Char) (l : List CStr) :
    ∃ m, addNames n type (l.map some) = .ok m ∧
      m.row = (n.getD {}).row ++ (if type = 'r' then l else []) ∧
      m.text = (n.getD {}).text ++ (if type = 't' then l else []) ∧
      m.col = (n.getD {}).col ++ (if type ≠ 'h' ∧ type ≠ 'v' ∧ type ≠ 'r' ∧ type ≠ 't' then l else []) ∧
      m.vector = (if type = 'v' then l.getLast? else none).or (n.getD {}).vector ∧
      m.title = (if type = 'h' then l.getLast? else none).or (n.getD {}).title := by
  refine ⟨_, addNamesLoop_eq type _ _ (by simp), ?_⟩
  rw [upToNull_args]
  obtain ⟨h1, h2, h3, h4, h5⟩ := C01_adds_append (n.getD alloc) (l.map fun s => (some s, type))
  rw [given_all] at h1 h2 h3 h4 h5
  refine ⟨?_, ?_, ?_, ?_, ?_⟩
  · rw [h1]; simp [alloc]
  · rw [h2]; simp [alloc]
  · rw [h3]; simp [alloc, isCol, and_assoc]
  · rw [h4]; by_cases h : type = 'v' <;> simp [alloc, h]
  · rw [h5]; by_cases h : type = 'h' <;> simp [alloc, h]

/-- A NULL among the strings ends them: those after it are not added. `apop_anova` gives row names in this way (apop_tests.m4.c:328). -/
theorem C01_add_names_null_refuted (n : Option Names) (type : Char) (l : List CStr) (rest : List (Option CStr)) :
    addNames n type (l.map some ++ none :: rest) = addNames n type (l.map some) := by
  rw [addNames, addNamesBase, addNamesLoop_eq _ _ _ (by simp), addNames, addNamesBase, addNamesLoop_eq _ _ _ (by simp), upToNull_args,
    List.append_assoc, List.cons_append, upToNull_stop]

/-- An array for `apop_data_add_names_base` without a NULL at the end is read past its end. -/
theorem C01_add_names_unended_refuted (n : Option Names) (type : Char) (l : List CStr) : addNamesBase n type (l.map some) = .ub := by
  unfold addNamesBase
  generalize n.getD alloc = m
  induction l generalizing m with
  | nil => rfl
  | cons a l ih => exact ih _

example : (addNames none 'c' [some [65], some [66]]).map (·.col) = .ok [[65], [66]] := by decide

end Apop.Names
