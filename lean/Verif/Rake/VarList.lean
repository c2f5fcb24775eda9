import Verif.Text.Props
import Verif.Asst.Paste
import Mathlib.Tactic.Tauto
import Mathlib.Order.Lattice
import Mathlib.Order.Defs.LinearOrder

/-!
# C197: the list of variables for raking (`get_var_list`, apop_rake.m4.c:339-361)

Without a list from the user, `apop_rake` asks SQLite for the columns of the margin table
(`PRAGMA table_info`: one row for each column, six fields, the name second), and moves the
names of the columns that are not counts into the first row of that same table.
-/

namespace Apop.Rake

open Apop.Text

/-- `text[i][j]`, read as a string. -/
def rdText (g : Grid) (i j : Nat) : Res CStr :=
  match g.text with
  | none => .ub
  | some t => do
    let r ← rd t i
    let c ← rd r j
    match c with
    | .own s => .ok s
    | .nul => .ok []
    | .uninit => .ub

/-- A name used as a format string (apop_rake.m4.c:352 and 357 pass the name as `fmt` of
`apop_text_set`): itself if there is no `%` in it. Simplification: any `%` is undefined, though
`%%` is not. -/
def asFormat (s : CStr) : Res CStr := if 37 ∈ s then .ub else .ok s

/-- The test of lines 350-351: not the column of counts nor that of the initial counts. -/
def keeps (countCol initCol : Option CStr) (s : CStr) : Bool :=
  (match countCol with | none => true | some c => decide (s ≠ c)) &&
  (match initCol with | none => true | some c => decide (s ≠ c))

/-- The loop of lines 349-352, from row `i` with `n` rows to go. -/
def collect (nan : CStr) (countCol initCol : Option CStr) : Nat → Nat → Grid → Nat → Res (Grid × Nat)
  | _, 0, g, ctr => .ok (g, ctr)
  | i, n + 1, g, ctr => do
    let s ← rdText g i 1
    if keeps countCol initCol s then do
      let f ← asFormat s
      let r ← Text.set g nan 0 ctr (some f)
      collect nan countCol initCol (i + 1) n r.1 (ctr + 1)
    else collect nan countCol initCol (i + 1) n g ctr

/-- `get_var_list` without a list from the user (apop_rake.m4.c:342-354), given the answer to
`PRAGMA table_info`: the table with the names, and their number. -/
def getVarList (nan : CStr) (countCol initCol : Option CStr) (info : Grid) : Res (Grid × Nat) := do
  let r ← collect nan countCol initCol 0 info.size.1 info 0
  let g ← Text.alloc r.1 1 r.2
  .ok (g, r.2)

/-- The loop of line 357. -/
def fillVars (nan : CStr) : Nat → List CStr → Grid → Res Grid
  | _, [], g => .ok g
  | i, s :: l, g => do
    let f ← asFormat s
    let r ← Text.set g nan 0 i (some f)
    fillVars nan (i + 1) l r.1

/-- `get_var_list` with a list from the user (apop_rake.m4.c:356-357). -/
def givenVarList (nan : CStr) (vars : List CStr) : Res Grid := do
  let g ← Text.alloc {} 1 vars.length
  fillVars nan 0 vars g

/-- `list_of_fields` (apop_rake.m4.c:558-559): the first row, pasted with commas. -/
def fieldList (g : Grid) : Option CStr :=
  Asst.paste { between := some [44, 32], betweenCols := some [44, 32] }
    [(List.range g.size.2).map (fun j => (g.get 0 j).getD [])] g.size.2

/-! ### Specification -/

/-- The answer to `PRAGMA table_info` for a table with these columns: a usable table of six
columns with the names in the second. -/
def Describes (info : Grid) (cols : List CStr) : Prop :=
  info.WF ∧ info.size = (cols.length, 6) ∧ ∀ i, i < cols.length → info.get i 1 = cols[i]?

/-! ### Proofs -/

theorem rdText_ok {g : Grid} (hg : g.WF) {i j : Nat} (hi : i < g.size.1) (hj : j < g.size.2) :
    ∃ s, rdText g i j = .ok s ∧ g.get i j = some s := by
  unfold rdText Grid.get
  unfold Grid.WF at hg
  cases ht : g.text with
  | none => rw [ht] at hg; simp only at hg; rw [hg] at hi; exact absurd hi (by simp)
  | some t =>
    rw [ht] at hg
    obtain ⟨_, _, hl, hr⟩ := hg
    have hit : i < t.length := by omega
    obtain ⟨hlen, hun⟩ := hr t[i] (List.getElem_mem hit)
    have hjt : j < t[i].length := by omega
    have hne : t[i][j] ≠ .uninit := fun e => hun (e ▸ List.getElem_mem hjt)
    simp only [rd_of_lt hit, rd_of_lt hjt, Res.bind_ok, List.getElem?_eq_getElem hit, Option.bind_some,
      List.getElem?_eq_getElem hjt, Option.map_some]
    cases hc : t[i][j] with
    | nul => exact ⟨[], rfl, rfl⟩
    | own s => exact ⟨s, rfl, rfl⟩
    | uninit => exact absurd hc hne

/-- The loop of lines 349-352. -/
theorem collect_spec (nan : CStr) (cc ic : Option CStr) (info : Grid) (cols : List CStr)
    (hlen : cols.length < 2 ^ 31 - 1) (hd : Describes info cols)
    (hpc : ∀ s ∈ cols, keeps cc ic s = true → 37 ∉ s) :
    ∀ (n i : Nat) (g : Grid), i + n = cols.length → g.WF → g.size = info.size →
      (∀ a b, g.get a b = if a = 0 ∧ b < ((cols.take i).filter (keeps cc ic)).length ∧ b < 6
        then ((cols.take i).filter (keeps cc ic))[b]? else info.get a b) →
      ∃ g', collect nan cc ic i n g ((cols.take i).filter (keeps cc ic)).length =
          .ok (g', (cols.filter (keeps cc ic)).length) ∧ g'.WF ∧ g'.size = info.size ∧
        ∀ a b, g'.get a b = if a = 0 ∧ b < (cols.filter (keeps cc ic)).length ∧ b < 6
          then (cols.filter (keeps cc ic))[b]? else info.get a b := by
  obtain ⟨hw, hs, hn⟩ := hd
  intro n
  induction n with
  | zero =>
    intro i g hi hg hsz hget
    have : cols.take i = cols := List.take_of_length_le (by omega)
    rw [this] at hget ⊢
    exact ⟨g, rfl, hg, hsz, hget⟩
  | succ n ih =>
    intro i g hi hg hsz hget
    have hic : i < cols.length := by omega
    have htake : cols.take (i + 1) = cols.take i ++ [cols[i]] := List.take_succ_eq_append_getElem hic
    obtain ⟨s, hs1, hs2⟩ := rdText_ok hg (i := i) (j := 1) (by rw [hsz, hs]; exact hic) (by rw [hsz, hs]; simp)
    have hsc : s = cols[i] := by
      have h1 := hget i 1
      rw [hs2] at h1
      by_cases h0 : i = 0
      · subst h0
        rw [if_neg (by simp), hn 0 hic, List.getElem?_eq_getElem hic] at h1
        exact Option.some.inj h1
      · rw [if_neg (by simp [h0]), hn i hic, List.getElem?_eq_getElem hic] at h1
        exact Option.some.inj h1
    subst hsc
    rw [collect]
    simp only [hs1, Res.bind_ok]
    by_cases hk : keeps cc ic cols[i] = true
    · have hf : (cols.take (i + 1)).filter (keeps cc ic) = (cols.take i).filter (keeps cc ic) ++ [cols[i]] := by
        rw [htake, List.filter_append]; simp [hk]
      have hle : ((cols.take i).filter (keeps cc ic)).length ≤ i :=
        Nat.le_trans (List.length_filter_le _ _) (by simp)
      rw [if_pos hk, asFormat, if_neg (hpc _ (List.getElem_mem hic) hk)]
      simp only [Res.bind_ok]
      generalize hkd : (cols.take i).filter (keeps cc ic) = kd at *
      have hset := C10_text_set g hg nan 0 kd.length (some cols[i]) (by omega) (by omega)
      have hlen' : ((cols.take (i + 1)).filter (keeps cc ic)).length = kd.length + 1 := by rw [hf]; simp
      by_cases h6 : kd.length < 6
      · rw [if_pos (by rw [hsz, hs]; exact ⟨by simp; omega, h6⟩)] at hset
        obtain ⟨g2, e, w, z, ge⟩ := hset
        have := ih (i + 1) g2 (by omega) w (z.trans hsz) (by
          intro a b
          rw [ge a b, hget a b, hf]
          simp only [List.length_append, List.length_singleton]
          by_cases ha : a = 0
          · subst ha
            rcases Nat.lt_trichotomy b kd.length with c | c | c
            · rw [if_neg (by omega), if_pos (by omega), if_pos (by omega), List.getElem?_append_left c]
            · subst c
              rw [if_pos (by simp), if_pos (by omega)]
              simp
            · rw [if_neg (by omega), if_neg (by omega), if_neg (by omega)]
          · rw [if_neg (by simp [ha]), if_neg (by simp [ha]), if_neg (by simp [ha])])
        rw [hlen'] at this
        rw [e]
        simpa using this
      · rw [if_neg (by rw [hsz, hs]; simp; omega)] at hset
        have := ih (i + 1) g (by omega) hg hsz (by
          intro a b
          rw [hget a b, hf]
          simp only [List.length_append, List.length_singleton]
          by_cases ha : a = 0 ∧ b < 6
          · rw [if_pos (by omega), if_pos (by omega), List.getElem?_append_left (by omega)]
          · rw [if_neg (by tauto), if_neg (by tauto)])
        rw [hlen'] at this
        rw [hset]
        simpa using this
    · have hf : (cols.take (i + 1)).filter (keeps cc ic) = (cols.take i).filter (keeps cc ic) := by
        rw [htake, List.filter_append]; simp [hk]
      rw [if_neg hk]
      have := ih (i + 1) g (by omega) hg hsz (by rw [hf]; exact hget)
      rw [hf] at this
      exact this

/-- What `get_var_list` gives in general: the first six of the names that are no counts,
then blanks. -/
theorem getVarList_spec (nan : CStr) (cc ic : Option CStr) (info : Grid) (cols : List CStr)
    (hlen : cols.length < 2 ^ 31 - 1) (hd : Describes info cols)
    (hpc : ∀ s ∈ cols, keeps cc ic s = true → 37 ∉ s) (hne : cols.filter (keeps cc ic) ≠ []) :
    ∃ g, getVarList nan cc ic info = .ok (g, (cols.filter (keeps cc ic)).length) ∧ g.WF ∧
      g.size = (1, (cols.filter (keeps cc ic)).length) ∧
      ∀ j, j < (cols.filter (keeps cc ic)).length →
        g.get 0 j = if j < 6 then (cols.filter (keeps cc ic))[j]? else some [] := by
  have hpos : 0 < (cols.filter (keeps cc ic)).length := List.length_pos_iff.2 hne
  obtain ⟨g1, e1, w1, z1, q1⟩ := collect_spec nan cc ic info cols hlen hd hpc cols.length 0 info (by omega)
    hd.1 rfl (by intro a b; simp)
  have hcl : 0 < cols.length := by
    have := List.length_filter_le (keeps cc ic) cols
    omega
  obtain ⟨g2, e2, w2, _, h2⟩ := C09_text_alloc g1 w1 1 (cols.filter (keeps cc ic)).length (by
    rintro ⟨h, -, -⟩
    rw [z1, hd.2.1] at h
    simp only at h
    omega)
  obtain ⟨z2, q2⟩ := h2 (by omega)
  refine ⟨g2, ?_, w2, z2, fun j hj => ?_⟩
  · unfold getVarList
    simp only [List.take_zero, List.filter_nil, List.length_nil] at e1
    rw [hd.2.1]
    simp only [e1, Res.bind_ok, e2]
  · rw [q2 0 j, if_pos ⟨by omega, hj⟩, z1, hd.2.1]
    by_cases h6 : j < 6
    · rw [if_pos ⟨hcl, h6⟩, q1 0 j, if_pos ⟨rfl, hj, h6⟩, if_pos h6, List.getElem?_eq_getElem hj]
      rfl
    · rw [if_neg (by simp; omega), if_neg h6]

theorem fieldList_eq {g : Grid} {l : List CStr} (hs : g.size.2 = l.length) (hl : l ≠ [])
    (hg : ∀ j, j < l.length → g.get 0 j = l[j]?) : fieldList g = some (List.intercalate [44, 32] l) := by
  have e : (List.range g.size.2).map (fun j => (g.get 0 j).getD []) = l := by
    apply List.ext_getElem
    · simp [hs]
    · intro j h1 h2
      simp [hg j h2, h2]
  have hpos : 0 < l.length := List.length_pos_iff.2 hl
  obtain ⟨a, b⟩ := Asst.C26_join { between := some [44, 32], betweenCols := some [44, 32] } rfl [l] l.length hpos
    (by simp)
  unfold fieldList
  rw [e, hs]
  cases hp : Asst.paste { between := some [44, 32], betweenCols := some [44, 32] } [l] l.length with
  | none => exact absurd (b.1 hp).2.1 (by simp)
  | some s =>
    rw [hp] at a
    simpa [List.intercalate] using a

theorem keeps_eq (cc ic : Option CStr) (s : CStr) : decide (some s ≠ cc ∧ some s ≠ ic) = keeps cc ic s := by
  cases cc <;> cases ic <;> simp [keeps]

/-- **C197**: if one to six columns of the margin table are no counts, they, in their order,
are the variables, and the fields of the queries. -/
theorem C197_variables (nan : CStr) (cc ic : Option CStr) (info : Grid) (cols vars : List CStr)
    (hlen : cols.length < 2 ^ 31 - 1) (hd : Describes info cols)
    (hv : vars = cols.filter (fun s => decide (some s ≠ cc ∧ some s ≠ ic)))
    (hpc : ∀ s ∈ vars, 37 ∉ s) (h1 : 1 ≤ vars.length) (h6 : vars.length ≤ 6) :
    ∃ g, getVarList nan cc ic info = .ok (g, vars.length) ∧ g.size = (1, vars.length) ∧
      (∀ j, j < vars.length → g.get 0 j = vars[j]?) ∧ fieldList g = some (List.intercalate [44, 32] vars) := by
  have hv' : vars = cols.filter (keeps cc ic) := by rw [hv]; congr 1; funext s; exact keeps_eq cc ic s
  obtain ⟨g, e, w, z, q⟩ := getVarList_spec nan cc ic info cols hlen hd
    (fun s hs hk => hpc s (by rw [hv']; exact List.mem_filter.2 ⟨hs, hk⟩))
    (by rw [← hv']; exact List.length_pos_iff.1 h1)
  rw [← hv'] at e z q
  have q' : ∀ j, j < vars.length → g.get 0 j = vars[j]? := fun j hj => by rw [q j hj, if_pos (by omega)]
  exact ⟨g, e, z, q', fieldList_eq (by rw [z]) (List.length_pos_iff.1 h1) q'⟩

/-- **C197, counterexample for every larger table**: with more than six columns that are no
counts, the variables after the sixth have a blank name, so the list of fields in the queries is
not one of the columns. -/
theorem C197_more_than_six_refuted (nan : CStr) (cc ic : Option CStr) (info : Grid) (cols vars : List CStr)
    (hlen : cols.length < 2 ^ 31 - 1) (hd : Describes info cols)
    (hv : vars = cols.filter (fun s => decide (some s ≠ cc ∧ some s ≠ ic)))
    (hpc : ∀ s ∈ vars, 37 ∉ s) (h6 : 6 < vars.length) :
    ∃ g, getVarList nan cc ic info = .ok (g, vars.length) ∧ g.size = (1, vars.length) ∧
      (∀ j, j < 6 → g.get 0 j = vars[j]?) ∧ (∀ j, 6 ≤ j → j < vars.length → g.get 0 j = some []) ∧
      fieldList g = some (List.intercalate [44, 32] (vars.take 6 ++ List.replicate (vars.length - 6) [])) := by
  have hv' : vars = cols.filter (keeps cc ic) := by rw [hv]; congr 1; funext s; exact keeps_eq cc ic s
  obtain ⟨g, e, w, z, q⟩ := getVarList_spec nan cc ic info cols hlen hd
    (fun s hs hk => hpc s (by rw [hv']; exact List.mem_filter.2 ⟨hs, hk⟩))
    (by rw [← hv']; exact List.length_pos_iff.1 (by omega))
  rw [← hv'] at e z q
  refine ⟨g, e, z, fun j hj => by rw [q j (by omega), if_pos hj],
    fun j h1 h2 => by rw [q j h2, if_neg (by omega)], ?_⟩
  apply fieldList_eq
  · rw [z]; simp; omega
  · intro h
    have := congrArg List.length h
    simp at this
    omega
  · intro j hj
    have hj' : j < vars.length := by simp at hj; omega
    rw [q j hj']
    by_cases h : j < 6
    · rw [if_pos h, List.getElem?_append_left (by simp; omega), List.getElem?_take_of_lt h]
    · have hm : min 6 vars.length = 6 := by omega
      rw [if_neg h, List.getElem?_append_right (by simp; omega), List.length_take, hm,
        List.getElem?_replicate, if_pos (by omega)]

/-- **C197**: with a list from the user (at least one name, no percent sign), that is the list. -/
theorem C197_given_list (nan : CStr) (vars : List CStr) (hlen : vars.length < 2 ^ 31 - 1)
    (hpc : ∀ s ∈ vars, 37 ∉ s) (h1 : 1 ≤ vars.length) :
    ∃ g, givenVarList nan vars = .ok g ∧ g.size = (1, vars.length) ∧
      (∀ j, j < vars.length → g.get 0 j = vars[j]?) ∧ fieldList g = some (List.intercalate [44, 32] vars) := by
  have w0 : (({} : Grid)).WF := rfl
  obtain ⟨g1, e1, w1, _, h1'⟩ := C09_text_alloc {} w0 1 vars.length (by simp)
  obtain ⟨z1, _⟩ := h1' (by omega)
  have main : ∀ (l : List CStr) (i : Nat) (g : Grid), vars.drop i = l → g.WF → g.size = (1, vars.length) →
      (∀ j, j < i → g.get 0 j = vars[j]?) → i ≤ vars.length →
      ∃ g', fillVars nan i l g = .ok g' ∧ g'.size = (1, vars.length) ∧ ∀ j, j < vars.length → g'.get 0 j = vars[j]? := by
    intro l
    induction l with
    | nil =>
      intro i g hd _ hz hq hi
      have : vars.length ≤ i := List.drop_eq_nil_iff.1 hd
      exact ⟨g, rfl, hz, fun j hj => hq j (by omega)⟩
    | cons s l ih =>
      intro i g hd hw hz hq hi
      have hil : i < vars.length := by
        by_contra hc
        rw [List.drop_eq_nil_iff.2 (by omega)] at hd
        exact absurd hd (by simp)
      rw [List.drop_eq_getElem_cons hil] at hd
      obtain ⟨hs, hd'⟩ := List.cons.inj hd
      have hset := C10_text_set g hw nan 0 i (some s) (by omega) (by omega)
      rw [if_pos (by rw [hz]; exact ⟨by simp, hil⟩)] at hset
      obtain ⟨g2, e, w, z, ge⟩ := hset
      rw [fillVars, asFormat, if_neg (by rw [← hs]; exact hpc _ (List.getElem_mem hil))]
      simp only [Res.bind_ok, e]
      refine ih (i + 1) g2 hd' w (z.trans hz) (fun j hj => ?_) hil
      rw [ge 0 j]
      by_cases hji : j = i
      · subst hji
        rw [if_pos ⟨rfl, rfl⟩, List.getElem?_eq_getElem hil, hs]; rfl
      · rw [if_neg (by simp [hji])]
        exact hq j (by omega)
  obtain ⟨g, e, z, q⟩ := main vars 0 g1 rfl w1 z1 (fun j hj => absurd hj (by omega)) (by omega)
  refine ⟨g, ?_, z, q, fieldList_eq (by rw [z]) (List.length_pos_iff.1 h1) q⟩
  unfold givenVarList
  simp only [e1, Res.bind_ok, e]

/-- The margin table has columns `a`, `n`, `b`, with `n` for the counts. -/
def info3 : Grid :=
  { text := some ([[97], [110], [98]].map (fun s => Cell.own [48] :: Cell.own s :: List.replicate 4 Cell.nul)),
    size := (3, 6) }

theorem info3_describes : Describes info3 [[97], [110], [98]] := by
  refine ⟨⟨by decide, by decide, by decide, by decide⟩, rfl, fun i hi => ?_⟩
  simp only [List.length_cons, List.length_nil] at hi
  have : i = 0 ∨ i = 1 ∨ i = 2 := by omega
  rcases this with rfl | rfl | rfl <;> rfl

/-- Its variables are `a` and `b`. -/
example : ∃ g, getVarList [] (some [110]) none info3 = .ok (g, 2) ∧ g.size = (1, 2) ∧
    (∀ j, j < 2 → g.get 0 j = ([[97], [98]] : List CStr)[j]?) ∧ fieldList g = some [97, 44, 32, 98] :=
  C197_variables [] (some [110]) none info3 [[97], [110], [98]] [[97], [98]] (by decide) info3_describes
    (by decide) (by decide) (by decide) (by decide)

/-- Seven variables `a` to `g`. -/
def info7 : Grid :=
  { text := some ([[97], [98], [99], [100], [101], [102], [103]].map
      (fun s => Cell.own [48] :: Cell.own s :: List.replicate 4 Cell.nul)),
    size := (7, 6) }

theorem info7_describes : Describes info7 [[97], [98], [99], [100], [101], [102], [103]] := by
  refine ⟨⟨by decide, by decide, by decide, by decide⟩, rfl, fun i hi => ?_⟩
  simp only [List.length_cons, List.length_nil] at hi
  have : i = 0 ∨ i = 1 ∨ i = 2 ∨ i = 3 ∨ i = 4 ∨ i = 5 ∨ i = 6 := by omega
  rcases this with rfl | rfl | rfl | rfl | rfl | rfl | rfl <;> rfl

/-- The fields are "a, b, c, d, e, f, ". -/
example : ∃ g, getVarList [] none none info7 = .ok (g, 7) ∧ g.get 0 6 = some [] := by
  obtain ⟨g, e, _, _, h, _⟩ := C197_more_than_six_refuted [] none none info7
    [[97], [98], [99], [100], [101], [102], [103]] [[97], [98], [99], [100], [101], [102], [103]] (by decide)
    info7_describes (by decide) (by decide) (by decide)
  exact ⟨g, e, h 6 (by omega) (by decide)⟩

end Apop.Rake
