import Verif.Data.CopyProps

/-! # C40: apop_data_memcpy, names and further pages -/

namespace Apop
namespace Page
variable {α : Type}

theorem copyList_get (type : Char) (get : Names → List CStr) (put : Names → List CStr → Names)
    (hgp : ∀ n l, get (put n l) = l) (hadd : ∀ n s, get (n.add (some s) type).1 = get n ++ [s])
    (out : Names) (i : Nat) (ss : List CStr) (hi : i ≤ (get out).length) :
    get (copyList type get put out i ss) = (get out).take i ++ ss ++ (get out).drop (i + ss.length) := by
  induction ss generalizing out i with
  | nil => simp [copyList]
  | cons s ss ih =>
    rw [copyList]
    by_cases h : i < (get out).length
    · simp only [if_pos h]
      rw [ih _ _ (by rw [hgp]; simp; omega), hgp]
      have e : ((get out).set i s).take (i + 1) = (get out).take i ++ [s] := by
        rw [List.take_succ_eq_append_getElem (by simpa using h), List.getElem_set_self, List.take_set_of_le (Nat.le_refl i)]
      have e' : ((get out).set i s).drop (i + 1 + ss.length) = (get out).drop (i + (s :: ss).length) := by
        rw [List.drop_set]
        simp only [List.length_cons]
        rw [if_pos (by omega)]
        congr 1; omega
      rw [e, e']; simp
    · simp only [if_neg h]
      have hi' : i = (get out).length := by omega
      rw [ih _ _ (by rw [hadd]; simp; omega), hadd]
      rw [List.take_of_length_le (by simp; omega), List.drop_of_length_le (by simp; omega), List.drop_of_length_le (by simp; omega),
        List.take_of_length_le (by omega)]
      simp

theorem copyList_other {β : Type} (type : Char) (get : Names → List CStr) (put : Names → List CStr → Names) (other : Names → β)
    (hp : ∀ n l, other (put n l) = other n) (hadd : ∀ n s, other (n.add (some s) type).1 = other n)
    (out : Names) (i : Nat) (ss : List CStr) : other (copyList type get put out i ss) = other out := by
  induction ss generalizing out i with
  | nil => rfl
  | cons s ss ih =>
    rw [copyList, ih]
    split
    · exact hp _ _
    · exact hadd _ _

theorem lists_spec (b inn : Names) :
    let m := copyList 't' Names.text (fun n l => { n with text := l }) (copyList 'c' Names.col (fun n l => { n with col := l })
      (copyList 'r' Names.row (fun n l => { n with row := l }) b 0 inn.row) 0 inn.col) 0 inn.text
    m.row = inn.row ++ b.row.drop inn.row.length ∧ m.col = inn.col ++ b.col.drop inn.col.length ∧ m.text = inn.text ++ b.text.drop inn.text.length ∧
    m.title = b.title ∧ m.vector = b.vector := by
  intro m
  show m.row = _ ∧ _
  simp only [m]
  have R := copyList_get 'r' Names.row (fun n l => { n with row := l }) (by simp) (by simp [Names.add]) b 0 inn.row (by simp)
  generalize hB : copyList 'r' Names.row (fun n l => { n with row := l }) b 0 inn.row = B at R ⊢
  have hBc : B.col = b.col := by rw [← hB]; exact copyList_other _ _ _ Names.col (by simp) (by simp [Names.add]) _ _ _
  have hBt : B.text = b.text := by rw [← hB]; exact copyList_other _ _ _ Names.text (by simp) (by simp [Names.add]) _ _ _
  have hBh : B.title = b.title := by rw [← hB]; exact copyList_other _ _ _ Names.title (by simp) (by simp [Names.add]) _ _ _
  have hBv : B.vector = b.vector := by rw [← hB]; exact copyList_other _ _ _ Names.vector (by simp) (by simp [Names.add]) _ _ _
  have C := copyList_get 'c' Names.col (fun n l => { n with col := l }) (by simp) (by simp [Names.add]) B 0 inn.col (by simp)
  generalize hC : copyList 'c' Names.col (fun n l => { n with col := l }) B 0 inn.col = D at C ⊢
  have hDr : D.row = B.row := by rw [← hC]; exact copyList_other _ _ _ Names.row (by simp) (by simp [Names.add]) _ _ _
  have hDt : D.text = B.text := by rw [← hC]; exact copyList_other _ _ _ Names.text (by simp) (by simp [Names.add]) _ _ _
  have hDh : D.title = B.title := by rw [← hC]; exact copyList_other _ _ _ Names.title (by simp) (by simp [Names.add]) _ _ _
  have hDv : D.vector = B.vector := by rw [← hC]; exact copyList_other _ _ _ Names.vector (by simp) (by simp [Names.add]) _ _ _
  have T := copyList_get 't' Names.text (fun n l => { n with text := l }) (by simp) (by simp [Names.add]) D 0 inn.text (by simp)
  refine ⟨?_, ?_, ?_, ?_, ?_⟩
  · rw [copyList_other _ _ _ Names.row (by simp) (by simp [Names.add]), hDr, R]; simp
  · rw [copyList_other _ _ _ Names.col (by simp) (by simp [Names.add]), C, hBc]; simp
  · rw [T, hDt, hBt]; simp
  · rw [copyList_other _ _ _ Names.title (by simp) (by simp [Names.add]), hDh, hBh]
  · rw [copyList_other _ _ _ Names.vector (by simp) (by simp [Names.add]), hDv, hBv]

/-- The names of the target afterwards. -/
theorem memcpyNames_spec (out inn : Names) :
    (memcpyNames out inn).row = inn.row ++ out.row.drop inn.row.length ∧ (memcpyNames out inn).col = inn.col ++ out.col.drop inn.col.length ∧
    (memcpyNames out inn).text = inn.text ++ out.text.drop inn.text.length ∧ (memcpyNames out inn).title = some (Names.printS inn.title) ∧
    (memcpyNames out inn).vector = if out.vector.isSome ∧ inn.vector.isSome then inn.vector else out.vector := by
  unfold memcpyNames
  cases ho : out.vector with
  | none =>
    cases hi : inn.vector with
    | none => simpa [ho] using lists_spec { out with title := some (Names.printS inn.title) } inn
    | some v => simpa [ho] using lists_spec { out with title := some (Names.printS inn.title) } inn
  | some u =>
    cases hi : inn.vector with
    | none => simpa [ho] using lists_spec { out with title := some (Names.printS inn.title) } inn
    | some v => simpa using lists_spec { out with title := some (Names.printS inn.title), vector := some v } inn

/-- The source's parts have counterparts of their sizes, and its text fits. -/
def Room (out inn : Page α) : Prop :=
  inn.TextWF ∧ Fits (dims inn).1 (dims out).1 ∧ Fits (dims inn).2.1 (dims out).2.1 ∧ Fits (dims inn).2.2 (dims out).2.2 ∧ GridFits inn out

/-- `o` is what a page should be after a copy: the source's parts over the target's. -/
def Copied (out inn o : Page α) : Prop :=
  o.matrix = inn.matrix.or out.matrix ∧ o.vector = inn.vector.or out.vector ∧ o.weights = inn.weights.or out.weights ∧ o.error = out.error ∧
  o.textsize = inn.textsize ∧
  ∀ i j, (o.text[i]?.bind (·[j]?)) = if i < inn.textsize.1 ∧ j < inn.textsize.2 then (inn.text[i]?.bind (·[j]?)) else (out.text[i]?.bind (·[j]?))

theorem room_copied {out inn : Page α} (h : Room out inn) : ∃ o, memcpyPage out inn = .ok (o, true) ∧ Copied out inn o := by
  obtain ⟨h1, h2, h3, h4, h5⟩ := h
  obtain ⟨o, ho, hc⟩ := C40_memcpy out inn h1 h2 h3 h4 h5
  exact ⟨o, ho, hc⟩

/-- **C40 (names).** The names of the target after a copy that went through: each list is the source's, and after it what the target's had beyond the source's length; the title is the source's as printed; the vector's
name is the source's if both have one. Without names in the source, the target's are kept. -/
theorem C40_names (out inn o : Page α) (h : memcpyPage out inn = .ok (o, true)) :
    match inn.names with
    | none => o.names = out.names
    | some n => ∃ m, o.names = some m ∧
      let old := out.names.getD Names.alloc
      m.row = n.row ++ old.row.drop n.row.length ∧ m.col = n.col ++ old.col.drop n.col.length ∧ m.text = n.text ++ old.text.drop n.text.length ∧
      m.title = some (Names.printS n.title) ∧ m.vector = if old.vector.isSome ∧ n.vector.isSome then n.vector else old.vector := by
  have key : o.names = match inn.names with | some n => some (memcpyNames (out.names.getD Names.alloc) n) | none => out.names := by
    unfold memcpyPage at h
    split at h
    · simp at h
    · simp only at h
      split at h
      · simp at h
      · split at h
        · simp at h
        · cases hn : inn.names <;> simp only [hn] at h ⊢
          all_goals
            split at h
            · split at h
              · simp at h
              · cases hc : copyText out.text 0 inn.text with
                | ok g => simp only [hc, Res.bind_ok, Res.ok.injEq, Prod.mk.injEq, and_true] at h; rw [← h]
                | ub => simp only [hc] at h; cases h
            · simp only [Res.ok.injEq, Prod.mk.injEq, and_true] at h; rw [← h]
  cases hn : inn.names with
  | none => simpa [hn] using key
  | some n =>
    rw [hn] at key
    exact ⟨_, key, memcpyNames_spec _ _⟩

/-- **C40 (pages).** When each page of the source has room in the target's page of the same number, all of these are copied, and further pages of the target (or of the source, for which there is none in the
target) are left alone. -/
theorem C40_chain (outs inns : List (Page α)) (h0 : outs ≠ [] → inns ≠ []) (h : ∀ (k : Nat) a b, outs[k]? = some a → inns[k]? = some b → Room a b) :
    ∃ os, memcpy outs inns = .ok os ∧ os.length = outs.length ∧ (∀ (k : Nat) a b, outs[k]? = some a → inns[k]? = some b → ∃ o, os[k]? = some o ∧ Copied a b o) ∧
      ∀ k, inns.length ≤ k → os[k]? = outs[k]? := by
  induction outs generalizing inns with
  | nil => exact ⟨[], by cases inns <;> rfl, rfl, by simp, by simp⟩
  | cons a outs ih =>
    cases inns with
    | nil => exact absurd rfl (h0 (by simp))
    | cons b inns =>
      obtain ⟨o, ho, hc⟩ := room_copied (h 0 a b rfl rfl)
      rw [memcpy, ho]
      simp only [Res.bind_ok, if_true]
      cases outs with
      | nil =>
        refine ⟨[o], by cases inns <;> rfl, rfl, ?_, ?_⟩
        · intro k a' b' ha hb
          cases k with
          | zero => simp at ha hb; subst ha; subst hb; exact ⟨o, rfl, hc⟩
          | succ k => simp at ha
        · intro k hk
          cases k with
          | zero => simp at hk
          | succ k => simp
      | cons a1 outs =>
        cases inns with
        | nil =>
          refine ⟨o :: a1 :: outs, rfl, rfl, ?_, ?_⟩
          · intro k a' b' ha hb
            cases k with
            | zero => simp at ha hb; subst ha; subst hb; exact ⟨o, rfl, hc⟩
            | succ k => simp at hb
          · intro k hk
            cases k with
            | zero => simp at hk
            | succ k => simp
        | cons b1 inns =>
          obtain ⟨os, h1, h2, h3, h4⟩ := ih (b1 :: inns) (by simp) (fun k a' b' ha hb => h (k + 1) a' b' (by simpa using ha) (by simpa using hb))
          simp only [h1, Res.bind_ok]
          refine ⟨o :: os, rfl, by simp [h2], ?_, ?_⟩
          · intro k a' b' ha hb
            cases k with
            | zero => simp at ha hb; subst ha; subst hb; exact ⟨o, rfl, hc⟩
            | succ k => simpa using h3 k a' b' (by simpa using ha) (by simpa using hb)
          · intro k hk
            cases k with
            | zero => simp at hk
            | succ k => simpa using h4 k (by simpa using hk)

/-- **C40 (pages, up to an error).** If the pages before have room and a page's numeric parts do not fit, the pages before are copied, that page has the error set, and the pages after it are left alone. -/
theorem C40_chain_stops (outs inns os' is' : List (Page α)) (a b : Page α) (hl : outs.length = inns.length) (h : ∀ (k : Nat) a b, outs[k]? = some a → inns[k]? = some b → Room a b)
    (hbad : ¬ (Fits (dims b).1 (dims a).1 ∧ Fits (dims b).2.1 (dims a).2.1 ∧ Fits (dims b).2.2 (dims a).2.2)) :
    ∃ os o, memcpy (outs ++ a :: os') (inns ++ b :: is') = .ok (os ++ o :: os') ∧ (o.error = some 'p' ∨ o.error = some 'd') ∧ os.length = outs.length ∧
      ∀ (k : Nat) a b, outs[k]? = some a → inns[k]? = some b → ∃ o, os[k]? = some o ∧ Copied a b o := by
  induction outs generalizing inns with
  | nil =>
    have : inns = [] := List.length_eq_zero_iff.1 hl.symm
    subst this
    obtain ⟨o, ho, -, -, -, he, -⟩ := C40_memcpy_errors a b hbad
    refine ⟨[], o, ?_, he, rfl, by simp⟩
    simp only [List.nil_append, memcpy, ho, Res.bind_ok]
    rfl
  | cons a1 outs ih =>
    cases inns with
    | nil => simp at hl
    | cons b1 inns =>
      obtain ⟨o1, ho1, hc⟩ := room_copied (h 0 a1 b1 rfl rfl)
      obtain ⟨os, o, h1, h2, h3, h4⟩ := ih inns (by simpa using hl) (fun k a' b' ha hb => h (k + 1) a' b' (by simpa using ha) (by simpa using hb))
      refine ⟨o1 :: os, o, ?_, h2, by simp [h3], ?_⟩
      · simp only [List.cons_append, memcpy, ho1, Res.bind_ok, if_true]
        cases hx : outs ++ a :: os' with
        | nil => simp at hx
        | cons x xs =>
          cases hy : inns ++ b :: is' with
          | nil => simp at hy
          | cons y ys => rw [hx, hy] at h1; simp only [h1, Res.bind_ok]
      · intro k a' b' ha hb
        cases k with
        | zero => simp at ha hb; subst ha; subst hb; exact ⟨o1, rfl, hc⟩
        | succ k => simpa using h4 k a' b' (by simpa using ha) (by simpa using hb)

/-! Cases that meet the hypotheses: two pages, the second a vector of the wrong length. -/

example : memcpy [({ vector := some [0, 0] } : Page Nat), { vector := some [0] }] [{ vector := some [1, 2] }, { vector := some [3] }] =
    .ok [{ vector := some [1, 2] }, { vector := some [3] }] := by decide +kernel

example : memcpy [({ vector := some [0, 0] } : Page Nat), { vector := some [0] }, { vector := some [9] }] [{ vector := some [1, 2] }, { vector := some [3, 4] }, { vector := some [5] }] =
    .ok [{ vector := some [1, 2] }, { vector := some [0], error := some 'd' }, { vector := some [9] }] := by decide +kernel

example : Room ({ vector := some [0, 0] } : Page Nat) { vector := some [1, 2] } := by
  refine ⟨⟨rfl, by simp⟩, ?_, ?_, ?_, by simp [GridFits]⟩ <;> simp [Fits, dims]

end Page
end Apop
