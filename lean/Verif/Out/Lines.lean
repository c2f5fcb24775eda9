import Verif.Out.Print
import Verif.Parse.DataFile

/-! # Printed lines are read as the items printed -/

namespace Apop.Out

open Apop.Parse

/-- The text can be written between delimiters: none of its characters is a delimiter, NUL, a newline, a quote, a hash, a backslash or byte 255. -/
def Plain (delims : CStr) (s : CStr) : Prop := ∀ c ∈ s, c ∉ delims ∧ c ∉ [(0 : UInt8), 10, 34, 35, 92, 255]

/-- The characters as the pieces of a field. -/
def pieceOf (c : UInt8) : Piece := if c ∈ [(9 : UInt8), 13, 32] then .sp c else .reg c

theorem pieces_write (s : CStr) : (s.map pieceOf).flatMap Piece.write = s := by
  induction s with
  | nil => rfl
  | cons c s ih =>
    simp only [List.map_cons, List.flatMap_cons, ih]
    unfold pieceOf
    split <;> simp [Piece.write]

theorem pieces_marks (s : CStr) : (s.map pieceOf).flatMap Piece.marks = s.map (fun c => (c, decide (c ∈ [(9 : UInt8), 13, 32]))) := by
  induction s with
  | nil => rfl
  | cons c s ih =>
    simp only [List.map_cons, List.flatMap_cons, ih]
    unfold pieceOf
    split
    · rename_i h; simp only [Piece.marks, h, decide_true, List.cons_append, List.nil_append]
    · rename_i h; simp only [Piece.marks, h, decide_false, List.cons_append, List.nil_append]

theorem pieces_ok {delims s : CStr} (h : Plain delims s) : ∀ p ∈ s.map pieceOf, p.Ok delims := by
  intro p hp
  obtain ⟨c, hc, rfl⟩ := List.mem_map.1 hp
  obtain ⟨h1, h2⟩ := h c hc
  unfold pieceOf
  split
  · rename_i hw; exact ⟨h1, hw⟩
  · rename_i hw
    refine ⟨h1, ?_⟩
    simp only [List.mem_cons, List.not_mem_nil, or_false, not_or] at *
    tauto

theorem dropWhile_map_marks (s : CStr) : (s.map (fun c => (c, decide (c ∈ [(9 : UInt8), 13, 32])))).dropWhile (·.2) =
    (s.dropWhile (· ∈ [(9 : UInt8), 13, 32])).map (fun c => (c, decide (c ∈ [(9 : UInt8), 13, 32]))) := by
  rw [List.dropWhile_map]
  rfl

theorem field_strip (s : CStr) : fieldOf (s.map pieceOf) = strip s := by
  unfold fieldOf trim
  rw [pieces_marks, dropWhile_map_marks, ← List.map_reverse, dropWhile_map_marks, ← List.map_reverse, List.map_map]
  have : ((fun x : UInt8 × Bool => x.1) ∘ fun c => (c, decide (c ∈ [(9 : UInt8), 13, 32]))) = id := rfl
  rw [this, List.map_id]
  rfl

theorem blank_strip {s : CStr} (h : strip s ≠ []) : ¬Blank (s.map pieceOf) := by
  intro hb
  have := (blank_iff _).1 hb
  apply h
  rw [← field_strip]
  unfold fieldOf trim
  rw [this]
  rfl

theorem join_writeFields (d : UInt8) : ∀ (l : List CStr), joinD [d] l = writeFields d (l.map (·.map pieceOf))
  | [] => rfl
  | [x] => by simp [joinD, writeFields, pieces_write]
  | x :: y :: r => by
    have := join_writeFields d (y :: r)
    simp only [List.map_cons] at this
    simp [joinD, writeFields, pieces_write, this]

theorem join_writeWhite (d : UInt8) : ∀ (l : List CStr), joinD [d] l = writeWhite [] (l.map (fun s => ([d], s.map pieceOf)))
  | [] => rfl
  | [x] => by simp [joinD, writeWhite, pieces_write]
  | x :: y :: r => by
    have h := join_writeWhite d (y :: r)
    simp only [List.map_cons] at h
    have hs : ∀ (g : List UInt8 × List Piece) (fs : List (List UInt8 × List Piece)), writeWhite [d] (g :: fs) = [d] ++ writeWhite [] (g :: fs) := by
      intro g fs
      cases fs <;> simp [writeWhite]
    simp [joinD, writeWhite, pieces_write, h, hs]

/-- The delimiter `d` and the delimiters that are read: `d` is one of them; none is a quote, a backslash, a newline, a hash, byte 255, nor a character of a
printed number (a digit, a blank, a minus sign or a point). -/
structure Delims (delims : CStr) (d : UInt8) : Prop where
  good : GoodDelims delims
  hash : (35 : UInt8) ∉ delims
  num : ∀ c ∈ delims, numChar c = false
  mem : d ∈ delims
  nul : d ≠ 0

/-- A tab or a carriage return: then no item may be blank, because runs of them count as one. -/
def WhiteD (d : UInt8) : Prop := d = 9 ∨ d = 13

/-- **A printed line is read as its items**, stripped of blanks. -/
theorem line_isLine {delims : CStr} {d : UInt8} (hD : Delims delims d) (toks : List CStr) (hp : ∀ s ∈ toks, Plain delims s) (hne : toks ≠ [])
    (hb : (∀ s ∈ toks, strip s ≠ []) ∨ (¬WhiteD d ∧ 2 ≤ toks.length)) : IsLine delims (joinD [d] toks ++ [10]) (toks.map strip) := by
  have hd32 : d ≠ 32 := by
    rintro rfl
    have := hD.num 32 hD.mem
    revert this; decide
  have hmap : toks.map strip = (toks.map (·.map pieceOf)).map fieldOf := by
    rw [List.map_map]
    apply List.map_congr_left
    intro s _
    exact (field_strip s).symm
  by_cases hw : WhiteD d
  · have hb : ∀ s ∈ toks, strip s ≠ [] := hb.resolve_right (fun h => h.1 hw)
    intro rest pos
    have hWD : classify delims (some d) = .WD := by
      have : (d = 32 ∨ d = 13 ∨ d = 9 ∨ d = 0) := by rcases hw with h | h <;> simp [h]
      simp only [classify]
      rw [if_pos this]
      simp [isDelim, hD.mem]
    have := white_fields_run hD.good rest (toks.map (fun s => ([d], s.map pieceOf)))
      (by intro x hx; obtain ⟨s, hs, rfl⟩ := List.mem_map.1 hx; exact pieces_ok (hp s hs))
      (by intro x hx; obtain ⟨s, hs, rfl⟩ := List.mem_map.1 hx; exact blank_strip (hb s hs))
      (by intro x hx; obtain ⟨s, hs, rfl⟩ := List.mem_map.1 hx; exact ⟨by simp, by intro c hc; simp only [List.mem_singleton] at hc; rw [hc]; exact hWD⟩)
      (by simpa using hne) [] (by simp) [] false pos (Or.inl rfl)
    rw [← join_writeWhite] at this
    have hmap2 : (toks.map (fun s => ([d], s.map pieceOf))).map (fun x => fieldOf x.2) = toks.map strip := by
      rw [List.map_map]
      apply List.map_congr_left
      intro s _
      exact field_strip s
    rw [hmap2] at this
    simp only [List.append_assoc, List.cons_append, List.nil_append] at this ⊢
    rw [show ({} : A) = ⟨[], none, false, false⟩ from rfl, this]
    refine ⟨by simp [mk], ?_⟩
    simp only [List.length_append, List.length_singleton, Prod.mk.injEq, true_and]
    omega
  · have hd2 : d ∉ [(0 : UInt8), 9, 13, 32] := by
      simp only [WhiteD, not_or] at hw
      simp [hD.nul, hw, hd32]
    have := writeFields_isLine hD.good hD.hash hD.mem hd2 .newline trivial (toks.map (·.map pieceOf))
      (by intro f hf; obtain ⟨s, hs, rfl⟩ := List.mem_map.1 hf; exact pieces_ok (hp s hs)) (by simpa using hne)
      (by
        rintro ⟨f, hf, hbl⟩
        rcases hb with hb | ⟨_, hb⟩
        · obtain ⟨s, hs, rfl⟩ := List.mem_map.1 (by rw [hf]; simp : f ∈ toks.map (·.map pieceOf))
          exact blank_strip (hb s hs) hbl
        · have := congrArg List.length hf
          simp at this
          omega)
    rw [← join_writeFields, ← hmap] at this
    exact this

theorem plain_num {delims : CStr} {d : UInt8} (hD : Delims delims d) {s : CStr} (h : s.all numChar = true) : Plain delims s := by
  intro c hc
  have hn := List.all_eq_true.1 h c hc
  refine ⟨fun hm => by rw [hD.num c hm] at hn; simp at hn, ?_⟩
  simp only [List.mem_cons, List.not_mem_nil, or_false, not_or]
  refine ⟨?_, ?_, ?_, ?_, ?_, ?_⟩ <;> rintro rfl <;> revert hn <;> decide

theorem plain_append {delims a b : CStr} (ha : Plain delims a) (hb : Plain delims b) : Plain delims (a ++ b) := by
  intro c hc
  rcases List.mem_append.1 hc with h | h
  · exact ha c h
  · exact hb c h

theorem plain_blanks {delims : CStr} {d : UInt8} (hD : Delims delims d) (n : Nat) : Plain delims (List.replicate n 32) :=
  plain_num hD (by rw [List.all_eq_true]; intro c hc; rw [List.eq_of_mem_replicate hc]; decide)

theorem plain_pad {delims : CStr} {d : UInt8} (hD : Delims delims d) (w : Nat) {s : CStr} (h : Plain delims s) : Plain delims (padLeft w s) :=
  plain_append (plain_blanks hD _) h

theorem strip_blanks (n : Nat) (s : CStr) : strip (List.replicate n 32 ++ s) = strip s := by
  unfold strip; rw [dropWhile_blanks]

theorem strip_sub (s : CStr) : ∀ c ∈ strip s, c ∈ s := by
  intro c hc
  unfold strip at hc
  have h1 := (List.dropWhile_suffix (l := (s.dropWhile (· ∈ [(9 : UInt8), 13, 32])).reverse) (· ∈ [(9 : UInt8), 13, 32])).subset (List.mem_reverse.1 hc)
  exact (List.dropWhile_suffix (l := s) (· ∈ [(9 : UInt8), 13, 32])).subset (List.mem_reverse.1 h1)

theorem no_nul {delims s : CStr} (h : Plain delims s) : (strip s).takeWhile (· != 0) = strip s := by
  apply takeWhile_ne_zero
  intro h0
  have := (h 0 (strip_sub s 0 h0)).2
  simp at this

theorem no255_join {delims : CStr} {d : UInt8} (hD : Delims delims d) : ∀ (toks : List CStr), (∀ s ∈ toks, Plain delims s) → (255 : UInt8) ∉ joinD [d] toks
  | [], _ => by simp [joinD]
  | [x], h => by intro h2; have := (h x (by simp) 255 h2).2; simp at this
  | x :: y :: r, h => by
    have ih := no255_join hD (y :: r) (fun s hs => h s (by simp [hs]))
    have hx : (255 : UInt8) ∉ x := by intro h2; have := (h x (by simp) 255 h2).2; simp at this
    have hd : (255 : UInt8) ≠ d := by rintro rfl; exact hD.good.2.2.2 hD.mem
    simp [joinD, hx, hd, ih]

end Apop.Out
