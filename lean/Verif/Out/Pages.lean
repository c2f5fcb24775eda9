import Verif.Base.C

/-! # Where the output goes: `apop_prep_output` and the pages of `apop_data_print` (C118)

The file is its bytes; a FILE writes into a buffer, of which some goes to the file while it is being written and the rest when the FILE is closed: to the end of the file if it
was opened with "a", else at its own place in it, over what is there. -/

namespace Apop.Out.Pg

/-- Where to: a FILE that was given or standard output; the database; a file that is opened with "a" or with "w". -/
inductive Target where
  | given
  | stdout
  | db
  | opened (append : Bool)
  deriving DecidableEq, Repr

/-- `apop_prep_output`, apop_output.m4.c:50-64: what becomes of the four settings; 0 stands for none. The third is the type after the call, the fourth the append mode. -/
def prep (hasName hasPipe : Bool) (type append : Char) : Target × Char × Char :=
  let append := if append = '0' then 'w' else append
  let type := if type ≠ '0' then type
    else if !hasName && !hasPipe then 's' else if hasName && !hasPipe then 'f' else if !hasName && hasPipe then 'p' else type
  (if type = 'p' then (if hasPipe then .given else .stdout)
   else if type = 'd' then .db
   else if hasName then .opened (append == 'a') else .stdout, type, append)

/-- The bytes of a file after `s` is written at `off`. -/
def writeAt (file : CStr) (off : Nat) (s : CStr) : CStr := file.take off ++ s ++ file.drop (off + s.length)

/-- A FILE: where its next byte goes (not used when appending), and whether it appends. -/
structure Handle where
  off : Nat
  app : Bool

/-- Some bytes go from the buffer to the file. -/
def flush (file : CStr) (h : Handle) (s : CStr) : CStr × Handle :=
  if h.app then (file ++ s, h) else (writeAt file h.off s, { h with off := h.off + s.length })

/-- `apop_data_print` to a named file, apop_output.m4.c:324-340 with fopen as in 59-61. The pages are given by the bytes that `apop_data_print_core` writes; `early` says how many of the bytes
of a page are in the file before the FILE is closed (0 for a page that fits into the buffer). The further pages are written by a call with the same name and append mode 'a', before the FILE
of this page is closed. -/
def printFile (early : CStr → Nat) : List CStr → Bool → CStr → CStr
  | [], _, file => file
  | p :: more, app, file =>
    let file := if app then file else []
    let r := flush file ⟨0, app⟩ (p.take (early p))
    let file := if more = [] then r.1 else printFile early more true r.1
    (flush file r.2 (p.drop (early p))).1

/-- `apop_data_print` to a FILE that was given, or the screen: the same FILE for all pages. -/
def printPipe : List CStr → CStr → CStr
  | [], out => out
  | p :: more, out => printPipe more (out ++ p)

/-! ## The theorems -/

/-- **C118: to a pipe or the screen, all pages are written, in order.** -/
theorem C118_pipe (pages : List CStr) (out : CStr) : printPipe pages out = out ++ pages.flatten := by
  induction pages generalizing out with
  | nil => simp [printPipe]
  | cons p more ih => rw [printPipe, ih]; simp

/-- **C118: a data set of one page, to a file**: with 'w' the file holds the page, with 'a' it holds what it held and the page, whatever the buffer does. -/
theorem C118_one_page (early : CStr → Nat) (p : CStr) (app : Bool) (file : CStr) :
    printFile early [p] app file = (if app then file else []) ++ p := by
  unfold printFile
  cases app with
  | true => simp [flush]
  | false =>
    simp only [flush, writeAt, Bool.false_eq_true, if_false, if_true, List.take_nil, List.nil_append, List.drop_nil, List.append_nil, Nat.zero_add]
    have h1 : (p.take (early p)).take (p.take (early p)).length = p.take (early p) := List.take_of_length_le (Nat.le_refl _)
    have h2 : (p.take (early p)).drop ((p.take (early p)).length + (p.drop (early p)).length) = [] := List.drop_eq_nil_of_le (by omega)
    rw [h1, h2, List.append_nil, List.take_append_drop]

/-- Appending writes at the end. -/
theorem printFile_append (early : CStr → Nat) (p : CStr) (more : List CStr) (file : CStr) :
    printFile early (p :: more) true file = printFile early more true (file ++ p.take (early p)) ++ p.drop (early p) := by
  cases more <;> simp [printFile, flush]

/-- **C118 refuted: several pages to a file, appending.** Pages that fit into the buffer are written in the opposite order. -/
theorem C118_pages_reversed (early : CStr → Nat) (pages : List CStr) (h : ∀ p ∈ pages, early p = 0) (file : CStr) :
    printFile early pages true file = file ++ pages.reverse.flatten := by
  induction pages generalizing file with
  | nil => simp [printFile]
  | cons p more ih =>
    rw [printFile_append, h p (by simp), ih (fun q hq => h q (by simp [hq]))]
    simp

/-- **C118 refuted: several pages to a file, from the start**, which is what the code does when no append mode is given. The last FILE to be closed writes the first page over the others:
of these, in the opposite order, the file keeps only what is beyond the length of the first page. -/
theorem C118_pages_overwritten (early : CStr → Nat) (p q : CStr) (more : List CStr) (h : ∀ x ∈ p :: q :: more, early x = 0) (file : CStr) :
    printFile early (p :: q :: more) false file = p ++ (q :: more).reverse.flatten.drop p.length := by
  have h1 : printFile early (q :: more) true [] = (q :: more).reverse.flatten := by
    rw [C118_pages_reversed early (q :: more) (fun x hx => h x (by simp [hx]))]; simp
  have h0 := h p (by simp)
  rw [printFile]
  simp only [h0, List.take_zero, flush, Bool.false_eq_true, if_false, writeAt, List.take_nil, List.drop_nil, List.append_nil, List.length_nil, Nat.add_zero, List.drop_zero, reduceCtorEq, h1,
    List.nil_append, Nat.zero_add]

/-- Then the second page of a data set is lost as a whole if the first is at least as long as all others. -/
theorem C118_pages_lost (early : CStr → Nat) (p q : CStr) (more : List CStr) (h : ∀ x ∈ p :: q :: more, early x = 0) (hlen : (q :: more).flatten.length ≤ p.length) (file : CStr) :
    printFile early (p :: q :: more) false file = p := by
  rw [C118_pages_overwritten early p q more h, List.drop_eq_nil_of_le]
  · simp
  · have : (q :: more).reverse.flatten.length = (q :: more).flatten.length := by
      rw [List.length_flatten, List.length_flatten, List.map_reverse, List.sum_reverse]
    omega

/-- **C118: without buffering, all pages are written in order**: the order above is the buffers' doing. -/
theorem C118_unbuffered (early : CStr → Nat) (pages : List CStr) (h : ∀ p ∈ pages, p.length ≤ early p) (file : CStr) :
    printFile early pages true file = file ++ pages.flatten := by
  induction pages generalizing file with
  | nil => simp [printFile]
  | cons p more ih =>
    have hp := h p (by simp)
    rw [printFile_append, ih (fun q hq => h q (by simp [hq])), List.take_of_length_le hp, List.drop_eq_nil_of_le hp]
    simp

/-- The hypotheses can be met: pages `a`, `b` and `cc`. -/
example : printFile (fun _ => 0) [[97], [98], [99, 99]] true [120] = [120, 99, 99, 98, 97] ∧ printFile (fun _ => 0) [[97], [98], [99, 99]] false [120] = [97, 99, 98] ∧
    printFile (fun _ => 0) [[97, 97], [98]] false [] = [97, 97] ∧ printPipe [[97], [98], [99, 99]] [120] = [120, 97, 98, 99, 99] := by decide

/-- **C118: the settings.** A name alone means a file, a FILE alone means that FILE, neither means the screen; a type that is given is kept. -/
theorem C118_settings (append : Char) : (prep true false '0' append).2.1 = 'f' ∧ (prep false true '0' append).1 = .given ∧ (prep false false '0' append).1 = .stdout ∧
    (∀ n p, (prep n p 'd' append).1 = .db) ∧ (∀ n, (prep n true 'p' append).1 = .given) ∧ (∀ n, (prep n false 'p' append).1 = .stdout) := by
  refine ⟨rfl, rfl, rfl, ?_, ?_, ?_⟩ <;> intros <;> rfl

/-- **C118: the append mode**: 'a' appends, anything else that is given writes over. -/
theorem C118_append_mode (append : Char) (h : append ≠ '0') (hasPipe : Bool) : (prep true false '0' append).1 = .opened (append == 'a') ∧
    (prep true hasPipe 'f' append).1 = .opened (append == 'a') := by
  simp [prep, h]

/-- **C118 refuted: the default is not to append**, as documented, but to write over. -/
theorem C118_default_append_refuted : (prep true false '0' '0').1 = .opened false := by decide

/-- **A FILE given together with a name is not used.** -/
theorem C118_pipe_and_name (append : Char) : ∃ a, (prep true true '0' append).1 = .opened a := ⟨_, rfl⟩

end Apop.Out.Pg
