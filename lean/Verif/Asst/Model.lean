import Verif.Text.Model

/-! # The odds and ends of apop_asst.m4.c: pasting text, memoised harmonic numbers, regular expressions,
per-thread random number generators. -/

namespace Apop.Asst

/-! ## apop_text_paste -/

/-- `apop_tack_on`, apop_asst.m4.c:19-25 (`none`: NULL). -/
def tackOn (s add : Option CStr) : Option CStr :=
  match add with
  | none => s
  | some a => some (s.getD [] ++ a)

/-- The arguments of `apop_text_paste` after defaults, apop_asst.m4.c:98-105. `prune` is the user's function on
(row, column), as a pure function; `true` is a nonzero return value. -/
structure Paste where
  between : Option CStr := some [32]
  before : Option CStr := none
  after : Option CStr := none
  betweenCols : Option CStr := some [32]
  prune : Option (Nat → Nat → Bool) := none

/-- The test on line 111: skip the cell if there is a prune function and it returns *zero*. -/
def Paste.skips (o : Paste) (i j : Nat) : Bool :=
  match o.prune with
  | none => false
  | some p => !p i j

/-- The inner loop, apop_asst.m4.c:110-114: the cells from column `j` on; `cols` is `textsize[1]`. -/
def pasteRow (o : Paste) (i cols : Nat) : List CStr → Nat → Option CStr → Option CStr
  | [], _, oneline => oneline
  | c :: cs, j, oneline =>
    if o.skips i j then pasteRow o i cols cs (j + 1) oneline
    else
      let l := tackOn oneline (some c)
      pasteRow o i cols cs (j + 1) (if j + 1 < cols then tackOn l o.betweenCols else l)

/-- The outer loop, apop_asst.m4.c:108-121: (out, prior_line, oneline) are threaded; the rows from `i` on. -/
def pasteRows (o : Paste) (cols : Nat) : List (List CStr) → Nat → Option CStr → Option CStr → Option CStr → Option CStr × Option CStr
  | [], _, out, _, oneline => (out, oneline)
  | r :: rs, i, out, prior, _ =>
    let oneline := pasteRow o i cols r 0 none
    let out := tackOn out prior
    let out := if prior.isSome && oneline.isSome then tackOn out o.between else out
    pasteRows o cols rs (i + 1) out oneline oneline

/-- `apop_text_paste`, apop_asst.m4.c:98-126, on the rows of a grid with `cols` columns; `none` is NULL. -/
def paste (o : Paste) (rows : List (List CStr)) (cols : Nat) : Option CStr :=
  let (out, oneline) := pasteRows o cols rows 0 o.before none none
  tackOn (tackOn out oneline) o.after

/-! ## apop_generalized_harmonic -/

/-- One row of the static cache, apop_asst.m4.c:145-148: exponent, recorded length, block (`none`: allocated but not
written). -/
structure Row (S α : Type) where
  s : S
  len : Nat
  block : List (Option α)

/-- Arithmetic used by the function: `==` on doubles, 1, the term `1/pow(n, s)` and long double addition. -/
structure Arith (S α : Type) where
  eq : S → S → Bool
  one : α
  term : S → Nat → α
  add : α → α → α

/-- `for (i=0; i<count; i++) if (eses[i] == s) break;`, apop_asst.m4.c:152-154. -/
def findRow {S α : Type} (A : Arith S α) (s : S) : List (Row S α) → Nat
  | [] => 0
  | r :: rs => if A.eq r.s s then 0 else findRow A s rs + 1

/-- `for (j=old_len; j<N; j++) p[j] = p[j-1] + 1/pow(j+1, s)`, apop_asst.m4.c:172-173: `n` more from `j`. Reading a cell
outside or not yet written is undefined. -/
def extend {S α : Type} (A : Arith S α) (s : S) : Nat → Nat → List (Option α) → Res (List (Option α))
  | 0, _, b => .ok b
  | n + 1, j, b =>
    if j = 0 then .ub
    else do
      let x ← rd b (j - 1)
      match x with
      | none => .ub
      | some x => do
        let b ← wr b j (some (A.add x (A.term s (j + 1))))
        extend A s n (j + 1) b

/-- `realloc` of a block to `n` elements: the common prefix is kept. -/
def resize {α : Type} (b : List (Option α)) (n : Nat) : List (Option α) := b.take n ++ List.replicate (n - b.length) none

/-- A new row of the cache, apop_asst.m4.c:156-165, and the remaining work (lines 170-173) for it with `old_len = 1`. -/
def newRow {S α : Type} (A : Arith S α) (N : Nat) (s : S) : Res (Row S α) := do
  let b ← wr (List.replicate N none) 0 (some A.one)
  let b ← (if N - 1 ≥ 1 then extend A s (N - 1) 1 (resize b N) else .ok b : Res _)
  .ok ⟨s, N, b⟩

/-- Lines 167-173 for a row that was found: `lengths[i]` stays as it is. -/
def growRow {S α : Type} (A : Arith S α) (N : Nat) (s : S) (r : Row S α) : Res (Row S α) :=
  if N - 1 ≥ r.len then do
    let b ← extend A s (N - r.len) r.len (resize r.block N)
    .ok { r with block := b }
  else .ok r

/-- The critical section, apop_asst.m4.c:150-175, for `N > 0`: the new cache, and `i`. -/
def harmCritical {S α : Type} (A : Arith S α) (N : Nat) (s : S) (c : List (Row S α)) : Res (List (Row S α) × Nat) :=
  let i := findRow A s c
  match c[i]? with
  | none => do
    let r ← newRow A N s
    .ok (c ++ [r], i)
  | some r => do
    let r ← growRow A N s r
    let c ← wr c i r
    .ok (c, i)

/-- `return precalced[i][N-1]`, apop_asst.m4.c:176, after the critical section has been left. -/
def harmRead {S α : Type} (c : List (Row S α)) (i N : Nat) : Res α := do
  let r ← rd c i
  let x ← rd r.block (N - 1)
  match x with
  | none => .ub
  | some x => .ok x

/-- `apop_generalized_harmonic`, apop_asst.m4.c:138-177: `none` is NaN; `N` is an `int`. -/
def harmonic {S α : Type} (A : Arith S α) (c : List (Row S α)) (N : Int) (s : S) : Res (List (Row S α) × Option α) :=
  if N ≤ 0 then .ok (c, none)
  else do
    let (c, i) ← harmCritical A N.toNat s c
    let x ← harmRead c i N.toNat
    .ok (c, some x)

/-! ## apop_regex -/

/-- `count_parens`, apop_asst.m4.c:199-212. The flag is `last_was_backslash`. -/
def countParensFrom : Bool → CStr → Nat
  | _, [] => 0
  | esc, c :: s =>
    if c = 92 ∧ esc = false then countParensFrom true s
    else (if c = 41 ∧ esc = false then 1 else 0) + countParensFrom false s

def countParens (s : CStr) : Nat := countParensFrom false s

/-- What `regexec` reports: offsets (start, end) of the whole match and of each parenthesised part; -1 for a part that did
not take part. -/
structure Match where
  whole : Int × Int
  parts : List (Int × Int)

/-- A compiled regular expression as a matcher: (REG_NOTBOL?, string) to the leftmost match, if any. -/
abbrev Matcher := Bool → CStr → Option Match

/-- The bytes between two offsets, apop_asst.m4.c:289-293: outside the string is undefined. -/
def span (s : CStr) (r : Int × Int) : Res CStr :=
  if 0 ≤ r.1 ∧ r.1 ≤ r.2 ∧ r.2 ≤ s.length then .ok ((s.drop r.1.toNat).take (r.2 - r.1).toNat) else .ub

/-- `text[row][col] = ...` with the old string freed, apop_asst.m4.c:290-291. -/
def putCell (g : Text.Grid) (i j : Nat) (s : CStr) : Res Text.Grid :=
  match g.text with
  | none => .ub
  | some t => do
    let r ← rd t i
    let c ← rd r j
    if c = .uninit then .ub else do
    let r ← wr r j (.own s)
    let t ← wr t i r
    .ok { g with text := some t }

/-- The loop over the parts, apop_asst.m4.c:286-295: `n` more from part `j`. -/
def putParts (s : CStr) (m : Match) (row : Nat) : Nat → Nat → Text.Grid → Res Text.Grid
  | 0, _, g => .ok g
  | n + 1, j, g => do
    let r ← rd m.parts j
    let g ← (if r.2 > 0 then do
        let x ← span s r
        putCell g row j x
      else .ok g : Res Text.Grid)
    putParts s m row n (j + 1) g

/-- `string += result[0].rm_eo`, apop_asst.m4.c:297. -/
def advance (s : CStr) (m : Match) : Res CStr :=
  if 0 ≤ m.whole.2 ∧ m.whole.2 ≤ s.length then .ok (s.drop m.whole.2.toNat) else .ub

/-- One successful round with substrings, apop_asst.m4.c:283-298: the grid and the rest of the string. -/
def regexRound (parens : Nat) (s : CStr) (m : Match) (row : Nat) (g : Text.Grid) : Res (Text.Grid × CStr) := do
  let g ← Text.alloc g (row + 1) parens
  let g ← putParts s m row parens 0 g
  let s ← advance s m
  .ok (g, s)

/-- The loop with substrings, apop_asst.m4.c:279-300; fuel, `none` when it runs out. `row` is `matchrow`; `found_ct` is
counted along. -/
def regexLoop (exec : Matcher) (parens : Nat) : Nat → CStr → Nat → Text.Grid → Option (Res (Text.Grid × Nat))
  | 0, _, _, _ => none
  | f + 1, s, row, g =>
    match exec (row ≠ 0) s with
    | none => some (.ok (g, row))
    | some m =>
      match regexRound parens s m row g with
      | .ub => some .ub
      | .ok (g, s') => if s' = [] then some (.ok (g, row + 1)) else regexLoop exec parens f s' (row + 1) g

/-- `apop_regex` with substrings for a regular expression that compiled: the text of the returned set and the return
value. -/
def regexSubs (exec : Matcher) (parens : Nat) (fuel : Nat) (s : CStr) : Option (Res (Text.Grid × Nat)) :=
  regexLoop exec parens fuel s 0 {}

/-- Without substrings there is one round only (line 300). -/
def regexPlain (exec : Matcher) (s : CStr) : Nat := if (exec false s).isSome then 1 else 0

/-! ## apop_rng_get_thread -/

/-- The statics `rngs` (a generator is represented by the seed it was allocated with and its own identity, its position in
the order of allocation), and `apop_opts.rng_seed`. `rng_ct + 1` is the length. -/
structure Rngs where
  rngs : List (Nat × Nat) := []
  seed : Nat
  /-- number of generators allocated so far, by anyone -/
  made : Nat := 0
  deriving DecidableEq

/-- `rngs[i] = apop_rng_alloc(++apop_opts.rng_seed)`, apop_asst.m4.c:370-371. -/
def Rngs.addOne (r : Rngs) : Rngs :=
  { rngs := r.rngs ++ [(r.seed + 1, r.made)], seed := r.seed + 1, made := r.made + 1 }

def Rngs.addMany : Nat → Rngs → Rngs
  | 0, r => r
  | n + 1, r => addMany n r.addOne

/-- Lines 360-366: which entry is meant. `OpenMP` is not a macro any compiler defines (the standard one is `_OPENMP`), so
`-1` is always 0. -/
def Rngs.which (thread : Int) : Int := if thread = -1 then 0 else thread

/-- The critical section, apop_asst.m4.c:368-374. -/
def Rngs.ensure (r : Rngs) (thread : Int) : Rngs :=
  if thread > (r.rngs.length : Int) - 1 then r.addMany (thread + 1 - r.rngs.length).toNat else r

/-- `apop_rng_get_thread_base`, apop_asst.m4.c:356-376, called from thread `caller`. -/
def Rngs.get (r : Rngs) (thread : Int) (_caller : Nat) : Res (Rngs × (Nat × Nat)) :=
  let t := which thread
  let r := r.ensure t
  if t < 0 then .ub
  else do
    let x ← rd r.rngs t.toNat
    .ok (r, x)

end Apop.Asst
