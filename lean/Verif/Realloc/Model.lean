import Verif.Base.C

/-! # `apop_matrix_realloc`, `apop_vector_realloc` (apop_data.m4.c:1212-1271)

Matrices here are flat blocks, so that the `memmove`s and `realloc`s are what is verified. -/

namespace Apop.Realloc
variable {α : Type}

/-- `memmove(mem+dst, mem+src, n)` (in elements); leaving the block is undefined behaviour. -/
def memmove {β : Type} (l : List β) (dst src n : Nat) : Res (List β) :=
  if src + n ≤ l.length ∧ dst + n ≤ l.length then
    .ok (l.take dst ++ (l.drop src).take n ++ l.drop (dst + n))
  else .ub

/-- `realloc(mem, n)` (in elements): the prefix survives, new cells are uninitialised (`none`). -/
def realloc (l : List (Option α)) (n : Nat) : List (Option α) :=
  l.take n ++ List.replicate (n - l.length) none

/-- A `gsl_matrix` with its block. `mem` is the block's memory; cell (i,j) is `data[i*tda+j]`.
`atStart` says `block->data == data`. -/
structure FlatMat (α : Type) where
  mem : List (Option α)
  size1 : Nat
  size2 : Nat
  tda : Nat
  owner : Bool
  atStart : Bool
  deriving DecidableEq, Repr

/-- Cell (i,j) of a matrix that starts its block. -/
def FlatMat.cell (m : FlatMat α) (i j : Nat) : Option (Option α) := m.mem[i * m.tda + j]?

/-- The loop for a narrower matrix, apop_data.m4.c:1219-1224: `k` iterations to go, offsets as in
the code. -/
def narrow {β : Type} (size2 newwidth : Nat) : Nat → Nat → Nat → List β → Res (List β)
  | 0, _, _, mem => .ok mem
  | k + 1, oldoffset, newoffset, mem => do
    let oldoffset := oldoffset + size2
    let newoffset := newoffset + newwidth
    let mem ← memmove mem newoffset oldoffset newwidth
    narrow size2 newwidth k oldoffset newoffset mem

/-- The loop for a wider matrix, apop_data.m4.c:1228-1232: `i` counts down to 1. The destination
`height*newwidth - newoffset` is computed on pointers: a negative value leaves the block. -/
def widen {β : Type} (size2 newwidth height : Nat) : Nat → Nat → List β → Res (List β)
  | 0, _, mem => .ok mem
  | i + 1, newoffset, mem => do
    let newoffset := newoffset + newwidth
    if height * newwidth < newoffset then .ub else
    let mem ← memmove mem (height * newwidth - newoffset) ((i + 1) * size2) size2
    widen size2 newwidth height i newoffset mem

/-- `apop_matrix_realloc(m, newheight, newwidth)`, apop_data.m4.c:1212-1240. First component: the
value returned (`none` = NULL), second: what `m` points to afterwards. With `height == 0` the loop
counter `i = height-1` wraps to 2^64-1 (line 1229) and the first memmove is to `data - newwidth`.
`int height` is not narrowed here (heights below 2^31). -/
def matRealloc (m : Option (FlatMat α)) (nh nw : Nat) :
    Res (Option (FlatMat α) × Option (FlatMat α)) :=
  match m with
  | none =>
    .ok (if nh ≠ 0 ∧ nw ≠ 0 then
        some ⟨List.replicate (nh * nw) none, nh, nw, nw, true, true⟩ else none, none)
  | some m =>
    if !m.atStart || !m.owner || m.tda != m.size2 then .ok (none, some m)
    else do
      let size := nh * nw
      let mem ←
        (if m.size2 > nw then do
          let mem ← narrow m.size2 nw (min m.size1 nh - 1) 0 0 m.mem
          .ok (realloc mem size)
        else if m.size2 < nw then
          let height := min m.size1 nh
          if height = 0 then .ub
          else widen m.size2 nw height (height - 1) 0 (realloc m.mem size)
        else .ok (realloc m.mem size) : Res (List (Option α)))
      let m' : FlatMat α := { m with mem := mem, size1 := nh, size2 := nw, tda := nw }
      .ok (some m', some m')

/-- A `gsl_vector` with its block. -/
structure FlatVec (α : Type) where
  mem : List (Option α)
  size : Nat
  stride : Nat
  owner : Bool
  atStart : Bool
  deriving DecidableEq, Repr

/-- `apop_vector_realloc(v, newheight)`, apop_data.m4.c:1262-1271. Same result convention. -/
def vecRealloc (v : Option (FlatVec α)) (n : Nat) : Option (FlatVec α) × Option (FlatVec α) :=
  match v with
  | none => (if n ≠ 0 then some ⟨List.replicate n none, n, 1, true, true⟩ else none, none)
  | some v =>
    if !v.atStart || !v.owner || v.stride != 1 then (none, some v)
    else
      let v' : FlatVec α := { v with mem := realloc v.mem n, size := n }
      (some v', some v')

end Apop.Realloc
