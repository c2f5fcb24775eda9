import Verif.Base.C
import Mathlib.Tactic.SplitIfs

/-! # Who owns what a settings group points to -- C183

`apop_model_copy` copies a model's settings groups with each group's copy function, `apop_model_free` frees them with
each group's free function, and the methods of the models use what the groups point to. A program is any sequence of
setting up, copying, using and freeing groups. Here: the heap, sessions, the seven groups that own memory
(apop_mcmc, apop_lm, apop_kernel_density, apop_dconstrain, apop_mixture, apop_arms, apop_loess), and the
specification of a proper program. The proofs are in `OwnerProps`. -/

namespace Apop.Settings.Owner

/-- The heap: which blocks are allocated, the next new block, and which blocks the user has allocated himself.
A block stands for an array or for a whole model or data set. -/
structure Heap where
  live : Nat → Bool
  next : Nat
  user : Nat → Bool

/-- The heap at the start of the program. -/
def Heap.empty : Heap := ⟨fun _ => false, 0, fun _ => false⟩

/-- `malloc`, `apop_model_copy`, `apop_vector_copy`, ..: a new block. -/
def Heap.alloc (h : Heap) : Heap := ⟨fun p => if p = h.next then true else h.live p, h.next + 1, h.user⟩

/-- A new block that the user allocates. -/
def Heap.allocUser (h : Heap) : Heap :=
  ⟨fun p => if p = h.next then true else h.live p, h.next + 1, fun p => if p = h.next then true else h.user p⟩

/-- `n` new blocks; they are `h.next`, .., `h.next + n - 1`. -/
def Heap.allocs (h : Heap) : Nat → Heap
  | 0 => h
  | n + 1 => Heap.allocs h.alloc n

/-- `n` new blocks of the user's. -/
def Heap.allocsUser (h : Heap) : Nat → Heap
  | 0 => h
  | n + 1 => Heap.allocsUser h.allocUser n

/-- `free`, `apop_model_free`, ..; of a block that is not allocated: undefined. -/
def Heap.free (h : Heap) (p : Nat) : Res Heap :=
  if h.live p then .ok ⟨fun q => if q = p then false else h.live q, h.next, h.user⟩ else .ub

/-- Freeing a list of blocks, one by one. -/
def Heap.frees (h : Heap) : List Nat → Res Heap
  | [] => .ok h
  | p :: ps => (h.free p).bind fun h => Heap.frees h ps

/-- `free` of a pointer that may be `NULL`. -/
def Heap.freeOpt (h : Heap) : Option Nat → Res Heap
  | none => .ok h
  | some p => h.free p

/-- Reading or writing the given blocks. -/
def Heap.use (h : Heap) (ps : List Nat) : Res Unit := if ps.all h.live then .ok () else .ub

/-- The code of a settings group: `A` is what the user gives to the init function, `U` says which use is made of it.
The copy function gives the original (which it may change) and the copy. -/
structure Code (A U G : Type) where
  init : Heap → A → Heap × G
  copy : Heap → G → Res (Heap × G × G)
  use  : Heap → G → U → Res (Heap × G)
  free : Heap → G → Res Heap

/-- What a program does: set up a group, copy, use, free the `i`-th group made. -/
inductive Op (A U : Type) where
  | init (a : A)
  | copy (i : Nat)
  | use (i : Nat) (u : U)
  | free (i : Nat)
  deriving DecidableEq, Repr

/-- The state: the heap and all groups made; a freed one is `none`. -/
structure Sess (G : Type) where
  heap : Heap
  groups : List (Option G)

variable {A U G : Type}

/-- The group behind a model's pointer. -/
def Sess.get (s : Sess G) (i : Nat) : Res G :=
  match s.groups[i]? with
  | some (some g) => .ok g
  | _ => .ub

/-- One operation (the macros at apop.m4.h:1155-1185; the struct itself is freed at the end of the free function). -/
def step (c : Code A U G) (s : Sess G) : Op A U → Res (Sess G)
  | .init a => .ok ⟨(c.init s.heap a).1, s.groups ++ [some (c.init s.heap a).2]⟩
  | .copy i => (s.get i).bind fun g => (c.copy s.heap g).bind fun r =>
      .ok ⟨r.1, s.groups.set i (some r.2.1) ++ [some r.2.2]⟩
  | .use i u => (s.get i).bind fun g => (c.use s.heap g u).bind fun r => .ok ⟨r.1, s.groups.set i (some r.2)⟩
  | .free i => (s.get i).bind fun g => (c.free s.heap g).bind fun h => .ok ⟨h, s.groups.set i none⟩

/-- A program. -/
def run (c : Code A U G) : Sess G → List (Op A U) → Res (Sess G)
  | s, [] => .ok s
  | s, o :: os => (step c s o).bind fun s => run c s os

/-- Running from the start. -/
def exec (c : Code A U G) (ops : List (Op A U)) : Res (Sess G) := run c ⟨Heap.empty, []⟩ ops

/-! ## Specification: proper programs -/

/-- What has happened to a group so far. -/
inductive Mark where
  | unused | used | dead
  deriving DecidableEq, Repr

/-- Which copies a program may make: any; only of groups that have not been used yet; none. -/
inductive Policy where
  | any | unused | never
  deriving DecidableEq, Repr

/-- May a group so marked be copied? -/
def mayCopy : Policy → Mark → Prop
  | .any, k => k ≠ .dead
  | .unused, k => k = .unused
  | .never, _ => False

/-- The marks after an operation: a copy has the mark of its original. -/
def marks (ks : List Mark) : Op A U → List Mark
  | .init _ => ks ++ [.unused]
  | .copy i => ks ++ [ks.getD i .dead]
  | .use i _ => ks.set i .used
  | .free i => ks.set i .dead

/-- Is an operation proper: is the group there, not freed, and (for a copy) to be copied? -/
def OkOp (pol : Policy) (ks : List Mark) : Op A U → Prop
  | .init _ => True
  | .copy i => ∃ k, ks[i]? = some k ∧ mayCopy pol k
  | .use i _ => ∃ k, ks[i]? = some k ∧ k ≠ .dead
  | .free i => ∃ k, ks[i]? = some k ∧ k ≠ .dead

/-- A proper program, from given marks on. -/
def Proper (pol : Policy) : List Mark → List (Op A U) → Prop
  | _, [] => True
  | ks, o :: os => OkOp pol ks o ∧ Proper pol (marks ks o) os

/-- The marks at the end. -/
def finalMarks : List Mark → List (Op A U) → List Mark
  | ks, [] => ks
  | ks, o :: os => finalMarks (marks ks o) os

/-! ## The groups -/

/-- `apop_mcmc_settings`: the array of proposals, the proposal models in it (`block_count` of them), `proposal_is_cp`.
No proposal models: `proposals` is `NULL` and `block_count` zero (both are set together, apop_mcmc.m4.c:307-308;
a user who sets `proposals` has to set `block_count`). -/
structure Mcmc where
  arr : Nat
  props : List Nat
  isCp : Bool
  deriving DecidableEq, Repr

/-- The numbers of a run of blocks. -/
def blocks (a n : Nat) : List Nat := (List.range n).map (a + ·)

/-- `Apop_settings_init(apop_mcmc, ..)`, apop_mcmc.m4.c:36-45; the argument is how many proposals the user has set up
in an array of his own (`proposals` and `block_count` set), 0 for none. -/
def mcmcInit (h : Heap) (k : Nat) : Heap × Mcmc :=
  if k = 0 then (h, ⟨0, [], false⟩) else (h.allocsUser (k + 1), ⟨h.next, blocks (h.next + 1) k, false⟩)

/-- `Apop_settings_copy(apop_mcmc, ..)`, apop_mcmc.m4.c:47-56. -/
def mcmcCopy (h : Heap) (g : Mcmc) : Res (Heap × Mcmc × Mcmc) :=
  if g.props.length ≠ 0 then
    (h.use (g.arr :: g.props)).bind fun _ =>
      .ok (h.allocs (g.props.length + 1), g, ⟨h.next, blocks (h.next + 1) g.props.length, true⟩)
  else .ok (h, g, g)

/-- A run of `apop_model_metropolis` with parameters in `n + 1` blocks: proposals are set up if there are none
(apop_mcmc.m4.c:306-318), then used. -/
def mcmcUse (h : Heap) (g : Mcmc) (n : Nat) : Res (Heap × Mcmc) :=
  if g.props.length = 0 then .ok (h.allocs (n + 2), ⟨h.next, blocks (h.next + 1) (n + 1), true⟩)
  else (h.use (g.arr :: g.props)).bind fun _ => .ok (h, g)

/-- `Apop_settings_free(apop_mcmc, ..)`, apop_mcmc.m4.c:58-64. -/
def mcmcFree (h : Heap) (g : Mcmc) : Res Heap :=
  if g.isCp then (h.frees g.props).bind fun h => h.freeOpt (if g.props.length = 0 then none else some g.arr) else .ok h

/-- `apop_mcmc`. -/
def mcmc : Code Nat Nat Mcmc := ⟨mcmcInit, mcmcCopy, mcmcUse, mcmcFree⟩

/-- `apop_lm_settings`: the instruments (if any) and the input distribution. -/
structure Lm where
  instruments : Option Nat
  dist : Nat
  deriving DecidableEq, Repr

/-- What a user may give to `apop_lm`: instruments (his own data), an input distribution (his own model, which he hands over). -/
structure LmArg where
  instruments : Bool
  dist : Bool
  deriving DecidableEq, Repr

/-- The user's own data set of instruments, if he has any. -/
def lmInstr (h : Heap) (b : Bool) : Heap := if b then h.allocUser else h

/-- `Apop_settings_init(apop_lm, ..)`, model/apop_ols.c:64-69. -/
def lmInit (h : Heap) (a : LmArg) : Heap × Lm :=
  (if a.dist then (lmInstr h a.instruments).allocUser else (lmInstr h a.instruments).alloc,
   ⟨if a.instruments then some h.next else none, (lmInstr h a.instruments).next⟩)

/-- `Apop_settings_copy(apop_lm, ..)`, model/apop_ols.c:54-58; `apop_data_copy(NULL)` is `NULL`. The instruments have to
be there to be copied. -/
def lmCopy (h : Heap) (g : Lm) : Res (Heap × Lm × Lm) :=
  (h.use (g.dist :: g.instruments.toList)).bind fun _ =>
    match g.instruments with
    | none => .ok (h.alloc, g, ⟨none, h.next⟩)
    | some _ => .ok (h.alloc.alloc, g, ⟨some h.next, h.next + 1⟩)

/-- Predicting, drawing, ..: what the group points to is used. -/
def lmUse (h : Heap) (g : Lm) (_ : Unit) : Res (Heap × Lm) :=
  (h.use (g.dist :: g.instruments.toList)).bind fun _ => .ok (h, g)

/-- `Apop_settings_free(apop_lm, ..)`, model/apop_ols.c:60-62. -/
def lmFree (h : Heap) (g : Lm) : Res Heap := h.free g.dist

/-- `apop_lm`. -/
def lm : Code LmArg Unit Lm := ⟨lmInit, lmCopy, lmUse, lmFree⟩

/-- `apop_kernel_density_settings`: the PMF over the points, the kernel, and who owns them. -/
structure Kde where
  pmf : Nat
  kernel : Nat
  ownPmf : Bool
  ownKernel : Bool
  deriving DecidableEq, Repr

/-- What a user may give: his own PMF, his own kernel. -/
structure KdeArg where
  pmf : Bool
  kernel : Bool
  deriving DecidableEq, Repr

/-- A block of the user's or of the library's. -/
def Heap.allocBy (h : Heap) (user : Bool) : Heap := if user then h.allocUser else h.alloc

/-- `Apop_settings_init(apop_kernel_density, ..)`, model/apop_kerneld.c:56-65. -/
def kdeInit (h : Heap) (a : KdeArg) : Heap × Kde :=
  ((h.allocBy a.pmf).allocBy a.kernel, ⟨h.next, h.next + 1, !a.pmf, !a.kernel⟩)

/-- `Apop_settings_copy(apop_kernel_density, ..)`, model/apop_kerneld.c:67-70. -/
def kdeCopy (h : Heap) (g : Kde) : Res (Heap × Kde × Kde) :=
  .ok (h, g, { g with ownPmf := false, ownKernel := false })

/-- `kernel_p`, `kernel_cdf`, `kernel_draw`, model/apop_kerneld.c:84-155: both models are used. -/
def kdeUse (h : Heap) (g : Kde) (_ : Unit) : Res (Heap × Kde) :=
  (h.use [g.pmf, g.kernel]).bind fun _ => .ok (h, g)

/-- `free` if a flag says so. -/
def Heap.freeIf (h : Heap) (b : Bool) (p : Nat) : Res Heap := if b then h.free p else .ok h

/-- `Apop_settings_free(apop_kernel_density, ..)`, model/apop_kerneld.c:72-75. -/
def kdeFree (h : Heap) (g : Kde) : Res Heap :=
  (h.freeIf g.ownPmf g.pmf).bind fun h => h.freeIf g.ownKernel g.kernel

/-- `apop_kernel_density`. -/
def kde : Code KdeArg Unit Kde := ⟨kdeInit, kdeCopy, kdeUse, kdeFree⟩

/-- `apop_dconstrain_settings`: `last_params` and `refct`. -/
structure Dcon where
  last : Option Nat
  refct : Int
  deriving DecidableEq, Repr

/-- `Apop_settings_init(apop_dconstrain, ..)`, transform/apop_dconstrain.c:54-60. -/
def dconInit (h : Heap) (_ : Unit) : Heap × Dcon := (h, ⟨none, 0⟩)

/-- `Apop_settings_copy(apop_dconstrain, in->refct++;)`, transform/apop_dconstrain.c:62: the copy has been made when
the original's count goes up. -/
def dconCopy (h : Heap) (g : Dcon) : Res (Heap × Dcon × Dcon) := .ok (h, { g with refct := g.refct + 1 }, g)

/-- `is_stale`, transform/apop_dconstrain.c:92-113, for a model with parameters. -/
def dconUse (h : Heap) (g : Dcon) (_ : Unit) : Res (Heap × Dcon) :=
  match g.last with
  | none => .ok (h.alloc, { g with last := some h.next })
  | some p => (h.use [p]).bind fun _ => .ok (h, g)

/-- `Apop_settings_free(apop_dconstrain, ..)`, transform/apop_dconstrain.c:63-65. -/
def dconFree (h : Heap) (g : Dcon) : Res Heap := if g.refct - 1 = 0 then h.freeOpt g.last else .ok h

/-- `apop_dconstrain`. -/
def dcon : Code Unit Unit Dcon := ⟨dconInit, dconCopy, dconUse, dconFree⟩

/-- `apop_mixture_settings`: the list of models, the parameter sizes, the weights, the counter, and what draws and
estimation add: the PMF over the models and the next weights. -/
structure Mix where
  list : Nat
  sizes : Nat
  weights : Nat
  refct : Nat
  cmf : Option Nat
  nextW : Option Nat
  deriving DecidableEq, Repr

/-- `apop_model_mixture_base`, transform/apop_mixture.c:120-139, with `Apop_settings_init(apop_mixture, ..)`, :114-117. -/
def mixInit (h : Heap) (_ : Unit) : Heap × Mix :=
  (h.allocs 4, ⟨h.next, h.next + 1, h.next + 3, h.next + 2, none, none⟩)

/-- `apop_vector_copy(in->next_weights)`. -/
def mixNext (h : Heap) : Option Nat → Heap × Option Nat
  | none => (h, none)
  | some _ => (h.alloc, some h.next)

/-- `Apop_settings_copy(apop_mixture, ..)`, transform/apop_mixture.c:99-102. -/
def mixCopy (h : Heap) (g : Mix) : Res (Heap × Mix × Mix) :=
  (h.use (g.refct :: g.nextW.toList)).bind fun _ =>
    .ok ((mixNext h g.nextW).1, g, { g with nextW := (mixNext h g.nextW).2 })

/-- The uses: `true` is a likelihood (next weights, transform/apop_mixture.c:270), `false` a draw (the PMF, :281-286). -/
def mixUse (h : Heap) (g : Mix) (ll : Bool) : Res (Heap × Mix) :=
  (h.use (g.list :: g.sizes :: g.weights :: (g.cmf.toList ++ g.nextW.toList))).bind fun _ =>
    if ll then
      match g.nextW with
      | none => .ok (h.alloc, { g with nextW := some h.next })
      | some _ => .ok (h, g)
    else
      match g.cmf with
      | none => .ok (h.alloc, { g with cmf := some h.next })
      | some _ => .ok (h, g)

/-- `Apop_settings_free(apop_mixture, ..)`, transform/apop_mixture.c:104-112. `--in->cmf_refct` counts the POINTER down,
so that the branch with the other three calls of free is never taken (a pointer to an allocated `int` less one `int` is
not `NULL`). -/
def mixFree (h : Heap) (g : Mix) : Res Heap := (h.free g.sizes).bind fun h => h.freeOpt g.nextW

/-- `apop_mixture`. -/
def mix : Code Unit Bool Mix := ⟨mixInit, mixCopy, mixUse, mixFree⟩

/-- `apop_arms_settings`: the state and the array of points it points to. -/
structure Arms where
  state : Nat
  p : Nat
  deriving DecidableEq, Repr

/-- `Apop_settings_init(apop_arms, ..)`, apop_arms.c:39-73 (`initial`, :139). -/
def armsInit (h : Heap) (_ : Unit) : Heap × Arms := (h.allocs 2, ⟨h.next, h.next + 1⟩)

/-- `Apop_settings_copy(apop_arms, ..)`, apop_arms.c:27-30. -/
def armsCopy (h : Heap) (g : Arms) : Res (Heap × Arms × Arms) :=
  (h.use [g.state]).bind fun _ => .ok (h.alloc, g, ⟨h.next, g.p⟩)

/-- `apop_arms_draw`, apop_arms.c:90-125. -/
def armsUse (h : Heap) (g : Arms) (_ : Unit) : Res (Heap × Arms) := (h.use [g.state, g.p]).bind fun _ => .ok (h, g)

/-- `Apop_settings_free(apop_arms, ..)`, apop_arms.c:32-37. -/
def armsFree (h : Heap) (g : Arms) : Res Heap := (h.use [g.state]).bind fun _ => h.frees [g.p, g.state]

/-- `apop_arms`. -/
def arms : Code Unit Unit Arms := ⟨armsInit, armsCopy, armsUse, armsFree⟩

/-- `apop_loess_settings`: the thirteen arrays of its own, and the weights. -/
structure Loess where
  arrays : List Nat
  weights : Nat
  deriving DecidableEq, Repr

/-- `Apop_settings_init(apop_loess, ..)`, model/apop_loess.c:3507-3566; the argument: has the data weights of its own?
Then the group points to these. -/
def loessInit (h : Heap) (weighted : Bool) : Heap × Loess :=
  ((h.allocs 13).allocBy weighted, ⟨blocks h.next 13, h.next + 13⟩)

/-- `Apop_settings_copy(apop_loess, )`, model/apop_loess.c:3491. -/
def loessCopy (h : Heap) (g : Loess) : Res (Heap × Loess × Loess) := .ok (h, g, g)

/-- Predictions, model/apop_loess.c:3568-3600. -/
def loessUse (h : Heap) (g : Loess) (_ : Unit) : Res (Heap × Loess) :=
  (h.use (g.arrays ++ [g.weights])).bind fun _ => .ok (h, g)

/-- `Apop_settings_free(apop_loess, loess_free_mem(..))`, model/apop_loess.c:3492 and :3222-3238. -/
def loessFree (h : Heap) (g : Loess) : Res Heap := h.frees (g.arrays ++ [g.weights])

/-- `apop_loess`. -/
def loess : Code Bool Unit Loess := ⟨loessInit, loessCopy, loessUse, loessFree⟩

end Apop.Settings.Owner
