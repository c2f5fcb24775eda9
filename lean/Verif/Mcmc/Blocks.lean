import Verif.Pack.Props

/-! # C73: the Gibbs blocks of a chain partition the parameters -/

namespace Apop.Mcmc
open Pack
variable {α : Type}

/-- The three tests made for a page, apop_mcmc.m4.c:82 and 91-93: the part's size if the part is there. -/
def tests (p : Page α) : List (Option Nat) := [p.vector.map List.length, p.matrix.map (fun m => m.size1 * m.cols), p.weights.map List.length]

/-- The count, apop_mcmc.m4.c:80-82. -/
def countBlocks : List (Option Nat) → Nat
  | [] => 0
  | none :: ts => countBlocks ts
  | some _ :: ts => 1 + countBlocks ts

/-- `markit`, apop_mcmc.m4.c:85-94: `block_starts[this++] = ctr += value`. -/
def mark : List (Option Nat) → Nat → Nat → List Nat → Res (List Nat)
  | [], _, _, bs => .ok bs
  | none :: ts, this, ctr, bs => mark ts this ctr bs
  | some v :: ts, this, ctr, bs => do
    let bs ← wr bs this (ctr + v)
    mark ts (this + 1) (ctr + v) bs

/-- The item-by-item loop, apop_mcmc.m4.c:98: `n` more rounds from `i` on. -/
def items : Nat → Nat → List Nat → Res (List Nat)
  | 0, _, bs => .ok bs
  | n + 1, i, bs => do
    let bs ← wr bs i i
    items n (i + 1) bs

/-- `set_block_count_and_block_starts`, apop_mcmc.m4.c:73-100: the count and the array. `total` is the size of the packed parameters. -/
def blocks (chunks : Char) (ps : List (Page α)) (total : Nat) : Res (Nat × List Nat) :=
  if chunks = 'a' then .ok (1, [0, total])
  else if chunks = 'b' then do
    let bs ← mark (ps.flatMap tests) 1 0 (List.replicate (countBlocks (ps.flatMap tests) + 1) 0)
    .ok (countBlocks (ps.flatMap tests), bs)
  else do
    let bs ← items total 1 (List.replicate (total + 1) 0)
    .ok (total, bs)

/-! ## Specification -/

/-- The parts of the parameters, page by page: the vector, the matrix row by row, the weights, of those that are there. -/
def partsOf (p : Page α) : List (List α) := p.vector.toList ++ (p.matrix.map (fun m => m.rows.flatten)).toList ++ p.weights.toList

/-- Block `i` of a vector, where the blocks start as listed. -/
def slice (bs : List Nat) (v : List α) (i : Nat) : List α := (v.drop (bs.getD i 0)).take (bs.getD (i + 1) 0 - bs.getD i 0)

/-! ## Proofs -/

/-- The starts of pieces of the given lengths. -/
def starts : Nat → List Nat → List Nat
  | c, [] => [c]
  | c, n :: ns => c :: starts (c + n) ns

theorem starts_length : ∀ (c : Nat) (ns : List Nat), (starts c ns).length = ns.length + 1
  | _, [] => rfl
  | c, n :: ns => by simp [starts, starts_length]

theorem starts_head (c : Nat) (ns : List Nat) : (starts c ns).getD 0 0 = c := by cases ns <;> rfl

theorem starts_last : ∀ (c : Nat) (ns : List Nat), (starts c ns).getD ns.length 0 = c + ns.sum
  | c, [] => by simp [starts]
  | c, n :: ns => by simp only [starts, List.length_cons, List.getD_cons_succ, starts_last, List.sum_cons]; omega

/-- The starts of the parts' lengths cut the parts out of their concatenation. -/
theorem slice_starts : ∀ (parts : List (List α)) (pre : List α) (i : Nat) (h : i < parts.length),
    slice (starts pre.length (parts.map List.length)) (pre ++ parts.flatten) i = parts[i]
  | [], _, i, h => by simp at h
  | p :: ps, pre, 0, h => by
    simp only [slice, List.map_cons, starts, List.getD_cons_zero, List.getD_cons_succ, starts_head, List.flatten_cons]
    simp
  | p :: ps, pre, i + 1, h => by
    have := slice_starts ps (pre ++ p) i (by simpa using h)
    simp only [slice, List.map_cons, starts, List.getD_cons_succ, List.flatten_cons, List.getElem_cons_succ, List.length_append, List.append_assoc] at this ⊢
    exact this

theorem mark_eq : ∀ (ts : List (Option Nat)) (done : List Nat) (ctr : Nat),
    mark ts (done.length + 1) ctr (done ++ ctr :: List.replicate (countBlocks ts) 0) = .ok (done ++ starts ctr (ts.filterMap id))
  | [], done, ctr => by simp [mark, countBlocks, starts]
  | none :: ts, done, ctr => by simpa [mark, countBlocks] using mark_eq ts done ctr
  | some v :: ts, done, ctr => by
    have e : done ++ ctr :: List.replicate (countBlocks (some v :: ts)) 0 = (done ++ [ctr]) ++ 0 :: List.replicate (countBlocks ts) 0 := by
      simp only [countBlocks, Nat.add_comm 1, List.replicate_succ]
      simp
    have hl : done.length + 1 < ((done ++ [ctr]) ++ 0 :: List.replicate (countBlocks ts) 0).length := by simp
    rw [mark, e, wr_of_lt hl, Res.bind_ok]
    have hs : ((done ++ [ctr]) ++ 0 :: List.replicate (countBlocks ts) 0).set (done.length + 1) (ctr + v) = (done ++ [ctr]) ++ (ctr + v) :: List.replicate (countBlocks ts) 0 := by
      rw [List.set_append_right _ _ (by simp)]
      simp
    have := mark_eq ts (done ++ [ctr]) (ctr + v)
    rw [hs]
    simp only [List.length_append, List.length_cons, List.length_nil] at this
    rw [show done.length + 1 + 1 = done.length + (0 + 1) + 1 by omega, this]
    simp [starts]

theorem items_eq : ∀ (n : Nat) (done : List Nat), items n done.length (done ++ List.replicate n 0) = .ok (done ++ List.range' done.length n)
  | 0, done => by simp [items]
  | n + 1, done => by
    rw [items, wr_of_lt (by simp), Res.bind_ok]
    have hs : (done ++ List.replicate (n + 1) 0).set done.length done.length = (done ++ [done.length]) ++ List.replicate n 0 := by
      rw [List.set_append_right _ _ (by simp)]
      simp [List.replicate_succ]
    have := items_eq n (done ++ [done.length])
    rw [hs]
    simp only [List.length_append, List.length_cons, List.length_nil] at this
    rw [show done.length + 1 = done.length + (0 + 1) by omega, this, List.range'_succ]
    simp

theorem starts_ones : ∀ (n c : Nat), starts c (List.replicate n 1) = List.range' c (n + 1)
  | 0, c => by simp [starts]
  | n + 1, c => by rw [List.replicate_succ, starts, starts_ones n (c + 1), List.range'_succ (n := n + 1)]

theorem sum_rep (b : Nat) : ∀ n : Nat, (List.replicate n b).sum = n * b
  | 0 => by simp
  | n + 1 => by rw [List.replicate_succ, List.sum_cons, sum_rep b n, Nat.succ_mul]; omega

theorem filterMap_tests (p : Page α) (hp : Solid p) : (tests p).filterMap id = (partsOf p).map List.length := by
  have hm : ∀ m, p.matrix = some m → m.rows.flatten.length = m.size1 * m.cols := by
    intro m hm
    have hwf := (hp.mat m hm).1
    rw [List.length_flatten]
    have : m.rows.map List.length = List.replicate m.rows.length m.cols := by
      apply List.eq_replicate_iff.2
      refine ⟨by simp, ?_⟩
      intro b hb
      obtain ⟨r, hr, rfl⟩ := List.mem_map.1 hb
      exact hwf r hr
    rw [this, sum_rep]
    rfl
  unfold tests partsOf
  have hm' : p.matrix.map (fun m => m.size1 * m.cols) = p.matrix.map (fun m => m.rows.flatten.length) := by
    cases h : p.matrix with
    | none => rfl
    | some m => simp only [Option.map_some, hm m h]
  rw [hm']
  cases p.vector <;> cases p.matrix <;> cases p.weights <;> simp

theorem parts_flat (p : Page α) : (partsOf p).flatten = flat p := by
  unfold partsOf flat
  cases p.vector <;> cases p.matrix <;> cases p.weights <;> simp

theorem flatMap_tests : ∀ (ps : List (Page α)), (∀ p ∈ ps, Solid p) → (ps.flatMap tests).filterMap id = (ps.flatMap partsOf).map List.length
  | [], _ => rfl
  | p :: ps, h => by
    simp only [List.flatMap_cons, List.filterMap_append, List.map_append]
    rw [filterMap_tests p (h p (by simp)), flatMap_tests ps (fun q hq => h q (by simp [hq]))]

theorem countBlocks_eq : ∀ (ts : List (Option Nat)), countBlocks ts = (ts.filterMap id).length
  | [] => rfl
  | none :: ts => by simp [countBlocks, countBlocks_eq ts]
  | some _ :: ts => by simp [countBlocks, countBlocks_eq ts, Nat.add_comm]

/-- The blocks a user asks for: all together, part by part, or item by item. -/
def wanted (chunks : Char) (ps : List (Page α)) (v : List α) : List (List α) :=
  if chunks = 'a' then [v] else if chunks = 'b' then ps.flatMap partsOf else v.map fun x => [x]

/-- **C73.** Where no page of the parameters is an info page, the blocks are those asked for: everything, or each vector, matrix and weights vector of each page in the order in which `apop_data_pack` lays them out, or each element. The array of starts has one
more element than there are blocks, is never written outside, starts at 0 and ends at the total, and the blocks in turn give the whole packed vector. -/
theorem C73_blocks (chunks : Char) (junk : α) (p : Page α) (ps : List (Page α)) (hinfo : ∀ q ∈ p :: ps, ¬ Info q) (hnames : ∀ q ∈ ps, q.names ≠ none) (hsolid : ∀ q ∈ p :: ps, Solid q)
    (hlast : TailsFull ps) (hpos : (p :: ps).flatMap flat ≠ []) :
    ∃ v : List α, ∃ n : Nat, ∃ bs : List Nat, pack junk 'y' 'n' (p :: ps) = .ok (some v) ∧ blocks chunks (p :: ps) v.length = .ok (n, bs) ∧
      n = (wanted chunks (p :: ps) v).length ∧ bs.length = n + 1 ∧ bs.getD 0 0 = 0 ∧ bs.getD n 0 = v.length ∧
      (∀ (i : Nat) (h : i < (wanted chunks (p :: ps) v).length), slice bs v i = (wanted chunks (p :: ps) v)[i]) ∧
      (wanted chunks (p :: ps) v).flatten = v := by
  have hk : ∀ q ∈ p :: ps, kept 'n' q = true := by
    intro q hq
    have := mt (isInfo_iff q).1 (hinfo q hq)
    simp only [Bool.not_eq_true] at this
    simp [kept, this]
  have hf : (p :: ps).filter (kept 'n') = p :: ps := List.filter_eq_self.2 hk
  have hf' : ps.filter (kept 'n') = ps := List.filter_eq_self.2 (fun q hq => hk q (by simp [hq]))
  have hpack := (C21_pack (u := 'n') (m := 'y') (Or.inl rfl) rfl junk p ps (hk p (by simp)) (fun _ => hnames) (by rw [hf]; exact hsolid) (by rw [hf']; exact hlast) (by rw [hf]; exact hpos)).1
  rw [hf] at hpack
  -- it is enough that the starts are those of the blocks' lengths
  have key : ∀ (w : List (List α)) (v : List α), w.flatten = v →
      (starts 0 (w.map List.length)).length = w.length + 1 ∧ (starts 0 (w.map List.length)).getD 0 0 = 0 ∧ (starts 0 (w.map List.length)).getD w.length 0 = v.length ∧
      ∀ (i : Nat) (h : i < w.length), slice (starts 0 (w.map List.length)) v i = w[i] := by
    intro w v hw
    refine ⟨by simp [starts_length], starts_head _ _, ?_, ?_⟩
    · have := starts_last 0 (w.map List.length)
      rw [List.length_map] at this
      rw [this, ← hw, List.length_flatten]; simp
    · intro i h
      have := slice_starts w [] i h
      simp only [List.length_nil, List.nil_append, hw] at this
      exact this
  refine ⟨(p :: ps).flatMap flat, ?_⟩
  have hflat : ((p :: ps).flatMap partsOf).flatten = (p :: ps).flatMap flat := by
    rw [List.flatMap_def, List.flatten_flatten, List.map_map, List.flatMap_def]
    congr 1
    apply List.map_congr_left
    intro q _
    exact parts_flat q
  by_cases ha : chunks = 'a'
  · have e : wanted chunks (p :: ps) ((p :: ps).flatMap flat) = [(p :: ps).flatMap flat] := by simp [wanted, ha]
    obtain ⟨k1, k2, k3, k4⟩ := key [(p :: ps).flatMap flat] ((p :: ps).flatMap flat) (by simp)
    refine ⟨1, _, hpack, ?_, by rw [e]; rfl, k1, k2, k3, by rw [e]; exact k4, by rw [e]; simp⟩
    simp [blocks, ha, starts]
  · by_cases hb : chunks = 'b'
    · have e : wanted chunks (p :: ps) ((p :: ps).flatMap flat) = (p :: ps).flatMap partsOf := by simp [wanted, hb]
      obtain ⟨k1, k2, k3, k4⟩ := key ((p :: ps).flatMap partsOf) _ hflat
      refine ⟨_, _, hpack, ?_, by rw [e], k1, k2, k3, by rw [e]; exact k4, by rw [e]; exact hflat⟩
      have hm := mark_eq ((p :: ps).flatMap tests) [] 0
      rw [blocks, if_neg ha, if_pos hb, List.replicate_succ]
      simp only [List.nil_append, List.length_nil, Nat.zero_add] at hm
      rw [hm, Res.bind_ok, countBlocks_eq, flatMap_tests _ hsolid, List.length_map]
    · have e : wanted chunks (p :: ps) ((p :: ps).flatMap flat) = ((p :: ps).flatMap flat).map fun x => [x] := by simp [wanted, ha, hb]
      have hone : (((p :: ps).flatMap flat).map fun x => [x]).flatten = (p :: ps).flatMap flat := by
        rw [← List.flatMap_def]; simp
      obtain ⟨k1, k2, k3, k4⟩ := key (((p :: ps).flatMap flat).map fun x => [x]) _ hone
      refine ⟨_, _, hpack, ?_, by rw [e, List.length_map], by rw [k1, List.length_map], k2, by rw [List.length_map] at k3; exact k3, by rw [e]; exact k4, by rw [e]; exact hone⟩
      have hi := items_eq ((p :: ps).flatMap flat).length [0]
      rw [blocks, if_neg ha, if_neg hb, List.replicate_succ]
      simp only [List.length_cons, List.length_nil, Nat.zero_add, List.cons_append, List.nil_append] at hi
      rw [hi, Res.bind_ok, List.map_map]
      have : (((p :: ps).flatMap flat).map (List.length ∘ fun x => [x])) = List.replicate ((p :: ps).flatMap flat).length 1 := by
        generalize (p :: ps).flatMap flat = l
        induction l with
        | nil => rfl
        | cons a l ih => simp only [List.map_cons, ih, List.length_cons, List.replicate_succ]; rfl
      rw [this, starts_ones, List.range'_succ]

/-- A vector and a matrix on the first page, weights on a second: three blocks. -/
example : blocks 'b' [({ vector := some [1, 2], matrix := some ⟨[[3, 4], [5, 6]], 2⟩, names := some Names.alloc } : Page Int), { weights := some [7], names := some Names.alloc }] 7 = .ok (3, [0, 2, 6, 7]) := by decide +kernel

/-- Info pages are not packed, but they are counted as blocks: here the last block starts at the end of the packed vector and a draw for it is written past the end. -/
theorem C73_info_page_refuted : pack 0 'y' 'n' [vpage "a" [1, 2], vpage "<Info>" [3, 4]] = .ok (some [1, 2]) ∧
    blocks 'b' [vpage "a" [1, 2], vpage "<Info>" [3, 4]] 2 = .ok (2, [0, 2, 4]) := by
  constructor <;> decide +kernel

end Apop.Mcmc
