import Verif.Lemmas.MaxEntangled4
import Verif.Lemmas.MaxEntangled6
import Verif.Props.C23
import Verif.Props.C50

/-!
C108: `autocomplete(max_entangled=True)` prepares the maximally entangled state, in which imaginary-time propagation to a finite temperature
starts.

The class attributes `cfg` of the Davidson solver and the functions `lib` of `scipy.linalg` that it calls are arbitrary (`OrthOk`, `EighOk`: what
is assumed of `scipy.linalg.orth` and `eigh`, as in C50); `rank` stands for `np.linalg.matrix_rank` (`RankOk`).
-/

open Py
open scoped BigOperators

namespace ML

open Heap Davidson

variable {cfg : Davidson.Config} {lib : ∀ N, Lib N} {rank : Nd ℝ → ℕ} {s s' : Obj ℝ ℝ} {F : Forest} {dims : Dict (ℕ × ℕ × ℕ × ℕ) ℕ}
  {want : ℕ × ℕ → ℕ} {left right : ℕ → ℕ} {fuel : ℕ}

private theorem forM_all_ok {α : Type} (f : α → Res Unit) (l : List α) (hf : ∀ x ∈ l, f x = .ok ()) : l.forM f = .ok () := by
  induction l with
  | nil => rfl
  | cons x xs ih =>
    change (f x >>= fun _ => xs.forM f) = _
    rw [hf x (by simp), ok_bind]
    exact ih fun y hy => hf y (by simp [hy])

/-- `autocompleteMax` is its loop: the check at the end passes. -/
theorem autocompleteMax_eq (h1 : ∀ N, OrthOk (lib N).orth) (h2 : ∀ N, EighOk (lib N).eigh) (hc : 0 < cfg.maxCycle)
    (hb : Bare s.heap s.root F dims want) (hp : Pairs s.heap s.root F want left right) (hr : RankOk rank)
    (hnone : ∀ t ∈ s.heap.tensors s.root F, s.heap.array t = none) (hf : F.depth < fuel) :
    (∀ h', (s.heap.tensors s.root F).foldlM (completeMax cfg lib Real.sqrt rank s dims) s.heap = .ok h' →
      LoopDone s.heap s.heap h' s.root F want (s.heap.tensors s.root F)) ∧
    autocompleteMax cfg lib Real.sqrt rank fuel dims s =
      ((s.heap.tensors s.root F).foldlM (completeMax cfg lib Real.sqrt rank s dims) s.heap).map fun h => { s with heap := h } := by
  have hnd : (s.heap.tensors s.root F).Nodup := by
    unfold Heap.tensors
    exact hb.tree.nodup.filter _
  have hl : ∀ h', (s.heap.tensors s.root F).foldlM (completeMax cfg lib Real.sqrt rank s dims) s.heap = .ok h' →
      LoopDone s.heap s.heap h' s.root F want (s.heap.tensors s.root F) :=
    loop_cond h1 h2 hc hb hp hr hnone _ _ hnd (fun t ht => ht) (fun _ => rfl) fun _ _ => rfl
  refine ⟨hl, ?_⟩
  have hts : (if false || !(s.heap.isLeaf s.root) then [s.root] else []) ++ F.ids.filter (fun t => false || !(s.heap.isLeaf t)) =
      s.heap.tensors s.root F := by
    unfold Heap.tensors
    simp [hb.leaf]
  unfold autocompleteMax
  rw [hb.rooted.1, visitor_tree hb.tree false hf, hts, ok_bind]
  cases hk : (s.heap.tensors s.root F).foldlM (completeMax cfg lib Real.sqrt rank s dims) s.heap with
  | error e => rfl
  | ok h' =>
    have f := (hl h' hk).filled hb hp hnone
    rw [ok_bind, f.axis, hb.rooted.1, visitor_tree (f.tree hb) true hf, ok_bind, forM_all_ok]
    · rfl
    · intro t ht
      rw [C03_check_completness]
      exact f.complete hb (by simpa using ht)

/-- If no tensor has an array and `autocomplete(max_entangled=True)` returns normally, then it has changed nothing but arrays of tensors, every
tensor has an array of the requested shape, the network is in canonical form, and the state that it represents is the maximally entangled
one: the amplitude is the product over the pairs of leaves of `1/√n` if both have the same index, and 0 otherwise. -/
theorem C108_state_partial (h1 : ∀ N, OrthOk (lib N).orth) (h2 : ∀ N, EighOk (lib N).eigh) (hc : 0 < cfg.maxCycle)
    (hb : Bare s.heap s.root F dims want) (hp : Pairs s.heap s.root F want left right) (hr : RankOk rank)
    (hnone : ∀ t ∈ s.heap.tensors s.root F, s.heap.array t = none) (hf : F.depth < fuel)
    (hk : autocompleteMax cfg lib Real.sqrt rank fuel dims s = .ok s') :
    s'.root = s.root ∧ s'.hList = s.hList ∧ s'.fList = s.fList ∧ s'.time = s.time ∧ s'.env = s.env ∧ s'.heap.next = s.heap.next ∧
      (∀ u, s'.heap.access u = s.heap.access u ∧ (s'.heap.node u).axis = (s.heap.node u).axis ∧
        (s'.heap.node u).name = (s.heap.node u).name ∧ s'.heap.isLeaf u = s.heap.isLeaf u) ∧
      (∀ u, u ∉ s.heap.tensors s.root F → s'.heap.array u = s.heap.array u) ∧
      (∀ t ∈ s.heap.tensors s.root F, ∃ A, s'.heap.array t = some A ∧
        A.shape = (List.range (s.heap.order t)).map fun i => want (t, i)) ∧
      s'.heap.IsTTN s.root F ∧ s'.heap.Rooted s.root F ∧ s'.heap.CanonicalTree s.root F ∧
      ∀ x : ℕ → ℕ, (∀ e ∈ F.edges s.root, s.heap.isLeaf e.2.2.1 = true → x e.2.2.1 < want (e.1, e.2.1)) →
        s'.heap.treeAmp s.root F x = s.heap.maxEntangled s.root F want left right x := by
  obtain ⟨hl, he⟩ := autocompleteMax_eq (fuel := fuel) h1 h2 hc hb hp hr hnone hf
  rw [he] at hk
  cases hq : (s.heap.tensors s.root F).foldlM (completeMax cfg lib Real.sqrt rank s dims) s.heap with
  | error e => rw [hq] at hk; cases hk
  | ok h' =>
    rw [hq] at hk
    cases hk
    have l := hl h' hq
    have f := l.filled hb hp hnone
    refine ⟨rfl, rfl, rfl, rfl, rfl, f.next, fun u => ⟨f.access u, f.axis u, f.name u, f.isLeaf u⟩, fun u hu => ?_, fun t ht => ?_,
      f.ttn hb, f.rooted hb, l.canonical hb hp hnone, fun x hx => l.amp hb hp hnone hx⟩
    · show h'.array u = _
      unfold array
      rw [f.other u hu]
    · obtain ⟨A, a1, -, a3⟩ := f.fit t ht
      exact ⟨A, a1, a3⟩

/-- It returns normally if, for each pair of leaves, the left one has a name that does not end with `'`, a local Hamiltonian of the right shape,
and the search of the Davidson solver finds as many vectors as the dimension of the bond above the pair. -/
theorem C108_returns_partial (h1 : ∀ N, OrthOk (lib N).orth) (h2 : ∀ N, EighOk (lib N).eigh) (hc : 0 < cfg.maxCycle)
    (hb : Bare s.heap s.root F dims want) (hp : Pairs s.heap s.root F want left right) (hr : RankOk rank)
    (hnone : ∀ t ∈ s.heap.tensors s.root F, s.heap.array t = none) (hf : F.depth < fuel)
    (hname : ∀ t ∈ s.heap.bottoms s.root F, ∃ nm, (s.heap.node (left t)).name = some nm ∧ nm.getLast? ≠ some '\'')
    (hfound : ∀ t ∈ s.heap.bottoms s.root F, ∃ a A vecs, localHamiltonian s (left t) = .ok a ∧ localMatvec (want (t, 1)) a = .ok A ∧
      kernelSearch cfg (lib (want (t, 1) * want (t, 1))) (init cfg A [maxVec (want (t, 1))] (want (t, 0)) none) = .ok vecs ∧
      want (t, 0) ≤ vecs.length) :
    ∃ s', autocompleteMax cfg lib Real.sqrt rank fuel dims s = .ok s' := by
  have hnd : (s.heap.tensors s.root F).Nodup := by
    unfold Heap.tensors
    exact hb.tree.nodup.filter _
  obtain ⟨h', hk⟩ := loop_exists (s := s) h1 h2 hc hb hp hr hnone hname hfound _ _ hnd (fun t ht => ht) (fun _ => rfl) fun _ _ => rfl
  exact ⟨_, by rw [(autocompleteMax_eq h1 h2 hc hb hp hr hnone hf).2, hk]; rfl⟩

theorem localTerm_of {leaf : ℕ} {a : Nd ℝ} : ∀ {terms : List (Term ℝ ℝ)}, [(leaf, TermOp.mat a)] ∈ terms →
    (∀ op, [(leaf, op)] ∈ terms → op = TermOp.mat a) → localTerm leaf terms = some (.mat a)
  | [], hm, _ => (List.not_mem_nil hm).elim
  | term :: terms, hm, hu => by
    have rec' := fun (hm : [(leaf, TermOp.mat a)] ∈ terms) => localTerm_of hm fun op ho => hu op (by simp [ho])
    unfold localTerm at rec' ⊢
    rw [List.findSome?_cons]
    match term, hm, hu with
    | [], hm, hu => exact rec' (by simpa using hm)
    | [p], hm, hu =>
      by_cases hp : p.1 = leaf
      · subst hp
        simp only [if_true]
        rw [hu p.2 (by simp)]
      · simp only [if_neg hp]
        refine rec' ?_
        rcases List.mem_cons.1 hm with q | q
        · simp only [List.cons.injEq, and_true] at q
          exact absurd (by rw [← q]) hp
        · exact q
    | _ :: _ :: _, hm, hu => exact rec' (by simpa using hm)

/-- With dimension 1 for the bonds above the pairs, it returns normally whenever the left leaf of each pair has one local term in `h_list`, a
matrix of the right shape. -/
theorem C108_bond_one (h1 : ∀ N, OrthOk (lib N).orth) (h2 : ∀ N, EighOk (lib N).eigh) (hc : 0 < cfg.maxCycle)
    (hb : Bare s.heap s.root F dims want) (hp : Pairs s.heap s.root F want left right) (hr : RankOk rank)
    (hnone : ∀ t ∈ s.heap.tensors s.root F, s.heap.array t = none) (hf : F.depth < fuel)
    (hname : ∀ t ∈ s.heap.bottoms s.root F, ∃ nm, (s.heap.node (left t)).name = some nm ∧ nm.getLast? ≠ some '\'')
    (hone : ∀ t ∈ s.heap.bottoms s.root F, want (t, 0) = 1)
    (hterm : ∀ t ∈ s.heap.bottoms s.root F, ∃ a : Nd ℝ, a.shape = [want (t, 1), want (t, 1)] ∧ [(left t, TermOp.mat a)] ∈ s.hList ∧
      ∀ op, [(left t, op)] ∈ s.hList → op = TermOp.mat a) :
    ∃ s', autocompleteMax cfg lib Real.sqrt rank fuel dims s = .ok s' ∧ s'.heap.CanonicalTree s.root F ∧
      ∀ x : ℕ → ℕ, (∀ e ∈ F.edges s.root, s.heap.isLeaf e.2.2.1 = true → x e.2.2.1 < want (e.1, e.2.1)) →
        s'.heap.treeAmp s.root F x = s.heap.maxEntangled s.root F want left right x := by
  obtain ⟨s', hs⟩ := C108_returns_partial (s := s) (fuel := fuel) h1 h2 hc hb hp hr hnone hf hname fun t ht => by
    obtain ⟨a, a1, a2, a3⟩ := hterm t ht
    have hn : 0 < want (t, 1) := hb.pos (mem_bottoms.1 ht).1 (by rw [hp.order t ht]; omega)
    refine ⟨a, _, [maxVec (want (t, 1))], by unfold localHamiltonian; rw [localTerm_of a2 a3], by unfold localMatvec; rw [if_pos a1], ?_, ?_⟩
    · rw [hone t ht]
      exact search_one (h1 _) (maxVec_dot hn) hc
    · rw [hone t ht]; simp
  obtain ⟨-, -, -, -, -, -, -, -, -, -, -, p1, p2⟩ := C108_state_partial h1 h2 hc hb hp hr hnone hf hs
  exact ⟨s', hs, p1, p2⟩

/-- If every tensor has an array already, it changes nothing. -/
theorem C108_given (hb : Bare s.heap s.root F dims want) (hgiven : ∀ t ∈ s.heap.tensors s.root F, s.heap.array t ≠ none) (hf : F.depth < fuel) :
    autocompleteMax cfg lib Real.sqrt rank fuel dims s = .ok s := by
  have hts : (if false || !(s.heap.isLeaf s.root) then [s.root] else []) ++ F.ids.filter (fun t => false || !(s.heap.isLeaf t)) =
      s.heap.tensors s.root F := by
    unfold Heap.tensors
    simp [hb.leaf]
  have f : Bare.Filled0 s.heap s.heap s.root F want := ⟨rfl, fun _ => rfl, fun _ _ => rfl, fun _ _ => rfl, fun t ht => by
    cases ha : s.heap.array t with
    | none => exact absurd ha (hgiven t ht)
    | some A => exact ⟨A, rfl, hb.given t ht A ha⟩⟩
  have key : ∀ ts : List ℕ, (∀ t ∈ ts, s.heap.array t ≠ none) →
      ts.foldlM (completeMax cfg lib Real.sqrt rank s dims) s.heap = .ok s.heap := by
    intro ts
    induction ts with
    | nil => exact fun _ => rfl
    | cons t ts ih =>
      intro h
      have : completeMax cfg lib Real.sqrt rank s dims s.heap t = .ok s.heap := by
        unfold completeMax
        cases ha : s.heap.array t with
        | none => exact absurd ha (h t (by simp))
        | some A => rfl
      rw [List.foldlM_cons, this, ok_bind]
      exact ih fun u hu => h u (by simp [hu])
  unfold autocompleteMax
  rw [hb.rooted.1, visitor_tree hb.tree false hf, hts, ok_bind, key _ hgiven, ok_bind, hb.rooted.1, visitor_tree hb.tree true hf, ok_bind,
    forM_all_ok]
  · rfl
  · intro t ht
    rw [C03_check_completness]
    exact f.complete hb (by simpa using ht)

/-! A network that meets the hypotheses: a root with a leaf and two tensors below it, each with a leaf and its copy. The dimensions of the
leaves are 2, 2 and 3; `m` is the dimension of the bonds. -/

/-- The network, as a program builds it: the `Tensor`s and `Leaf`s without arrays, then the links. -/
def exMax : Heap ℝ :=
  let h := (empty.alloc (Node.tensor (some ['a']) none none)).1
  let h := (h.alloc (Node.tensor (some ['b']) none (some 0))).1
  let h := (h.alloc (Node.tensor (some ['c']) none (some 0))).1
  let h := (h.alloc (Node.leaf (some ['x']))).1
  let h := (h.alloc (Node.leaf (some ['x', '\'']))).1
  let h := (h.alloc (Node.leaf (some ['y']))).1
  let h := (h.alloc (Node.leaf (some ['y', '\'']))).1
  let h := (h.alloc (Node.leaf (some ['z']))).1
  ((((((h.link 0 0 1 0).link 0 1 2 0).link 0 2 7 0).link 1 1 3 0).link 1 2 4 0).link 2 1 5 0).link 2 2 6 0

def exMaxForest : Forest :=
  .cons 0 0 1 (.cons 1 0 3 .nil (.cons 2 0 4 .nil .nil)) (.cons 1 0 2 (.cons 1 0 5 .nil (.cons 2 0 6 .nil .nil)) (.cons 2 0 7 .nil .nil))

def exMaxDims (m : ℕ) : Dict (ℕ × ℕ × ℕ × ℕ) ℕ :=
  [((0, 0, 1, 0), m), ((0, 1, 2, 0), m), ((0, 2, 7, 0), 2), ((1, 1, 3, 0), 2), ((1, 2, 4, 0), 2), ((2, 1, 5, 0), 3), ((2, 2, 6, 0), 3)]

def exMaxWant (m : ℕ) : ℕ × ℕ → ℕ
  | (0, 0) | (0, 1) | (1, 0) | (2, 0) => m
  | (0, 2) | (1, 1) | (1, 2) => 2
  | (2, 1) | (2, 2) => 3
  | _ => 1

/-- `h_list`: a matrix on `x`, a matrix on `y`, and a coupling. -/
def exMaxTerms : List (Term ℝ ℝ) :=
  [[(3, .mat ⟨[2, 2], [1, 0, 0, -1]⟩)], [(5, .mat ⟨[3, 3], [1, 2, 0, 2, 1, 2, 0, 2, 1]⟩)],
    [(3, .mat ⟨[2, 2], [0, 1, 1, 0]⟩), (5, .mat ⟨[3, 3], [0, 1, 0, 1, 0, 1, 0, 1, 0]⟩)]]

def exMaxObj : Obj ℝ ℝ := ⟨exMax, 0, exMaxTerms, none, none, []⟩

theorem exMax_reachable : Reachable exMax := by
  unfold exMax
  refine .link (.link (.link (.link (.link (.link (.link (.new _ (.new _ (.new _ (.new _ (.new _ (.new _ (.new _ (.new _ .empty rfl) rfl) rfl) rfl) rfl)
    rfl) rfl) rfl) ?_ ?_ ?_ ?_) ?_ ?_ ?_ ?_) ?_ ?_ ?_ ?_) ?_ ?_ ?_ ?_) ?_ ?_ ?_ ?_) ?_ ?_ ?_ ?_) ?_ ?_ ?_ ?_ <;> decide +kernel

theorem exMax_tensors : exMax.tensors 0 exMaxForest = [0, 1, 2] := by decide +kernel

theorem exMax_bottoms : exMax.bottoms 0 exMaxForest = [1, 2] := by decide +kernel

theorem exMax_none : ∀ t ∈ exMax.tensors 0 exMaxForest, exMax.array t = none := by decide +kernel

theorem exMax_ok {m : ℕ} (hm : m = 1 ∨ m = 3) : Bare exMax 0 exMaxForest (exMaxDims m) (exMaxWant m) where
  links := linkInv_of_reachable exMax_reachable
  tree := ⟨by decide +kernel, by unfold exMaxForest; simp only [Forest.RepIn]; decide +kernel, by decide +kernel,
    by unfold exMaxForest; simp only [Forest.LeafEnd]; decide +kernel⟩
  leaf := rfl
  lt := by decide +kernel
  rooted := by unfold Rooted; decide +kernel
  names t ht := by
    rw [exMax_tensors] at ht
    simp only [List.mem_cons, List.not_mem_nil, or_false] at ht
    rcases ht with rfl | rfl | rfl
    · exact ⟨['a'], rfl⟩
    · exact ⟨['b'], rfl⟩
    · exact ⟨['c'], rfl⟩
  complete t ht k := by
    have e : exMaxForest.ids = [1, 3, 4, 2, 5, 6, 7] := by decide
    rw [e] at ht
    rw [Heap.acc_def, ne_eq, Dict.get?_eq_none_iff, not_not]
    simp only [List.mem_cons, List.not_mem_nil, or_false] at ht
    rcases ht with rfl | rfl | rfl | rfl | rfl | rfl | rfl | rfl
    all_goals first
      | (change k ∈ [0, 1, 2] ↔ k < 3
         simp; omega)
      | (change k ∈ [0] ↔ k < 1
         simp)
  below := by decide +kernel
  given t ht A hA := by rw [exMax_none t ht] at hA; cases hA
  asked := by rcases hm with rfl | rfl <;> decide +kernel
  ends := by rcases hm with rfl | rfl <;> decide +kernel
  fits := by rcases hm with rfl | rfl <;> decide +kernel
  ops e he hl M hM := by
    have : ∀ e ∈ exMaxForest.edges 0, exMax.array e.2.2.1 = none := by decide +kernel
    rw [this e he] at hM; cases hM

theorem exMax_pairs (m : ℕ) : Pairs exMax 0 exMaxForest (exMaxWant m) (fun t => 2 * t + 1) (fun t => 2 * t + 2) where
  root := by rw [exMax_bottoms]; decide
  order t ht := by
    rw [exMax_bottoms] at ht
    simp only [List.mem_cons, List.not_mem_nil, or_false] at ht
    rcases ht with rfl | rfl <;> decide +kernel
  axis t ht := by
    rw [exMax_bottoms] at ht
    simp only [List.mem_cons, List.not_mem_nil, or_false] at ht
    rcases ht with rfl | rfl <;> decide +kernel
  left t ht := by
    rw [exMax_bottoms] at ht
    simp only [List.mem_cons, List.not_mem_nil, or_false] at ht
    rcases ht with rfl | rfl <;> exact ⟨0, by decide +kernel⟩
  right t ht := by
    rw [exMax_bottoms] at ht
    simp only [List.mem_cons, List.not_mem_nil, or_false] at ht
    rcases ht with rfl | rfl <;> exact ⟨0, by decide +kernel⟩
  same t ht := by
    rw [exMax_bottoms] at ht
    simp only [List.mem_cons, List.not_mem_nil, or_false] at ht
    rcases ht with rfl | rfl <;> rfl

theorem matrixRank_ok : RankOk matrixRank where
  id := matrixRank_identity
  row N n hs hr i hi := by
    by_contra hno
    push Not at hno
    unfold matrixRank at hr
    have e : N.shape.getD 0 0 = n := by rw [hs]; rfl
    rw [e] at hr
    have htop : LinearMap.range (Matrix.of fun i j : Fin n => N.get [i.1, j.1]).mulVecLin = ⊤ := by
      refine Submodule.eq_top_of_finrank_eq ?_
      rw [Module.finrank_fin_fun]
      exact hr
    obtain ⟨v, hv⟩ := LinearMap.range_eq_top.1 htop (Pi.single ⟨i, hi⟩ 1)
    have := congrFun hv ⟨i, hi⟩
    rw [Matrix.mulVecLin_apply, Matrix.mulVec, dotProduct, Pi.single_eq_same] at this
    rw [Finset.sum_eq_zero fun j _ => by rw [Matrix.of_apply, hno j.1 j.2, zero_mul]] at this
    exact zero_ne_one this

/-- The state of the network with bonds of dimension 1. -/
example : ∃ s', autocompleteMax exCfg (fun _ => exLib) Real.sqrt matrixRank 5 (exMaxDims 1) exMaxObj = .ok s' ∧
    s'.heap.CanonicalTree 0 exMaxForest ∧ ∀ x : ℕ → ℕ, x 3 < 2 → x 4 < 2 → x 5 < 3 → x 6 < 3 → x 7 < 2 →
      s'.heap.treeAmp 0 exMaxForest x = if x 3 = x 4 ∧ x 5 = x 6 ∧ x 7 = 0 then 1 / Real.sqrt 2 * (1 / Real.sqrt 3) else 0 := by
  obtain ⟨s', e1, e2, e3⟩ := C108_bond_one (cfg := exCfg) (lib := fun _ => exLib) (s := exMaxObj) (fuel := 5) (fun _ => exLib_orth)
    (fun _ => exLib_eigh) (by simp [exCfg]) (exMax_ok (.inl rfl)) (exMax_pairs 1) matrixRank_ok exMax_none (by decide)
    (fun t ht => by
      change t ∈ exMax.bottoms 0 exMaxForest at ht
      rw [exMax_bottoms] at ht
      simp only [List.mem_cons, List.not_mem_nil, or_false] at ht
      rcases ht with rfl | rfl
      · exact ⟨['x'], rfl, by decide⟩
      · exact ⟨['y'], rfl, by decide⟩)
    (fun t ht => by
      change t ∈ exMax.bottoms 0 exMaxForest at ht
      rw [exMax_bottoms] at ht
      simp only [List.mem_cons, List.not_mem_nil, or_false] at ht
      rcases ht with rfl | rfl <;> rfl)
    (fun t ht => by
      change t ∈ exMax.bottoms 0 exMaxForest at ht
      rw [exMax_bottoms] at ht
      simp only [List.mem_cons, List.not_mem_nil, or_false] at ht
      rcases ht with rfl | rfl
      · exact ⟨⟨[2, 2], [1, 0, 0, -1]⟩, rfl, by simp [exMaxObj, exMaxTerms], fun op ho => by simpa [exMaxObj, exMaxTerms] using ho⟩
      · exact ⟨⟨[3, 3], [1, 2, 0, 2, 1, 2, 0, 2, 1]⟩, rfl, by simp [exMaxObj, exMaxTerms], fun op ho => by simpa [exMaxObj, exMaxTerms] using ho⟩)
  refine ⟨s', e1, e2, fun x x3 x4 x5 x6 x7 => ?_⟩
  have hed : exMaxForest.edges 0 = [(0, 0, 1, 0), (1, 1, 3, 0), (1, 2, 4, 0), (0, 1, 2, 0), (2, 1, 5, 0), (2, 2, 6, 0), (0, 2, 7, 0)] := by decide
  have := e3 x fun e he hl => by
    change e ∈ exMaxForest.edges 0 at he
    rw [hed] at he
    simp only [List.mem_cons, List.not_mem_nil, or_false] at he
    rcases he with rfl | rfl | rfl | rfl | rfl | rfl | rfl
    · exact absurd hl (by decide +kernel)
    · exact x3
    · exact x4
    · exact absurd hl (by decide +kernel)
    · exact x5
    · exact x6
    · exact x7
  refine Eq.trans this ?_
  show exMax.maxEntangled 0 exMaxForest _ _ _ x = _
  unfold maxEntangled
  rw [exMax_bottoms, hed]
  have l1 : exMax.isLeaf 1 = false := by decide +kernel
  have l2 : exMax.isLeaf 2 = false := by decide +kernel
  have l7 : exMax.isLeaf 7 = true := by decide +kernel
  simp only [List.map_cons, List.map_nil, List.prod_cons, List.prod_nil, mul_one, List.mem_cons, List.not_mem_nil, or_false, forall_eq_or_imp,
    forall_eq, l1, l2, l7]
  by_cases a : x 3 = x 4 <;> by_cases b : x 5 = x 6 <;> by_cases c : x 7 = 0 <;> simp [a, b, c, exMaxWant]

/-- The hypotheses of `C108_given` are met by the result. -/
example {s' : Obj ℝ ℝ} (hs : autocompleteMax exCfg (fun _ => exLib) Real.sqrt matrixRank 5 (exMaxDims 1) exMaxObj = .ok s') :
    ∀ t ∈ s'.heap.tensors 0 exMaxForest, s'.heap.array t ≠ none := by
  obtain ⟨-, -, -, -, -, -, q, -, p, -⟩ := C108_state_partial (cfg := exCfg) (lib := fun _ => exLib) (s := exMaxObj) (fuel := 5) (fun _ => exLib_orth)
    (fun _ => exLib_eigh) (by norm_num [exCfg]) (exMax_ok (.inl rfl)) (exMax_pairs 1) matrixRank_ok exMax_none (by decide) hs
  intro t ht
  have : t ∈ exMaxObj.heap.tensors exMaxObj.root exMaxForest := by
    obtain ⟨a, b⟩ := mem_tensors.1 ht
    exact mem_tensors.2 ⟨a, by rw [← (q t).2.2.2]; exact b⟩
  obtain ⟨A, a, -⟩ := p t this
  rw [a]
  simp

/-! It does not always return: for bonds of dimension 3 above leaves of dimension 2 and 3, all dimensions fit, but with `σ_z` as the local
Hamiltonian the search for three vectors finds only two, and the vector that fills up the rows is a linear combination of them. -/

theorem exCfg_tol : Real.sqrt exCfg.tol = 1 / 10 ^ 6 := by
  show Real.sqrt (1 / 10 ^ 12) = _
  rw [show (1 / 10 ^ 12 : ℝ) = (1 / 10 ^ 6) * (1 / 10 ^ 6) by norm_num]
  exact Real.sqrt_mul_self (by norm_num)

/-- The rows for `σ_z` and a bond of dimension 3. -/
theorem sigma_rows (h1 : ∀ N, OrthOk (lib N).orth) (h2 : ∀ N, EighOk (lib N).eigh) {rest : List (Vec (2 * 2))}
    (h : pairRows exCfg lib 2 3 ⟨[2, 2], [1, 0, 0, -1]⟩ = .ok (maxVec 2 :: rest)) :
    ∀ u ∈ maxVec 2 :: rest, u (1 : Fin 4) = 0 ∧ u (2 : Fin 4) = 0 := by
  unfold pairRows at h
  obtain ⟨A, hA, h⟩ := bind_eq_ok.mp h
  obtain ⟨vecs, hv, h⟩ := bind_eq_ok.mp h
  obtain ⟨rows', hf, h⟩ := bind_eq_ok.mp h
  have hsz : SigmaZ (A : Vec 4 → Vec 4) := by
    unfold localMatvec at hA
    rw [if_pos rfl] at hA
    cases hA
    refine ⟨fun v => ?_, fun v => ?_, fun v => ?_, fun v => ?_⟩
    all_goals
      rw [Fin.sum_univ_two]
    · show (1 : ℝ) * v 0 + 0 * v 2 = v 0
      ring
    · show (1 : ℝ) * v 1 + 0 * v 3 = v 1
      ring
    · show (0 : ℝ) * v 0 + -1 * v 2 = -v 2
      ring
    · show (0 : ℝ) * v 1 + -1 * v 3 = -v 3
      ring
  have m1 : maxVec 2 (1 : Fin 4) = 0 := rfl
  have m2 : maxVec 2 (2 : Fin 4) = 0 := rfl
  have hc : (1 / Real.sqrt ((2 : ℕ) : ℝ)) * (1 / Real.sqrt ((2 : ℕ) : ℝ)) = 1 / 2 := by
    rw [div_mul_div_comm, Real.mul_self_sqrt (by norm_num)]
    norm_num
  obtain ⟨w, rfl, w1, w2⟩ := search_two (h1 _) (h2 _) hsz (v := maxVec 2) rfl m1 m2 rfl hc (by rw [exCfg_tol]; norm_num)
    (by rw [exCfg_tol]; norm_num) (by rw [exCfg_tol]; norm_num [exCfg]) (by norm_num [exCfg]) hv
  have hrows : rows' = [maxVec 2, w, fun i => if i.1 = 0 then 1 else 0] := by
    cases hf
    rfl
  subst hrows
  dsimp only at h
  split at h
  · cases h
    intro u hu
    simp only [List.mem_cons, List.not_mem_nil, or_false] at hu
    rcases hu with rfl | rfl | rfl
    · exact ⟨m1, m2⟩
    · exact ⟨w1, w2⟩
    · exact ⟨rfl, rfl⟩
  · cases h

/-- All the requested dimensions fit, and `autocomplete` without `max_entangled` returns normally; with it, there is an exception. -/
theorem C108_violated (h1 : ∀ N, OrthOk (lib N).orth) (h2 : ∀ N, EighOk (lib N).eigh) (hr : RankOk rank) (hf : exMaxForest.depth < fuel) :
    Bare exMaxObj.heap exMaxObj.root exMaxForest (exMaxDims 3) (exMaxWant 3) ∧
      Pairs exMaxObj.heap exMaxObj.root exMaxForest (exMaxWant 3) (fun t => 2 * t + 1) (fun t => 2 * t + 2) ∧
      (∃ h', Heap.autocomplete Real.sqrt rank fuel (exMaxDims 3) exMaxObj.heap exMaxObj.root = .ok h') ∧
      ∀ s', autocompleteMax exCfg lib Real.sqrt rank fuel (exMaxDims 3) exMaxObj ≠ .ok s' := by
  have hb : Bare exMaxObj.heap exMaxObj.root exMaxForest (exMaxDims 3) (exMaxWant 3) := exMax_ok (.inr rfl)
  have hp : Pairs exMaxObj.heap exMaxObj.root exMaxForest (exMaxWant 3) (fun t => 2 * t + 1) (fun t => 2 * t + 2) := exMax_pairs 3
  have hnone : ∀ t ∈ exMaxObj.heap.tensors exMaxObj.root exMaxForest, exMaxObj.heap.array t = none := exMax_none
  have hcy : 0 < exCfg.maxCycle := by norm_num [exCfg]
  refine ⟨hb, hp, ?_, fun s' hs => ?_⟩
  · obtain ⟨h', q, -⟩ := hb.run Real.sqrt_one Real.sqrt_zero hr.id hf
    exact ⟨h', q⟩
  rw [(autocompleteMax_eq h1 h2 hcy hb hp hr hnone hf).2] at hs
  have hts : exMaxObj.heap.tensors exMaxObj.root exMaxForest = [0, 1, 2] := exMax_tensors
  rw [hts] at hs
  cases hq : [0, 1, 2].foldlM (completeMax exCfg lib Real.sqrt rank exMaxObj (exMaxDims 3)) exMaxObj.heap with
  | error e => rw [hq] at hs; cases hs
  | ok h' =>
    rw [List.foldlM_cons] at hq
    obtain ⟨ha, q1, hq⟩ := bind_eq_ok.mp hq
    rw [List.foldlM_cons] at hq
    obtain ⟨hbb, q2, hq⟩ := bind_eq_ok.mp hq
    obtain ⟨ha', q3, st⟩ := completeMax_rest (cfg := exCfg) (lib := lib) (s := exMaxObj) hb hr (h := exMaxObj.heap) (fun _ => rfl) (t := 0)
      (by rw [hts]; simp) (hnone 0 (by rw [hts]; simp)) rfl hp.root
    rw [q3] at q1
    cases q1
    have hsame : SameShell ha exMaxObj.heap := fun u => by
      by_cases q : u = 0
      · subst q; exact st.shell
      · rw [st.other u q]
    have e : ha.node 1 = exMaxObj.heap.node 1 := st.other 1 (by decide)
    have hbot : exMaxObj.heap.bottoms exMaxObj.root exMaxForest = [1, 2] := exMax_bottoms
    have ht : 1 ∈ exMaxObj.heap.bottoms exMaxObj.root exMaxForest := by rw [hbot]; simp
    have ht1 := (mem_bottoms.1 ht).1
    unfold completeMax at q2
    rw [show ha.array 1 = none by unfold array; rw [e]; exact hnone 1 ht1] at q2
    simp only at q2
    rw [hsame.children, if_pos ((isEmpty_iff hb ht1).2 ht)] at q2
    obtain ⟨A, hA, q2⟩ := bind_eq_ok.mp q2
    obtain ⟨rest, rfl, hlen, hrows⟩ := pairArray_ok h1 h2 hcy hb hp hsame ht hA
    obtain ⟨a, a1, a2⟩ := hrows ['x'] rfl (by decide)
    have ha0 : a = ⟨[2, 2], [1, 0, 0, -1]⟩ := by
      have : localHamiltonian exMaxObj 3 = .ok ⟨[2, 2], [1, 0, 0, -1]⟩ := by
        unfold localHamiltonian localTerm
        rfl
      have := a1.symm.trans this
      cases this
      rfl
    subst ha0
    have hz := sigma_rows h1 h2 (rest := rest) a2
    obtain ⟨B, ee, hf', f1, f2, f3, f4, f5, f6, f7, f8, f9, f10, f11⟩ := finish_eval hr ha (t := 1) (rest := rest) (hb.pos ht1 (by decide))
      (by rw [hsame.axis]; exact hp.axis 1 ht)
    obtain ⟨-, hone⟩ := f9 _ q2
    rw [hlen] at f6 f8 f11 hone
    change ∀ z < 3, ee z = 1 at hone
    change ∀ i < 2, ∀ j < 2, B.get [0, i, j] = if i = j then 1 / Real.sqrt ((2 : ℕ) : ℝ) else 0 at f7
    change ∀ z < 3, ∀ w < 3, gram B z w = if z = w then ee z else 0 at f8
    change ∀ i < 2, ∀ j < 2, (∀ z < 3, (pairTensor 2 (maxVec 2 :: rest)).get [z, i, j] = 0) → ∀ z < 3, B.get [z, i, j] = 0 at f11
    change B.shape = [3, 2, 2] at f6
    have hlen' : ∀ z < 3, z < (maxVec 2 :: rest : List (Vec (2 * 2))).length := fun z hz => lt_of_lt_of_eq hz hlen.symm
    have hmem : ∀ z < 3, (maxVec 2 :: rest : List (Vec (2 * 2))).getD z 0 ∈ (maxVec 2 :: rest : List (Vec (2 * 2))) := fun z hz => by
      rw [List.getD_eq_getElem _ _ (hlen' z hz)]
      exact List.getElem_mem _
    have b01 := f11 0 (by decide) 1 (by decide) fun z hz3 => by
      obtain ⟨k, e⟩ := pairTensor_get (n := 2) (maxVec 2 :: rest) (z := z) (hlen' z hz3) (i := 0) (j := 1)
        (by decide) (by decide)
      rw [e]
      exact (hz _ (hmem z hz3)).1
    have b10 := f11 1 (by decide) 0 (by decide) fun z hz3 => by
      obtain ⟨k, e⟩ := pairTensor_get (n := 2) (maxVec 2 :: rest) (z := z) (hlen' z hz3) (i := 1) (j := 0)
        (by decide) (by decide)
      rw [e]
      exact (hz _ (hmem z hz3)).2
    have hg : ∀ z < 3, ∀ w < 3, B.get [z, 0, 0] * B.get [w, 0, 0] + B.get [z, 1, 1] * B.get [w, 1, 1] = if z = w then 1 else 0 := by
      intro z hz3 w hw3
      have := f8 z hz3 w hw3
      rw [hone z hz3] at this
      rw [← this]
      unfold gram
      rw [f6]
      show _ = sumIdx [2, 2] (fun p => B.get (p.insertIdx 0 z) * B.get (p.insertIdx 0 w))
      simp only [sumIdx, Finset.sum_range_succ, Finset.sum_range_zero, zero_add]
      show _ = B.get [z, 0, 0] * B.get [w, 0, 0] + B.get [z, 0, 1] * B.get [w, 0, 1] +
        (B.get [z, 1, 0] * B.get [w, 1, 0] + B.get [z, 1, 1] * B.get [w, 1, 1])
      rw [b01 z hz3, b10 z hz3]
      ring
    have p01 := hg 0 (by decide) 1 (by decide)
    have p02 := hg 0 (by decide) 2 (by decide)
    have p12 := hg 1 (by decide) 2 (by decide)
    have p11 := hg 1 (by decide) 1 (by decide)
    have p22 := hg 2 (by decide) 2 (by decide)
    rw [f7 0 (by decide) 0 (by decide), f7 1 (by decide) 1 (by decide)] at p01 p02
    simp only [if_true] at p01 p02 p11 p22
    rw [if_neg (by decide)] at p01 p02 p12
    have hc0 : 1 / Real.sqrt ((2 : ℕ) : ℝ) ≠ 0 := by positivity
    generalize 1 / Real.sqrt ((2 : ℕ) : ℝ) = c at p01 p02 hc0
    have e1 : B.get [1, 1, 1] = -B.get [1, 0, 0] := by
      have : c * (B.get [1, 0, 0] + B.get [1, 1, 1]) = 0 := by linarith
      linarith [(mul_eq_zero.1 this).resolve_left hc0]
    have e2 : B.get [2, 1, 1] = -B.get [2, 0, 0] := by
      have : c * (B.get [2, 0, 0] + B.get [2, 1, 1]) = 0 := by linarith
      linarith [(mul_eq_zero.1 this).resolve_left hc0]
    rw [e1] at p11 p12
    rw [e2] at p22 p12
    have e3 : B.get [1, 0, 0] * B.get [2, 0, 0] = 0 := by linarith
    rcases mul_eq_zero.1 e3 with q | q
    · rw [q] at p11; norm_num at p11
    · rw [q] at p22; norm_num at p22

/-- The hypotheses of `C108_violated` are met. -/
example : ∀ s', autocompleteMax exCfg (fun _ => exLib) Real.sqrt matrixRank 5 (exMaxDims 3) exMaxObj ≠ .ok s' :=
  (C108_violated (lib := fun _ => exLib) (fun _ => exLib_orth) (fun _ => exLib_eigh) matrixRank_ok (by decide)).2.2.2

end ML
