import Verif.Model.Autocorr
import Verif.Lemmas.Env3
import Verif.Py.Lemmas

/-!
Lemmas about `Model/Autocorr`: the bra stored in `aux`, and the heap left behind.
-/

open scoped BigOperators
open Py

namespace Heap

variable {R : Type} [CommRing R] [StarRing R]

open TreeSum

/-- With `use_aux` nothing is cached. -/
theorem partialEnv_aux (fuel : ℕ) : ∀ (h : Heap R) (t : ℕ) (i : Option ℕ) (h' : Heap R) (ans : Option (Nd R)),
    partialEnv fuel h t i true = .ok (h', ans) → h' = h := by
  induction fuel with
  | zero => intro h t i h' ans he; cases he
  | succ fuel ih =>
    intro h t i h' ans he
    rw [partialEnv] at he
    cases hl : h.isLeaf t with
    | true => rw [hl, if_pos rfl] at he; cases he; rfl
    | false =>
      rw [hl, if_neg Bool.false_ne_true] at he
      have hc : h.cached t i true = none := rfl
      rw [hc] at he
      simp only at he
      have key : ∀ (l : List (ℕ × ℕ × ℕ)) (s s' : Heap R × List (ℕ × Option (Nd R))),
          l.foldlM (fun s x => do
            let (h', e) ← partialEnv fuel s.1 x.2.1 (some x.2.2) true
            pure (h', s.2 ++ [(x.1, e)])) s = Except.ok s' → s'.1 = s.1 := by
        intro l
        induction l with
        | nil => intro s s' hh; cases hh; rfl
        | cons x l ihl =>
          intro s s' hh
          rw [List.foldlM_cons] at hh
          cases e1 : partialEnv fuel s.1 x.2.1 (some x.2.2) true with
          | error e => rw [e1] at hh; cases hh
          | ok p =>
            obtain ⟨h1, e⟩ := p
            rw [e1] at hh
            rw [ihl _ _ hh]
            exact ih _ _ _ _ _ e1
      cases e1 : (h.children t i).foldlM (fun s x => do
            let (h', e) ← partialEnv fuel s.1 x.2.1 (some x.2.2) true
            pure (h', s.2 ++ [(x.1, e)])) (h, ([] : List (ℕ × Option (Nd R)))) with
      | error e => rw [e1] at he; cases he
      | ok p =>
        obtain ⟨h1, env⟩ := p
        rw [e1] at he
        have := key _ _ _ e1
        simp only at this
        subst this
        cases e2 : h1.envAnswer t i true env with
        | error e => simp only [ok_bind, e2] at he; cases he
        | ok a =>
          simp only [ok_bind, e2] at he
          cases i with
          | none => cases he; rfl
          | some k => cases he; rfl

/-- After `aux` of every tensor has been set to the array of the network `g` on the same links. -/
theorem auxNet_tree {h g h1 : Heap R} {r : ℕ} {F : Forest} (ht : h.IsTTN r F) (hg : g.IsTTN r F)
    (hacc : ∀ t k, h.acc t k = g.acc t k) (hlf : h.isLeaf = g.isLeaf) (k1 : h1.next = h.next)
    (k2 : ∀ t, h1.node t = if t ∈ h.tensors r F then { h.node t with aux := g.array t } else h.node t) :
    h1.IsTTN r F ∧ (h1.braNet true).IsTTN r F ∧ (h1.node r).axis = (h.node r).axis ∧
      h1.leafList r F = h.leafList r F ∧ (∀ x, h1.treeAmp r F x = h.treeAmp r F x) ∧
      (h1.braNet true).leafList r F = g.leafList r F ∧ ∀ x, (h1.braNet true).treeAmp r F x = g.treeAmp r F x := by
  have q1 : ∀ t, h1.array t = h.array t := fun t => by unfold Heap.array; rw [k2]; split <;> rfl
  have q2 : ∀ t, h1.access t = h.access t := fun t => by unfold Heap.access; rw [k2]; split <;> rfl
  have q3 : ∀ t, h1.isLeaf t = h.isLeaf t := fun t => by unfold Heap.isLeaf; rw [k2]; split <;> rfl
  have q4 : ∀ t, (h1.node t).name = (h.node t).name := fun t => by rw [k2]; split <;> rfl
  have q5 : ∀ t, (h1.node t).axis = (h.node t).axis := fun t => by rw [k2]; split <;> rfl
  have hten : h.tensors r F = g.tensors r F := by unfold tensors; rw [hlf]
  have q6 : ∀ t ∈ g.tensors r F, (h1.braNet true).array t = g.array t := fun t hm => by
    rw [← hten] at hm
    have hl := (mem_tensors.1 hm).2
    rw [braNet_array (by rw [q3]; exact hl)]
    unfold braArray
    rw [if_pos rfl, k2, if_pos hm]
  have hacc1 : ∀ t k, h1.acc t k = h.acc t k := fun t k => by rw [acc_def, q2, ← acc_def]
  have hlf1 : h1.isLeaf = h.isLeaf := funext q3
  have hlf2 : ∀ t, (h1.braNet true).isLeaf t = g.isLeaf t := fun t => by rw [braNet_isLeaf, q3, hlf]
  have hd1 : h1.hdim = h.hdim := funext fun p => by unfold hdim; rw [q1]
  have ht1 : h1.IsTTN r F := ht.congr q2 k1 q3 q4 fun c A hA hw => ⟨A, by rw [q1]; exact hA, hw, rfl⟩
  have hdim2 : ∀ t ∈ g.tensors r F, ∀ k, (h1.braNet true).hdim (t, k) = g.hdim (t, k) := by
    intro t hm k
    unfold hdim
    simp only
    rw [q6 t hm]
  have hsrc : ∀ e ∈ F.edges r, e.1 ∈ g.tensors r F := by
    intro e he
    exact mem_tensors.2 ⟨(edges_mem he).1, Forest.edges_src_leaf hg.leaf hg.tree.leafEnd (k := e.2.1) (y := e.2.2.1) (l := e.2.2.2) he⟩
  have hb1 : (h1.braNet true).IsTTN r F := by
    have hl' : (h1.braNet true).LinkInv := ht1.links.congr' (fun _ => rfl) rfl
    have et : (h1.braNet true).tensors r F = g.tensors r F := by unfold tensors; simp only [hlf2]
    have eb : (h1.braNet true).bonds r F = g.bonds r F := by unfold bonds; simp only [hlf2]
    refine ⟨hl', ht1.tree.congr ht1.links.wf hl'.wf (fun _ _ => rfl) (fun _ _ => rfl), ht1.leaf, ht1.lt, ?_, ?_, ?_⟩
    · rw [et]
      intro t hm
      obtain ⟨B, hB⟩ := hg.full t hm
      exact ⟨B, by rw [hlf2]; exact hB.leaf, by rw [q6 t hm]; exact hB.array, hB.wf, hB.pos,
        fun k => by rw [braNet_acc, hacc1, hacc]; exact hB.acc k⟩
    · rw [eb]
      intro e he
      obtain ⟨-, m1, m2⟩ := hg.isNet.isLink e he
      rw [hdim2 _ m1, hdim2 _ m2]; exact hg.dims e he
    · rw [et, ← hten]
      intro t hm
      show ∃ nm, (h1.node t).name = some nm
      rw [q4]; exact ht.names t hm
  refine ⟨ht1, hb1, q5 r, ?_, fun x => treeAmp_congr q1 hacc1 q3 r F x, ?_, fun x => ?_⟩
  · unfold leafList; rw [hlf1, hd1]
  · unfold leafList
    rw [show (h1.braNet true).isLeaf = g.isLeaf from funext hlf2]
    refine List.map_congr_left fun e he => ?_
    rw [hdim2 _ (hsrc e (List.mem_filter.1 he).1)]
  · exact treeAmp_congr_on hg q6 (fun t k => by rw [braNet_acc, hacc1, hacc]) hlf2 x

/-- The conjugate network. -/
theorem braNet_false_ttn {h : Heap R} {r : ℕ} {F : Forest} (ht : h.IsTTN r F) : (h.braNet false).IsTTN r F := by
  refine ht.congr (fun _ => rfl) rfl (fun _ => rfl) (fun _ => rfl) fun c A hA hw => ?_
  cases hl : h.isLeaf c with
  | false =>
    refine ⟨A.conj, ?_, ?_, rfl⟩
    · rw [braNet_array hl]; unfold braArray; rw [hA]; rfl
    · unfold Nd.conj; unfold Nd.Wf at hw ⊢; simpa using hw
  | true =>
    refine ⟨A, ?_, hw, rfl⟩
    have : (h.node c).isLeaf = true := hl
    have hA' : (h.node c).array = some A := hA
    unfold Heap.array braNet
    simp [this, hA']

theorem braNet_false_leafList {h : Heap R} {r : ℕ} {F : Forest} (ht : h.IsTTN r F) :
    (h.braNet false).leafList r F = h.leafList r F := by
  unfold leafList
  refine List.map_congr_left fun e he => ?_
  have hm : h.isLeaf e.1 = false := Forest.edges_src_leaf ht.leaf ht.tree.leafEnd (k := e.2.1) (y := e.2.2.1) (l := e.2.2.2)
    (List.mem_filter.1 he).1
  unfold hdim
  rw [braNet_array hm]
  unfold braArray
  cases h.array e.1 <;> rfl

omit [CommRing R] [StarRing R] in
/-- The tensors visited by `visitor(leaf=False)`. -/
theorem visitor_tensors {h : Heap R} {r : ℕ} {F : Forest} (ht : h.IsTTN r F) (hax : (h.node r).axis = none)
    {fuel : ℕ} (hf : F.depth < fuel) : h.visitor fuel r (h.node r).axis false = .ok (h.tensors r F) := by
  have hvis := visitor_tree ht.tree false hf
  have hlist : ((if false || !(h.isLeaf r) then [r] else []) ++ F.ids.filter fun t => false || !(h.isLeaf t)) =
      h.tensors r F := by
    unfold tensors; rw [List.filter_cons]; simp [ht.leaf]
  rw [hlist] at hvis
  rw [hax, hvis]

end Heap
