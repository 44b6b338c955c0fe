import Verif.Lemmas.FormEnv
import Verif.Lemmas.Tangent
import Mathlib.Tactic.FieldSimp
import Mathlib.Tactic.LinearCombination

/-!
The time-dependent variational principle: the derivative computed by `eom` satisfies it for every variation of one array.
-/

open scoped BigOperators
open Py

namespace Heap

variable {R : Type} [CommRing R]

/-- What holds at the root and passes from a tensor to the next holds for all tensors. -/
theorem IsTTN.induct {h : Heap R} {r : ℕ} {F : Forest} (ht : h.IsTTN r F) {P : ℕ → Prop} (h0 : P r)
    (hs : ∀ e ∈ h.bonds r F, P e.1 → P e.2.2.1) : ∀ t ∈ h.tensors r F, P t := by
  have key : ∀ (G : Forest) (p : ℕ), (∀ e ∈ G.edges p, e ∈ F.edges r) → (h.isLeaf p = false → P p) →
      ∀ t ∈ G.ids, h.isLeaf t = false → P t := by
    intro G
    induction G with
    | nil => intro p _ _ t ht; cases ht
    | cons i j id sub rest ih1 ih2 =>
      intro p he hp t htm hl
      have h1 : (p, i, id, j) ∈ F.edges r := he _ (by simp [Forest.edges])
      have hid : h.isLeaf id = false → P id := fun hlid =>
        hs _ (mem_bonds.2 ⟨h1, hlid⟩) (hp (mem_tensors.1 (ht.src_mem h1)).2)
      simp only [Forest.ids, List.cons_append, List.mem_cons, List.mem_append] at htm
      rcases htm with rfl | htm | htm
      · exact hid hl
      · exact ih1 id (fun e q => he e (by simp [Forest.edges, q])) hid t htm hl
      · exact ih2 p (fun e q => he e (by simp [Forest.edges, q])) hp t htm hl
  intro t hm
  obtain ⟨h1, h2⟩ := mem_tensors.1 hm
  rcases h1 with rfl | h1
  · exact h0
  · exact key F r (fun _ q => q) (fun _ => h0) t h1 h2

/-- Leaf indices that the sum over the leaves runs over. -/
theorem IsTTN.inRange {h : Heap R} {r : ℕ} {F : Forest} (ht : h.IsTTN r F) {x : ℕ → ℕ} (hx : ∀ p ∈ h.leafList r F, x p.1 < p.2) :
    h.InRange (h.tensors r F) x := by
  intro t hm k l m hacc hl
  have hm' := mem_tensors.1 hm
  have hnet : l = r ∨ l ∈ F.ids :=
    (ht.mem_linked l).2 (((ht.mem_linked t).1 hm'.1).trans (Relation.ReflTransGen.single ⟨k, m, hacc⟩))
  have hlf : h.isLeaf l = true := by
    by_contra q
    exact hl (mem_tensors.2 ⟨hnet, by simpa using q⟩)
  obtain ⟨-, -, p3, -⟩ := edges_props ht.links.wf ht.links.sym ht.tree ht.leaf
  rcases p3 t k l m ((ht.mem_linked t).1 hm'.1) hacc with q | q
  · exact hx (l, h.hdim (t, k)) (List.mem_map.2 ⟨_, List.mem_filter.2 ⟨q, hlf⟩, rfl⟩)
  · have := (mem_tensors.1 (ht.src_mem q)).2
    rw [hlf] at this
    cases this

theorem sumLeaves_list {α : Type} (L : List (ℕ × ℕ)) (l : List α) (g : α → (ℕ → ℕ) → R) (x : ℕ → ℕ) :
    sumLeaves L (fun y => (l.map fun a => g a y).sum) x = (l.map fun a => sumLeaves L (g a) x).sum := by
  induction L generalizing x with
  | nil => rfl
  | cons p L ih =>
    simp only [sumLeaves, ih]
    clear ih
    induction l with
    | nil => simp
    | cons a l ihl => simp only [List.map_cons, List.sum_cons, Finset.sum_add_distrib, ihl]

theorem sumLeaves_add (L : List (ℕ × ℕ)) (g g' : (ℕ → ℕ) → R) (x : ℕ → ℕ) :
    sumLeaves L (fun y => g y + g' y) x = sumLeaves L g x + sumLeaves L g' x := by
  induction L generalizing x with
  | nil => rfl
  | cons p L ih => simp only [sumLeaves, ih, Finset.sum_add_distrib]

theorem list_sum_single {l : List ℕ} (hn : l.Nodup) {t : ℕ} (ht : t ∈ l) {f : ℕ → R} (hz : ∀ u ∈ l, u ≠ t → f u = 0) :
    (l.map f).sum = f t := by
  induction l with
  | nil => cases ht
  | cons a l ih =>
    obtain ⟨n1, n2⟩ := List.nodup_cons.1 hn
    rw [List.map_cons, List.sum_cons]
    rcases List.mem_cons.1 ht with rfl | ht
    · have : (l.map f).sum = 0 := List.sum_eq_zero fun y hy => by
        obtain ⟨u, hu, rfl⟩ := List.mem_map.1 hy
        exact hz u (by simp [hu]) (fun q => n1 (q ▸ hu))
      rw [this, add_zero]
    · rw [hz a (by simp) (fun q => n1 (q ▸ ht)), zero_add, ih n2 ht fun u hu => hz u (by simp [hu])]

end Heap

namespace ML

open Heap

variable {T R : Type} [Zero T]

section
variable [CommRing R] [StarRing R]

theorem dot_congr {s : Obj T R} {F : Forest} (ht : s.heap.IsTTN s.root F) {φ φ' χ χ' : (ℕ → ℕ) → R}
    (h1 : ∀ x, s.heap.InRange (s.heap.tensors s.root F) x → φ x = φ' x) (h2 : ∀ x, s.heap.InRange (s.heap.tensors s.root F) x → χ x = χ' x) :
    dot s F φ χ = dot s F φ' χ' := by
  unfold dot
  refine TreeSum.sumLeaves_congr' (leafList_nodup ht) fun x _ hx => ?_
  rw [h1 x (ht.inRange hx), h2 x (ht.inRange hx)]

theorem dot_add_right (s : Obj T R) (F : Forest) (φ χ χ' : (ℕ → ℕ) → R) :
    dot s F φ (fun x => χ x + χ' x) = dot s F φ χ + dot s F φ χ' := by
  unfold dot
  rw [← sumLeaves_add]
  exact TreeSum.sumLeaves_congr fun x => by rw [star_add, mul_add]

theorem element_congr {s : Obj T R} {F : Forest} (ht : s.heap.IsTTN s.root F) {φ χ χ' : (ℕ → ℕ) → R}
    (h2 : ∀ x, s.heap.InRange (s.heap.tensors s.root F) x → χ x = χ' x) : element s F φ χ = element s F φ χ' := by
  unfold element
  refine TreeSum.sumLeaves_congr fun x => TreeSum.sumLeaves_congr' (leafList_nodup ht) fun y _ hy => ?_
  rw [h2 y (ht.inRange hy)]

theorem element_add_right (s : Obj T R) (F : Forest) (φ χ χ' : (ℕ → ℕ) → R) :
    element s F φ (fun x => χ x + χ' x) = element s F φ χ + element s F φ χ' := by
  unfold element
  rw [← sumLeaves_add]
  refine TreeSum.sumLeaves_congr fun x => ?_
  rw [← sumLeaves_add]
  exact TreeSum.sumLeaves_congr fun y => by rw [star_add, mul_add]

theorem dot_sum_left (s : Obj T R) (F : Forest) {α : Type} (l : List α) (φ : α → (ℕ → ℕ) → R) (χ : (ℕ → ℕ) → R) :
    dot s F (fun x => (l.map fun a => φ a x).sum) χ = (l.map fun a => dot s F (φ a) χ).sum := by
  unfold dot
  rw [← sumLeaves_list]
  refine TreeSum.sumLeaves_congr fun x => ?_
  rw [← List.sum_map_mul_right]

theorem element_terms (s : Obj T R) (F : Forest) (t : ℕ) (B : Nd R) :
    element s F (s.heap.treeAmp s.root F) (variation s F t (some B)) = ((s.allTerms none).map (termElem s F t B)).sum := by
  unfold element termElem variation hEntry
  rw [← sumLeaves_list]
  refine TreeSum.sumLeaves_congr fun x => ?_
  rw [← sumLeaves_list]
  refine TreeSum.sumLeaves_congr fun y => ?_
  rw [← List.sum_map_mul_left, ← List.sum_map_mul_right]

/-- Replacing an array by itself changes nothing. -/
theorem variation_self {s : Obj T R} {F : Forest} {t : ℕ} {A : Nd R} (hA : s.heap.array t = some A) :
    variation s F t (some A) = s.heap.treeAmp s.root F := by
  have : s.heap.setArray t (some A) = s.heap := by
    have hn : (s.heap.node t).array = some A := hA
    have e : (s.heap.setArray t (some A)).node = s.heap.node := by
      funext u
      rw [node_setArray]
      split
      · rename_i q
        subst q
        rw [← hn]
      · rfl
    have : s.heap.setArray t (some A) = { node := (s.heap.setArray t (some A)).node, next := s.heap.next } := rfl
    rw [this, e]
  unfold variation
  rw [this]

theorem variation_amp (s : Obj T R) (F : Forest) (t : ℕ) (B : Option (Nd R)) (x : ℕ → ℕ) :
    variation s F t B x = (s.heap.setArray t B).amp (s.heap.tensors s.root F) (s.heap.bonds s.root F) x := by
  have e : ∀ u, (s.heap.setArray t B).isLeaf u = s.heap.isLeaf u := fun u => by
    unfold Heap.isLeaf; rw [node_setArray]; split <;> rfl
  unfold variation treeAmp tensors bonds
  simp only [e]

/-- Variations are linear. -/
theorem variation_add {s : Obj T R} {F : Forest} (ht : s.heap.IsTTN s.root F) {t : ℕ} (hm : t ∈ s.heap.tensors s.root F) {A B C D : Nd R}
    (hA : s.heap.Full t A) (hB : B.shape = A.shape) (hC : C.shape = A.shape) (hD : D.shape = A.shape)
    (hl : ∀ w, Valid A.shape w → B.get w = C.get w + D.get w) {x : ℕ → ℕ} (hx : s.heap.InRange (s.heap.tensors s.root F) x) :
    variation s F t (some B) x = variation s F t (some C) x + variation s F t (some D) x := by
  have := ht.isNet.amp_lin hx hm hA hB (Finset.univ : Finset Bool) (fun _ => 1) (fun b => if b then C else D)
    (fun b => by cases b <;> simp [hC, hD]) (fun w hw => by simp [hl w hw])
  rw [variation_amp, variation_amp, variation_amp]
  simpa using this

end

section
variable [Field R] [StarRing R]

/-- The derivative of a tensor that is not the root is orthogonal to the slices of its array. -/
theorem final_gauge {s : Obj T R} {F : Forest} {inv : Dict ℕ (Nd R)} {coef : R} {ie : Option R} {t k : ℕ} {A D : Nd R} (hnr : t ≠ s.root)
    (hax : (s.heap.node t).axis = some k) (hcan : s.heap.Canonical t k) (hA : s.heap.array t = some A)
    (hf : Final s F inv coef ie t A (some D)) : Gauge A k D := by
  intro z w hz hw
  obtain ⟨G, X, D', d1, d2, d3, d4, d5, d6, -, d7⟩ := hf
  obtain rfl : D = D' := Option.some.inj d1
  obtain ⟨A', a1, a2, a3⟩ := hcan
  obtain rfl : A' = A := Option.some.inj (a1.symm.trans hA)
  rw [hax] at d6
  obtain ⟨M, m1, m2⟩ := d6
  have hX : sumIdx (A'.shape.eraseIdx k) (fun p => X.get (p.insertIdx k z) * star (A'.get (p.insertIdx k w))) = 0 :=
    gauge_of (D := fun p => X.get (p.insertIdx k z)) (X := fun p => timesAxis k (A'.shape.getD k 1) G M p z)
      (fun z w hz hw => a3 z w hz hw) (fun p hp => m2 p z hp hz) hw
  have : sumIdx (A'.shape.eraseIdx k) (fun p => D.get (p.insertIdx k z) * star (A'.get (p.insertIdx k w))) =
      sumIdx (A'.shape.eraseIdx k) (fun p => coef⁻¹ * (X.get (p.insertIdx k z) * star (A'.get (p.insertIdx k w)))) := by
    refine sumIdx_congr fun p hp => ?_
    rw [d7 _ (valid_insert a2 rfl hp hz), if_neg hnr, sub_zero, div_eq_mul_inv]
    ring
  rw [this, sumIdx_mul_left, hX, mul_zero]

/-- What is known about the state and the derivatives `D` after `eom`. -/
structure Core (s : Obj T R) (F : Forest) (inv : Dict ℕ (Nd R)) (coef : R) (ie : Option R) (D : ℕ → Nd R) : Prop where
  ready : EomReady s F inv
  can : s.heap.CanonicalTree s.root F
  leafArr : ∀ e ∈ F.edges s.root, s.heap.isLeaf e.2.2.1 = true → s.heap.array e.2.2.1 = none
  env : ∀ t ∈ s.heap.tensors s.root F, EnvRight s t
  coef0 : coef ≠ 0
  fin : ∀ t ∈ s.heap.tensors s.root F, ∀ A, s.heap.array t = some A → Final s F inv coef ie t A (some (D t))

/-- The product rule, with given derivatives. -/
def vel (s : Obj T R) (F : Forest) (D : ℕ → Nd R) (x : ℕ → ℕ) : R :=
  ((s.heap.tensors s.root F).map fun t => variation s F t (some (D t)) x).sum

theorem Core.full {s : Obj T R} {F : Forest} {inv : Dict ℕ (Nd R)} {coef : R} {ie : Option R} {D : ℕ → Nd R}
    (hc : Core s F inv coef ie D) {t : ℕ} (hm : t ∈ s.heap.tensors s.root F) {A : Nd R} (hA : s.heap.array t = some A) :
    s.heap.Full t A := by
  obtain ⟨A', hA'⟩ := hc.ready.ttn.full t hm
  obtain rfl : A = A' := Option.some.inj (hA.symm.trans hA'.array)
  exact hA'

theorem Core.axis {s : Obj T R} {F : Forest} {inv : Dict ℕ (Nd R)} {coef : R} {ie : Option R} {D : ℕ → Nd R}
    (hc : Core s F inv coef ie D) {e : ℕ × ℕ × ℕ × ℕ} (he : e ∈ s.heap.bonds s.root F) : (s.heap.node e.2.2.1).axis = some e.2.2.2 :=
  hc.ready.rooted.2 e he

theorem Core.ne_root {s : Obj T R} {F : Forest} {inv : Dict ℕ (Nd R)} {coef : R} {ie : Option R} {D : ℕ → Nd R}
    (hc : Core s F inv coef ie D) {e : ℕ × ℕ × ℕ × ℕ} (he : e ∈ s.heap.bonds s.root F) : e.2.2.1 ≠ s.root := by
  intro q
  have h1 := hc.axis he
  rw [q, hc.ready.rooted.1] at h1
  cases h1

/-- The derivatives are in the gauge. -/
theorem Core.gauge {s : Obj T R} {F : Forest} {inv : Dict ℕ (Nd R)} {coef : R} {ie : Option R} {D : ℕ → Nd R}
    (hc : Core s F inv coef ie D) {t : ℕ} (hm : t ∈ s.heap.tensors s.root F) {A : Nd R} (hA : s.heap.array t = some A) :
    ∀ e ∈ s.heap.bonds s.root F, e.2.2.1 = t → Gauge A e.2.2.2 (D t) := by
  intro e he q
  have hax := hc.axis he
  have hcan := hc.can e he
  have hnr := hc.ne_root he
  rw [q] at hax hcan hnr
  exact final_gauge hnr hax hcan hA (hc.fin t hm A hA)

/-- For a variation in the gauge only the derivative of the same tensor counts. -/
theorem Core.dot_vel {s : Obj T R} {F : Forest} {inv : Dict ℕ (Nd R)} {coef : R} {ie : Option R} {D : ℕ → Nd R}
    (hc : Core s F inv coef ie D) {t : ℕ} (hm : t ∈ s.heap.tensors s.root F) {A B : Nd R} (hA : s.heap.array t = some A)
    (hB : B.Wf) (hBs : B.shape = A.shape) (hg : ∀ e ∈ s.heap.bonds s.root F, e.2.2.1 = t → Gauge A e.2.2.2 B) :
    dot s F (vel s F D) (variation s F t (some B)) = dot s F (variation s F t (some (D t))) (variation s F t (some B)) := by
  unfold vel
  rw [dot_sum_left]
  refine list_sum_single hc.ready.ttn.isNet.nodup hm fun u hu hne => ?_
  obtain ⟨Au, hAu⟩ := hc.ready.ttn.full u hu
  obtain ⟨G, X, D', d1, d2, d3, -⟩ := hc.fin u hu Au hAu.array
  obtain h' : D u = D' := Option.some.inj d1
  rw [← h'] at d2 d3
  exact overlap_zero hc.ready.ttn hc.can hne hu hm hAu.array hA d2 d3 hB hBs (hc.gauge hu hAu.array) hg

/-- The variational equation at the root. -/
theorem Core.root {s : Obj T R} {F : Forest} {inv : Dict ℕ (Nd R)} {coef : R} {ie : Option R} {D : ℕ → Nd R}
    (hc : Core s F inv coef ie D) {A B : Nd R} (hA : s.heap.array s.root = some A) (hB : B.Wf) (hBs : B.shape = A.shape) :
    coef * dot s F (vel s F D) (variation s F s.root (some B)) =
      element s F (s.heap.treeAmp s.root F) (variation s F s.root (some B)) -
        coef * ie.getD 0 * dot s F (s.heap.treeAmp s.root F) (variation s F s.root (some B)) := by
  have hm : s.root ∈ s.heap.tensors s.root F := mem_tensors.2 ⟨.inl rfl, hc.ready.ttn.leaf⟩
  have hfull := hc.full hm hA
  obtain ⟨G, X, D', d1, d2, d3, d4, d5, d6, d7, d8⟩ := hc.fin _ hm A hA
  have h' : D s.root = D' := Option.some.inj d1
  rw [hc.dot_vel hm hA hB hBs (fun e he q => absurd q (hc.ne_root he)), element_terms, ← d7 (hc.env _ hm) B hB hBs, h']
  have e1 : dot s F (variation s F s.root (some D')) (variation s F s.root (some B)) =
      sumIdx A.shape (fun w => D'.get w * star (B.get w)) :=
    overlap_root hc.ready.ttn hc.can hc.leafArr hfull hB hBs d2 d3
  have e2 : dot s F (s.heap.treeAmp s.root F) (variation s F s.root (some B)) = sumIdx A.shape (fun w => A.get w * star (B.get w)) := by
    rw [← variation_self hA]
    exact overlap_root hc.ready.ttn hc.can hc.leafArr hfull hB hBs hfull.wf rfl
  rw [e1, e2]
  unfold inner
  rw [d5, mul_assoc, ← sumIdx_mul_left, ← sumIdx_mul_left, ← sumIdx_mul_left, eq_sub_iff_add_eq, ← sumIdx_add]
  refine sumIdx_congr fun w hw => ?_
  rw [hc.ready.rooted.1] at d6
  have := hc.coef0
  rw [d8 w hw, if_pos rfl, d6 w hw]
  field_simp
  ring

theorem star_sumIdx (S : List ℕ) (f : List ℕ → R) : star (sumIdx S f) = sumIdx S fun p => star (f p) := by
  induction S generalizing f with
  | nil => rfl
  | cons d S ih => simp only [sumIdx_cons, star_sum, ih]

/-- The variational equation at another tensor, for a variation in the gauge. -/
theorem Core.gaugeVar {s : Obj T R} {F : Forest} {inv : Dict ℕ (Nd R)} {coef : R} {ie : Option R} {D : ℕ → Nd R}
    (hc : Core s F inv coef ie D) {a i t k : ℕ} (he : (a, i, t, k) ∈ s.heap.bonds s.root F) {A B M : Nd R} {ρ : ℕ → ℕ → R}
    (hM : inv.get? t = some M) (hρ : IsField s.heap t k ρ)
    (hinv : ∀ b < A.shape.getD k 1, ∀ z < A.shape.getD k 1, ∑ c ∈ Finset.range (A.shape.getD k 1), M.get [b, c] * ρ c z = if b = z then 1 else 0)
    (hA : s.heap.array t = some A) (hB : B.Wf) (hBs : B.shape = A.shape) (hg : Gauge A k B) :
    coef * dot s F (vel s F D) (variation s F t (some B)) =
      element s F (s.heap.treeAmp s.root F) (variation s F t (some B)) -
        coef * ie.getD 0 * dot s F (s.heap.treeAmp s.root F) (variation s F t (some B)) := by
  obtain ⟨he1, he2⟩ := mem_bonds.1 he
  have hm : t ∈ s.heap.tensors s.root F := mem_tensors.2 ⟨.inr (TreeSum.edges_mem he1).2, he2⟩
  have hmr : s.root ∈ s.heap.tensors s.root F := mem_tensors.2 ⟨.inl rfl, hc.ready.ttn.leaf⟩
  have hax : (s.heap.node t).axis = some k := hc.axis he
  have hnr : t ≠ s.root := hc.ne_root he
  have hfull := hc.full hm hA
  obtain ⟨A', -, hk, -⟩ := hc.can _ he
  have hkA : k < A.ndim := by
    obtain ⟨A', a1, a2, -⟩ := hc.can _ he
    obtain rfl : A' = A := Option.some.inj (a1.symm.trans hA)
    exact a2
  have hg' : ∀ e ∈ s.heap.bonds s.root F, e.2.2.1 = t → Gauge A e.2.2.2 B := by
    intro e q1 q2
    have h1 := hc.axis q1
    rw [q2, hax] at h1
    rw [← Option.some.inj h1]
    exact hg
  obtain ⟨Ar, hAr⟩ := hc.ready.ttn.full _ hmr
  have e0 : dot s F (s.heap.treeAmp s.root F) (variation s F t (some B)) = 0 := by
    rw [← variation_self hAr.array]
    exact overlap_zero hc.ready.ttn hc.can hnr.symm hmr hm hAr.array hA hAr.wf rfl hB hBs (fun e q1 q2 => absurd q2 (hc.ne_root q1)) hg'
  obtain ⟨G, X, D', d1, d2, d3, d4, d5, d6, d7, d8⟩ := hc.fin _ hm A hA
  have h' : D t = D' := Option.some.inj d1
  have e1 : dot s F (variation s F t (some D')) (variation s F t (some B)) = _ :=
    overlap_axis hc.ready.ttn hc.can hc.leafArr he hfull hB hBs d2 d3 hρ
  rw [e0, mul_zero, sub_zero, hc.dot_vel hm hA hB hBs hg', element_terms, ← d7 (hc.env _ hm) B hB hBs, h', e1]
  rw [hax] at d6
  obtain ⟨M', m1, m2⟩ := d6
  obtain rfl : M = M' := Option.some.inj (hM.symm.trans m1)
  set n := A.shape.getD k 1 with hn
  set S := A.shape.eraseIdx k with hS
  have hsh : A.shape = S.insertIdx k n := by
    rw [hS, hn, List.getD_eq_getElem _ _ hkA, List.insertIdx_eraseIdx_getElem hkA]
  have hkS : k ≤ S.length := by
    rw [hS, List.length_eraseIdx]
    unfold Nd.ndim at hkA
    split <;> omega
  unfold inner
  rw [d5, hsh, sumIdx_insertIdx S k n hkS]
  set W : ℕ → ℕ → R := fun b z => ∑ c ∈ Finset.range n, (sumIdx S fun q => timesAxis k n G M q c * star (A.get (q.insertIdx k b))) * ρ c z with hW
  have key : ∀ p z, Valid S p → z < n → coef * ((∑ c ∈ Finset.range n, D'.get (p.insertIdx k c) * ρ c z) * star (B.get (p.insertIdx k z))) =
      G.get (p.insertIdx k z) * star (B.get (p.insertIdx k z)) -
        ∑ b ∈ Finset.range n, W b z * (A.get (p.insertIdx k b) * star (B.get (p.insertIdx k z))) := by
    intro p z hp hz
    have f1 : ∀ c ∈ Finset.range n, coef * (D'.get (p.insertIdx k c) * ρ c z) = timesAxis k n G M p c * ρ c z -
        (∑ b ∈ Finset.range n, A.get (p.insertIdx k b) * sumIdx S fun q => timesAxis k n G M q c * star (A.get (q.insertIdx k b))) * ρ c z := by
      intro c hc'
      have hc0 := hc.coef0
      rw [d8 _ (valid_insert hkA rfl hp (Finset.mem_range.1 hc')), if_neg hnr, sub_zero, m2 p c hp (Finset.mem_range.1 hc')]
      field_simp
    have f2 : ∑ c ∈ Finset.range n, timesAxis k n G M p c * ρ c z = G.get (p.insertIdx k z) := by
      unfold timesAxis
      simp only [Finset.sum_mul]
      rw [Finset.sum_comm]
      have : ∀ b ∈ Finset.range n, ∑ c ∈ Finset.range n, G.get (p.insertIdx k b) * M.get [b, c] * ρ c z =
          if b = z then G.get (p.insertIdx k z) else 0 := by
        intro b hb
        simp only [mul_assoc]
        rw [← Finset.mul_sum, hinv b (Finset.mem_range.1 hb) z hz]
        split
        · rename_i q; rw [q, mul_one]
        · rw [mul_zero]
      rw [Finset.sum_congr rfl this, Finset.sum_ite_eq' (Finset.range n) z, if_pos (Finset.mem_range.2 hz)]
    have f3 : ∑ c ∈ Finset.range n, (∑ b ∈ Finset.range n, A.get (p.insertIdx k b) * sumIdx S fun q =>
        timesAxis k n G M q c * star (A.get (q.insertIdx k b))) * ρ c z = ∑ b ∈ Finset.range n, W b z * A.get (p.insertIdx k b) := by
      simp only [hW, Finset.sum_mul]
      rw [Finset.sum_comm]
      refine Finset.sum_congr rfl fun b _ => Finset.sum_congr rfl fun c _ => ?_
      ring
    rw [← mul_assoc, Finset.mul_sum, Finset.sum_congr rfl f1, Finset.sum_sub_distrib, f2, f3, sub_mul, Finset.sum_mul]
    simp only [mul_assoc]
  have zero : ∀ z < n, ∀ b < n, sumIdx S (fun p => A.get (p.insertIdx k b) * star (B.get (p.insertIdx k z))) = 0 := by
    intro z hz b hb
    have := congrArg star (hg z b hz hb)
    rw [star_sumIdx, star_zero] at this
    rw [← this]
    refine sumIdx_congr fun p _ => ?_
    rw [star_mul, star_star]
  rw [← sumIdx_mul_left]
  have : sumIdx S (fun p => coef * ∑ z ∈ Finset.range n, (∑ c ∈ Finset.range n, D'.get (p.insertIdx k c) * ρ c z) * star (B.get (p.insertIdx k z))) +
      sumIdx S (fun p => ∑ z ∈ Finset.range n, ∑ b ∈ Finset.range n, W b z * (A.get (p.insertIdx k b) * star (B.get (p.insertIdx k z)))) =
      sumIdx S (fun p => ∑ z ∈ Finset.range n, G.get (p.insertIdx k z) * star (B.get (p.insertIdx k z))) := by
    rw [← sumIdx_add]
    refine sumIdx_congr fun p hp => ?_
    rw [Finset.mul_sum, Finset.sum_congr rfl fun z hz => key p z hp (Finset.mem_range.1 hz), Finset.sum_sub_distrib, sub_add_cancel]
  rw [← sumIdx_sum, ← this]
  have h0 : sumIdx S (fun p => ∑ z ∈ Finset.range n, ∑ b ∈ Finset.range n, W b z * (A.get (p.insertIdx k b) * star (B.get (p.insertIdx k z)))) = 0 := by
    rw [sumIdx_sum]
    refine Finset.sum_eq_zero fun z hz => ?_
    rw [sumIdx_sum]
    refine Finset.sum_eq_zero fun b hb => ?_
    rw [sumIdx_mul_left, zero z (Finset.mem_range.1 hz) b (Finset.mem_range.1 hb), mul_zero]
  rw [h0, add_zero]

omit [Field R] [StarRing R] in
theorem insert_self {k z : ℕ} {p : List ℕ} (hk : k ≤ p.length) : (p.insertIdx k z).eraseIdx k = p ∧ (p.insertIdx k z).getD k 0 = z := by
  refine ⟨List.eraseIdx_insertIdx_self _, ?_⟩
  rw [List.getD_eq_getElem _ _ (by rw [List.length_insertIdx_of_le_length hk]; omega), List.getElem_insertIdx_self]

/-- The time-dependent variational principle, for every change of one array. -/
theorem Core.dirac {s : Obj T R} {F : Forest} {inv : Dict ℕ (Nd R)} {coef : R} {ie : Option R} {D : ℕ → Nd R}
    (hc : Core s F inv coef ie D)
    (hinv : ∀ e ∈ s.heap.bonds s.root F, ∃ M ρ, inv.get? e.2.2.1 = some M ∧ IsField s.heap e.2.2.1 e.2.2.2 ρ ∧
      ∀ b < s.heap.hdim (e.2.2.1, e.2.2.2), ∀ z < s.heap.hdim (e.2.2.1, e.2.2.2),
        ∑ c ∈ Finset.range (s.heap.hdim (e.2.2.1, e.2.2.2)), M.get [b, c] * ρ c z = if b = z then 1 else 0) :
    ∀ t ∈ s.heap.tensors s.root F, ∀ A B : Nd R, s.heap.array t = some A → B.Wf → B.shape = A.shape →
      coef * dot s F (vel s F D) (variation s F t (some B)) =
        element s F (s.heap.treeAmp s.root F) (variation s F t (some B)) -
          coef * ie.getD 0 * dot s F (s.heap.treeAmp s.root F) (variation s F t (some B)) := by
  have ht := hc.ready.ttn
  refine ht.induct (fun A B hA hB hBs => hc.root hA hB hBs) fun e he ih A B hA hB hBs => ?_
  obtain ⟨a, i, t, k⟩ := e
  simp only at ih hA ⊢
  obtain ⟨he1, he2⟩ := mem_bonds.1 he
  have hm : t ∈ s.heap.tensors s.root F := mem_tensors.2 ⟨.inr (TreeSum.edges_mem he1).2, he2⟩
  have hma : a ∈ s.heap.tensors s.root F := ht.src_mem he1
  have hfull := hc.full hm hA
  obtain ⟨A', hA'⟩ := ht.full a hma
  obtain ⟨⟨l1, l2⟩, l3, l4⟩ := ht.isNet.isLink _ he
  simp only at l1 l2 l3 l4
  have hkA : k < A.ndim := (hfull.acc k).1 (by rw [l2]; simp)
  have hiA : i < A'.ndim := (hA'.acc i).1 (by rw [l1]; simp)
  have hcan : ∀ z w, z < A.shape.getD k 1 → w < A.shape.getD k 1 →
      sumIdx (A.shape.eraseIdx k) (fun p => A.get (p.insertIdx k z) * star (A.get (p.insertIdx k w))) = if z = w then 1 else 0 := by
    obtain ⟨A1, a1, -, a3⟩ := hc.can _ he
    obtain rfl : A1 = A := Option.some.inj (a1.symm.trans hA)
    exact a3
  have hd1 : s.heap.hdim (t, k) = A.shape.getD k 1 := hfull.hdim_eq k
  have hd2 : s.heap.hdim (a, i) = A'.shape.getD i 1 := hA'.hdim_eq i
  have hd : s.heap.hdim (a, i) = s.heap.hdim (t, k) := ht.link_dims hma hm l1
  obtain ⟨M, ρ, hM, hρ, hMρ⟩ := hinv _ he
  simp only at hM hρ hMρ
  rw [hd1] at hMρ
  rw [hd1, hd2] at hd
  set n := A.shape.getD k 1 with hn
  set S := A.shape.eraseIdx k with hS
  have hlen : ∀ {p}, Valid S p → k ≤ p.length := by
    intro p hp
    rw [hp.length_eq, hS, List.length_eraseIdx]
    unfold Nd.ndim at hkA
    split <;> omega
  have hlen' : ∀ {p}, Valid (A'.shape.eraseIdx i) p → i ≤ p.length := by
    intro p hp
    rw [hp.length_eq, List.length_eraseIdx]
    unfold Nd.ndim at hiA
    split <;> omega
  set X : ℕ → ℕ → R := fun c z => sumIdx S fun q => B.get (q.insertIdx k z) * star (A.get (q.insertIdx k c)) with hX
  set C : Nd R := Nd.ofFn A.shape fun w => ∑ c ∈ Finset.range n, A.get ((w.eraseIdx k).insertIdx k c) * X c (w.getD k 0) with hC
  set B' : Nd R := Nd.ofFn A.shape fun w => B.get w - C.get w with hB'
  set D' : Nd R := Nd.ofFn A'.shape fun w => ∑ z ∈ Finset.range n, A'.get ((w.eraseIdx i).insertIdx i z) * X (w.getD i 0) z with hD'
  have hCg : ∀ p z, Valid S p → z < n → C.get (p.insertIdx k z) = ∑ c ∈ Finset.range n, A.get (p.insertIdx k c) * X c z := by
    intro p z hp hz
    rw [hC, Nd.get_ofFn _ (valid_insert hkA rfl hp hz), (insert_self (hlen hp)).1, (insert_self (hlen hp)).2]
  have hDg : ∀ p c, Valid (A'.shape.eraseIdx i) p → c < n → D'.get (p.insertIdx i c) = ∑ z ∈ Finset.range n, A'.get (p.insertIdx i z) * X c z := by
    intro p c hp hcn
    rw [hD', Nd.get_ofFn _ (valid_insert hiA hd hp hcn), (insert_self (hlen' hp)).1, (insert_self (hlen' hp)).2]
  have hBg : Gauge A k B' := by
    intro z w hz hw
    refine gauge_of (X := fun p => B.get (p.insertIdx k z)) (D := fun p => B'.get (p.insertIdx k z)) hcan (fun p hp => ?_) hw
    rw [hB', Nd.get_ofFn _ (valid_insert hkA rfl hp hz), hCg p z hp hz]
  have g1 := hc.gaugeVar he hM hρ hMρ hA (Nd.ofFn_wf _ _) rfl hBg
  have g2 := ih A' D' hA'.array (Nd.ofFn_wf _ _) rfl
  have split : ∀ x, s.heap.InRange (s.heap.tensors s.root F) x →
      variation s F t (some B) x = variation s F t (some B') x + variation s F a (some D') x := by
    intro x hx
    rw [variation_add ht hm hfull hBs (C := B') (D := C) rfl rfl (fun w hw => by rw [hB', Nd.get_ofFn _ hw, sub_add_cancel]) hx]
    congr 1
    rw [variation_amp, variation_amp]
    exact ht.isNet.amp_shift hx he hfull hA' rfl rfl (hd2.trans hd) X hCg hDg
  rw [dot_congr ht (fun _ _ => rfl) split, element_congr ht split, dot_congr ht (fun _ _ => rfl) split, dot_add_right, dot_add_right, element_add_right]
  linear_combination g1 + g2

end

end ML
