import Verif.Lemmas.Conserve
import Verif.Lemmas.Dirac3
import Verif.Lemmas.Overlap2
import Verif.Lemmas.Tangent
import Verif.Spec.Conserve

/-! Helper lemmas for C127: the propagation of one tensor. -/

open scoped BigOperators
open Py

namespace SplitProp

open Heap ML

variable {K T R : Type} [Zero T] [Field R] [StarRing R]

/-! ### Matrix elements depend on the leaves and terms only. -/

theorem hEntry_same {s s' : Obj T R} {F F' : Forest} (hp : (s'.heap.leafList s'.root F').Perm (s.heap.leafList s.root F))
    (ha : s'.allTerms none = s.allTerms none) (hc : ∀ term ∈ s.allTerms none, ∀ l, opOn s'.now term l = opOn s.now term l) (x y : ℕ → ℕ) :
    hEntry s' F' x y = hEntry s F x y := by
  unfold hEntry
  rw [ha]
  refine congrArg List.sum (List.map_congr_left fun term hterm => ?_)
  unfold termEntry
  simp only [hc term hterm]
  exact ((hp.map Prod.fst).map _).prod_eq

theorem element_same {s s' : Obj T R} {F F' : Forest} (hn : ((s'.heap.leafList s'.root F').map Prod.fst).Nodup)
    (hp : (s'.heap.leafList s'.root F').Perm (s.heap.leafList s.root F))
    (ha : s'.allTerms none = s.allTerms none) (hc : ∀ term ∈ s.allTerms none, ∀ l, opOn s'.now term l = opOn s.now term l)
    (φ χ : (ℕ → ℕ) → R) : element s' F' φ χ = element s F φ χ := by
  unfold element
  rw [TreeSum.sumLeaves_perm hp hn]
  refine TreeSum.sumLeaves_congr fun x => ?_
  rw [TreeSum.sumLeaves_perm hp hn]
  exact TreeSum.sumLeaves_congr fun y => by rw [hEntry_same hp ha hc]

theorem dot_same {s s' : Obj T R} {F F' : Forest} (hn : ((s'.heap.leafList s'.root F').map Prod.fst).Nodup)
    (hp : (s'.heap.leafList s'.root F').Perm (s.heap.leafList s.root F)) (φ χ : (ℕ → ℕ) → R) : dot s' F' φ χ = dot s F φ χ := by
  unfold dot
  rw [TreeSum.sumLeaves_perm hp hn]

theorem element_congr2 {s : Obj T R} {F : Forest} (ht : ((s.heap.leafList s.root F).map Prod.fst).Nodup) {φ φ' χ χ' : (ℕ → ℕ) → R}
    (h1 : ∀ x : ℕ → ℕ, (∀ p ∈ s.heap.leafList s.root F, x p.1 < p.2) → φ x = φ' x)
    (h2 : ∀ x : ℕ → ℕ, (∀ p ∈ s.heap.leafList s.root F, x p.1 < p.2) → χ x = χ' x) : element s F φ χ = element s F φ' χ' := by
  unfold element
  refine TreeSum.sumLeaves_congr' ht fun x _ hx => TreeSum.sumLeaves_congr' ht fun y _ hy => ?_
  rw [h1 x hx, h2 y hy]

theorem dot_congr2 {s : Obj T R} {F : Forest} (ht : ((s.heap.leafList s.root F).map Prod.fst).Nodup) {φ φ' χ χ' : (ℕ → ℕ) → R}
    (h1 : ∀ x : ℕ → ℕ, (∀ p ∈ s.heap.leafList s.root F, x p.1 < p.2) → φ x = φ' x)
    (h2 : ∀ x : ℕ → ℕ, (∀ p ∈ s.heap.leafList s.root F, x p.1 < p.2) → χ x = χ' x) : dot s F φ χ = dot s F φ' χ' := by
  unfold dot
  refine TreeSum.sumLeaves_congr' ht fun x _ hx => ?_
  rw [h1 x hx, h2 x hx]

theorem element_lin (s : Obj T R) (F : Forest) (n : ℕ) (a b : ℕ → R) (φ χ : ℕ → (ℕ → ℕ) → R) :
    element s F (fun x => ∑ l ∈ Finset.range n, a l * φ l x) (fun y => ∑ k ∈ Finset.range n, b k * χ k y) =
      ∑ k ∈ Finset.range n, ∑ l ∈ Finset.range n, star (b k) * element s F (φ l) (χ k) * a l := by
  unfold element
  have e : ∀ k l, star (b k) * sumLeaves (s.heap.leafList s.root F) (fun x => sumLeaves (s.heap.leafList s.root F) (fun y =>
      φ l x * hEntry s F x y * star (χ k y)) (fun _ => 0)) (fun _ => 0) * a l =
      sumLeaves (s.heap.leafList s.root F) (fun x => sumLeaves (s.heap.leafList s.root F) (fun y =>
      a l * star (b k) * (φ l x * hEntry s F x y * star (χ k y))) (fun _ => 0)) (fun _ => 0) := by
    intro k l
    simp only [TreeSum.sumLeaves_mul_left]
    ring
  simp only [e, ← TreeSum.sumLeaves_sum]
  refine TreeSum.sumLeaves_congr fun x => TreeSum.sumLeaves_congr fun y => ?_
  rw [_root_.star_sum, Finset.sum_mul, Finset.sum_mul_sum, Finset.sum_comm]
  refine Finset.sum_congr rfl fun k _ => Finset.sum_congr rfl fun l _ => ?_
  rw [star_mul]
  ring

/-! ### The array of the root in coordinates. -/

/-- The array with a one in place `k` of its data. -/
def unitNd (shape : List ℕ) (k : ℕ) : Nd R := ⟨shape, (List.range shape.prod).map fun m => if m = k then 1 else 0⟩

omit [StarRing R] in
theorem unitNd_wf (shape : List ℕ) (k : ℕ) : (unitNd shape k : Nd R).Wf := by unfold Nd.Wf unitNd; simp

omit [StarRing R] in
theorem unitNd_get (shape : List ℕ) (k : ℕ) {w : List ℕ} (hw : Valid shape w) :
    (unitNd shape k : Nd R).get w = if ravel shape w = k then 1 else 0 := by
  unfold Nd.get unitNd
  have := ravel_lt hw
  simp [List.getD_eq_getElem?_getD, List.getElem?_map, this]

/-- The state is linear in the array of the root. -/
theorem variation_lin {s : Obj T R} {F : Forest} (ht : s.heap.IsTTN s.root F) {A Y : Nd R} (hA : s.heap.Full s.root A)
    (hYs : Y.shape = A.shape) {x : ℕ → ℕ} (hx : ∀ p ∈ s.heap.leafList s.root F, x p.1 < p.2) :
    variation s F s.root (some Y) x =
      ∑ k ∈ Finset.range A.shape.prod, Y.data.getD k 0 * variation s F s.root (some (unitNd A.shape k)) x := by
  unfold variation Heap.treeAmp
  have hl : ∀ B : Nd R, (s.heap.setArray s.root (some B)).tensors s.root F = s.heap.tensors s.root F ∧
      (s.heap.setArray s.root (some B)).bonds s.root F = s.heap.bonds s.root F := by
    intro B
    have : ∀ c, (s.heap.setArray s.root (some B)).isLeaf c = s.heap.isLeaf c := fun c => by
      unfold Heap.isLeaf; rw [node_setArray]; split <;> rfl
    unfold Heap.tensors Heap.bonds
    simp only [this, and_self]
  simp only [(hl _).1, (hl _).2]
  refine ht.isNet.amp_lin (ht.inRange hx) (mem_tensors.2 ⟨.inl rfl, ht.leaf⟩) hA hYs _ _ _ (fun k => rfl) fun w hw => ?_
  have hlt := ravel_lt hw
  rw [Finset.sum_eq_single (ravel A.shape w)]
  · rw [unitNd_get _ _ hw, if_pos rfl, mul_one]
    unfold Nd.get; rw [hYs]
  · intro k _ hk
    rw [unitNd_get _ _ hw, if_neg (Ne.symm hk), mul_zero]
  · intro q; exact absurd (Finset.mem_range.2 hlt) q

/-- The Hamiltonian in these coordinates. -/
def hMat (s : Obj T R) (F : Forest) (shape : List ℕ) (k l : ℕ) : R :=
  element s F (variation s F s.root (some (unitNd shape l))) (variation s F s.root (some (unitNd shape k)))

theorem element_coord {s : Obj T R} {F : Forest} (ht : s.heap.IsTTN s.root F) {A Y Z : Nd R} (hA : s.heap.Full s.root A)
    (hYs : Y.shape = A.shape) (hZs : Z.shape = A.shape) :
    element s F (variation s F s.root (some Y)) (variation s F s.root (some Z)) =
      ∑ k ∈ Finset.range A.shape.prod, ∑ l ∈ Finset.range A.shape.prod,
        star (Z.data.getD k 0) * hMat s F A.shape k l * Y.data.getD l 0 := by
  rw [element_congr2 (leafList_nodup ht) (fun x hx => variation_lin ht hA hYs hx) (fun x hx => variation_lin ht hA hZs hx), element_lin]
  rfl

theorem dot_coord {s : Obj T R} {F : Forest} (ht : s.heap.IsTTN s.root F) (hcan : s.heap.CanonicalTree s.root F)
    (hleaf : ∀ e ∈ F.edges s.root, s.heap.isLeaf e.2.2.1 = true → s.heap.array e.2.2.1 = none)
    {A Y : Nd R} (hA : s.heap.Full s.root A) (hY : Y.Wf) (hYs : Y.shape = A.shape) :
    dot s F (variation s F s.root (some Y)) (variation s F s.root (some Y)) = normSq A.shape.prod Y.data := by
  unfold dot variation
  rw [overlap_root ht hcan hleaf hA hY hYs hY hYs, sumIdx_eq_sum_range]
  unfold normSq
  refine Finset.sum_congr rfl fun k hk => ?_
  have : Y.get (unravel A.shape k) = Y.data.getD k 0 := by
    unfold Nd.get
    rw [hYs, ravel_unravel (Finset.mem_range.1 hk)]
  rw [this]

/-! ### The derivative in coordinates. -/

/-- The matrix of the linear equation that the solver gets. -/
def wMat (s : Obj T R) (F : Forest) (shape : List ℕ) (coef e : R) (k l : ℕ) : R := (hMat s F shape k l - if k = l then e else 0) / coef

theorem wMat_skew {s : Obj T R} {F : Forest} (ht : s.heap.IsTTN s.root F) {coef e : R} (h0 : coef ≠ 0) (hg : Generates s F coef)
    (he : coef * star e = -(star coef * e)) (shape : List ℕ) (k l : ℕ) :
    star (wMat s F shape coef e k l) = -wMat s F shape coef e l k := by
  have hs : star coef ≠ 0 := fun q => h0 (by simpa using congrArg star q)
  have h1 : coef * star (hMat s F shape k l) = -(star coef * hMat s F shape l k) := star_element ht h0 hg _ _
  unfold wMat
  rw [star_div₀, star_sub]
  have h2 : coef * star (if k = l then e else 0) = -(star coef * if l = k then e else 0) := by
    by_cases q : k = l
    · rw [if_pos q, if_pos q.symm]; exact he
    · rw [if_neg q, if_neg (Ne.symm q)]; simp
  rw [← neg_div, div_eq_div_iff hs h0]
  linear_combination h1 - h2

theorem form_wMat (s : Obj T R) (F : Forest) (shape : List ℕ) {coef e : R} (h0 : coef ≠ 0) (n : ℕ) (y : List R) :
    ∑ k ∈ Finset.range n, ∑ l ∈ Finset.range n, star (y.getD k 0) * hMat s F shape k l * y.getD l 0 =
      coef * form n (wMat s F shape coef e) y + e * normSq n y := by
  unfold form normSq
  rw [Finset.mul_sum, Finset.mul_sum, ← Finset.sum_add_distrib]
  refine Finset.sum_congr rfl fun k hk => ?_
  rw [Finset.mul_sum]
  have e2 : e * (y.getD k 0 * star (y.getD k 0)) = ∑ l ∈ Finset.range n, star (y.getD k 0) * (if k = l then e else 0) * y.getD l 0 := by
    rw [Finset.sum_eq_single k]
    · rw [if_pos rfl]; ring
    · intro l _ hl; rw [if_neg (Ne.symm hl)]; ring
    · intro q; exact absurd hk q
  rw [e2, ← Finset.sum_add_distrib]
  refine Finset.sum_congr rfl fun l _ => ?_
  unfold wMat
  field_simp
  ring

/-- Changing the array of the root of the tree does not change the variations. -/
theorem variation_same {h h' : Heap R} {t : ℕ} (g : h.GoodChange h' t) (B : Nd R) (F : Forest) (x : ℕ → ℕ) :
    (h'.setArray t (some B)).treeAmp t F x = (h.setArray t (some B)).treeAmp t F x := by
  have hl : ∀ (h : Heap R) c, (h.setArray t (some B)).isLeaf c = h.isLeaf c := fun h c => by
    unfold Heap.isLeaf; rw [node_setArray]; split <;> rfl
  refine treeAmp_congr (h := h.setArray t (some B)) (h' := h'.setArray t (some B)) (fun u => ?_) (fun u k => by
    rw [Heap.acc_setArray, Heap.acc_setArray]; exact GoodChange.acc g u k) (fun u => ?_) t F x
  · rw [Heap.array_setArray, Heap.array_setArray]
    split
    · rfl
    · rename_i q; exact g.other u q
  · rw [hl, hl]; exact GoodChange.isLeaf g u

theorem leafList_change {h h' : Heap R} {t : ℕ} (g : h.GoodChange h' t) {A : Nd R} (hA : h.array t = some A) (r : ℕ) (F : Forest) :
    h'.leafList r F = h.leafList r F := by
  unfold Heap.leafList
  have : (fun e : ℕ × ℕ × ℕ × ℕ => h'.isLeaf e.2.2.1) = fun e => h.isLeaf e.2.2.1 := funext fun e => GoodChange.isLeaf g _
  rw [this]
  refine List.map_congr_left fun e _ => ?_
  rw [GoodChange.hdim g hA]

theorem unitNd_inner {G : Nd R} {k : ℕ} (hk : k < G.shape.prod) : inner G (unitNd G.shape k) = G.data.getD k 0 := by
  unfold inner
  rw [sumIdx_eq_sum_range, Finset.sum_eq_single k]
  · rw [unitNd_get _ _ (valid_unravel hk), ravel_unravel hk, if_pos rfl, star_one, mul_one]
    unfold Nd.get; rw [ravel_unravel hk]
  · intro m hm hmk
    have hm' := Finset.mem_range.1 hm
    rw [unitNd_get _ _ (valid_unravel hm'), ravel_unravel hm', if_neg hmk, star_zero, mul_zero]
  · intro q; exact absurd (Finset.mem_range.2 hk) q

/-- What `diff` gives is the matrix times its argument. -/
theorem deriv_coord {x0 x : Ext T R} {h0 h : Heap R} {t : ℕ} {F : Forest} (ht : h0.IsTTN t F) (g : h0.GoodChange h t) (hx : x.hList = x0.hList)
    (hf0 : x0.fList = none) (hf : x.fList = none)
    (hc : ∀ term ∈ x0.hList, ∀ p ∈ term, ∀ t t' : T, p.2.at t = p.2.at t') {A : Nd R} (hA : h0.Full t A) {y : List R}
    (time : Option T) {G : Nd R} {coef e : R} (h00 : coef ≠ 0)
    (hG : IsGradient { x.obj (h.setArray t (some ⟨A.shape, y⟩)) t with time := time } F t ⟨A.shape, y⟩ x.hList G) (hGs : G.shape = A.shape)
    (hy : y.length = A.shape.prod) {d : List R} (hdl : d.length = y.length)
    (hd : ∀ k < y.length, coef * d.getD k 0 = G.data.getD k 0 - e * y.getD k 0) :
    d = matVec A.shape.prod (wMat (x0.obj h0 t) F A.shape coef e) y := by
  set s : Obj T R := { x.obj (h.setArray t (some ⟨A.shape, y⟩)) t with time := time } with hs
  set s0 : Obj T R := x0.obj h0 t with hs0
  have hYw : (⟨A.shape, y⟩ : Nd R).Wf := by unfold Nd.Wf; exact hy
  obtain ⟨A1, a1, a2, a3⟩ := g.array A hA.array
  have g1 : h0.GoodChange s.heap t := GoodChange.trans g (goodChange_setArray a1 hYw a3.symm)
  have ha : s.allTerms none = x.hList := by unfold Obj.allTerms; rw [hs]; simp [Ext.obj, hf]
  have ha0 : s0.allTerms none = x0.hList := by unfold Obj.allTerms; rw [hs0]; simp [Ext.obj, hf0]
  have hll : s.heap.leafList s.root F = s0.heap.leafList s0.root F := leafList_change g1 hA.array t F
  have ht1 : s.heap.IsTTN s.root F := Sweep.ttn_change ht g1
  have key : ∀ k < A.shape.prod, G.data.getD k 0 = ∑ l ∈ Finset.range A.shape.prod, hMat s0 F A.shape k l * y.getD l 0 := by
    intro k hk
    rw [← unitNd_inner (by rw [hGs]; exact hk), hGs, hG (unitNd A.shape k) (unitNd_wf _ _) rfl, ← ha, ← element_terms]
    rw [element_same (s := s0) (F := F) (leafList_nodup ht1) (by rw [hll]) (by rw [ha, ha0, hx])
      (fun term hterm l => opOn_const (hc term (ha0 ▸ hterm)) _ _ l)]
    have e1 : s.heap.treeAmp s.root F = variation s0 F s0.root (some ⟨A.shape, y⟩) := funext fun w => variation_same g _ F w
    have e2 : variation s F t (some (unitNd A.shape k)) = variation s0 F s0.root (some (unitNd A.shape k)) := funext fun w => variation_same g1 _ F w
    rw [e1, e2, element_coord (s := s0) (Y := ⟨A.shape, y⟩) (Z := unitNd A.shape k) ht hA rfl rfl, Finset.sum_eq_single k]
    · refine Finset.sum_congr rfl fun l _ => ?_
      simp [unitNd, List.getD_eq_getElem?_getD, hk]
    · intro m hm hmk
      refine Finset.sum_eq_zero fun l _ => ?_
      simp [unitNd, List.getD_eq_getElem?_getD, Finset.mem_range.1 hm, hmk]
    · intro q; exact absurd (Finset.mem_range.2 hk) q
  refine List.ext_getElem (by unfold matVec; simp [hdl, hy]) fun k k1 k2 => ?_
  have hk : k < A.shape.prod := by omega
  have e3 := hd k (by omega)
  rw [key k hk, List.getD_eq_getElem _ _ k1] at e3
  have e5 : (matVec A.shape.prod (wMat s0 F A.shape coef e) y)[k] = ∑ l ∈ Finset.range A.shape.prod, wMat s0 F A.shape coef e k l * y.getD l 0 := by
    simp only [matVec, List.getElem_map, List.getElem_range]
  rw [e5]
  refine mul_left_cancel₀ h00 ?_
  rw [e3, Finset.mul_sum]
  have e4 : e * y.getD k 0 = ∑ l ∈ Finset.range A.shape.prod, (if k = l then e else 0) * y.getD l 0 := by
    rw [Finset.sum_eq_single k]
    · rw [if_pos rfl]
    · intro l _ hl; rw [if_neg (Ne.symm hl), zero_mul]
    · intro q; exact absurd (Finset.mem_range.2 hk) q
  rw [e4, ← Finset.sum_sub_distrib]
  refine Finset.sum_congr rfl fun l _ => ?_
  unfold wMat
  field_simp

/-- A root with norm 1 is not changed by `normalize`. -/
theorem normalize_unit {h : Heap R} {t : ℕ} {A : Nd R} (hA : h.array t = some A) (hw : A.Wf) (hx : (h.node t).axis = none) {sqrt : R → R}
    (h1 : sqrt 1 = 1) (hn : normSq A.shape.prod A.data = 1) (forced : Bool) :
    ∃ h' o, h.normalize sqrt t forced = .ok (h', o) ∧ h.GoodChange h' t ∧ h'.array t = some A := by
  obtain ⟨h', o, e1, e2⟩ := normalize_root hA hw hx sqrt forced
  refine ⟨h', o, e1, e2, ?_⟩
  unfold Heap.normalize at e1
  rw [hA] at e1
  simp only at e1
  split at e1
  · cases e1; exact hA
  · rw [hx] at e1
    simp only at e1
    unfold localNorm0 at e1
    rw [Tensor.partialTrace_none_spec A A.conj rfl] at e1
    have hs : sumIdx A.shape (fun p => A.get p * A.conj.get p) = 1 := by
      rw [← hn, sumIdx_eq_sum_range]
      unfold normSq
      refine Finset.sum_congr rfl fun k hk => ?_
      rw [Heap.conj_get]
      unfold Nd.get
      rw [ravel_unravel (Finset.mem_range.1 hk)]
    simp only [ok_bind, hs] at e1
    have hg : (⟨[], [(1 : R)]⟩ : Nd R).get [] = 1 := rfl
    simp only [pure_bind, hg, h1, div_one, List.map_id'] at e1
    cases e1
    rw [Heap.array_setArray, if_pos rfl]

/-- The propagation of the root with a conservative solver. -/
theorem run_conserve {N : ℕ} (cf : Config K T R) {t : ℕ} {F : Forest} (cache : Bool) {x0 : Ext T R} {h0 : Heap R} (ht0 : h0.IsTTN t F)
    {A0 : Nd R} (hA0 : h0.Full t A0) (hf0 : x0.fList = none) (hc : ∀ term ∈ x0.hList, ∀ p ∈ term, ∀ t t' : T, p.2.at t = p.2.at t') {coef : R} (h00 : coef ≠ 0)
    (hcoef : ∀ time : Option T, time.isNone = cf.imaginary → cf.coef time = coef) (h1 : cf.sqrt 1 = 1) {w : R} (p : Plan T R) :
    (∀ y ∈ p.updates (matVec A0.shape.prod (wMat (x0.obj h0 t) F A0.shape coef (cf.initEnergy.getD 0))), y.length = A0.shape.prod ∧
      normSq A0.shape.prod y = 1 ∧ form A0.shape.prod (wMat (x0.obj h0 t) F A0.shape coef (cf.initEnergy.getD 0)) y = w) →
    ∀ (x : Ext T R) (h : Heap R) (A : Nd R), h.IsTTN t F →
    h.Rooted t F → Fine (Call.Right cf) N x h t → h0.GoodChange h t → x.hList = x0.hList → h.array t = some A →
    normSq A0.shape.prod A.data = 1 → form A0.shape.prod (wMat (x0.obj h0 t) F A0.shape coef (cf.initEnergy.getD 0)) A.data = w →
    ∃ x' h' A', run cf t cache p (x, h) = .ok (x', h') ∧ h.GoodChange h' t ∧ Fine (Call.Right cf) N x' h' t ∧ x'.hList = x0.hList ∧
      h'.array t = some A' ∧ normSq A0.shape.prod A'.data = 1 ∧
      form A0.shape.prod (wMat (x0.obj h0 t) F A0.shape coef (cf.initEnergy.getD 0)) A'.data = w := by
  induction p with
  | stop =>
    intro _ x h A ht hr f g hx hA n1 n2
    obtain ⟨A1, a1, a2, a3⟩ := g.array A0 hA0.array
    rw [hA] at a1; cases a1
    exact ⟨x, h, A, rfl, .refl fun B hB => by rw [hA] at hB; cases hB; exact a2, f, hx, hA, n1, n2⟩
  | eval time y next ih =>
    intro hp x h A ht hr f g hx hA n1 n2
    obtain ⟨A1, a1, a2, a3⟩ := g.array A0 hA0.array
    rw [hA] at a1; cases a1
    obtain ⟨A1, hA1⟩ := ht.full t (mem_tensors.2 ⟨.inl rfl, ht.leaf⟩)
    obtain rfl : A = A1 := Option.some.inj (hA.symm.trans hA1.array)
    by_cases hy : y.length = A.shape.prod
    case neg =>
      unfold run
      rw [hA]
      simp only
      rw [if_neg hy]
      exact ⟨x, h, A, rfl, .refl fun B hB => by rw [hA] at hB; cases hB; exact a2, f, hx, hA, n1, n2⟩
    case pos =>
      obtain ⟨x3, h3, d, G, q1, g3, f3, q4, q5, q6, q7, q8, q9, q10⟩ := eval_step cf cache ht hr f hA1 time hy next
      have hti : cf.coef (if cf.imaginary then none else some time) = coef := hcoef _ (by cases cf.imaginary <;> rfl)
      rw [hti] at q10
      rw [a3] at q6
      have hd := deriv_coord (x0 := x0) ht0 g hx hf0 f.fList hc hA0 _ h00 q6 (q8.trans a3) (hy.trans (by rw [a3])) q9 (q10 h00)
      obtain ⟨x', h', A', e2, e3, e4⟩ := ih d (by
        intro z hz
        refine hp z ?_
        rw [Plan.updates, ← hd]; exact hz) x3 h3 A (Sweep.ttn_change ht g3) (Sweep.rooted_change hr g3) f3 (GoodChange.trans g g3) (q5.trans hx) q4 n1 n2
      exact ⟨x', h', A', q1.trans e2, GoodChange.trans g3 e3, e4⟩
  | update y next ih =>
    intro hp x h A ht hr f g hx hA n1 n2
    obtain ⟨A1, a1, a2, a3⟩ := g.array A0 hA0.array
    rw [hA] at a1; cases a1
    obtain ⟨p1, p2, p3⟩ := hp y (by rw [Plan.updates]; exact List.mem_cons_self ..)
    unfold run
    rw [hA]
    simp only
    rw [if_pos (by rw [a3]; exact p1)]
    have hYw : (⟨A.shape, y⟩ : Nd R).Wf := by unfold Nd.Wf; rw [a3]; exact p1
    have g1 := goodChange_setArray hA hYw rfl
    obtain ⟨h2, o, m1, m2, m3⟩ := normalize_unit (h := h.setArray t (some ⟨A.shape, y⟩)) (t := t) (A := ⟨A.shape, y⟩)
      (by rw [Heap.array_setArray, if_pos rfl]) hYw (Sweep.rooted_change hr g1).1 h1 (by rw [a3]; exact p2) (!cf.imaginary)
    have g2 := GoodChange.trans g1 m2
    rw [m1]
    simp only [ok_bind]
    obtain ⟨x', h', A', e2, e3, e4⟩ := ih (fun z hz => hp z (by rw [Plan.updates]; exact List.mem_cons_of_mem _ hz)) x h2 ⟨A.shape, y⟩
      (Sweep.ttn_change ht g2) (Sweep.rooted_change hr g2)
      (f.change ht hr g2 rfl rfl f.calls fun k v q => .inl q) (GoodChange.trans g g2) hx m3 p2 p3
    exact ⟨x', h', A', e2, GoodChange.trans g2 e3, e4⟩
  | reform next ih =>
    intro hp x h A ht hr f
    unfold run
    rw [f.fList]
    simp only [Option.isNone_none, if_true]
    exact ih (fun z hz => hp z (by rw [Plan.updates]; exact hz)) x h A ht hr f

end SplitProp
