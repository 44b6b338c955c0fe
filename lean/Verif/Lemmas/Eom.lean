import Verif.Model.Eom
import Verif.Lemmas.MultiLayer

/-!
The projector and the mean fields in the equations of motion.
-/

open scoped BigOperators
open Py

namespace Tensor

variable {R : Type} [CommRing R]

theorem insertIdx_eq {p : List ℕ} {i : ℕ} (h : i ≤ p.length) (z : ℕ) : p.insertIdx i z = p.take i ++ z :: p.drop i := by
  induction p generalizing i with
  | nil => obtain rfl : i = 0 := by simpa using h
           rfl
  | cons x p ih =>
    cases i with
    | zero => rfl
    | succ i => simp only [List.insertIdx_succ_cons, List.take_succ_cons, List.drop_succ_cons, List.cons_append, ih (by simpa using h)]

theorem valid_parts {S p : List ℕ} {i : ℕ} (hi : i < S.length) (h : Valid (S.eraseIdx i) p) :
    Valid (S.take i) (p.take i) ∧ Valid (S.drop (i + 1)) (p.drop i) ∧ i ≤ p.length := by
  have hl := h.length_eq
  rw [List.length_eraseIdx_of_lt hi] at hl
  rw [List.eraseIdx_eq_take_drop_succ] at h
  have h1 : p = p.take i ++ p.drop i := (List.take_append_drop i p).symm
  rw [h1, valid_append_iff (by simp; omega)] at h
  exact ⟨h.1, h.2, by omega⟩

theorem set_self_shape {S : List ℕ} {i n : ℕ} (hi : i < S.length) (hn : S.getD i 1 = n) :
    S.take i ++ [n] ++ S.drop (i + 1) = S := by
  subst hn
  rw [List.getD_eq_getElem _ _ hi, List.append_assoc]
  simp

/-- Multiplication of an axis by a matrix. -/
theorem product_matrix (a M : Nd R) {i n : ℕ} (hi : i < a.ndim) (hn : a.shape.getD i 1 = n) (hM : M.shape = [n, n]) {j : ℕ}
    (hj : j < 2) :
    ∃ c, partialProduct a i (some M) j = .ok c ∧ c.Wf ∧ c.shape = a.shape ∧ ∀ p z, Valid (a.shape.eraseIdx i) p → z < n →
      c.get (p.insertIdx i z) = ∑ k ∈ Finset.range n, a.get (p.insertIdx i k) * M.get (if j = 0 then [k, z] else [z, k]) := by
  have hj2 : j < M.ndim := by simp [Nd.ndim, hM, hj]
  have hd : M.shape.getD j 1 = n := by rw [hM]; rcases j with _ | _ | j <;> simp at hj ⊢
  obtain ⟨c, c1, c2, c3, c4⟩ := partialProductAux_spec a M hi hj2 (hn.trans hd.symm)
  have he : M.shape.eraseIdx j = [n] := by rw [hM]; rcases j with _ | _ | j <;> simp at hj ⊢
  rw [he] at c3 c4
  refine ⟨c, c1, c2, by rw [c3, set_self_shape hi hn], fun p z hp hz => ?_⟩
  obtain ⟨v1, v2, v3⟩ := valid_parts hi hp
  have := c4 (p.take i) [z] (p.drop i) v1 (by simp [valid_cons_cons, hz]) v2
  rw [List.append_assoc] at this
  rw [insertIdx_eq v3, show p.take i ++ z :: p.drop i = p.take i ++ ([z] ++ p.drop i) from rfl, this, hn]
  refine Finset.sum_congr rfl fun k _ => ?_
  rw [insertIdx_eq v3]
  congr 2
  rcases j with _ | _ | j <;> simp at hj ⊢

end Tensor

namespace ML

variable {R : Type} [Field R] [StarRing R]

/-- What `project` computes. -/
theorem project_ok {a tmp inv : Nd R} {k n : ℕ} (hk : k < a.ndim) (hn : a.shape.getD k 1 = n) (h0 : n ≠ 0)
    (hs : tmp.shape = a.shape) (hi : inv.shape = [n, n]) :
    ∃ D, project a k inv tmp = .ok D ∧ D.Wf ∧ D.shape = a.shape ∧ ∀ p z, Valid (a.shape.eraseIdx k) p → z < n →
      D.get (p.insertIdx k z) = (∑ c ∈ Finset.range n, tmp.get (p.insertIdx k c) * inv.get [c, z]) -
        ∑ b ∈ Finset.range n, a.get (p.insertIdx k b) * sumIdx (a.shape.eraseIdx k) fun q =>
          (∑ c ∈ Finset.range n, tmp.get (q.insertIdx k c) * inv.get [c, z]) * star (a.get (q.insertIdx k b)) := by
  obtain ⟨X, x1, x2, x3, x4⟩ := Tensor.product_matrix tmp inv (i := k) (n := n) (j := 0)
    (by unfold Nd.ndim at *; rw [hs]; exact hk) (by rw [hs]; exact hn) hi (by omega)
  rw [hs] at x3 x4
  obtain ⟨Y, y1, y2, y3, y4⟩ := Tensor.partialTrace_spec X a.conj (i := k) (j := k)
    (by unfold Nd.ndim at *; rw [x3]; exact hk) hk (by rw [x3]; rfl) (by rw [x3, hn]; exact h0)
    (by show a.shape.getD k 1 ≠ 0; rw [hn]; exact h0)
  have ec : a.conj.shape = a.shape := rfl
  rw [x3, ec, hn] at y3
  rw [x3, ec, hn] at y4
  obtain ⟨Z, z1, z2, z3, z4⟩ := Tensor.product_matrix a Y hk hn y3 (j := 1) (by omega)
  obtain ⟨D, d1, d2, d3, d4⟩ := Nd.sub_ok x2 z2 (x3.trans z3.symm)
  refine ⟨D, ?_, d2, d3.trans x3, fun p z hp hz => ?_⟩
  · unfold project
    rw [x1]
    simp only [ok_bind]
    rw [y1]
    simp only [ok_bind]
    rw [z1]
    simp only [ok_bind]
    exact d1
  · have hv : Valid X.shape (p.insertIdx k z) := by
      rw [x3]
      have hkl : k < a.shape.length := hk
      obtain ⟨v1, v2, v3⟩ := Tensor.valid_parts hkl hp
      rw [Tensor.insertIdx_eq v3]
      have h1 := Tensor.set_self_shape hkl hn
      rw [List.append_assoc] at h1
      rw [← h1]
      exact valid_append v1 (by simpa [valid_cons_cons] using ⟨hz, v2⟩)
    rw [d4 _ hv, x4 p z hp hz, z4 p z hp hz]
    congr 1
    refine Finset.sum_congr rfl fun b hb => ?_
    rw [if_neg (by omega), y4 z b hz (Finset.mem_range.1 hb)]
    congr 1
    refine sumIdx_congr fun q hq => ?_
    rw [x4 q z hq hz, Heap.conj_get]
    rfl

/-- The slices of the projected array are orthogonal to the slices of the array, if these are orthonormal. -/
theorem gauge_of {a : Nd R} {k n : ℕ} {X : List ℕ → R} {D : List ℕ → R}
    (hc : ∀ z w, z < n → w < n →
      sumIdx (a.shape.eraseIdx k) (fun p => a.get (p.insertIdx k z) * star (a.get (p.insertIdx k w))) = if z = w then 1 else 0)
    (hD : ∀ p, Valid (a.shape.eraseIdx k) p → D p = X p - ∑ b ∈ Finset.range n, a.get (p.insertIdx k b) *
      sumIdx (a.shape.eraseIdx k) fun q => X q * star (a.get (q.insertIdx k b))) {w : ℕ} (hw : w < n) :
    sumIdx (a.shape.eraseIdx k) (fun p => D p * star (a.get (p.insertIdx k w))) = 0 := by
  set S := a.shape.eraseIdx k
  have e1 : sumIdx S (fun p => D p * star (a.get (p.insertIdx k w))) =
      sumIdx S (fun p => X p * star (a.get (p.insertIdx k w)) - ∑ b ∈ Finset.range n,
        (sumIdx S fun q => X q * star (a.get (q.insertIdx k b))) * (a.get (p.insertIdx k b) * star (a.get (p.insertIdx k w)))) := by
    refine sumIdx_congr fun p hp => ?_
    rw [hD p hp, sub_mul, Finset.sum_mul]
    congr 1
    exact Finset.sum_congr rfl fun b _ => by ring
  rw [e1]
  simp only [sumIdx_eq_sum_range]
  rw [Finset.sum_sub_distrib, Finset.sum_comm]
  simp only [← Finset.mul_sum]
  have e2 : ∀ b ∈ Finset.range n, (∑ i ∈ Finset.range S.prod, a.get ((unravel S i).insertIdx k b) *
      star (a.get ((unravel S i).insertIdx k w))) = if b = w then 1 else 0 := by
    intro b hb
    rw [← hc b w (Finset.mem_range.1 hb) hw, sumIdx_eq_sum_range]
  rw [Finset.sum_congr (s₁ := Finset.range n) rfl fun b hb => by rw [e2 b hb]]
  simp [hw]

end ML

namespace TreeSum

variable {R : Type} [CommRing R]

/-- All axes of an array multiplied by square matrices. -/
theorem fold_full {A : Nd R} (hA : A.Wf) {env : List (ℕ × Option (Nd R))} {E : ℕ → ℕ → ℕ → R}
    (he : List.Forall₂ (fun i p => p.1 = i ∧ Heap.Means p.2 (A.shape.getD i 1) (E i)) (List.range A.ndim) env) :
    ∃ T, env.foldlM (fun a p => Tensor.partialProduct a p.1 p.2) A = .ok T ∧ T.Wf ∧ T.shape = A.shape ∧
      ∀ w, Valid A.shape w → T.get w = sumIdx A.shape fun v =>
        A.get v * ((List.range A.ndim).map fun k => E k (v.getD k 0) (w.getD k 0)).prod := by
  have hself := Nd.Lab.self hA
  have hA0 : A.Lab (labs [] A.ndim) (dim2 A A) (fun f => A.get ((List.range A.ndim).map fun k => f (0, k))) := by
    have h1 := Nd.Lab.map (dim := dim2 A A) (fun k : ℕ => ((0, k) : ℕ × ℕ))
      (hself.congr_dim fun k _ => by simp [dim2])
    have : labs [] A.ndim = (List.range A.ndim).map fun k => (0, k) := by simp [labs]
    rw [this]; exact h1
  set es : List (ℕ × (ℕ → ℕ → R)) := (List.range A.ndim).map fun k => (k, E k) with hes
  have hK : es.map Prod.fst = List.range A.ndim := by simp [hes, Function.comp_def]
  have he' : List.Forall₂ (fun p q => p.1 = q.1 ∧ IsEnv p.2 (A.shape.getD p.1 1) (A.shape.getD p.1 1) q.2) env es := by
    rw [hes, List.forall₂_map_right_iff]
    refine List.Forall₂.flip (List.Forall₂.imp ?_ he)
    rintro i p ⟨rfl, h2⟩
    refine ⟨rfl, ?_⟩
    unfold Heap.Means at h2
    unfold IsEnv
    split at h2
    · rename_i q; rw [q]; exact ⟨rfl, h2⟩
    · rename_i M q; rw [q]; exact h2
  have hmem : ∀ p ∈ es, p.1 < A.ndim := fun p hp => by
    have : p.1 ∈ es.map Prod.fst := List.mem_map.2 ⟨p, hp, rfl⟩
    rw [hK] at this; exact List.mem_range.1 this
  obtain ⟨T, t1, t2⟩ := fold_env hA0 he' hmem (by simp) (by rw [hK]; exact List.nodup_range)
  rw [List.append_nil, labs_full (by intro k hk; rw [List.mem_reverse, hK]; exact List.mem_range.2 hk)] at t2
  have hsh : T.shape = A.shape := by
    rw [t2.shape]
    refine List.ext_getElem (by simp) fun k k1 k2 => ?_
    simp only [List.getElem_map, List.getElem_range, dim2]
    simp [k2]
  refine ⟨T, t1, t2.wf, hsh, fun w hw => ?_⟩
  have hwl : w.length = A.ndim := hw.length_eq
  have hwe : w = ((List.range A.ndim).map fun k => ((1, k) : ℕ × ℕ)).map fun p => w.getD p.2 0 := by
    refine List.ext_getElem (by simp [hwl]) fun k k1 k2 => ?_
    simp [k1]
  rw [show T.get w = T.get (((List.range A.ndim).map fun k => ((1, k) : ℕ × ℕ)).map fun p => w.getD p.2 0) by rw [← hwe],
    t2.get _ (by
      intro p hp
      obtain ⟨k, hk, rfl⟩ := List.mem_map.1 hp
      have hk' := List.mem_range.1 hk
      simp only [dim2]
      exact hw.getD_lt hk' 0 1), sum_ket]
  have h3 : A.shape = (List.range A.ndim).map fun k => A.shape.getD k 1 := by
    refine List.ext_getElem (by simp) fun k k1 k2 => ?_
    simp [k1]
  conv_rhs => rw [h3]
  rw [sumIdx_eq_sumOver (fun k => A.shape.getD k 1) List.nodup_range _ (fun k => w.getD k 0), hK]
  refine sumOver_congr fun u _ _ => ?_
  congr 2
  rw [hes, List.map_map]
  refine List.map_congr_left fun k hk => ?_
  have hk' := List.mem_range.1 hk
  simp [hk']

end TreeSum

namespace Heap

variable {R : Type} [CommRing R] [StarRing R]

theorem means_opEntry {e : Option (Nd R)} {n : ℕ} (h : OpFits e n n) : Means e n (opEntry e) := by
  cases e with
  | none => exact fun v _ w _ => rfl
  | some M => exact ⟨h.1, h.2, fun v _ w _ => rfl⟩

/-- A mean field, as computed by `partial_env(i, proper=True)`. -/
theorem field_ok {h0 h : Heap R} {r : ℕ} {F : Forest} (ht : h0.IsTTN r F) (ho : h0.OpsFit r F) {t : ℕ}
    (hm : t ∈ h0.tensors r F) {i : ℕ} (hk : h0.acc t i ≠ none) (hc : SameCore h h0) (hs : Sound (InNet r F) h0 h false)
    {fuel : ℕ} (hf : F.ids.length < fuel) :
    ∃ h' ans E, partialEnvProper fuel h t i false = .ok (h', ans) ∧ SameCore h' h0 ∧ Sound (InNet r F) h0 h' false ∧
      IsField h0 t i E ∧ Means ans (h0.hdim (t, i)) E := by
  obtain ⟨⟨c, j⟩, hcj⟩ := Option.ne_none_iff_exists'.1 hk
  have hmt := mem_tensors.1 hm
  have hpe : partialEnvProper fuel h t i false = partialEnv fuel h c (some j) false := by
    unfold partialEnvProper
    rw [hc.isLeaf, hmt.2]
    simp only [Bool.false_eq_true, if_false]
    have : (h.access t).get! i = .ok (c, j) := by
      rw [hc.access]
      unfold Dict.get!
      have h1 : Dict.get? (h0.access t) i = some (c, j) := hcj
      rw [h1]
    rw [this]
    rfl
  have hnet : c = r ∨ c ∈ F.ids := by
    refine (ht.mem_linked c).2 (((ht.mem_linked t).1 hmt.1).trans ?_)
    exact Relation.ReflTransGen.single ⟨i, j, hcj⟩
  cases hl : h0.isLeaf c with
  | true =>
    obtain ⟨-, -, p3, -⟩ := edges_props ht.links.wf ht.links.sym ht.tree ht.leaf
    have hfit : OpFits (h0.array c) (h0.hdim (t, i)) (h0.hdim (t, i)) := by
      rcases p3 t i c j ((ht.mem_linked t).1 hmt.1) hcj with q | q
      · exact ho _ q hl
      · have := Forest.edges_src_leaf ht.leaf ht.tree.leafEnd q
        rw [hl] at this; cases this
    refine ⟨h, h0.array c, opEntry (h0.array c), ?_, hc, hs, ⟨c, j, hcj, .inl ⟨hl, rfl⟩⟩, ?_⟩
    · rw [hpe]
      obtain ⟨f, rfl⟩ : ∃ f, fuel = f + 1 := ⟨fuel - 1, by omega⟩
      rw [partialEnv_succ, hc.isLeaf, hl, if_pos rfl, hc.array]
      simp
    · exact means_opEntry hfit
  | false =>
    have hmc : c ∈ h0.tensors r F := mem_tensors.2 ⟨hnet, hl⟩
    have hback : h0.acc c j = some (t, i) := ht.links.sym _ _ _ _ hcj
    obtain ⟨h', ans, G, e1, e2, e3, e4, e5⟩ := call_ok ht ho hmc (by rw [hback]; simp) hnet (fun _ => ht.inNet hmc) hc hs hf
    refine ⟨h', ans, h0.branchEnv c j G, hpe.trans e1, e2, e3, ⟨c, j, hcj, .inr ⟨hl, G, e4, rfl⟩⟩, ?_⟩
    rw [ht.link_dims hm hmc hcj]
    exact e5

end Heap

namespace ML

open Heap

variable {T R : Type} [Zero T] [Field R] [StarRing R]

/-- The values in `env_` fit (they may be outdated). -/
def EnvFits (s : Obj T R) : Prop :=
  ∀ n t i v, s.env.get? (n, t, i) = some v → OpFits v (s.heap.hdim (t, i)) (s.heap.hdim (t, i))

/-- Where the mean fields of a tensor come from: either all of them are stored (`full`), or those that are not stored are computed in `h0`, and
then `h1`, the network they are compared with, is `h0`. -/
def Src (full : Prop) (h1 h0 : Heap R) (r : ℕ) (F : Forest) (h : Heap R) : Prop :=
  full ∨ (h1 = h0 ∧ h0.OpsFit r F ∧ Sound (InNet r F) h0 h false)

theorem meanField_ok {h0 : Heap R} {r : ℕ} {F : Forest} (ht : h0.IsTTN r F) {h1 : Heap R} {full : Prop} {t : ℕ}
    (hd : ∀ i, h1.hdim (t, i) = h0.hdim (t, i))
    (hm : t ∈ h0.tensors r F) {i : ℕ} (hk : h0.acc t i ≠ none) {s : Obj T R} (hc : SameCore s.heap h0)
    (hs : Src full h1 h0 r F s.heap) {n : ℕ}
    (he : ∀ v, s.env.get? (n, t, i) = some v → OpFits v (h0.hdim (t, i)) (h0.hdim (t, i))) (hfull : full → s.env.get? (n, t, i) ≠ none)
    {fuel : ℕ} (hf : F.ids.length < fuel) :
    ∃ h' ans E, meanField fuel false n t i s = .ok ({ s with heap := h' }, ans) ∧ SameCore h' h0 ∧
      Src full h1 h0 r F h' ∧ Means ans (h0.hdim (t, i)) E ∧ ((∀ v, s.env.get? (n, t, i) = some v → FieldIs h1 t i v) → IsField h1 t i E) := by
  unfold meanField
  cases hq : s.env.get? (n, t, i) with
  | some v =>
    by_cases q : FieldIs h1 t i v
    · obtain ⟨E, e1, e2⟩ := q
      exact ⟨s.heap, v, E, rfl, hc, hs, by rw [← hd]; exact e2, fun _ => e1⟩
    · exact ⟨s.heap, v, opEntry v, rfl, hc, hs, means_opEntry (he v hq), fun q' => absurd (q' v rfl) q⟩
  | none =>
    rcases hs with hs | ⟨rfl, ho, hs⟩
    · exact absurd hq (hfull hs)
    · obtain ⟨h', ans, E, e1, e2, e3, e4, e5⟩ := field_ok ht ho hm hk hc hs hf
      exact ⟨h', ans, E, by simp only [e1, ok_bind]; rfl, e2, .inr ⟨rfl, ho, e3⟩, e5, fun _ => e4⟩

theorem applyFields_eq {h0 : Heap R} {r : ℕ} {F : Forest} (ht : h0.IsTTN r F) {h1 : Heap R} {full : Prop} {t : ℕ}
    (hd : ∀ i, h1.hdim (t, i) = h0.hdim (t, i))
    (hm : t ∈ h0.tensors r F) {n : ℕ} {fuel : ℕ} (hf : F.ids.length < fuel) (is : List ℕ)
    (hk : ∀ i ∈ is, h0.acc t i ≠ none) (s : Obj T R) (hc : SameCore s.heap h0)
    (hs : Src full h1 h0 r F s.heap)
    (he : ∀ i v, s.env.get? (n, t, i) = some v → OpFits v (h0.hdim (t, i)) (h0.hdim (t, i)))
    (hfull : full → ∀ i, h0.acc t i ≠ none → s.env.get? (n, t, i) ≠ none) (a : Nd R) :
    ∃ (h' : Heap R) (env : List (ℕ × Option (Nd R))), applyFields fuel false n t is (s, a) =
        (env.foldlM (fun a p => Tensor.partialProduct a p.1 p.2) a).map (fun T => ({ s with heap := h' }, T)) ∧
      SameCore h' h0 ∧ Src full h1 h0 r F h' ∧
      List.Forall₂ (fun i p => p.1 = i ∧ ∃ E, Means p.2 (h0.hdim (t, i)) E ∧ ((∀ v, s.env.get? (n, t, i) = some v → FieldIs h1 t i v) → IsField h1 t i E))
        is env := by
  induction is generalizing s a with
  | nil => exact ⟨s.heap, [], rfl, hc, hs, List.Forall₂.nil⟩
  | cons i is ih =>
    obtain ⟨h2, ans, E, e1, e2, e3, e4, e5⟩ := meanField_ok (s := s) ht hd hm (hk i (by simp)) hc hs (he i)
      (fun q => hfull q i (hk i (by simp))) hf
    have step : applyFields fuel false n t (i :: is) (s, a) = (Tensor.partialProduct a i ans).bind fun a' =>
        applyFields fuel false n t is ({ s with heap := h2 }, a') := by
      unfold applyFields
      rw [List.foldlM_cons]
      simp only [e1, ok_bind]
      cases Tensor.partialProduct a i ans <;> rfl
    cases hp : Tensor.partialProduct a i ans with
    | error er =>
      obtain ⟨h3, env, -, g2, g3, g4⟩ := ih (fun j hj => hk j (by simp [hj])) { s with heap := h2 } e2 e3 he hfull a
      refine ⟨h3, (i, ans) :: env, ?_, g2, g3, List.Forall₂.cons ⟨rfl, E, e4, e5⟩ g4⟩
      rw [step, hp, List.foldlM_cons, hp]
      rfl
    | ok a' =>
      obtain ⟨h3, env, g1, g2, g3, g4⟩ := ih (fun j hj => hk j (by simp [hj])) { s with heap := h2 } e2 e3 he hfull a'
      refine ⟨h3, (i, ans) :: env, ?_, g2, g3, List.Forall₂.cons ⟨rfl, E, e4, e5⟩ g4⟩
      rw [step, hp, List.foldlM_cons, hp]
      exact g1

theorem forall₂_choose {α γ : Type} (d : γ) {P : ℕ → α → γ → Prop} {l : List ℕ} (hl : l.Nodup) {m : List (ℕ × α)}
    (h : List.Forall₂ (fun i p => p.1 = i ∧ ∃ c, P i p.2 c) l m) :
    ∃ f : ℕ → γ, List.Forall₂ (fun i p => p.1 = i ∧ P i p.2 (f i)) l m := by
  induction h with
  | nil => exact ⟨fun _ => d, List.Forall₂.nil⟩
  | @cons i p l m q _ ih =>
    obtain ⟨n1, n2⟩ := List.nodup_cons.1 hl
    obtain ⟨f, hf⟩ := ih n2
    obtain ⟨q1, c, q2⟩ := q
    refine ⟨fun j => if j = i then c else f j, List.Forall₂.cons ⟨q1, by simpa using q2⟩ ?_⟩
    have : ∀ {l' : List ℕ} {m' : List (ℕ × α)}, List.Forall₂ (fun i p => p.1 = i ∧ P i p.2 (f i)) l' m' → i ∉ l' →
        List.Forall₂ (fun j p => p.1 = j ∧ P j p.2 (if j = i then c else f j)) l' m' := by
      intro l' m' h'
      induction h' with
      | nil => exact fun _ => List.Forall₂.nil
      | cons q _ ih =>
        intro hn
        rw [List.mem_cons, not_or] at hn
        refine List.Forall₂.cons ⟨q.1, ?_⟩ (ih hn.2)
        rw [if_neg (fun e => hn.1 e.symm)]
        exact q.2
    exact this hf n1

theorem valid_insert {S p : List ℕ} {k n z : ℕ} (hk : k < S.length) (hn : S.getD k 1 = n) (hp : Valid (S.eraseIdx k) p)
    (hz : z < n) : Valid S (p.insertIdx k z) := by
  obtain ⟨v1, v2, v3⟩ := Tensor.valid_parts hk hp
  rw [Tensor.insertIdx_eq v3]
  have h1 := Tensor.set_self_shape hk hn
  rw [List.append_assoc] at h1
  rw [← h1]
  exact valid_append v1 (by simpa [valid_cons_cons] using ⟨hz, v2⟩)

/-- The array with all mean fields applied. -/
noncomputable def fieldSum (A : Nd R) (E : ℕ → ℕ → ℕ → R) (w : List ℕ) : R :=
  sumIdx A.shape fun v => A.get v * ((List.range A.ndim).map fun k => E k (v.getD k 0) (w.getD k 0)).prod

/-- What `_single_eom` returns at a tensor: the fields applied; and, if there is an axis, the inverse density and the projector. -/
theorem singleEom_ok {h0 : Heap R} {r : ℕ} {F : Forest} (ht : h0.IsTTN r F) {h1 : Heap R} {full : Prop} {t : ℕ}
    (hd : ∀ i, h1.hdim (t, i) = h0.hdim (t, i))
    (hm : t ∈ h0.tensors r F) {n : ℕ} {fuel : ℕ} (hf : F.ids.length < fuel) {s : Obj T R} (hc : SameCore s.heap h0)
    (hs : Src full h1 h0 r F s.heap)
    (he : ∀ i v, s.env.get? (n, t, i) = some v → OpFits v (h0.hdim (t, i)) (h0.hdim (t, i)))
    (hfull : full → ∀ i, h0.acc t i ≠ none → s.env.get? (n, t, i) ≠ none) {inv : Dict ℕ (Nd R)}
    (hkk : ∀ k, (h0.node t).axis = some k → h0.acc t k ≠ none)
    (hi : ∀ k, (h0.node t).axis = some k → ∃ M, inv.get? t = some M ∧ M.shape = [h0.hdim (t, k), h0.hdim (t, k)]) {A : Nd R} (hA : h0.Full t A) :
    ∃ h' D E, singleEom fuel false inv t n s = .ok ({ s with heap := h' }, D) ∧ SameCore h' h0 ∧
      Src full h1 h0 r F h' ∧ D.Wf ∧ D.shape = A.shape ∧
      (∀ i < A.ndim, (∀ v, s.env.get? (n, t, i) = some v → FieldIs h1 t i v) → IsField h1 t i (E i)) ∧
      match (h0.node t).axis with
      | none => ∀ w, Valid A.shape w → D.get w = fieldSum A E w
      | some k => ∃ M, inv.get? t = some M ∧ ∀ p z, Valid (A.shape.eraseIdx k) p → z < h0.hdim (t, k) →
        D.get (p.insertIdx k z) = (∑ c ∈ Finset.range (h0.hdim (t, k)), fieldSum A E (p.insertIdx k c) * M.get [c, z]) -
          ∑ b ∈ Finset.range (h0.hdim (t, k)), A.get (p.insertIdx k b) * sumIdx (A.shape.eraseIdx k) fun q =>
            (∑ c ∈ Finset.range (h0.hdim (t, k)), fieldSum A E (q.insertIdx k c) * M.get [c, z]) *
              star (A.get (q.insertIdx k b)) := by
  have hord : s.heap.order t = A.ndim := by
    rw [← hA.order ht.links.wf]
    unfold Heap.order
    rw [hc.isLeaf, hc.access]
  have hk : ∀ i ∈ List.range A.ndim, h0.acc t i ≠ none := fun i hi => (hA.acc i).2 (List.mem_range.1 hi)
  obtain ⟨h', env, g1, g2, g3, g4⟩ := applyFields_eq ht hd hm hf (List.range A.ndim) hk s hc hs he hfull A
  obtain ⟨E, hE⟩ := forall₂_choose (γ := ℕ → ℕ → R) (fun _ _ => 0) (P := fun i e E => Means e (h0.hdim (t, i)) E ∧
    ((∀ v, s.env.get? (n, t, i) = some v → FieldIs h1 t i v) → IsField h1 t i E)) List.nodup_range g4
  have hE1 : List.Forall₂ (fun i p => p.1 = i ∧ Means p.2 (A.shape.getD i 1) (E i)) (List.range A.ndim) env :=
    hE.imp fun i p q => ⟨q.1, by rw [← hA.hdim_eq]; exact q.2.1⟩
  obtain ⟨X, x1, x2, x3, x4⟩ := TreeSum.fold_full hA.wf hE1
  rw [x1] at g1
  have hfields : ∀ i < A.ndim, (∀ v, s.env.get? (n, t, i) = some v → FieldIs h1 t i v) → IsField h1 t i (E i) := by
    have : ∀ {l : List ℕ} {env : List (ℕ × Option (Nd R))}, List.Forall₂ (fun i p => p.1 = i ∧ Means p.2 (h0.hdim (t, i)) (E i) ∧
        ((∀ v, s.env.get? (n, t, i) = some v → FieldIs h1 t i v) → IsField h1 t i (E i))) l env →
        ∀ i ∈ l, (∀ v, s.env.get? (n, t, i) = some v → FieldIs h1 t i v) → IsField h1 t i (E i) := by
      intro l env q
      induction q with
      | nil => intro i hi; cases hi
      | cons q1 _ ih =>
        intro j hj
        rcases List.mem_cons.1 hj with rfl | hj
        · exact q1.2.2
        · exact ih j hj
    exact fun i hi => this hE i (List.mem_range.2 hi)
  have hax : ((h' : Heap R).node t).axis = (h0.node t).axis := g2.axis t
  have harr : s.heap.array t = some A := (hc.array t).trans hA.array
  cases hx : (h0.node t).axis with
  | none =>
    refine ⟨h', X, E, ?_, g2, g3, x2, x3, hfields, fun w hw => x4 w hw⟩
    unfold singleEom
    rw [harr]
    simp only [hord, g1, Except.map, ok_bind, hax, hx]
    rfl
  | some k =>
    obtain ⟨M, m1, m2⟩ := hi k hx
    have hkA : k < A.ndim := (hA.acc k).1 (hkk k hx)
    have hdk : A.shape.getD k 1 = h0.hdim (t, k) := (hA.hdim_eq k).symm
    obtain ⟨D, d1, d2, d3, d4⟩ := project_ok (tmp := X) (inv := M) hkA hdk (hA.hdim_pos k).ne' x3 m2
    refine ⟨h', D, E, ?_, g2, g3, d2, d3, hfields, M, m1, fun p z hp hz => ?_⟩
    · unfold singleEom
      rw [harr]
      simp only [hord, g1, Except.map, ok_bind, hax, hx]
      unfold Dict.get!
      rw [m1]
      simp only [ok_bind, d1]
      rfl
    · have hval : ∀ q c, Valid (A.shape.eraseIdx k) q → c < h0.hdim (t, k) → X.get (q.insertIdx k c) = fieldSum A E (q.insertIdx k c) :=
        fun q c hq hc => x4 _ (valid_insert hkA hdk hq hc)
      rw [d4 p z hp hz]
      congr 1
      · exact Finset.sum_congr rfl fun c hc => by rw [hval p c hp (Finset.mem_range.1 hc)]
      · refine Finset.sum_congr rfl fun b _ => ?_
        congr 1
        refine sumIdx_congr fun q hq => ?_
        congr 1
        exact Finset.sum_congr rfl fun c hc => by rw [hval q c hq (Finset.mem_range.1 hc)]

end ML
