import Verif.Lemmas.Dirac3
import Mathlib.Algebra.Polynomial.Eval.Defs
import Mathlib.Algebra.Polynomial.Eval.Degree
import Mathlib.Algebra.Polynomial.Coeff

/-!
The state as a function of a simultaneous change of all arrays; the Euler step.
-/

open scoped BigOperators
open Py

namespace Heap

variable {R : Type} [CommRing R] [StarRing R]

/-- `k` has the arrays of `h`, but `A + dt D` for the tensors in `l`. -/
structure Moved1 (h : Heap R) (r : ℕ) (F : Forest) (l : List ℕ) (D : ℕ → Nd R) (dt : R) (k : Heap R) : Prop where
  acc : ∀ t i, k.acc t i = h.acc t i
  leaf : ∀ t, k.isLeaf t = h.isLeaf t
  ttn : k.IsTTN r F
  same : ∀ t ∈ h.tensors r F, t ∉ l → k.array t = h.array t
  moved : ∀ t ∈ l, ∀ A, h.array t = some A → ∃ C, k.array t = some C ∧ C.shape = A.shape ∧
    ∀ w, Valid A.shape w → C.get w = A.get w + dt * (D t).get w

open Polynomial in
/-- The state is a polynomial in the size of the step, and its linear term is given by the product rule. -/
theorem amp_poly {r : ℕ} {F : Forest} {D : ℕ → Nd R} {x : ℕ → ℕ} (l : List ℕ) : ∀ (h : Heap R), h.IsTTN r F →
    h.InRange (h.tensors r F) x → l.Nodup → (∀ t ∈ l, t ∈ h.tensors r F) →
    (∀ t ∈ l, ∀ A, h.array t = some A → (D t).Wf ∧ (D t).shape = A.shape) →
    ∃ p : R[X], p.coeff 0 = h.treeAmp r F x ∧ p.coeff 1 = (l.map fun t => (h.setArray t (some (D t))).treeAmp r F x).sum ∧
      ∀ dt k, Moved1 h r F l D dt k → k.treeAmp r F x = p.eval dt := by
  induction l with
  | nil =>
    intro h ht hx _ _ _
    refine ⟨C (h.treeAmp r F x), by simp, by simp [coeff_C], fun dt k hk => ?_⟩
    rw [eval_C]
    exact treeAmp_congr_on ht (fun t hm => hk.same t hm (by simp)) hk.acc hk.leaf x
  | cons t l ih =>
    intro h ht hx hn hm hD
    obtain ⟨n1, n2⟩ := List.nodup_cons.1 hn
    have hmt := hm t (by simp)
    obtain ⟨A, hA⟩ := ht.full t hmt
    obtain ⟨d1, d2⟩ := hD t (by simp) A hA.array
    have e1 : Alike h (h.setArray t (some (D t))) := .setArray h hA.array d1 d2
    have ht1 := e1.ttn ht
    have htens : (h.setArray t (some (D t))).tensors r F = h.tensors r F := by unfold tensors; simp only [e1.leaf]
    have hx1 : (h.setArray t (some (D t))).InRange ((h.setArray t (some (D t))).tensors r F) x := by
      rw [htens]
      intro u hu k l' m q1 q2
      rw [acc_setArray] at q1
      rw [hdim_setArray hA.array d2]
      exact hx u hu k l' m q1 q2
    have harr1 : ∀ u, u ≠ t → (h.setArray t (some (D t))).array u = h.array u := fun u q => by
      rw [array_setArray, if_neg q]
    obtain ⟨p1, a1, a2, a3⟩ := ih h ht hx n2 (fun u hu => hm u (by simp [hu])) (fun u hu => hD u (by simp [hu]))
    obtain ⟨p2, b1, b2, b3⟩ := ih (h.setArray t (some (D t))) ht1 hx1 n2 (fun u hu => by rw [htens]; exact hm u (by simp [hu]))
      (fun u hu B hB => hD u (by simp [hu]) B (by rw [← harr1 u (fun q => n1 (q ▸ hu))]; exact hB))
    refine ⟨p1 + X * p2, by simp [a1], ?_, fun dt k hk => ?_⟩
    · rw [coeff_add, a2, coeff_X_mul, b1, List.map_cons, List.sum_cons, add_comm]
    · obtain ⟨C, c1, c2, c3⟩ := hk.moved t (by simp) A hA.array
      have hkt : k.tensors r F = h.tensors r F := by unfold tensors; simp only [hk.leaf]
      have hkb : k.bonds r F = h.bonds r F := by unfold bonds; simp only [hk.leaf]
      have hfull : k.Full t C := by
        obtain ⟨C', hC'⟩ := hk.ttn.full t (by rw [hkt]; exact hmt)
        obtain rfl : C = C' := Option.some.inj (c1.symm.trans hC'.array)
        exact hC'
      have hxk : k.InRange (k.tensors r F) x := by
        rw [hkt]
        intro u hu i l' m q1 q2
        rw [hk.acc] at q1
        have : k.hdim (u, i) = h.hdim (u, i) := by
          obtain ⟨Au, hAu⟩ := ht.full u hu
          have : ∃ Cu, k.array u = some Cu ∧ Cu.shape = Au.shape := by
            by_cases q : u ∈ t :: l
            · obtain ⟨Cu, q1, q2, -⟩ := hk.moved u q Au hAu.array
              exact ⟨Cu, q1, q2⟩
            · exact ⟨Au, (hk.same u hu q).trans hAu.array, rfl⟩
          obtain ⟨Cu, q1, q2⟩ := this
          unfold hdim
          simp only [q1, hAu.array, q2]
        rw [this]
        exact hx u hu i l' m q1 q2
      have key : ∀ (B : Nd R), B.Wf → B.shape = A.shape →
          Moved1 (h.setArray t (some B)) r F l D dt (k.setArray t (some B)) := by
        intro B hB hBs
        have eA : Alike h (h.setArray t (some B)) := .setArray h hA.array hB hBs
        have eC : Alike k (k.setArray t (some B)) := .setArray k c1 hB (hBs.trans c2.symm)
        refine ⟨fun u i => by rw [acc_setArray, acc_setArray, hk.acc], fun u => by rw [eC.leaf, eA.leaf, hk.leaf], eC.ttn hk.ttn, ?_, ?_⟩
        · intro u hu hul
          rw [array_setArray, array_setArray]
          split
          · rfl
          · rename_i q
            refine hk.same u ?_ (by simp [q, hul])
            have : (h.setArray t (some B)).tensors r F = h.tensors r F := by unfold tensors; simp only [eA.leaf]
            rw [← this]
            exact hu
        · intro u hu Au hAu
          have q : u ≠ t := fun q => n1 (q ▸ hu)
          rw [array_setArray, if_neg q] at hAu ⊢
          exact hk.moved u (by simp [hu]) Au hAu
      have hself : ∀ {g : Heap R} {B : Nd R}, g.array t = some B → g.setArray t (some B) = g := by
        intro g B hB
        have hn : (g.node t).array = some B := hB
        have e : (g.setArray t (some B)).node = g.node := by
          funext u
          rw [node_setArray]
          split
          · rename_i q
            subst q
            rw [← hn]
          · rfl
        have : g.setArray t (some B) = { node := (g.setArray t (some B)).node, next := g.next } := rfl
        rw [this, e]
      have k0 := key A hA.wf rfl
      rw [hself hA.array] at k0
      have lin := hk.ttn.isNet.amp_lin hxk (by rw [hkt]; exact hmt) hfull rfl (Finset.univ : Finset Bool) (fun b => if b then 1 else dt)
        (fun b => if b then A else D t) (fun b => by cases b <;> simp [c2, d2]) (fun w hw => by
          rw [c2] at hw
          simp [c3 w hw])
      rw [hself c1] at lin
      simp only [Fintype.sum_bool, if_true, Bool.false_eq_true, if_false, one_mul] at lin
      have hamp : ∀ {g : Heap R}, (∀ u, g.isLeaf u = k.isLeaf u) → g.amp (k.tensors r F) (k.bonds r F) x = g.treeAmp r F x := by
        intro g hg
        unfold treeAmp tensors bonds
        simp only [hg]
      rw [hamp fun _ => rfl, hamp (Alike.setArray k c1 hA.wf c2.symm).leaf, hamp (Alike.setArray k c1 d1 (d2.trans c2.symm)).leaf,
        a3 dt _ k0, b3 dt _ (key (D t) d1 d2)] at lin
      rw [lin, eval_add, eval_mul, eval_X]

end Heap

namespace ML

open Heap

variable {T R : Type} [Zero T] [Field R] [StarRing R]

/-- The loop of an Euler step. -/
theorem euler_fold {h0 : Heap R} {r : ℕ} {F : Forest} (ht : h0.IsTTN r F) (dt : R) (D : ℕ → Nd R)
    (hD : ∀ t ∈ h0.tensors r F, ∀ A, h0.array t = some A → (h0.node t).aux = some (D t) ∧ (D t).Wf ∧ (D t).shape = A.shape) :
    ∃ k, (h0.tensors r F).foldlM (eulerAt dt) h0 = .ok k ∧ Moved1 h0 r F (h0.tensors r F) D dt k ∧
      (∀ t ∈ h0.tensors r F, (k.node t).aux = none) ∧ ∀ t, t ∉ h0.tensors r F → k.node t = h0.node t := by
  have key : ∀ (l : List ℕ), l.Nodup → (∀ t ∈ l, t ∈ h0.tensors r F) → ∀ h : Heap R, Alike h0 h →
      (∀ t ∈ l, h.node t = h0.node t) → ∃ k, l.foldlM (eulerAt dt) h = .ok k ∧ Alike h0 k ∧ (∀ t, t ∉ l → k.node t = h.node t) ∧
        ∀ t ∈ l, (k.node t).aux = none ∧ ∀ A, h0.array t = some A → ∃ C, k.array t = some C ∧ C.shape = A.shape ∧
          ∀ w, Valid A.shape w → C.get w = A.get w + dt * (D t).get w := by
    intro l
    induction l with
    | nil => intro _ _ h e _; exact ⟨h, rfl, e, fun _ _ => rfl, by simp⟩
    | cons t l ih =>
      intro hn hm h e hs
      obtain ⟨n1, n2⟩ := List.nodup_cons.1 hn
      obtain ⟨A, hA⟩ := ht.full t (hm t (by simp))
      obtain ⟨d1, d2, d3⟩ := hD t (hm t (by simp)) A hA.array
      have hnode := hs t (by simp)
      have harr : h.array t = some A := by unfold Heap.array; rw [hnode]; exact hA.array
      have haux : (h.node t).aux = some (D t) := by rw [hnode]; exact d1
      obtain ⟨C, c1, c2, c3, c4⟩ := Nd.add_ok (a := A) (b := ⟨(D t).shape, (D t).data.map (dt * ·)⟩) hA.wf
        (by unfold Nd.Wf at *; simpa using d2) d3.symm
      have estep : eulerAt dt h t = .ok ((h.setArray t (some C)).setAux t none) := by
        unfold eulerAt
        rw [harr, haux]
        simp only
        rw [c1]
        rfl
      set h1 := (h.setArray t (some C)).setAux t none with hh1
      have hnode1 : ∀ u, h1.node u = if u = t then { h.node u with array := some C, aux := none } else h.node u := by
        intro u
        rw [hh1]
        unfold setAux
        rw [node_upd]
        by_cases q : u = t
        · subst q; rw [if_pos rfl, if_pos rfl, node_setArray, if_pos rfl]
        · rw [if_neg q, if_neg q, node_setArray, if_neg q]
      have e1 : Alike h0 h1 := by
        refine ⟨fun c => ?_, e.next, fun c => ?_, fun c => ?_, fun c A' hl hA' hw => ?_⟩
        · rw [← e.access]; unfold Heap.access; rw [hnode1]; split <;> rfl
        · rw [← e.leaf]; unfold Heap.isLeaf; rw [hnode1]; split <;> rfl
        · rw [← e.name, hnode1]; split <;> rfl
        · unfold Heap.array
          rw [hnode1]
          split
          · rename_i q
            subst q
            rw [hA.array] at hA'
            cases hA'
            exact ⟨C, rfl, c2, c3⟩
          · exact e.arr c A' hl hA' hw
      obtain ⟨k, g1, g2, g3, g4⟩ := ih n2 (fun u hu => hm u (by simp [hu])) h1 e1 (fun u hu => by
        have q : u ≠ t := fun q => n1 (q ▸ hu)
        rw [hnode1, if_neg q]
        exact hs u (by simp [hu]))
      refine ⟨k, by rw [List.foldlM_cons, estep]; exact g1, g2, fun u hu => ?_, fun u hu => ?_⟩
      · simp only [List.mem_cons, not_or] at hu
        rw [g3 u hu.2, hnode1, if_neg hu.1]
      · rcases List.mem_cons.1 hu with rfl | hu
        · have hk := g3 u n1
          rw [hnode1, if_pos rfl] at hk
          refine ⟨by rw [hk], fun A' hA' => ?_⟩
          obtain rfl : A = A' := Option.some.inj (hA.array.symm.trans hA')
          refine ⟨C, by unfold Heap.array; rw [hk], c3, fun w hw => ?_⟩
          rw [c4 w hw]
          congr 1
          exact map_get d2 _ (by rw [d3]; exact hw)
        · exact g4 u hu
  have hnd := ht.isNet.nodup
  obtain ⟨k, g1, g2, g3, g4⟩ := key _ hnd (fun _ q => q) h0
    ⟨fun _ => rfl, rfl, fun _ => rfl, fun _ => rfl, fun c A _ hA hw => ⟨A, hA, hw, rfl⟩⟩ (fun _ _ => rfl)
  exact ⟨k, g1, ⟨fun t i => by rw [Heap.acc_def, g2.access, ← Heap.acc_def], g2.leaf, g2.ttn ht, fun t hm q => absurd hm q, fun t hm => (g4 t hm).2⟩,
    fun t hm => (g4 t hm).1, g3⟩

end ML
