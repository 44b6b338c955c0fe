import Verif.Spec.TermVisitor
import Verif.Lemmas.Env4

/-!
The pass over the terms of an operator.
-/

open Py

namespace Heap

variable {R : Type}

theorem Sim.rfl' {f : Node R → Node R} (h : Heap R) : Sim f h h := ⟨rfl, fun _ => rfl⟩

theorem Sim.trans {f : Node R → Node R} {h h' h'' : Heap R} (e : Sim f h h') (e' : Sim f h' h'') : Sim f h h'' :=
  ⟨e.1.trans e'.1, fun t => (e.2 t).trans (e'.2 t)⟩

theorem Sim.symm {f : Node R → Node R} {h h' : Heap R} (e : Sim f h h') : Sim f h' h :=
  ⟨e.1.symm, fun t => (e.2 t).symm⟩

/-- Both kinds of changes. -/
def Sim2 (h h' : Heap R) : Prop := Sim (fun n => noOps (noAux n)) h h'

theorem noOps_noAux_comm (n : Node R) : noOps (noAux n) = noAux (noOps n) := rfl

theorem Sim.ops {h h' : Heap R} (e : Sim noOps h h') : Sim2 h h' :=
  ⟨e.1, fun t => by show noOps (noAux _) = noOps (noAux _); rw [noOps_noAux_comm, noOps_noAux_comm, e.2 t]⟩

theorem Sim.aux {h h' : Heap R} (e : Sim noAux h h') : Sim2 h h' :=
  ⟨e.1, fun t => by show noOps (noAux _) = noOps (noAux _); rw [e.2 t]⟩

theorem Sim2.isLeaf {h h' : Heap R} (e : Sim2 h h') (t : ℕ) : h.isLeaf t = h'.isLeaf t := by
  have := congrArg Node.isLeaf (e.2 t); exact this

theorem Sim2.access {h h' : Heap R} (e : Sim2 h h') (t : ℕ) : h.access t = h'.access t := by
  have := congrArg Node.access (e.2 t); exact this

theorem Sim2.acc {h h' : Heap R} (e : Sim2 h h') (t k : ℕ) : h.acc t k = h'.acc t k := by
  rw [acc_def, e.access, ← acc_def]

theorem Sim2.axis {h h' : Heap R} (e : Sim2 h h') (t : ℕ) : (h.node t).axis = (h'.node t).axis := by
  have := congrArg Node.axis (e.2 t); exact this

theorem Sim2.name {h h' : Heap R} (e : Sim2 h h') (t : ℕ) : (h.node t).name = (h'.node t).name := by
  have := congrArg Node.name (e.2 t); exact this

theorem Sim2.normalized {h h' : Heap R} (e : Sim2 h h') (t : ℕ) : (h.node t).normalized = (h'.node t).normalized := by
  have := congrArg Node.normalized (e.2 t); exact this

theorem Sim2.array {h h' : Heap R} (e : Sim2 h h') {t : ℕ} (hl : h.isLeaf t = false) : h.array t = h'.array t := by
  have h1 := congrArg Node.array (e.2 t)
  have h2 : (h.node t).isLeaf = false := hl
  have h3 : (h'.node t).isLeaf = false := by rw [← h2]; exact (e.isLeaf t).symm
  simp only [noOps, noAux, h2, h3, Bool.false_eq_true, if_false] at h1
  exact h1

theorem Sim2.tensors {h h' : Heap R} (e : Sim2 h h') (r : ℕ) (F : Forest) : h.tensors r F = h'.tensors r F := by
  unfold Heap.tensors; simp only [e.isLeaf]

section
variable [CommRing R]

theorem Sim2.ttn {h h' : Heap R} (e : Sim2 h h') {r : ℕ} {F : Forest} (ht : h.IsTTN r F) : h'.IsTTN r F :=
  ht.congr' (fun c => (e.access c).symm) e.1.symm (fun c => (e.isLeaf c).symm) (fun c => (e.name c).symm)
    fun c A hl hA hw => ⟨A, by rw [← e.array hl]; exact hA, hw, rfl⟩

end

theorem noOps_reset (h : Heap R) (t : ℕ) : Sim noOps (h.reset t) h := by
  refine ⟨rfl, fun u => ?_⟩
  unfold reset
  rw [node_upd]
  split
  · rename_i q; subst q
    unfold noOps
    split <;> simp_all
  · rfl

theorem noOps_loadCache (h : Heap R) (t i : ℕ) (v : Option (Nd R)) : Sim noOps (h.loadCache t i v) h := by
  refine ⟨rfl, fun u => ?_⟩
  unfold loadCache
  rw [node_upd]
  split
  · rename_i q; subst q; rfl
  · rfl

theorem foldl_sim {α : Type} {f : Node R → Node R} {g : Heap R → α → Heap R} (hg : ∀ h a, Sim f (g h a) h) (l : List α)
    (h : Heap R) : Sim f (l.foldl g h) h := by
  induction l generalizing h with
  | nil => exact Sim.rfl' h
  | cons a l ih => exact (ih (g h a)).trans (hg h a)

theorem array_reset_leaf (h : Heap R) {t : ℕ} (ht : h.isLeaf t = true) (u : ℕ) :
    (h.reset t).array u = if u = t then none else h.array u := by
  unfold reset Heap.array
  rw [node_upd]
  split
  · rename_i q; subst q
    have : (h.node u).isLeaf = true := ht
    simp [this]
  · rfl

theorem array_reset_tensor (h : Heap R) {t : ℕ} (ht : h.isLeaf t = false) (u : ℕ) :
    (h.reset t).array u = h.array u := by
  unfold reset Heap.array
  rw [node_upd]
  split
  · rename_i q; subst q
    have : (h.node u).isLeaf = false := ht
    simp [this]
  · rfl

theorem isLeaf_reset (h : Heap R) (t u : ℕ) : (h.reset t).isLeaf u = h.isLeaf u :=
  (noOps_reset h t).ops.isLeaf u

/-- Resetting a list of objects empties the leaves in it. -/
theorem foldl_reset (l : List ℕ) (h : Heap R) :
    ∀ u, h.isLeaf u = true → (l.foldl Heap.reset h).array u = if u ∈ l then none else h.array u := by
  induction l generalizing h with
  | nil => simp
  | cons a l ih =>
    intro u hu
    rw [List.foldl_cons, ih (h.reset a) u (by rw [isLeaf_reset]; exact hu)]
    cases ha : h.isLeaf a with
    | true =>
      rw [array_reset_leaf h ha]
      by_cases h1 : u = a <;> by_cases h2 : u ∈ l <;> simp [h1, h2]
    | false =>
      rw [array_reset_tensor h ha]
      have h1 : u ≠ a := by rintro rfl; rw [hu] at ha; cases ha
      simp [h1]

end Heap

namespace ML

open Heap

variable {T R A : Type}

theorem array_loadCache (h : Heap R) (t i : ℕ) (v : Option (Nd R)) (u : ℕ) : (h.loadCache t i v).array u = h.array u := by
  unfold loadCache Heap.array
  rw [node_upd]
  split
  · rename_i q; subst q; rfl
  · rfl

theorem foldl_array {α : Type} {g : Heap R → α → Heap R} (hg : ∀ h a u, (g h a).array u = h.array u) (l : List α)
    (h : Heap R) (u : ℕ) : (l.foldl g h).array u = h.array u := by
  induction l generalizing h with
  | nil => rfl
  | cons a l ih => rw [List.foldl_cons, ih, hg]

theorem foldl_node {α : Type} {g : Heap R → α → Heap R} {u : ℕ} (l : List α) (hg : ∀ h, ∀ a ∈ l, (g h a).node u = h.node u)
    (h : Heap R) : (l.foldl g h).node u = h.node u := by
  induction l generalizing h with
  | nil => rfl
  | cons a l ih =>
    rw [List.foldl_cons, ih (fun h b hb => hg h b (by simp [hb])), hg h a (by simp)]

theorem foldl_sim_on {α : Type} {f : Node R → Node R} {g : Heap R → α → Heap R} (hg : ∀ h a, Sim f (g h a) h)
    {P : Heap R → Prop} (hP : ∀ h a, P h → P (g h a)) (l : List α) (h : Heap R) (h0 : P h) :
    P (l.foldl g h) ∧ Sim f (l.foldl g h) h := by
  refine ⟨?_, foldl_sim hg l h⟩
  induction l generalizing h with
  | nil => exact h0
  | cons a l ih => exact ih (g h a) (hP h a h0)

theorem loadTensor_sim (uc : Bool) (env : Dict (ℕ × ℕ × ℕ) (Option (Nd R))) (n : ℕ) (h : Heap R) (t : ℕ) :
    Sim noOps (loadTensor uc env n h t) h := by
  unfold loadTensor
  cases uc with
  | false => exact noOps_reset h t
  | true =>
    refine (foldl_sim (fun h x => ?_) _ _).trans (noOps_reset h t)
    unfold loadLink
    cases env.get? (n, x.2.1, x.2.2) with
    | none => exact Sim.rfl' h
    | some v => exact noOps_loadCache h t _ v

theorem loadTensor_array (uc : Bool) (env : Dict (ℕ × ℕ × ℕ) (Option (Nd R))) (n : ℕ) (h : Heap R) {t : ℕ}
    (ht : h.isLeaf t = false) (u : ℕ) : (loadTensor uc env n h t).array u = h.array u := by
  unfold loadTensor
  cases uc with
  | false => exact array_reset_tensor h ht u
  | true =>
    simp only [if_true]
    rw [foldl_array (fun h x u => by
      unfold loadLink
      cases env.get? (n, x.2.1, x.2.2) with
      | none => rfl
      | some v => exact array_loadCache h t _ v u), array_reset_tensor h ht]

theorem node_other {h : Heap R} {f : Node R → Node R} {t u : ℕ} (hu : u ≠ t) : (h.upd t f).node u = h.node u := by
  rw [node_upd, if_neg hu]

theorem loadTensor_other (uc : Bool) (env : Dict (ℕ × ℕ × ℕ) (Option (Nd R))) (n : ℕ) (h : Heap R) {t u : ℕ} (hu : u ≠ t) :
    (loadTensor uc env n h t).node u = h.node u := by
  unfold loadTensor
  cases uc with
  | false =>
    show (h.reset t).node u = _
    unfold reset
    exact node_other hu
  | true =>
    simp only [if_true]
    rw [foldl_node _ (fun h x _ => by
      unfold loadLink
      cases env.get? (n, x.2.1, x.2.2) with
      | none => rfl
      | some v => exact node_other hu)]
    exact node_other hu

/-- The cache of a tensor after `loadTensor`. -/
theorem loadTensor_penv {h : Heap R} (hw : h.Wf) (uc : Bool) (env : Dict (ℕ × ℕ × ℕ) (Option (Nd R))) (n : ℕ) {t : ℕ}
    (ht : h.isLeaf t = false) (i : ℕ) : Dict.get? ((loadTensor uc env n h t).node t).penv i =
      if uc then (h.acc t i).bind fun x => env.get? (n, x.1, x.2) else none := by
  have ht' : (h.node t).isLeaf = false := ht
  have hr : ((h.reset t).node t).penv = [] := by
    unfold reset; rw [node_upd]; simp [ht']
  unfold loadTensor
  cases uc with
  | false => simp [hr]
  | true =>
    simp only [if_true]
    have hl : (h.reset t).linkages t = h.linkages t := by
      unfold linkages; rw [(noOps_reset h t).ops.access]
    rw [hl]
    have hmem : ∀ x, x ∈ h.linkages t ↔ h.acc t x.1 = some (x.2.1, x.2.2) := fun x => mem_linkages hw
    have hnd : ((h.linkages t).map fun x => x.1).Nodup := by
      rw [List.Nodup, List.pairwise_map]
      exact (pairwise_linkages hw t).imp fun q => Nat.ne_of_lt q
    -- a general statement about the fold
    have key : ∀ (l : List (ℕ × ℕ × ℕ)), (l.map fun x => x.1).Nodup → ∀ h1 : Heap R,
        (∀ x ∈ l, Dict.get? (h1.node t).penv x.1 = none) →
        Dict.get? ((l.foldl (loadLink env n t) h1).node t).penv i =
        match l.find? (fun x => x.1 = i) with
        | some x => env.get? (n, x.2.1, x.2.2)
        | none => Dict.get? (h1.node t).penv i := by
      intro l
      induction l with
      | nil => intro _ h1 _; rfl
      | cons x l ih =>
        intro hn h1 h2
        rw [List.map_cons, List.nodup_cons] at hn
        rw [List.foldl_cons]
        have hx : ∀ y ∈ l, y.1 ≠ x.1 := fun y hy q => hn.1 (List.mem_map.2 ⟨y, hy, q⟩)
        have hfind : ∀ y, l.find? (fun z => z.1 = i) = some y → y ∈ l ∧ y.1 = i := fun y hy =>
          ⟨List.mem_of_find?_eq_some hy, by simpa using List.find?_some hy⟩
        have hnone : x.1 = i → l.find? (fun z => z.1 = i) = none := fun q =>
          List.find?_eq_none.2 fun y hy => by simpa [← q] using hx y hy
        have hlk : loadLink env n t h1 x = match env.get? (n, x.2.1, x.2.2) with
          | some v => h1.loadCache t x.1 v
          | none => h1 := rfl
        rw [hlk]
        cases hE : env.get? (n, x.2.1, x.2.2) with
        | none =>
          simp only
          rw [ih hn.2 h1 fun y hy => h2 y (by simp [hy])]
          by_cases h3 : x.1 = i
          · rw [hnone h3, List.find?_cons_of_pos (by simpa using h3)]
            simp only
            rw [hE, ← h3]; exact h2 x (by simp)
          · rw [List.find?_cons_of_neg (by simpa using h3)]
        | some v =>
          simp only
          have hset : ∀ k, Dict.get? ((h1.loadCache t x.1 v).node t).penv k =
              if x.1 = k then some v else Dict.get? (h1.node t).penv k := fun k => by
            unfold loadCache; rw [node_upd]; simp only [if_true]; rw [Dict.get?_set]
          rw [ih hn.2 _ fun y hy => by
            rw [hset, if_neg (fun q => hx y hy q.symm)]; exact h2 y (by simp [hy])]
          by_cases h3 : x.1 = i
          · rw [hnone h3, List.find?_cons_of_pos (by simpa using h3)]
            simp only
            rw [hset, if_pos h3, hE]
          · rw [List.find?_cons_of_neg (by simpa using h3), hset, if_neg h3]
    rw [key _ hnd _ (fun x _ => by rw [hr]; rfl), hr]
    cases hc : (h.linkages t).find? fun x => x.1 = i with
    | none =>
      simp only
      have : h.acc t i = none := by
        cases ha : h.acc t i with
        | none => rfl
        | some p =>
          have := List.find?_eq_none.1 hc (i, p.1, p.2) ((hmem _).2 ha)
          simp at this
      rw [this]; rfl
    | some x =>
      simp only
      have h1 := (hmem x).1 (List.mem_of_find?_eq_some hc)
      have h2 : x.1 = i := by simpa using List.find?_some hc
      rw [h2] at h1
      rw [h1]; rfl

/-- The caches after all tensors of a list have been prepared. -/
theorem loadAll_spec (uc : Bool) (env : Dict (ℕ × ℕ × ℕ) (Option (Nd R))) (n : ℕ) (l : List ℕ) (hn : l.Nodup) (h : Heap R)
    (hw : h.Wf) (hl : ∀ t ∈ l, h.isLeaf t = false) :
    Sim noOps (l.foldl (loadTensor uc env n) h) h ∧ (∀ u, (l.foldl (loadTensor uc env n) h).array u = h.array u) ∧
      ∀ t ∈ l, ∀ i, Dict.get? ((l.foldl (loadTensor uc env n) h).node t).penv i =
        if uc then (h.acc t i).bind fun x => env.get? (n, x.1, x.2) else none := by
  refine ⟨foldl_sim (loadTensor_sim uc env n) l h, ?_⟩
  induction l generalizing h with
  | nil => exact ⟨fun _ => rfl, by simp⟩
  | cons a l ih =>
    obtain ⟨n1, n2⟩ := List.nodup_cons.1 hn
    have e := (loadTensor_sim uc env n h a).ops
    obtain ⟨i1, i2⟩ := ih n2 (loadTensor uc env n h a) (fun c => by rw [e.access]; exact hw c)
      (fun t ht => by rw [e.isLeaf]; exact hl t (by simp [ht]))
    refine ⟨fun u => by rw [List.foldl_cons, i1, loadTensor_array uc env n h (hl a (by simp))], fun t ht i => ?_⟩
    rw [List.foldl_cons]
    by_cases hta : t = a
    · subst hta
      rw [foldl_node l (fun h b hb => loadTensor_other uc env n h (by rintro rfl; exact n1 hb)),
        loadTensor_penv hw uc env n (hl t (by simp))]
    · have hm : t ∈ l := by simpa [hta] using ht
      rw [i2 t hm i, e.acc]

theorem sim_setArray (h : Heap R) {l : ℕ} (hl : h.isLeaf l = true) (x : Option (Nd R)) : Sim noOps (h.setArray l x) h := by
  refine ⟨rfl, fun u => ?_⟩
  unfold setArray
  rw [node_upd]
  split
  · rename_i q; subst q
    have : (h.node u).isLeaf = true := hl
    simp [noOps, this]
  · rfl

theorem array_setArray (h : Heap R) (l : ℕ) (x : Option (Nd R)) (u : ℕ) :
    (h.setArray l x).array u = if u = l then x else h.array u := by
  unfold setArray Heap.array
  rw [node_upd]
  split <;> rfl

theorem penv_setArray (h : Heap R) (l : ℕ) (x : Option (Nd R)) (u : ℕ) :
    ((h.setArray l x).node u).penv = (h.node u).penv := by
  unfold setArray
  rw [node_upd]
  split
  · rename_i q; subst q; rfl
  · rfl

/-- Putting the operators of a term on the leaves. -/
theorem setTerm_ok (time : T) (term : Term T R) (h : Heap R) (hl : ∀ p ∈ term, h.isLeaf p.1 = true) :
    ∃ h', setTerm time term h = .ok h' ∧ Sim noOps h' h ∧ (∀ u, (h'.node u).penv = (h.node u).penv) ∧
      ∀ u, h'.array u = term.foldl (fun acc p => if p.1 = u then some (p.2.at time) else acc) (h.array u) := by
  induction term generalizing h with
  | nil => exact ⟨h, rfl, Sim.rfl' h, fun _ => rfl, fun _ => rfl⟩
  | cons p term ih =>
    have hp := hl p (by simp)
    have e := sim_setArray h hp (some (p.2.at time))
    obtain ⟨h', a1, a2, a3, a4⟩ := ih (h.setArray p.1 (some (p.2.at time))) (fun q hq => by
      rw [e.ops.isLeaf]; exact hl q (by simp [hq]))
    refine ⟨h', ?_, a2.trans e, fun u => by rw [a3, penv_setArray], fun u => ?_⟩
    · unfold setTerm
      rw [List.foldlM_cons, if_pos hp]
      exact a1
    · rw [a4, List.foldl_cons, array_setArray]
      by_cases hu : u = p.1
      · simp [hu]
      · have : ¬ p.1 = u := fun q => hu q.symm
        simp [hu, this]

theorem opOn_notMem (time : T) (term : Term T R) {l : ℕ} (hl : l ∉ term.map Prod.fst) : opOn time term l = none := by
  unfold opOn
  induction term with
  | nil => rfl
  | cons p term ih =>
    rw [List.map_cons, List.mem_cons, not_or] at hl
    rw [List.foldl_cons, if_neg (fun q => hl.1 q.symm)]
    exact ih hl.2

section
variable [Zero T] [CommRing R]

omit [CommRing R] in
theorem tensors_list {h : Heap R} {r : ℕ} {F : Forest} (ht : h.IsTTN r F) :
    ((if false || !(h.isLeaf r) then [r] else []) ++ F.ids.filter fun t => false || !(h.isLeaf t)) = h.tensors r F := by
  unfold tensors; rw [List.filter_cons]; simp [ht.leaf]

/-- One pass. -/
theorem termPass_ok {s0 : Obj T R} {F : Forest} (ht : s0.heap.IsTTN s0.root F) {fuel : ℕ} (hf : F.depth < fuel) {useCache : Bool}
    {body : ℕ → Obj T R × A → Res (Obj T R × A)} {I : ℕ → Obj T R → A → Prop}
    (hI : ∀ n (s : Obj T R) a h', Sim noOps s.heap h' → I n s a → I n { s with heap := h' } a) {n : ℕ} {term : Term T R}
    (hterm : ∀ p ∈ term, s0.heap.isLeaf p.1 = true) (hb : BodyOk s0 F useCache body I n term)
    {s : Obj T R} {a : A} (hc : Clean s0 F s) (hl : s.hList = s0.hList) (hi : I n s a) :
    ∃ s' a', termPass fuel s0.root useCache s0.now body n term (s, a) = .ok (s', a') ∧ Clean s0 F s' ∧ s'.hList = s0.hList ∧
      I (n + 1) s' a' := by
  have e0 : Sim2 s.heap s0.heap := ⟨hc.next, hc.same⟩
  have ht1 : s.heap.IsTTN s0.root F := Sim2.ttn (Sim.symm e0) ht
  have hv := visitor_tree ht1.tree false hf
  rw [tensors_list ht1] at hv
  have hnd : (s.heap.tensors s0.root F).Nodup := by
    unfold tensors; exact ht1.tree.nodup.filter _
  have htl : ∀ t ∈ s.heap.tensors s0.root F, s.heap.isLeaf t = false := fun t htm => (mem_tensors.1 htm).2
  obtain ⟨b1, b2, b3⟩ := loadAll_spec useCache s.env n _ hnd s.heap ht1.links.wf htl
  set h1 := (s.heap.tensors s0.root F).foldl (loadTensor useCache s.env n) s.heap with hh1
  obtain ⟨h2, c1, c2, c3, c4⟩ := setTerm_ok s0.now term h1 (fun p hp => by
    rw [b1.ops.isLeaf, e0.isLeaf]; exact hterm p hp)
  have e2 : Sim noOps h2 s.heap := c2.trans b1
  have hat : AtTerm s0 F useCache n term { s with heap := h2 } := by
    have e3 := (Sim.trans e2.ops e0 : Sim2 h2 s0.heap)
    refine ⟨e3.1, e3.2, fun l hm hlf => ?_, fun t htm i => ?_⟩
    · rw [c4, b2, hc.leaves l hm (by rw [← e2.ops.isLeaf]; exact hlf)]; rfl
    · have htm' : t ∈ s.heap.tensors s0.root F := by rw [← e2.ops.tensors]; exact htm
      show Dict.get? (h2.node t).penv i = _
      rw [c3, b3 t htm' i]
      show _ = if useCache then (h2.acc t i).bind _ else _
      rw [e2.ops.acc]
  obtain ⟨s', a', d1, d2, d3, d4⟩ := hb { s with heap := h2 } a hat hl (hI n s a h2 e2.symm hi)
  refine ⟨{ s' with heap := term.foldl (fun h p => h.reset p.1) s'.heap }, a', ?_, ?_, by rw [← hl]; exact d3, ?_⟩
  · unfold termPass
    simp only
    rw [hv]
    simp only [bind, Except.bind]
    rw [← hh1, c1]
    simp only
    rw [d1]
    rfl
  · have e4 : Sim noOps (term.foldl (fun h p => h.reset p.1) s'.heap) s'.heap :=
      foldl_sim (fun h p => noOps_reset h p.1) term s'.heap
    have e5 : Sim2 (term.foldl (fun h p => h.reset p.1) s'.heap) s0.heap :=
      Sim.trans e4.ops (Sim.trans d2.symm.aux (Sim.trans e2.ops e0))
    have hempty : ∀ l, Heap.isLeaf (term.foldl (fun h p => h.reset p.1) s'.heap) l = true → h2.array l = opOn s0.now term l →
        Heap.array (term.foldl (fun h p => h.reset p.1) s'.heap) l = none := by
      intro l hlf h4
      have hlf' : s'.heap.isLeaf l = true := by rw [← e4.ops.isLeaf]; exact hlf
      have q : (term.foldl (fun h p => h.reset p.1) s'.heap).array l = if l ∈ term.map Prod.fst then none else s'.heap.array l := by
        have := foldl_reset (term.map Prod.fst) s'.heap l hlf'
        rw [List.foldl_map] at this
        exact this
      rw [q]
      split
      · rfl
      · rename_i hnm
        have h3 : h2.array l = s'.heap.array l := by
          have := congrArg Node.array (d2.2 l); exact this
        rw [← h3, h4, opOn_notMem _ _ hnm]
    have hleaf2 : ∀ l, Heap.isLeaf (term.foldl (fun h p => h.reset p.1) s'.heap) l = true → s.heap.isLeaf l = true := by
      intro l hlf
      rw [← e2.ops.isLeaf, d2.aux.isLeaf, ← e4.ops.isLeaf]; exact hlf
    refine ⟨e5.1, e5.2, fun l hm hlf => hempty l hlf ?_, fun l hlf h0 => hempty l hlf ?_⟩
    · rw [c4, b2, hc.leaves l hm (hleaf2 l hlf)]; rfl
    · rw [c4, b2, hc.others l (hleaf2 l hlf) h0]; rfl
  · exact hI (n + 1) s' a' _ (foldl_sim (fun h p => noOps_reset h p.1) term s'.heap).symm d4

/-- The loop over the terms. -/
theorem termVisitor_ok {s0 : Obj T R} {F : Forest} (ht : s0.heap.IsTTN s0.root F) {fuel : ℕ} (hf : F.depth < fuel)
    {useCache onlyTd : Bool} {op : Option (List (Term T R))} {body : ℕ → Obj T R × A → Res (Obj T R × A)}
    {I : ℕ → Obj T R → A → Prop}
    (hI : ∀ n (s : Obj T R) a h', Sim noOps s.heap h' → I n s a → I n { s with heap := h' } a)
    (hterm : ∀ term ∈ s0.allTerms op, ∀ p ∈ term, s0.heap.isLeaf p.1 = true)
    (hb : ∀ n term, (s0.allTerms op)[n]? = some term → firstTerm s0 op onlyTd ≤ n → BodyOk s0 F useCache body I n term)
    {a : A} (hi : I (firstTerm s0 op onlyTd) s0 a) :
    ∃ s' a', termVisitor fuel useCache op onlyTd body s0 a = .ok (s', a') ∧ Clean s0 F s' ∧
      I (s0.allTerms op).length s' a' := by
  have hv := visitor_tree ht.tree true hf
  simp only [Bool.true_or, if_true, List.filter_true, List.cons_append, List.nil_append] at hv
  have e1 : Sim noOps ((s0.root :: F.ids).foldl Heap.reset s0.heap) s0.heap := foldl_sim noOps_reset _ _
  set s1 : Obj T R := { s0 with heap := (s0.root :: F.ids).foldl Heap.reset s0.heap } with hs1
  have hc1 : Clean s0 F s1 := by
    have hr : ∀ l, s1.heap.isLeaf l = true → _ := fun l hlf =>
      foldl_reset (s0.root :: F.ids) s0.heap l (by rw [← e1.ops.isLeaf]; exact hlf)
    refine ⟨e1.1, e1.ops.2, fun l hm hlf => ?_, fun l hlf h0 => ?_⟩
    · have := hr l hlf
      rw [if_pos (by simp [hm])] at this
      exact this
    · have := hr l hlf
      rw [h0, ite_self] at this
      exact this
  have hi1 : I (firstTerm s0 op onlyTd) s1 a := hI _ s0 a _ e1.symm hi
  have key : ∀ (l : List (Term T R)) (k : ℕ), (∀ i term, l[i]? = some term → (s0.allTerms op)[k + i]? = some term) →
      ∀ (s : Obj T R) (a : A), Clean s0 F s → s.hList = s0.hList → I (max k (firstTerm s0 op onlyTd)) s a →
      ∃ s' a', (l.zipIdx k).foldlM (fun (x : Obj T R × A) (p : Term T R × ℕ) =>
        if op.isNone && onlyTd && decide (p.2 < x.1.hList.length) then (pure x : Res (Obj T R × A))
        else termPass fuel s0.root useCache s0.now body p.2 p.1 x) (s, a) = .ok (s', a') ∧ Clean s0 F s' ∧
        I (max (k + l.length) (firstTerm s0 op onlyTd)) s' a' := by
    intro l
    induction l with
    | nil => intro k _ s a h1 h2 h3; exact ⟨s, a, rfl, h1, h3⟩
    | cons t l ih =>
      intro k hk s a h1 h2 h3
      have hk' : ∀ i term, l[i]? = some term → (s0.allTerms op)[k + 1 + i]? = some term := fun i term hit => by
        have := hk (i + 1) term (by simpa using hit)
        rw [← this]; congr 1; omega
      rw [List.zipIdx_cons, List.foldlM_cons]
      have hlen : k + (t :: l).length = k + 1 + l.length := by simp; omega
      rw [hlen]
      by_cases hskip : (op.isNone && onlyTd && decide (k < s0.hList.length)) = true
      · simp only [h2, hskip, if_true]
        have hlt : firstTerm s0 op onlyTd = s0.hList.length ∧ k < s0.hList.length := by
          simp only [Bool.and_eq_true, decide_eq_true_eq, Option.isNone_iff_eq_none] at hskip
          exact ⟨by unfold firstTerm; rw [if_pos hskip.1], hskip.2⟩
        have h3' : I (max (k + 1) (firstTerm s0 op onlyTd)) s a := by
          have e : max (k + 1) (firstTerm s0 op onlyTd) = max k (firstTerm s0 op onlyTd) := by omega
          rw [e]; exact h3
        exact ih (k + 1) hk' s a h1 h2 h3'
      · have hge : firstTerm s0 op onlyTd ≤ k := by
          unfold firstTerm
          split
          · rename_i q
            rw [q.1, q.2] at hskip
            simpa using hskip
          · omega
        have h3' : I k s a := by rw [max_eq_left hge] at h3; exact h3
        have ht0 := hk 0 t (by simp)
        rw [Nat.add_zero] at ht0
        obtain ⟨s', a', p1, p2, p3, p4⟩ := termPass_ok ht hf hI
          (hterm t (List.mem_of_getElem? ht0)) (hb k t ht0 hge) h1 h2 h3'
        have hskip' : (op.isNone && onlyTd && decide (k < s.hList.length)) = false := by
          rw [h2]; simpa using hskip
        simp only [hskip', Bool.false_eq_true, if_false]
        rw [p1]
        exact ih (k + 1) hk' s' a' p2 p3 (by rw [max_eq_left (by omega)]; exact p4)
  obtain ⟨s', a', k1, k2, k3⟩ := key (s0.allTerms op) 0 (fun i term h => by rw [Nat.zero_add]; exact h) s1 a hc1 rfl
    (by rw [Nat.zero_max]; exact hi1)
  refine ⟨s', a', ?_, k2, ?_⟩
  · unfold termVisitor
    simp only
    rw [hv]
    exact k1
  · have hle : firstTerm s0 op onlyTd ≤ (s0.allTerms op).length := by
      unfold firstTerm
      split
      · rename_i q
        rw [q.1]
        unfold Obj.allTerms
        cases s0.fList <;> simp
      · omega
    rw [Nat.zero_add, max_eq_left hle] at k3
    exact k3

end

end ML
