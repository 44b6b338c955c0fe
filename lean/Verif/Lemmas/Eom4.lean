import Verif.Lemmas.Field

/-!
`_single_eom` at a term, the loop over the tensors, and the loop over the terms.
-/

open scoped BigOperators
open Py

namespace ML

open Heap

variable {T R : Type} [Zero T] [Field R] [StarRing R]

/-- What is needed of the object whatever the origin of the mean fields. -/
structure EomBase (s : Obj T R) (F : Forest) (inv : Dict ℕ (Nd R)) : Prop where
  ttn : s.heap.IsTTN s.root F
  rooted : s.heap.Rooted s.root F
  leaf : ∀ term ∈ s.allTerms none, ∀ p ∈ term, s.heap.isLeaf p.1 = true
  inv : ∀ e ∈ s.heap.bonds s.root F, ∃ M, inv.get? e.2.2.1 = some M ∧
    M.shape = [s.heap.hdim (e.2.2.1, e.2.2.2), s.heap.hdim (e.2.2.1, e.2.2.2)]
  env : ∀ t ∈ s.heap.tensors s.root F, ∀ n i v, s.env.get? (n, t, i) = some v →
    Heap.OpFits v (s.heap.hdim (t, i)) (s.heap.hdim (t, i))

theorem EomReady.base {s : Obj T R} {F : Forest} {inv : Dict ℕ (Nd R)} (h : EomReady s F inv) : EomBase s F inv :=
  ⟨h.ttn, h.rooted, h.leaf, h.inv, h.env⟩

/-- `ref` has the network of `s0` with other arrays, but the same array `A` at `t`, and the same terms. -/
structure Frame (s0 : Obj T R) (F : Forest) (t : ℕ) (A : Nd R) (ref : Obj T R) : Prop where
  root : ref.root = s0.root
  ttn : ref.heap.IsTTN ref.root F
  isLeaf : ∀ u, ref.heap.isLeaf u = s0.heap.isLeaf u
  full : ref.heap.Full t A
  terms : ref.allTerms none = s0.allTerms none

/-- Where the mean fields come from: all are stored (and are compared with those of the object `ref t` for tensor `t`); or some are computed,
and then the marks are sound, the operators fit, and they are compared with those of the present state. -/
structure Mode (full : Prop) (s0 : Obj T R) (F : Forest) (ref : ℕ → Obj T R) : Prop where
  stored : full → ∀ n term, (s0.allTerms none)[n]? = some term → ∀ t ∈ s0.heap.tensors s0.root F, ∀ i,
    s0.heap.acc t i ≠ none → s0.env.get? (n, t, i) ≠ none
  other : full ∨ ((∀ t ∈ s0.heap.tensors s0.root F, (s0.heap.node t).axis ≠ none → s0.heap.MarkOk t) ∧
    (∀ term ∈ s0.allTerms none, ∀ p ∈ s0.heap.leafList s0.root F, Heap.OpFits (opOn s0.now term p.1) p.2 p.2) ∧ ∀ t, ref t = s0)
  frame : full → ∀ t ∈ s0.heap.tensors s0.root F, ∀ A, s0.heap.array t = some A → Frame s0 F t A (ref t)

theorem EomReady.mode {s : Obj T R} {F : Forest} {inv : Dict ℕ (Nd R)} (h : EomReady s F inv) : Mode False s F (fun _ => s) :=
  ⟨False.elim, .inr ⟨h.norm, h.fits, fun _ => rfl⟩, False.elim⟩

/-- The stored mean fields of tensor `t` are those of `ref t`. -/
def FieldsRight (s0 : Obj T R) (ref : ℕ → Obj T R) (t : ℕ) : Prop :=
  ∀ n term, (s0.allTerms none)[n]? = some term → ∀ i v, s0.env.get? (n, t, i) = some v →
    Heap.FieldIs ((ref t).withTerm term) t i v

theorem axis_cases {s : Obj T R} {F : Forest} {inv : Dict ℕ (Nd R)} (hr : EomBase s F inv) {t : ℕ}
    (hm : t ∈ s.heap.tensors s.root F) : (t = s.root ∧ (s.heap.node t).axis = none) ∨
      ∃ e ∈ s.heap.bonds s.root F, e.2.2.1 = t ∧ (s.heap.node t).axis = some e.2.2.2 := by
  obtain ⟨h1, h2⟩ := mem_tensors.1 hm
  rcases h1 with rfl | h1
  · exact .inl ⟨rfl, hr.rooted.1⟩
  · right
    rw [← Heap.edges_targets F s.root] at h1
    obtain ⟨e, e1, rfl⟩ := List.mem_map.1 h1
    exact ⟨e, mem_bonds.2 ⟨e1, h2⟩, rfl, hr.rooted.2 e (mem_bonds.2 ⟨e1, h2⟩)⟩

/-- A state at a term, up to `aux` and sound caches. -/
structure Mid (full : Prop) (s0 : Obj T R) (F : Forest) (term : Term T R) (s : Obj T R) : Prop where
  sim : Sim2 s.heap s0.heap
  root : s.root = s0.root
  env : s.env = s0.env
  leaves : ∀ l ∈ F.ids, s.heap.isLeaf l = true → s.heap.array l = opOn s0.now term l
  sound : full ∨ Sound (InNet s0.root F) s.heap s.heap false

section
omit [Field R] [StarRing R]
variable [CommRing R]

theorem withTerm_acc (s : Obj T R) (term : Term T R) (t k : ℕ) : (s.withTerm term).acc t k = s.heap.acc t k := by
  unfold Heap.acc Obj.withTerm
  simp only
  split <;> rfl

theorem withTerm_isLeaf (s : Obj T R) (term : Term T R) (t : ℕ) : (s.withTerm term).isLeaf t = s.heap.isLeaf t := by
  unfold Heap.isLeaf Obj.withTerm
  simp only
  split <;> rfl

theorem withTerm_leaf {s : Obj T R} {term : Term T R} {t : ℕ} (hl : s.heap.isLeaf t = true) :
    (s.withTerm term).array t = opOn s.now term t := by
  have : (s.heap.node t).isLeaf = true := hl
  unfold Heap.array Obj.withTerm
  simp only [this, if_true]

theorem withTerm_array {s : Obj T R} {term : Term T R} {t : ℕ} (hl : s.heap.isLeaf t = false) :
    (s.withTerm term).array t = s.heap.array t := by
  have : (s.heap.node t).isLeaf = false := hl
  unfold Heap.array Obj.withTerm
  simp only [this, Bool.false_eq_true, if_false]

theorem withTerm_hdim {s : Obj T R} (term : Term T R) {t : ℕ} (hl : s.heap.isLeaf t = false) (k : ℕ) :
    (s.withTerm term).hdim (t, k) = s.heap.hdim (t, k) := by
  unfold hdim; simp only [withTerm_array hl]

theorem withTerm_tensors (s : Obj T R) (term : Term T R) (r : ℕ) (F : Forest) :
    (s.withTerm term).tensors r F = s.heap.tensors r F := by
  unfold tensors; simp only [withTerm_isLeaf]

theorem IsTTN.withTerm {s : Obj T R} {r : ℕ} {F : Forest} (ht : s.heap.IsTTN r F) (term : Term T R) :
    (s.withTerm term).IsTTN r F := by
  refine ht.congr' (fun c => ?_) rfl (withTerm_isLeaf s term) (fun c => ?_) fun c A hl hA hw => ⟨A, ?_, hw, rfl⟩
  · unfold Heap.access Obj.withTerm; simp only; split <;> rfl
  · unfold Obj.withTerm; simp only; split <;> rfl
  · rw [withTerm_array hl]; exact hA

end

/-- The array with all mean fields of a term applied is the gradient of the matrix elements of the term. -/
theorem gradient_of_fields {s0 : Obj T R} {F : Forest} (ht0 : s0.heap.IsTTN s0.root F) {term : Term T R} {h : Heap R}
    (e : Sim2 h s0.heap) (hlv : ∀ l ∈ F.ids, h.isLeaf l = true → h.array l = opOn s0.now term l) {t : ℕ}
    (hm : t ∈ s0.heap.tensors s0.root F) {A G : Nd R} (hA : s0.heap.Full t A) {E : ℕ → ℕ → ℕ → R}
    (hE : ∀ i < A.ndim, IsField h t i (E i)) (hGs : G.shape = A.shape)
    (hGget : ∀ w, Valid A.shape w → G.get w = fieldSum A E w) : IsGradient s0 F t A [term] G := by
  intro B hB hBs
  have hl0 := (mem_tensors.1 hm).2
  have hl : h.isLeaf t = false := by rw [e.isLeaf]; exact hl0
  have ht : h.IsTTN s0.root F := Sim2.ttn (Sim.symm e) ht0
  have hm' : t ∈ h.tensors s0.root F := by rw [e.tensors]; exact hm
  have hA' : h.Full t A := ⟨hl, by rw [e.array hl]; exact hA.array, hA.wf, hA.pos, fun k => by rw [e.acc]; exact hA.acc k⟩
  have := effective_any ht hm' hA' hE hB hBs
  unfold inner
  have e1 : sumIdx G.shape (fun w => G.get w * star (B.get w)) = sumIdx A.shape (fun w => (sumIdx A.shape fun v =>
      A.get v * ((List.range A.ndim).map fun k => E k (v.getD k 0) (w.getD k 0)).prod) * star (B.get w)) :=
    by
      rw [hGs]
      exact sumIdx_congr fun w hw => by rw [hGget w hw]; rfl
  rw [e1, this, e.leafList ht]
  simp only [List.map_cons, List.map_nil, List.sum_cons, List.sum_nil, add_zero]
  unfold termElem
  have e2 : Sim2 (h.setArray t (some B)) (s0.heap.setArray t (some B)) := by
    refine ⟨e.1, fun u => ?_⟩
    rw [node_setArray, node_setArray]
    split
    · rename_i q
      subst q
      have hq := e.2 u
      have h1 : (h.node u).isLeaf = false := hl
      have h2 : (s0.heap.node u).isLeaf = false := hl0
      simp only [noOps, noAux, h1, h2, Bool.false_eq_true, if_false, Node.mk.injEq] at hq ⊢
      obtain ⟨q1, q2, q3, q4, q5, q6, q7, q8⟩ := hq
      refine ⟨?_, ?_, ?_, ?_, ?_, ?_, ?_, ?_⟩ <;> first | assumption | rfl
    · exact e.2 u
  refine TreeSum.sumLeaves_congr fun x => TreeSum.sumLeaves_congr fun y => ?_
  rw [← e.treeAmp ht, ← e2.treeAmp (ht.setArray hA'.array hB hBs)]
  congr 2
  unfold termEntry
  refine congrArg List.prod (List.map_congr_left fun l hl => ?_)
  rw [leafList_fst] at hl
  obtain ⟨l1, l2⟩ := List.mem_filter.1 hl
  rw [hlv l l1 (by rw [e.isLeaf]; exact l2)]

theorem withTerm_sim2 (s : Obj T R) (term : Term T R) : Sim2 (s.withTerm term) s.heap := by
  refine ⟨rfl, fun u => ?_⟩
  unfold Obj.withTerm noOps noAux
  simp only
  cases h : (s.heap.node u).isLeaf <;> simp [h]

theorem single_value {full : Prop} {ref : ℕ → Obj T R} {s0 : Obj T R} {F : Forest} {inv : Dict ℕ (Nd R)} (hr : EomBase s0 F inv)
    (hmode : Mode full s0 F ref) {term : Term T R}
    {n : ℕ} (hn : (s0.allTerms none)[n]? = some term) {s : Obj T R} (hs : Mid full s0 F term s) {t : ℕ} (hm : t ∈ s0.heap.tensors s0.root F)
    {A : Nd R} (hA : s0.heap.Full t A) {fuel : ℕ} (hf : F.ids.length < fuel) :
    ∃ h' D G, singleEom fuel false inv t n s = .ok ({ s with heap := h' }, D) ∧ SameCore h' s.heap ∧
      (full ∨ Sound (InNet s0.root F) s.heap h' false) ∧ D.Wf ∧ D.shape = A.shape ∧ G.Wf ∧ G.shape = A.shape ∧
      IsForce A (s0.heap.node t).axis (inv.get? t) G D ∧
      (FieldsRight s0 ref t → IsGradient (ref t) F t A [term] G) := by
  have hterm := List.mem_of_getElem? hn
  have e := hs.sim
  have hl0 := (mem_tensors.1 hm).2
  have hl : s.heap.isLeaf t = false := by rw [e.isLeaf]; exact hl0
  have ht : s.heap.IsTTN s0.root F := Sim2.ttn (Sim.symm e) hr.ttn
  have hm' : t ∈ s.heap.tensors s0.root F := by rw [e.tensors]; exact hm
  have hA' : s.heap.Full t A := ⟨hl, by rw [e.array hl]; exact hA.array, hA.wf, hA.pos, fun k => by rw [e.acc]; exact hA.acc k⟩
  have hax : ∀ k, (s.heap.node t).axis = some k → ∃ x ∈ s0.heap.bonds s0.root F, x.2.2.1 = t ∧ x.2.2.2 = k := by
    intro k hk
    rw [e.axis] at hk
    rcases axis_cases hr hm with ⟨-, q⟩ | ⟨x, q1, q2, q3⟩
    · rw [q] at hk; cases hk
    · rw [q3] at hk; exact ⟨x, q1, q2, Option.some.inj hk⟩
  have hkk : ∀ k, (s.heap.node t).axis = some k → s.heap.acc t k ≠ none := by
    intro k hk
    obtain ⟨x, q1, rfl, rfl⟩ := hax k hk
    have := (hr.ttn.isLink_edge (mem_bonds.1 q1).1).2
    rw [e.acc, this]
    simp
  have key : ∃ h1 : Heap R, (∀ i, h1.hdim (t, i) = s.heap.hdim (t, i)) ∧ Src full h1 s.heap s0.root F s.heap ∧
      ∀ (E : ℕ → ℕ → ℕ → R) (G : Nd R), (∀ i < A.ndim, (∀ v, s.env.get? (n, t, i) = some v → FieldIs h1 t i v) → IsField h1 t i (E i)) →
        G.shape = A.shape → (∀ w, Valid A.shape w → G.get w = fieldSum A E w) → FieldsRight s0 ref t → IsGradient (ref t) F t A [term] G := by
    by_cases hfu : full
    · have fr := hmode.frame hfu t hm A hA.array
      have hlr : (ref t).heap.isLeaf t = false := fr.full.leaf
      refine ⟨(ref t).withTerm term, fun i => ?_, .inl hfu, fun E G hE hGs hGget hfr => ?_⟩
      · rw [withTerm_hdim term hlr, hA'.hdim_eq, fr.full.hdim_eq]
      · refine gradient_of_fields fr.ttn (withTerm_sim2 _ term) (fun l _ hlf => withTerm_leaf (by rw [withTerm_isLeaf] at hlf; exact hlf))
          (mem_tensors.2 ⟨?_, hlr⟩) fr.full (fun i hi => hE i hi fun v hv => ?_) hGs hGget
        · rw [fr.root]; exact (mem_tensors.1 hm).1
        · rw [hs.env] at hv
          exact hfr n term hn i v hv
    · obtain ⟨-, hfits, href⟩ := hmode.other.resolve_left hfu
      have ho : s.heap.OpsFit s0.root F := by
        intro x hx hlf
        have hsl := (mem_tensors.1 (edges_src_mem ht hx)).2
        rw [hs.leaves _ (TreeSum.edges_mem hx).2 hlf, e.hdim hsl]
        refine hfits term hterm (x.2.2.1, s0.heap.hdim (x.1, x.2.1)) ?_
        exact List.mem_map.2 ⟨x, List.mem_filter.2 ⟨hx, by rw [← e.isLeaf]; exact hlf⟩, rfl⟩
      refine ⟨s.heap, fun _ => rfl, .inr ⟨rfl, ho, hs.sound.resolve_left hfu⟩, fun E G g6 hGs hGget hne => ?_⟩
      unfold FieldsRight at hne
      rw [href] at hne ⊢
      have hE : ∀ i < A.ndim, IsField s.heap t i (E i) := fun i hi => g6 i hi fun v hv => by
        rw [hs.env] at hv
        obtain ⟨E', f1, f2⟩ := hne n term hn i v hv
        have hw := IsTTN.withTerm hr.ttn term
        refine ⟨E', f1.transfer hw ht (by rw [withTerm_tensors]; exact hm) (fun u i => ?_) (fun u => ?_) (fun u hu _ => ?_), ?_⟩
        · rw [e.acc, withTerm_acc]
        · rw [e.isLeaf, withTerm_isLeaf]
        · cases hlu : s0.heap.isLeaf u with
          | true =>
            rw [withTerm_leaf hlu]
            rcases List.mem_cons.1 hu with rfl | hu
            · rw [hr.ttn.leaf] at hlu; cases hlu
            · exact hs.leaves u hu (by rw [e.isLeaf]; exact hlu)
          | false => rw [withTerm_array hlu, e.array (by rw [e.isLeaf]; exact hlu)]
        · rw [e.hdim hl, ← withTerm_hdim term hl0]
          exact f2
      exact gradient_of_fields (G := G) hr.ttn e hs.leaves hm hA hE hGs hGget
  obtain ⟨hr1, hd1, hsrc, hgrad⟩ := key
  obtain ⟨h', D, E, g1, g2, g3, g4, g5, g6, g7⟩ := singleEom_ok (n := n) (inv := inv) ht hd1 hm' hf (SameCore.rfl' s.heap) hsrc
    (fun i v hv => by rw [e.hdim hl]; exact hr.env t hm n i v (by rw [← hs.env]; exact hv))
    (fun hfu i hi => by rw [hs.env]; rw [e.acc] at hi; exact hmode.stored hfu n term hn t hm i hi) hkk
    (fun k hk => by
      obtain ⟨x, q1, rfl, rfl⟩ := hax k hk
      rw [e.hdim hl]
      exact hr.inv x q1) hA'
  set G : Nd R := Nd.ofFn A.shape (fieldSum A E) with hG
  have hGget : ∀ w, Valid A.shape w → G.get w = fieldSum A E w := fun w hw => Nd.get_ofFn _ hw
  refine ⟨h', D, G, g1, g2, g3.imp id (fun q => q.2.2), g4, g5, Nd.ofFn_wf _ _, rfl, ?_, hgrad E G g6 rfl hGget⟩
  rw [e.axis] at g7
  unfold IsForce
  cases hx : (s0.heap.node t).axis with
  | none =>
    rw [hx] at g7
    intro w hw
    rw [hGget w hw]
    exact g7 w hw
  | some k =>
    rw [hx] at g7
    obtain ⟨M, m1, m2⟩ := g7
    refine ⟨M, m1, fun p z hp hz => ?_⟩
    have hd : s.heap.hdim (t, k) = A.shape.getD k 1 := hA'.hdim_eq k
    have hk : k < A.ndim := (hA'.acc k).1 (hkk k (by rw [e.axis]; exact hx))
    rw [m2 p z hp (by rw [hd]; exact hz), hd]
    have hins : ∀ p c, Valid (A.shape.eraseIdx k) p → c < A.shape.getD k 1 → G.get (p.insertIdx k c) = fieldSum A E (p.insertIdx k c) :=
      fun p c hp hc => hGget _ (valid_insert hk rfl hp hc)
    have hY : ∀ p, Valid (A.shape.eraseIdx k) p → timesAxis k (A.shape.getD k 1) G M p z =
        ∑ c ∈ Finset.range (A.shape.getD k 1), fieldSum A E (p.insertIdx k c) * M.get [c, z] := by
      intro p hp
      unfold timesAxis
      exact Finset.sum_congr rfl fun c hc => by rw [hins p c hp (Finset.mem_range.1 hc)]
    rw [hY p hp]
    congr 1
    refine Finset.sum_congr rfl fun b _ => ?_
    congr 1
    exact sumIdx_congr fun q hq => by rw [hY q hq]

theorem IsForce.add {A : Nd R} {axis : Option ℕ} {inv : Option (Nd R)} {G G' D D' G'' D'' : Nd R}
    (hk : ∀ k, axis = some k → k < A.ndim)
    (h : IsForce A axis inv G D) (h' : IsForce A axis inv G' D') (hG : ∀ w, Valid A.shape w → G''.get w = G.get w + G'.get w)
    (hD : ∀ w, Valid A.shape w → D''.get w = D.get w + D'.get w) : IsForce A axis inv G'' D'' := by
  unfold IsForce at *
  cases axis with
  | none => intro w hw; rw [hD w hw, hG w hw, h w hw, h' w hw]
  | some k =>
    obtain ⟨M, m1, m2⟩ := h
    obtain ⟨M', m1', m2'⟩ := h'
    obtain rfl : M = M' := Option.some.inj (m1.symm.trans m1')
    refine ⟨M, m1, fun p z hp hz => ?_⟩
    have hv := fun p c (hp : Valid (A.shape.eraseIdx k) p) (hc : c < A.shape.getD k 1) => valid_insert (hk k rfl) rfl hp hc
    have hY : ∀ p, Valid (A.shape.eraseIdx k) p → timesAxis k (A.shape.getD k 1) G'' M p z =
        timesAxis k (A.shape.getD k 1) G M p z + timesAxis k (A.shape.getD k 1) G' M p z := by
      intro p hp
      unfold timesAxis
      rw [← Finset.sum_add_distrib]
      exact Finset.sum_congr rfl fun c hc => by rw [hG _ (hv p c hp (Finset.mem_range.1 hc)), add_mul]
    rw [hD _ (hv p z hp hz), m2 p z hp hz, m2' p z hp hz, hY p hp]
    have e1 : ∀ b, (sumIdx (A.shape.eraseIdx k) fun q => timesAxis k (A.shape.getD k 1) G'' M q z * star (A.get (q.insertIdx k b))) =
        (sumIdx (A.shape.eraseIdx k) fun q => timesAxis k (A.shape.getD k 1) G M q z * star (A.get (q.insertIdx k b))) +
        (sumIdx (A.shape.eraseIdx k) fun q => timesAxis k (A.shape.getD k 1) G' M q z * star (A.get (q.insertIdx k b))) := by
      intro b
      rw [← sumIdx_add]
      exact sumIdx_congr fun q hq => by rw [hY q hq, add_mul]
    simp only [e1, mul_add, Finset.sum_add_distrib]
    ring

theorem IsGradient.add {s : Obj T R} {F : Forest} {t : ℕ} {A G G' G'' : Nd R} {l l' : List (Term T R)}
    (h : IsGradient s F t A l G) (h' : IsGradient s F t A l' G') (h1 : G.shape = A.shape) (h2 : G'.shape = A.shape)
    (h3 : G''.shape = A.shape)
    (hG : ∀ w, Valid A.shape w → G''.get w = G.get w + G'.get w) : IsGradient s F t A (l ++ l') G'' := by
  intro B hB hBs
  have e1 := h B hB hBs
  have e2 := h' B hB hBs
  rw [List.map_append, List.sum_append, ← e1, ← e2]
  unfold inner
  rw [h1, h2, h3, ← sumIdx_add]
  exact sumIdx_congr fun w hw => by rw [hG w hw, add_mul]

/-- What `aux` of a tensor holds after the terms in the list. -/
def Acc (ref : ℕ → Obj T R) (s0 : Obj T R) (F : Forest) (inv : Dict ℕ (Nd R)) (terms : List (Term T R)) (t : ℕ) (A : Nd R) (x : Option (Nd R)) : Prop :=
  (x = none ∧ terms = []) ∨ ∃ G X, x = some X ∧ X.Wf ∧ X.shape = A.shape ∧ G.Wf ∧ G.shape = A.shape ∧
    IsForce A (s0.heap.node t).axis (inv.get? t) G X ∧ (FieldsRight s0 ref t → IsGradient (ref t) F t A terms G)

theorem addAux_ok {ref : ℕ → Obj T R} {s0 : Obj T R} {F : Forest} {inv : Dict ℕ (Nd R)} {terms : List (Term T R)} {term : Term T R} {t : ℕ}
    {A D G : Nd R} {h : Heap R} (hx : Acc ref s0 F inv terms t A (h.node t).aux) (hk : ∀ k, (s0.heap.node t).axis = some k → k < A.ndim)
    (hD : D.Wf) (hDs : D.shape = A.shape) (hG : G.Wf) (hGs : G.shape = A.shape)
    (hf : IsForce A (s0.heap.node t).axis (inv.get? t) G D)
    (hg : FieldsRight s0 ref t → IsGradient (ref t) F t A [term] G) :
    ∃ Y, addAux h t D = .ok (h.setAux t (some Y)) ∧ Acc ref s0 F inv (terms ++ [term]) t A (some Y) := by
  rcases hx with ⟨h1, h2⟩ | ⟨G', X, h1, x1, x2, g1, g2, g3, g4⟩
  · refine ⟨D, by unfold addAux; rw [h1], .inr ⟨G, D, rfl, hD, hDs, hG, hGs, hf, ?_⟩⟩
    rw [h2]
    exact hg
  · obtain ⟨Y, y1, y2, y3, y4⟩ := Nd.add_ok x1 hD (x2.trans hDs.symm)
    obtain ⟨G'', -, z2, z3, z4⟩ := Nd.add_ok g1 hG (g2.trans hGs.symm)
    rw [x2] at y4
    rw [g2] at z4
    refine ⟨Y, by unfold addAux; rw [h1]; simp only [y1, ok_bind]; rfl, .inr ⟨G'', Y, rfl, y2, y3.trans x2, z2, z3.trans g2,
      g3.add hk hf z4 y4, fun he => (g4 he).add (hg he) g2 hGs (z3.trans g2) z4⟩⟩

theorem eomFold_ok {full : Prop} {ref : ℕ → Obj T R} {s0 : Obj T R} {F : Forest} {inv : Dict ℕ (Nd R)} (hr : EomBase s0 F inv)
    (hmode : Mode full s0 F ref) {term : Term T R}
    {n : ℕ} (hn : (s0.allTerms none)[n]? = some term) {fuel : ℕ} (hf : F.ids.length < fuel) {terms : List (Term T R)}
    (ts : List ℕ) (hts : ∀ t ∈ ts, t ∈ s0.heap.tensors s0.root F) (hnd : ts.Nodup) (s : Obj T R) (hs : Mid full s0 F term s)
    (hacc : ∀ t ∈ ts, ∀ A, s0.heap.Full t A → Acc ref s0 F inv terms t A (s.heap.node t).aux) :
    ∃ h', ts.foldlM (fun s t => do
        let (s, tmp) ← singleEom fuel false inv t n s
        let h ← addAux s.heap t tmp
        pure { s with heap := h }) s = .ok { s with heap := h' } ∧ Mid full s0 F term { s with heap := h' } ∧
      Sim noAux s.heap h' ∧ (∀ t, t ∉ ts → (h'.node t).aux = (s.heap.node t).aux) ∧
      ∀ t ∈ ts, ∀ A, s0.heap.Full t A → Acc ref s0 F inv (terms ++ [term]) t A (h'.node t).aux := by
  induction ts generalizing s with
  | nil => exact ⟨s.heap, rfl, hs, Sim.rfl' _, fun _ _ => rfl, fun t ht => by cases ht⟩
  | cons t ts ih =>
    obtain ⟨n1, n2⟩ := List.nodup_cons.1 hnd
    have hm := hts t (by simp)
    obtain ⟨A, hA⟩ := hr.ttn.full t hm
    obtain ⟨h1, D, G, d1, d2, d3, d4, d5, d6, d7, d8, d9⟩ := single_value hr hmode hn hs hm hA hf
    have hk : ∀ k, (s0.heap.node t).axis = some k → k < A.ndim := by
      intro k hk
      rcases axis_cases hr hm with ⟨-, q⟩ | ⟨x, q1, rfl, q3⟩
      · rw [q] at hk; cases hk
      · rw [q3] at hk
        obtain rfl := Option.some.inj hk
        refine (hA.acc _).1 ?_
        rw [(hr.ttn.isLink_edge (mem_bonds.1 q1).1).2]
        simp
    have hx := hacc t (by simp) A hA
    rw [← d2.aux] at hx
    obtain ⟨Y, y1, y2⟩ := addAux_ok (h := h1) hx hk d4 d5 d6 d7 d8 d9
    have e1 : Sim noAux s.heap (h1.setAux t (some Y)) := (d2.noAux.symm).trans (setAux_noAux h1 t (some Y)).symm
    have hmid : Mid full s0 F term { s with heap := h1.setAux t (some Y) } := by
      have ht : s.heap.IsTTN s0.root F := Sim2.ttn (Sim.symm hs.sim) hr.ttn
      refine ⟨Sim.trans (Sim.symm e1.aux) hs.sim, hs.root, hs.env, fun l hl hlf => ?_, ?_⟩
      · have := hs.leaves l hl (by rw [e1.aux.isLeaf]; exact hlf)
        rw [← this]
        exact (Sim.array e1 l).symm
      · refine d3.imp id fun d3 => ?_
        refine d3.noAux ht.links.wf (Sim2.ttn e1.aux ht).links.wf e1 (fun u => ?_) (fun u => ?_)
        · show ((h1.setAux t (some Y)).node u).penv = _
          unfold setAux; rw [node_upd]; split <;> rfl
        · show ((h1.setAux t (some Y)).node u).isLeaf = _
          unfold setAux; rw [node_upd]; split <;> rfl
    have haux : ∀ u, ((h1.setAux t (some Y)).node u).aux = if u = t then some Y else (s.heap.node u).aux := by
      intro u
      unfold setAux
      rw [node_upd]
      split
      · rfl
      · exact d2.aux u
    obtain ⟨h', g1, g2, g3, g4, g5⟩ := ih (fun u hu => hts u (by simp [hu])) n2 { s with heap := h1.setAux t (some Y) } hmid
      (fun u hu A' hA' => by
        have hne : u ≠ t := fun q => n1 (q ▸ hu)
        show Acc ref s0 F inv terms u A' ((h1.setAux t (some Y)).node u).aux
        rw [haux, if_neg hne]
        exact hacc u (by simp [hu]) A' hA')
    refine ⟨h', ?_, g2, e1.trans g3, fun u hu => ?_, fun u hu A' hA' => ?_⟩
    · rw [List.foldlM_cons, d1]
      simp only [ok_bind, y1]
      exact g1
    · simp only [List.mem_cons, not_or] at hu
      rw [g4 u hu.2]
      show ((h1.setAux t (some Y)).node u).aux = _
      rw [haux, if_neg hu.1]
    · rcases List.mem_cons.1 hu with rfl | hu
      · rw [g4 u n1]
        show Acc _ _ _ _ _ _ _ ((h1.setAux u (some Y)).node u).aux
        rw [haux, if_pos rfl]
        have : A = A' := Option.some.inj (hA.array.symm.trans hA'.array)
        rw [← this]
        exact y2
      · exact g5 u hu A' hA'

/-- What `aux` of a tensor holds in the end. -/
def FinalRef (ref : ℕ → Obj T R) (s0 : Obj T R) (F : Forest) (inv : Dict ℕ (Nd R)) (coef : R) (initEnergy : Option R) (t : ℕ) (A : Nd R)
    (x : Option (Nd R)) : Prop :=
  ∃ G X D, x = some D ∧ D.Wf ∧ D.shape = A.shape ∧ X.shape = A.shape ∧ G.shape = A.shape ∧
    IsForce A (s0.heap.node t).axis (inv.get? t) G X ∧
    (FieldsRight s0 ref t → IsGradient (ref t) F t A (s0.allTerms none) G) ∧
    ∀ w, Valid A.shape w → D.get w = X.get w / coef -
      (if t = s0.root then (initEnergy.getD 0) * A.get w else 0)

theorem map_get {a : Nd R} (ha : a.Wf) (f : R → R) {w : List ℕ} (hw : Valid a.shape w) :
    (⟨a.shape, a.data.map f⟩ : Nd R).get w = f (a.get w) := by
  have h2 : (⟨a.shape, a.data.map f⟩ : Nd R).Wf := by unfold Nd.Wf at *; simpa using ha
  have h3 := Nd.get_eq_getElem ha hw
  have h4 := Nd.get_eq_getElem h2 hw
  simp only [List.getElem?_map, h3, Option.map_some] at h4
  exact (Option.some.inj h4).symm

theorem finish_ok {ref : ℕ → Obj T R} {s0 : Obj T R} {F : Forest} {inv : Dict ℕ (Nd R)} (hr : EomBase s0 F inv) (hne : s0.allTerms none ≠ [])
    {coef : R} {initEnergy : Option R} (ts : List ℕ) (hts : ∀ t ∈ ts, t ∈ s0.heap.tensors s0.root F) (hnd : ts.Nodup) (h : Heap R)
    (hs : Sim2 h s0.heap) (hacc : ∀ t ∈ ts, ∀ A, s0.heap.Full t A → Acc ref s0 F inv (s0.allTerms none) t A (h.node t).aux) :
    ∃ h', ts.foldlM (finishEom coef initEnergy) h = .ok h' ∧ Sim noAux h h' ∧
      (∀ t, t ∉ ts → (h'.node t).aux = (h.node t).aux) ∧
      ∀ t ∈ ts, ∀ A, s0.heap.Full t A → FinalRef ref s0 F inv coef initEnergy t A (h'.node t).aux := by
  induction ts generalizing h with
  | nil => exact ⟨h, rfl, Sim.rfl' _, fun _ _ => rfl, fun t ht => by cases ht⟩
  | cons t ts ih =>
    obtain ⟨n1, n2⟩ := List.nodup_cons.1 hnd
    have hm := hts t (by simp)
    obtain ⟨A, hA⟩ := hr.ttn.full t hm
    obtain ⟨Y, y1, y2⟩ : ∃ Y, finishEom coef initEnergy h t = .ok (h.setAux t (some Y)) ∧
        FinalRef ref s0 F inv coef initEnergy t A (some Y) := by
      rcases hacc t (by simp) A hA with ⟨-, q⟩ | ⟨G, X, h1, x1, x2, g1, g2, g3, g4⟩
      · exact absurd q hne
      · have hc : (⟨X.shape, X.data.map (· / coef)⟩ : Nd R).Wf := by unfold Nd.Wf at *; simpa using x1
        have hcg : ∀ w, Valid A.shape w → (⟨X.shape, X.data.map (· / coef)⟩ : Nd R).get w = X.get w / coef := by
          intro w hw
          exact map_get x1 (· / coef) (by rw [x2]; exact hw)
        have harr : h.array t = some A := by rw [hs.array (by rw [hs.isLeaf]; exact hA.leaf)]; exact hA.array
        unfold finishEom
        rw [h1, harr, hs.axis]
        rcases axis_cases hr hm with ⟨q1, q2⟩ | ⟨x, q1, q2, q3⟩
        · rw [q2]
          cases initEnergy with
          | none =>
            refine ⟨_, rfl, G, X, _, rfl, hc, x2, x2, g2, g3, g4, fun w hw => ?_⟩
            rw [hcg w hw]
            simp
          | some e =>
            have hb : (⟨A.shape, A.data.map (e * ·)⟩ : Nd R).Wf := by have := hA.wf; unfold Nd.Wf at *; simpa using this
            obtain ⟨C, c1, c2, c3, c4⟩ := Nd.sub_ok hc hb x2
            simp only [c1, ok_bind]
            refine ⟨C, rfl, G, X, C, rfl, c2, c3.trans x2, x2, g2, g3, g4, fun w hw => ?_⟩
            rw [c4 w (by show Valid X.shape w; rw [x2]; exact hw), hcg w hw, map_get hA.wf _ hw, if_pos q1]
            rfl
        · rw [q3]
          refine ⟨_, rfl, G, X, _, rfl, hc, x2, x2, g2, g3, g4, fun w hw => ?_⟩
          rw [hcg w hw, if_neg, sub_zero]
          intro q
          have h3 := (mem_bonds.1 q1).1
          have h4 := (TreeSum.edges_mem h3).2
          rw [q2, q] at h4
          exact (List.nodup_cons.1 hr.ttn.tree.nodup).1 h4
    have e1 : Sim noAux h (h.setAux t (some Y)) := (setAux_noAux h t (some Y)).symm
    have haux : ∀ u, ((h.setAux t (some Y)).node u).aux = if u = t then some Y else (h.node u).aux := by
      intro u
      unfold setAux
      rw [node_upd]
      split <;> rfl
    obtain ⟨h', g1, g3, g4, g5⟩ := ih (fun u hu => hts u (by simp [hu])) n2 (h.setAux t (some Y)) (Sim.trans (Sim.symm e1.aux) hs)
      (fun u hu A' hA' => by
        have hne' : u ≠ t := fun q => n1 (q ▸ hu)
        rw [haux, if_neg hne']
        exact hacc u (by simp [hu]) A' hA')
    refine ⟨h', ?_, e1.trans g3, fun u hu => ?_, fun u hu A' hA' => ?_⟩
    · rw [List.foldlM_cons, y1]
      simp only [ok_bind]
      exact g1
    · simp only [List.mem_cons, not_or] at hu
      rw [g4 u hu.2, haux, if_neg hu.1]
    · rcases List.mem_cons.1 hu with rfl | hu
      · rw [g4 u n1, haux, if_pos rfl]
        have : A = A' := Option.some.inj (hA.array.symm.trans hA'.array)
        rw [← this]
        exact y2
      · exact g5 u hu A' hA'

omit [Field R] [StarRing R] in
/-- The tensors that `visitor(leaf=False)` visits. -/
theorem visit_tensors [CommRing R] {h : Heap R} {r : ℕ} {F : Forest} (ht : h.IsTTN r F) {fuel : ℕ} (hf : F.depth < fuel) :
    h.visitor fuel r none false = .ok (h.tensors r F) := by
  rw [visitor_tree ht.tree false hf]
  unfold tensors
  simp [ht.leaf]

/-- `eom()`: the operators are gone, links and arrays are unchanged, and `aux` of every tensor holds its derivative. -/
theorem eom_mode {full : Prop} {ref : ℕ → Obj T R} {s0 : Obj T R} {F : Forest} {inv : Dict ℕ (Nd R)} (hr : EomBase s0 F inv)
    (hmode : Mode full s0 F ref) (hne : s0.allTerms none ≠ [])
    (coef : R) (initEnergy : Option R) {fuel : ℕ} (hf : F.ids.length < fuel) :
    ∃ s', eom fuel inv coef initEnergy s0 = .ok s' ∧ Clean s0 F s' ∧ s'.root = s0.root ∧
      (∀ t ∈ s0.heap.tensors s0.root F, ∀ A, s0.heap.array t = some A →
        FinalRef ref s0 F inv coef initEnergy t A (s'.heap.node t).aux) ∧
      s'.env = s0.env ∧ s'.hList = s0.hList ∧ s'.fList = s0.fList ∧ s'.time = s0.time := by
  have hd : F.depth < fuel := lt_of_le_of_lt F.depth_le hf
  have hfull : ∀ t ∈ s0.heap.tensors s0.root F, ∀ A, s0.heap.array t = some A → s0.heap.Full t A := by
    intro t hm A hA
    obtain ⟨A', hA'⟩ := hr.ttn.full t hm
    obtain rfl : A = A' := Option.some.inj (hA.symm.trans hA'.array)
    exact hA'
  have hv := visitor_tree hr.ttn.tree true hd
  simp only [Bool.true_or, if_true, List.filter_true, List.cons_append, List.nil_append] at hv
  set h1 := (s0.root :: F.ids).foldl (fun h t => h.setAux t none) s0.heap with hh1
  have e1 : Sim noAux h1 s0.heap := foldl_sim (fun h l => setAux_noAux h l none) _ _
  have haux1 : ∀ t ∈ s0.heap.tensors s0.root F, (h1.node t).aux = none := by
    intro t hm
    have := (foldl_setAux (fun _ _ => none) (fun _ _ _ _ => rfl) (s0.root :: F.ids) s0.heap).2 t
    rw [hh1, this, if_pos (List.mem_cons.2 (mem_tensors.1 hm).1)]
  have ht1 : h1.IsTTN s0.root F := Sim2.ttn (Sim.symm e1.aux) hr.ttn
  set s1 : Obj T R := { s0 with heap := h1 } with hs1
  have hall : s1.allTerms none = s0.allTerms none := rfl
  obtain ⟨s2, u, v1, v2, v3⟩ := termVisitor_ok (A := Unit) (s0 := s1) (useCache := false) (onlyTd := false) (op := none) ht1 hd
    (body := fun n x => do
      let s ← eomTerm fuel inv n x.1
      pure (s, ()))
    (I := fun n s2 _ => s2.root = s0.root ∧ s2.env = s0.env ∧ (∀ t ∈ s0.heap.tensors s0.root F, ∀ A, s0.heap.Full t A →
      Acc ref s0 F inv ((s0.allTerms none).take n) t A (s2.heap.node t).aux) ∧ s2.hList = s0.hList ∧ s2.fList = s0.fList ∧ s2.time = s0.time)
    (fun n s2 _ h' e hi => ⟨hi.1, hi.2.1, fun t hm A hA => by
      have := congrArg Node.aux (e.2 t)
      have h2 : (s2.heap.node t).aux = (h'.node t).aux := this
      show Acc _ _ _ _ _ _ _ (h'.node t).aux
      rw [← h2]
      exact hi.2.2.1 t hm A hA, hi.2.2.2⟩)
    (fun term hterm p hp => by
      show h1.isLeaf p.1 = true
      rw [e1.aux.isLeaf]
      exact hr.leaf term hterm p hp)
    (fun n term hn _ s2 a hat _ hi => by
      rw [hall] at hn
      have hterm := List.mem_of_getElem? hn
      have e2 : Sim2 s2.heap s0.heap := Sim.trans ⟨hat.next, hat.same⟩ e1.aux
      have ht2 : s2.heap.IsTTN s0.root F := Sim2.ttn (Sim.symm e2) hr.ttn
      have hmid : Mid full s0 F term s2 := by
        refine ⟨e2, hi.1, hi.2.1, hat.leaves, hmode.other.imp id fun hother _ => ⟨fun t k v hP hv hl G _ => ?_, fun t k hP hk => ?_⟩⟩
        · have := hat.cache t (mem_tensors.2 ⟨hP, hl⟩) k
          simp only [Bool.false_eq_true, if_false] at this
          rw [hv] at this
          cases this
        · by_cases hl : s2.heap.isLeaf t = false
          · have hm : t ∈ s0.heap.tensors s0.root F := by rw [← e2.tensors]; exact mem_tensors.2 ⟨hP, hl⟩
            exact (hother.1 t hm (by rw [← e2.axis, hk]; simp)).congr (Sim.symm e2)
          · exact fun A _ q _ => absurd q hl
      obtain ⟨h', g1, g2, g3, -, g5⟩ := eomFold_ok hr hmode hn hf (s0.heap.tensors s0.root F) (fun _ q => q)
        (hr.ttn.tree.nodup.filter _) s2 hmid (fun t ht A hA => hi.2.2.1 t ht A hA)
      refine ⟨{ s2 with heap := h' }, (), ?_, g3, rfl, hi.1, hi.2.1, fun t ht A hA => ?_, hi.2.2.2⟩
      · beta_reduce
        unfold eomTerm
        simp only
        rw [hi.1, show (s2.heap.node s0.root).axis = none from by rw [e2.axis]; exact hr.rooted.1, visit_tensors ht2 hd,
          e2.tensors]
        simp only [ok_bind]
        rw [g1]
        simp only [hi.1]
        rfl
      · have := g5 t ht A hA
        rw [List.take_add_one, hn]
        exact this)
    (a := ()) ⟨rfl, rfl, fun t hm A _ => .inl ⟨haux1 t hm, by simp [firstTerm]⟩, rfl, rfl, rfl⟩
  rw [hall, List.take_length] at v3
  have e3 : Sim2 s2.heap s0.heap := Sim.trans ⟨v2.next, v2.same⟩ e1.aux
  have ht3 : s2.heap.IsTTN s0.root F := Sim2.ttn (Sim.symm e3) hr.ttn
  obtain ⟨h', g1, g2, -, g4⟩ := finish_ok hr hne (coef := coef) (initEnergy := initEnergy) (s0.heap.tensors s0.root F)
    (fun _ q => q) (hr.ttn.tree.nodup.filter _) s2.heap e3 v3.2.2.1
  refine ⟨{ s2 with heap := h' }, ?_, ?_, v3.1, fun t hm A hA => g4 t hm A (hfull t hm A hA), v3.2.1, v3.2.2.2⟩
  · unfold eom
    rw [hr.rooted.1, hv]
    simp only [ok_bind]
    rw [← hh1, ← hs1, v1]
    simp only [ok_bind]
    rw [v3.1, show (s2.heap.node s0.root).axis = none from by rw [e3.axis]; exact hr.rooted.1, visit_tensors ht3 hd, e3.tensors]
    simp only [ok_bind]
    rw [g1]
    rfl
  · have e4 : Sim2 h' s0.heap := Sim.trans (Sim.symm g2.aux) e3
    have hl2 : ∀ l, h'.isLeaf l = true → s2.heap.isLeaf l = true := by
      intro l hlf; rw [g2.aux.isLeaf]; exact hlf
    refine ⟨e4.1, e4.2, fun l hl hlf => ?_, fun l hlf h0 => ?_⟩
    · rw [← v2.leaves l hl (hl2 l hlf)]
      exact (Sim.array g2 l).symm
    · rw [← v2.others l (hl2 l hlf) ((Sim.array e1 l).trans h0)]
      exact (Sim.array g2 l).symm

/-- What `aux` of a tensor holds in the end, compared with the present state. -/
def Final (s0 : Obj T R) (F : Forest) (inv : Dict ℕ (Nd R)) (coef : R) (initEnergy : Option R) (t : ℕ) (A : Nd R)
    (x : Option (Nd R)) : Prop :=
  ∃ G X D, x = some D ∧ D.Wf ∧ D.shape = A.shape ∧ X.shape = A.shape ∧ G.shape = A.shape ∧
    IsForce A (s0.heap.node t).axis (inv.get? t) G X ∧
    (EnvRight s0 t → IsGradient s0 F t A (s0.allTerms none) G) ∧
    ∀ w, Valid A.shape w → D.get w = X.get w / coef -
      (if t = s0.root then (initEnergy.getD 0) * A.get w else 0)

/-- `eom()`: the operators are gone, links and arrays are unchanged, and `aux` of every tensor holds its derivative. -/
theorem eom_ok {s0 : Obj T R} {F : Forest} {inv : Dict ℕ (Nd R)} (hr : EomReady s0 F inv) (hne : s0.allTerms none ≠ [])
    (coef : R) (initEnergy : Option R) {fuel : ℕ} (hf : F.ids.length < fuel) :
    ∃ s', eom fuel inv coef initEnergy s0 = .ok s' ∧ Clean s0 F s' ∧ s'.root = s0.root ∧
      (∀ t ∈ s0.heap.tensors s0.root F, ∀ A, s0.heap.array t = some A →
        Final s0 F inv coef initEnergy t A (s'.heap.node t).aux) ∧
      s'.env = s0.env ∧ s'.hList = s0.hList ∧ s'.fList = s0.fList ∧ s'.time = s0.time :=
  eom_mode hr.base hr.mode hne coef initEnergy hf

end ML
