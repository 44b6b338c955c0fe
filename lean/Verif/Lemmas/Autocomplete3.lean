import Verif.Lemmas.Autocomplete2
import Verif.Props.C02

/-!
Lemmas about `autocomplete`: the network after the loop, and the state it represents.
-/

open scoped BigOperators
open Py

theorem prod_pos_of_valid {shape p : List ℕ} (h : Valid shape p) : 0 < shape.prod := by
  have := ravel_lt h
  omega

theorem ravel_eq_zero {shape p : List ℕ} (h : Valid shape p) : ravel shape p = 0 ↔ ∀ x ∈ p, x = 0 := by
  induction shape generalizing p with
  | nil =>
    rw [valid_nil_iff] at h
    subst h
    simp [ravel]
  | cons d ds ih =>
    obtain ⟨i, is, rfl, hi, hv⟩ := valid_cons_iff.1 h
    have := prod_pos_of_valid hv
    simp only [ravel, List.mem_cons, forall_eq_or_imp, ← ih hv]
    rw [Nat.add_eq_zero_iff, Nat.mul_eq_zero]
    constructor
    · rintro ⟨a | a, b⟩
      · exact ⟨a, b⟩
      · omega
    · rintro ⟨a, b⟩; exact ⟨.inl a, b⟩

namespace TreeSum

variable {R : Type} [CommRing R]

open Heap (Assign)

/-- A sum over indices of which only the term with all indices 0 is there. -/
theorem sumOver_zeros {κ : Type} [DecidableEq κ] {d : κ → ℕ} {L : List κ} (hn : L.Nodup) (hd : ∀ p ∈ L, 0 < d p) {g : (κ → ℕ) → R} (σ : κ → ℕ) :
    sumOver d L (fun τ => if ∀ p ∈ L, τ p = 0 then g τ else 0) σ = g fun p => if p ∈ L then 0 else σ p := by
  induction L generalizing σ g with
  | nil => simp [sumOver]
  | cons p L ih =>
    obtain ⟨n1, n2⟩ := List.nodup_cons.1 hn
    simp only [sumOver]
    have key : ∀ v, sumOver d L (fun τ => if ∀ q ∈ p :: L, τ q = 0 then g τ else 0) (Nd.upd σ p v) =
        if v = 0 then g fun q => if q ∈ p :: L then 0 else σ q else 0 := by
      intro v
      have e1 : (fun τ : κ → ℕ => if ∀ q ∈ p :: L, τ q = 0 then g τ else 0) =
          fun τ => if ∀ q ∈ L, τ q = 0 then (if τ p = 0 then g τ else 0) else 0 := by
        funext τ
        by_cases a : τ p = 0 <;> by_cases b : ∀ q ∈ L, τ q = 0 <;> simp [a, b]
      rw [e1, ih n2 (fun q hq => hd q (by simp [hq])) (g := fun τ => if τ p = 0 then g τ else 0)]
      simp only [n1, if_false, Nd.upd_self]
      by_cases hv : v = 0
      · subst hv
        simp only [if_true]
        congr 1
        funext q
        by_cases h1 : q = p
        · subst h1; simp [n1]
        · simp [h1, Nd.upd_ne _ _ h1]
      · simp [hv]
    rw [Finset.sum_congr rfl fun v _ => key v, Finset.sum_ite_eq', if_pos (Finset.mem_range.2 (hd p (by simp)))]

/-- Every tensor of the forest, entered with index 0, is 1 where all indices are 0, and 0 elsewhere. -/
def GroundIn (lf : ℕ → Bool) (d : ℕ × ℕ → ℕ) (ent : ℕ → Assign → R) : Forest → Prop
  | .nil => True
  | .cons _ j id sub rest =>
    (lf id = false → (∀ p ∈ halfs id sub, 0 < d p) ∧ ∀ σ : Assign, σ (id, j) = 0 → (∀ p ∈ halfs id sub, σ p < d p) →
      ent id σ = if ∀ p ∈ halfs id sub, σ p = 0 then 1 else 0) ∧ GroundIn lf d ent sub ∧ GroundIn lf d ent rest

theorem nodup_halfs {F : Forest} (h : AxesOk F) (a : ℕ) : (halfs a F).Nodup := by
  induction F with
  | nil => simp
  | cons i j id sub rest _ ih =>
    obtain ⟨h1, -, h3⟩ := h
    rw [halfs_cons, List.nodup_cons]
    refine ⟨fun q => ?_, ih h3⟩
    unfold halfs at q
    obtain ⟨y, y1, y2⟩ := List.mem_map.1 q
    exact h1 y y1 (by cases y2; rfl)

theorem psi_ground {lf : ℕ → Bool} {d : ℕ × ℕ → ℕ} {ent : ℕ → Assign → R} (x : ℕ → ℕ) {F : Forest} (hg : GroundIn lf d ent F)
    (hl : LeafNil lf F) (ho : AxesOk F) (hi : AxesIn F) {a : ℕ} {σ : Assign} (hσ : ∀ p ∈ halfs a F, σ p = 0) :
    psi lf d ent x F a σ = if ∀ l ∈ F.ids.filter fun t => lf t, x l = 0 then 1 else 0 := by
  induction F generalizing a σ with
  | nil => simp [psi, Forest.ids]
  | cons i j id sub rest ih1 ih2 =>
    obtain ⟨g1, g2, g3⟩ := hg
    obtain ⟨l1, l2, l3⟩ := hl
    obtain ⟨o1, o2, o3⟩ := ho
    obtain ⟨i1, i2, i3⟩ := hi
    have h0 : σ (a, i) = 0 := hσ _ (by simp)
    simp only [psi, h0]
    rw [ih2 g3 l3 o3 i3 (a := a) (σ := σ) fun p hp => hσ p (by simp [hp])]
    cases hlf : lf id with
    | true =>
      obtain rfl := l1 hlf
      have hfil : (∀ l ∈ (Forest.cons i j id .nil rest).ids.filter fun t => lf t, x l = 0) ↔
          x id = 0 ∧ ∀ l ∈ rest.ids.filter fun t => lf t, x l = 0 := by
        simp [Forest.ids, hlf]
      rw [if_congr hfil rfl rfl, if_pos rfl]
      by_cases e : x id = 0
      · simp [e]
      · have e' : ¬ (x id = 0 ∧ ∀ l ∈ rest.ids.filter fun t => lf t, x l = 0) := fun q => e q.1
        rw [if_neg e', if_neg (fun q : 0 = x id => e q.symm), zero_mul]
    | false =>
      obtain ⟨d1, e1⟩ := g1 hlf
      have hij : (id, j) ∉ halfs id sub := by
        intro q
        unfold halfs at q
        obtain ⟨y, y1, y2⟩ := List.mem_map.1 q
        exact i1 y y1 (by cases y2; rfl)
      have : sumOver d (halfs id sub) (fun σ' => ent id σ' * psi lf d ent x sub id σ') (Nd.upd (fun _ => 0) (id, j) 0) =
          sumOver d (halfs id sub) (fun σ' => if ∀ p ∈ halfs id sub, σ' p = 0 then psi lf d ent x sub id σ' else 0)
            (Nd.upd (fun _ => 0) (id, j) 0) := by
        refine sumOver_congr fun τ t1 t2 => ?_
        rw [e1 τ (by rw [t1 _ hij, Nd.upd_self]) t2]
        split <;> simp
      simp only [Bool.false_eq_true, if_false]
      rw [this, sumOver_zeros (nodup_halfs o2 id) d1, ih1 g2 l2 o2 i2 fun p hp => by simp [hp]]
      have hfil : (∀ l ∈ (Forest.cons i j id sub rest).ids.filter fun t => lf t, x l = 0) ↔
          (∀ l ∈ sub.ids.filter fun t => lf t, x l = 0) ∧ ∀ l ∈ rest.ids.filter fun t => lf t, x l = 0 := by
        simp only [Forest.ids, List.cons_append, List.filter_cons, hlf, List.filter_append, Bool.false_eq_true, if_false,
          List.mem_append, or_imp, forall_and]
      rw [if_congr hfil rfl rfl]
      by_cases a1 : ∀ l ∈ sub.ids.filter fun t => lf t, x l = 0 <;> by_cases a2 : ∀ l ∈ rest.ids.filter fun t => lf t, x l = 0
      · rw [if_pos a1, if_pos a2, if_pos ⟨a1, a2⟩, one_mul]
      · rw [if_neg a2, mul_zero, if_neg (fun q => a2 q.2)]
      · rw [if_neg a1, zero_mul, if_neg (fun q => a1 q.1)]
      · rw [if_neg a1, zero_mul, if_neg (fun q => a1 q.1)]

end TreeSum

namespace Heap.Bare

open TreeSum

variable {R : Type} [Field R] [StarRing R]
variable {h h' : Heap R} {r : ℕ} {F : Forest} {dims : Dict (ℕ × ℕ × ℕ × ℕ) ℕ} {want : ℕ × ℕ → ℕ}

/-- The network `h'` has the objects and links of `h`, and its tensors have arrays. -/
structure Filled0 (h h' : Heap R) (r : ℕ) (F : Forest) (want : ℕ × ℕ → ℕ) : Prop where
  next : h'.next = h.next
  shell : ∀ u, shell (h'.node u) = shell (h.node u)
  other : ∀ u, u ∉ h.tensors r F → h'.node u = h.node u
  kept : ∀ u, h.array u ≠ none → h'.node u = h.node u
  fit : ∀ t ∈ h.tensors r F, ∃ A, h'.array t = some A ∧ A.Wf ∧ A.shape = (List.range (h.order t)).map fun i => want (t, i)

/-- The arrays are those that `autocomplete` makes. -/
structure Filled (h h' : Heap R) (r : ℕ) (F : Forest) (want : ℕ × ℕ → ℕ) : Prop extends Filled0 h h' r F want where
  done : ∀ t ∈ h.tensors r F, h.array t = none → ∃ A, h'.array t = some A ∧ Done h want t A

namespace Filled0

theorem access (f : Filled0 h h' r F want) (u : ℕ) : h'.access u = h.access u := by
  have := congrArg Node.access (f.shell u)
  exact this

theorem acc (f : Filled0 h h' r F want) (u k : ℕ) : h'.acc u k = h.acc u k := by rw [acc_def, acc_def, f.access]

theorem isLeaf (f : Filled0 h h' r F want) (u : ℕ) : h'.isLeaf u = h.isLeaf u := by
  have := congrArg Node.isLeaf (f.shell u)
  exact this

theorem axis (f : Filled0 h h' r F want) (u : ℕ) : (h'.node u).axis = (h.node u).axis := by
  have := congrArg Node.axis (f.shell u)
  exact this

theorem name (f : Filled0 h h' r F want) (u : ℕ) : (h'.node u).name = (h.node u).name := by
  have := congrArg Node.name (f.shell u)
  exact this

theorem order (f : Filled0 h h' r F want) (u : ℕ) : h'.order u = h.order u := by
  unfold Heap.order; rw [f.isLeaf, f.access]

theorem tensors (f : Filled0 h h' r F want) : h'.tensors r F = h.tensors r F := by
  unfold Heap.tensors; simp only [f.isLeaf]

theorem bonds (f : Filled0 h h' r F want) : h'.bonds r F = h.bonds r F := by
  unfold Heap.bonds; simp only [f.isLeaf]

theorem links (f : Filled0 h h' r F want) (hb : Bare h r F dims want) : h'.LinkInv := hb.links.congr f.access f.next

theorem tree (f : Filled0 h h' r F want) (hb : Bare h r F dims want) : IsTree h' r none F :=
  hb.tree.congr hb.links.wf (f.links hb).wf (fun a k => (f.acc a k)) fun a _ => f.isLeaf a

theorem hdim (f : Filled0 h h' r F want) {t k : ℕ} (ht : t ∈ h.tensors r F) (hk : k < h.order t) : h'.hdim (t, k) = want (t, k) := by
  obtain ⟨A, a1, a2, a3⟩ := f.fit t ht
  unfold Heap.hdim
  simp only [a1]
  rw [a3, List.getD_eq_getElem _ _ (by simpa using hk)]
  simp

theorem ttn (f : Filled0 h h' r F want) (hb : Bare h r F dims want) : h'.IsTTN r F where
  links := f.links hb
  tree := f.tree hb
  leaf := by rw [f.isLeaf]; exact hb.leaf
  lt := by rw [f.next]; exact hb.lt
  full t ht := by
    rw [f.tensors] at ht
    obtain ⟨h1, h2⟩ := mem_tensors.1 ht
    obtain ⟨A, a1, a2, a3⟩ := f.fit t ht
    refine ⟨A, by rw [f.isLeaf]; exact h2, a1, a2, ?_, fun k => ?_⟩
    · rw [a3]
      intro d hd
      obtain ⟨i, hi, rfl⟩ := List.mem_map.1 hd
      exact hb.pos ht (List.mem_range.1 hi)
    · rw [f.acc, hb.complete t h1]
      unfold Nd.ndim
      rw [a3]; simp
  dims e he := by
    rw [f.bonds] at he
    obtain ⟨e1, e2⟩ := mem_bonds.1 he
    have hs := Forest.edges_src (k := e.2.1) (y := e.2.2.1) (l := e.2.2.2) e1
    have ht := Forest.edges_tgt (x := e.1) (k := e.2.1) (l := e.2.2.2) e1
    have hsl := Forest.edges_src_leaf hb.leaf hb.tree.leafEnd (k := e.2.1) (y := e.2.2.1) (l := e.2.2.2) e1
    have hlink := (edges_props hb.links.wf hb.links.sym hb.tree hb.leaf).1 _ e1
    have hback := hb.links.sym _ _ _ _ hlink
    rw [f.hdim (mem_tensors.2 ⟨hs, hsl⟩) ((hb.complete _ hs _).1 (by rw [hlink]; simp)),
      f.hdim (mem_tensors.2 ⟨.inr ht, e2⟩) ((hb.complete _ (.inr ht) _).1 (by rw [hback]; simp)), hb.ends e he]
  names t ht := by
    rw [f.tensors] at ht
    rw [f.name]
    exact hb.names t ht

theorem rooted (f : Filled0 h h' r F want) (hb : Bare h r F dims want) : h'.Rooted r F := by
  refine ⟨by rw [f.axis]; exact hb.rooted.1, fun e he => ?_⟩
  rw [f.bonds] at he
  rw [f.axis]; exact hb.rooted.2 e he

/-- Every object is complete. -/
theorem complete (f : Filled0 h h' r F want) (hb : Bare h r F dims want) {u : ℕ} (hu : u = r ∨ u ∈ F.ids) : h'.Complete u true := by
  refine ⟨fun i => by rw [f.acc, f.order]; exact hb.complete u hu i, fun i b j e => ?_⟩
  rw [f.acc] at e ⊢
  refine ⟨hb.links.sym _ _ _ _ e, fun _ => ?_⟩
  have src : ∀ a k c l, (a, k, c, l) ∈ F.edges r → ∃ A, h'.array a = some A ∧ A.shape[k]? = some (want (a, k)) := by
    intro a k c l he
    have hs := Forest.edges_src he
    have hm := mem_tensors.2 ⟨hs, Forest.edges_src_leaf hb.leaf hb.tree.leafEnd he⟩
    obtain ⟨A, a1, a2, a3⟩ := f.fit a hm
    have hk := (hb.complete a hs k).1 (by rw [(edges_props hb.links.wf hb.links.sym hb.tree hb.leaf).1 _ he]; simp)
    exact ⟨A, a1, by rw [a3]; simp [hk]⟩
  have tgt : ∀ a k c l, (a, k, c, l) ∈ F.edges r → (h'.isLeaf c = true ∧ h'.array c = none) ∨
      ∃ A, h'.array c = some A ∧ A.shape[l]? = some (want (a, k)) := by
    intro a k c l he
    have ht := Forest.edges_tgt he
    cases hl : h.isLeaf c with
    | true =>
      have hn : h'.node c = h.node c := f.other c fun q => by rw [(mem_tensors.1 q).2] at hl; cases hl
      cases hM : h.array c with
      | none => exact .inl ⟨by rw [f.isLeaf, hl], by unfold array at hM ⊢; rw [hn, hM]⟩
      | some M => exact .inr ⟨M, by unfold array at hM ⊢; rw [hn, hM], hb.ops _ he hl M hM⟩
    | false =>
      have hm : c ∈ h.tensors r F := mem_tensors.2 ⟨.inr ht, hl⟩
      obtain ⟨A, a1, a2, a3⟩ := f.fit c hm
      have hlink := (edges_props hb.links.wf hb.links.sym hb.tree hb.leaf).1 _ he
      simp only at hlink
      have hk := (hb.complete c (.inr ht) l).1 (by rw [hb.links.sym _ _ _ _ hlink]; simp)
      refine .inr ⟨A, a1, ?_⟩
      rw [a3, hb.ends _ (mem_bonds.2 ⟨he, hl⟩)]
      simp [hk]
  rcases hb.cover hu e with q | q
  · obtain ⟨A, a1, a2⟩ := src _ _ _ _ q
    rcases tgt _ _ _ _ q with t | ⟨B, b1, b2⟩
    · exact .inr (.inl t)
    · exact .inr (.inr ⟨A, B, _, a1, b1, a2, b2⟩)
  · obtain ⟨A, a1, a2⟩ := src _ _ _ _ q
    rcases tgt _ _ _ _ q with t | ⟨B, b1, b2⟩
    · exact .inl t
    · exact .inr (.inr ⟨B, A, _, b1, a1, b2, a2⟩)

end Filled0

namespace Filled

/-- The array of a tensor below the root. -/
theorem pick (f : Filled h h' r F want) (hb : Bare h r F dims want) {e : ℕ × ℕ × ℕ × ℕ} (he : e ∈ h.bonds r F)
    (hnone : h.array e.2.2.1 = none) :
    ∃ A c, h'.array e.2.2.1 = some A ∧ e.2.2.2 < A.ndim ∧
      A.shape = ((List.range (h.order e.2.2.1)).map fun i => want (e.2.2.1, i)) ∧ Pick A e.2.2.2 c ∧ c 0 = 0 ∧
      (∀ z < A.shape.getD e.2.2.2 1, c z < (A.shape.eraseIdx e.2.2.2).prod) ∧
        (∀ z < A.shape.getD e.2.2.2 1, ∀ w < A.shape.getD e.2.2.2 1, c z = c w → z = w) ∧
        ∀ z < A.shape.getD e.2.2.2 1, (Triangular.triangular (A.shape.eraseIdx e.2.2.2))[z]? = some (c z) := by
  obtain ⟨e1, e2⟩ := mem_bonds.1 he
  have ht := Forest.edges_tgt (x := e.1) (k := e.2.1) (l := e.2.2.2) e1
  have hm : e.2.2.1 ∈ h.tensors r F := mem_tensors.2 ⟨.inr ht, e2⟩
  obtain ⟨A, a1, a2, a3, a4⟩ := f.done _ hm hnone
  rw [hb.rooted.2 e he] at a4
  obtain ⟨c, q1, q2, q3, q4, q5⟩ := a4
  have hlink := (edges_props hb.links.wf hb.links.sym hb.tree hb.leaf).1 _ e1
  have hback := hb.links.sym _ _ _ _ hlink
  have hk := (hb.complete _ (.inr ht) _).1 (by rw [hback]; simp)
  exact ⟨A, c, a1, by unfold Nd.ndim; rw [a3]; simpa using hk, a3, q1, q2, q3, q4, q5⟩

theorem canonical (f : Filled h h' r F want) (hb : Bare h r F dims want) {e : ℕ × ℕ × ℕ × ℕ} (he : e ∈ h.bonds r F)
    (hnone : h.array e.2.2.1 = none) : h'.Canonical e.2.2.1 e.2.2.2 := by
  obtain ⟨A, c, a1, a2, a3, a4, a5, a6, a7, a8⟩ := f.pick hb he hnone
  exact ⟨A, a1, a2, fun z w hz hw => a4.orth a6 a7 hz hw⟩

/-- The slices towards the root are different unit vectors, the first one the first of all. -/
theorem unitSlices (f : Filled h h' r F want) (hb : Bare h r F dims want) {e : ℕ × ℕ × ℕ × ℕ} (he : e ∈ h.bonds r F)
    (hnone : h.array e.2.2.1 = none) : ∃ A, h'.array e.2.2.1 = some A ∧ UnitSlices A e.2.2.2 := by
  obtain ⟨A, c, a1, a2, a3, a4, a5, a6, a7, a8⟩ := f.pick hb he hnone
  refine ⟨A, a1, fun z => unravel (A.shape.eraseIdx e.2.2.2) (c z), fun z w hz hw q => ?_, fun z hz => ?_⟩
  · have := congrArg (ravel (A.shape.eraseIdx e.2.2.2)) q
    rw [ravel_unravel (a6 z hz), ravel_unravel (a6 w hw)] at this
    exact a7 z hz w hw this
  · refine ⟨valid_unravel (a6 z hz), fun p hp => ?_⟩
    rw [a4 z hz p hp]
    refine if_congr ⟨fun q => ?_, fun q => ?_⟩ rfl rfl <;> beta_reduce at *
    · rw [q, unravel_ravel hp]
    · rw [q, ravel_unravel (a6 z hz)]

end Filled

end Heap.Bare
