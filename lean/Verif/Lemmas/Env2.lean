import Verif.Lemmas.Env
import Verif.Lemmas.TreeNet

/-!
`partial_env` at the root of a tree tensor network is the sum over all leaf indices.
-/

open scoped BigOperators
open Py

namespace TreeSum

variable {R : Type} [CommRing R]

open Heap (Assign sumLeaves)

theorem sumLeaves_congr' {L : List (ℕ × ℕ)} (hL : (L.map Prod.fst).Nodup) {g g' : (ℕ → ℕ) → R} {x : ℕ → ℕ}
    (h : ∀ y : ℕ → ℕ, (∀ l, l ∉ L.map Prod.fst → y l = x l) → (∀ p ∈ L, y p.1 < p.2) → g y = g' y) :
    sumLeaves L g x = sumLeaves L g' x := by
  induction L generalizing x with
  | nil => exact h x (fun _ _ => rfl) (by simp)
  | cons p L ih =>
    simp only [List.map_cons, List.nodup_cons] at hL
    obtain ⟨l, n⟩ := p
    refine Finset.sum_congr rfl fun v hv => ih hL.2 fun y h1 h2 => h y ?_ ?_
    · intro k hk
      simp only [List.map_cons, List.mem_cons, not_or] at hk
      rw [h1 k hk.2, Nd.upd_ne _ _ hk.1]
    · intro q hq
      rcases List.mem_cons.1 hq with rfl | hq
      · simp only
        rw [h1 l hL.1, Nd.upd_self]; exact Finset.mem_range.1 hv
      · exact h2 q hq

/-- Summing against Kronecker deltas. -/
theorem sumLeaves_delta {L : List (ℕ × ℕ)} (hL : (L.map Prod.fst).Nodup) (g : (ℕ → ℕ) → R) (x y : ℕ → ℕ)
    (hx : ∀ p ∈ L, x p.1 < p.2) (hxy : ∀ l, l ∉ L.map Prod.fst → y l = x l) :
    sumLeaves L (fun y => ((L.map Prod.fst).map fun l => if x l = y l then (1 : R) else 0).prod * g y) y = g x := by
  induction L generalizing g y with
  | nil =>
    have : y = x := funext fun l => hxy l (by simp)
    simp [sumLeaves, this]
  | cons p L ih =>
    obtain ⟨l, n⟩ := p
    simp only [List.map_cons, List.nodup_cons] at hL
    simp only [sumLeaves, List.map_cons, List.prod_cons]
    rw [Finset.sum_eq_single (x l)]
    · have e : sumLeaves L (fun y => ((if x l = y l then (1 : R) else 0) *
          ((L.map Prod.fst).map fun l => if x l = y l then (1 : R) else 0).prod) * g y) (Nd.upd y l (x l)) =
          sumLeaves L (fun y => ((L.map Prod.fst).map fun l => if x l = y l then (1 : R) else 0).prod * g y)
            (Nd.upd y l (x l)) := by
        refine sumLeaves_congr' hL.2 fun z h1 _ => ?_
        rw [h1 l hL.1, Nd.upd_self]; simp
      rw [e]
      refine ih hL.2 g _ (fun q hq => hx q (by simp [hq])) fun k hk => ?_
      by_cases hkl : k = l
      · subst hkl; simp
      · rw [Nd.upd_ne _ _ hkl]
        exact hxy k (by simp only [List.map_cons, List.mem_cons, not_or]; exact ⟨hkl, hk⟩)
    · intro v _ hv
      have e : sumLeaves L (fun y => ((if x l = y l then (1 : R) else 0) *
          ((L.map Prod.fst).map fun l => if x l = y l then (1 : R) else 0).prod) * g y) (Nd.upd y l v) =
          sumLeaves L (fun _ => (0 : R) * 0) (Nd.upd y l v) := by
        refine sumLeaves_congr' hL.2 fun z h1 _ => ?_
        rw [h1 l hL.1, Nd.upd_self, if_neg (fun q => hv q.symm)]; simp
      rw [e, sumLeaves_mul_left, zero_mul]
    · intro hn
      exact absurd (Finset.mem_range.2 (hx (l, n) (by simp))) hn

end TreeSum

namespace Heap

variable {R : Type} [CommRing R]

open TreeSum

/-- A forest in a heap with links from each tensor to its children. -/
def LinkedIn (h : Heap R) (F : Forest) (a : ℕ) : Prop :=
  ∀ e ∈ F.edges a, h.acc e.1 e.2.1 = some (e.2.2.1, e.2.2.2) ∧ h.acc e.2.2.1 e.2.2.2 = some (e.1, e.2.1)

theorem leafNil_of {h : Heap R} {F : Forest} (hl : F.LeafEnd h) : LeafNil h.isLeaf F := by
  induction F with
  | nil => trivial
  | cons i j id sub rest ih1 ih2 => exact ⟨hl.1, ih1 hl.2.1, ih2 hl.2.2⟩

theorem axes_of {h : Heap R} (hw : h.Wf) {F : Forest} (hr : F.RepIn h)
    (hs : F.heads.Pairwise fun x y => x.1 < y.1) : AxesOk F ∧ AxesIn F := by
  induction F with
  | nil => exact ⟨trivial, trivial⟩
  | cons i j id sub rest ih1 ih2 =>
    simp only [Forest.heads, List.pairwise_cons] at hs
    obtain ⟨r1, r2, r3⟩ := hr
    obtain ⟨a1, a2⟩ := ih1 r2 (by rw [← r1]; exact pairwise_children hw _ _ _)
    obtain ⟨b1, b2⟩ := ih2 r3 hs.2
    refine ⟨⟨fun x hx => ?_, a1, b1⟩, fun x hx => ?_, a2, b2⟩
    · have := hs.1 x hx
      omega
    · obtain ⟨k, u, l⟩ := x
      rw [← r1, mem_children hw (by simp)] at hx
      intro q
      exact hx.2.1 (by simpa using q.symm)

/-- The entry of a tensor depends on its axes only. -/
theorem Full.entry_dep {h : Heap R} {t : ℕ} {A : Nd R} (hA : h.Full t A) :
    Dep (fun p => p.1 = t ∧ h.acc t p.2 ≠ none) (fun σ => h.entry σ t) := by
  intro σ τ e
  simp only [entry, hA.array]
  congr 1
  refine List.map_congr_left fun k hk => e (t, k) ⟨rfl, (hA.acc k).2 (List.mem_range.1 hk)⟩

theorem entOk_of {h : Heap R} (hw : h.Wf) {F : Forest} (hr : F.RepIn h)
    (hf : ∀ t ∈ F.ids, h.isLeaf t = false → ∃ A, h.Full t A) :
    EntOk h.isLeaf (fun t σ => h.entry σ t) F := by
  induction F with
  | nil => trivial
  | cons i j id sub rest ih1 ih2 =>
    obtain ⟨r1, r2, r3⟩ := hr
    simp only [Forest.ids, List.cons_append, List.mem_cons, List.mem_append] at hf
    refine ⟨fun hl => ?_, ih1 r2 fun t ht => hf t (.inr (.inl ht)), ih2 r3 fun t ht => hf t (.inr (.inr ht))⟩
    obtain ⟨A, hA⟩ := hf id (.inl rfl) hl
    refine hA.entry_dep.mono ?_
    rintro ⟨t, k⟩ ⟨rfl, hk⟩
    by_cases hkj : k = j
    · left; rw [hkj]
    · right
      obtain ⟨⟨u, l⟩, hu⟩ := Option.ne_none_iff_exists'.1 hk
      unfold halfs
      rw [← r1]
      refine List.mem_map.2 ⟨(k, u, l), (mem_children hw (by simp)).2 ⟨hu, ?_, by simp⟩, rfl⟩
      simpa using fun q => hkj q.symm

theorem leafVal_of {h : Heap R} {F : Forest} {a : ℕ} (hl : h.LinkedIn F a) (x : ℕ → ℕ) :
    LeafVal h.isLeaf x (h.leafAssign x) F a := by
  induction F generalizing a with
  | nil => trivial
  | cons i j id sub rest ih1 ih2 =>
    unfold LinkedIn at hl
    simp only [Forest.edges, List.cons_append, List.mem_cons, List.mem_append] at hl
    refine ⟨fun _ => ?_, ih1 fun e he => hl e (.inr (.inl he)), ih2 fun e he => hl e (.inr (.inr he))⟩
    have := (hl _ (.inl rfl)).1
    simp only at this
    simp [leafAssign, this]

theorem leafLt_of {h : Heap R} {F : Forest} {a : ℕ} {x : ℕ → ℕ}
    (hx : ∀ p ∈ leafDims h.isLeaf h.hdim F a, x p.1 < p.2) : LeafLt h.isLeaf x h.hdim F a := by
  have key : ∀ F a, (∀ e ∈ F.edges a, h.isLeaf e.2.2.1 = true → x e.2.2.1 < h.hdim (e.1, e.2.1)) →
      LeafLt h.isLeaf x h.hdim F a := by
    intro F
    induction F with
    | nil => intros; trivial
    | cons i j id sub rest ih1 ih2 =>
      intro a hl
      simp only [Forest.edges, List.cons_append, List.mem_cons, List.mem_append] at hl
      exact ⟨fun q => hl _ (.inl rfl) q, ih1 id fun e he => hl e (.inr (.inl he)),
        ih2 a fun e he => hl e (.inr (.inr he))⟩
  refine key F a fun e he hl => ?_
  refine hx (e.2.2.1, h.hdim (e.1, e.2.1)) ?_
  unfold leafDims
  exact List.mem_map.2 ⟨e, List.mem_filter.2 ⟨he, hl⟩, rfl⟩

theorem leafDims_nodup {lf : ℕ → Bool} {d : ℕ × ℕ → ℕ} {F : Forest} {a : ℕ} (hn : F.ids.Nodup) :
    (leafDims lf d F a).map Prod.fst = leavesOf lf F ∧ ((leafDims lf d F a).map Prod.fst).Nodup := by
  have h1 : (leafDims lf d F a).map Prod.fst = leavesOf lf F := by
    unfold leafDims leavesOf
    rw [← edges_targets F a, List.filter_map, List.map_map]
    rfl
  refine ⟨h1, ?_⟩
  rw [h1]
  exact hn.filter _

namespace IsTTN

variable {h : Heap R} {r : ℕ} {F : Forest}

theorem linkedIn (ht : h.IsTTN r F) : h.LinkedIn F r := fun e he => by
  have := ht.isLink_edge he
  exact ⟨this.1, this.2⟩

theorem full_of (ht : h.IsTTN r F) {t : ℕ} (hm : t = r ∨ t ∈ F.ids) (hl : h.isLeaf t = false) :
    ∃ A, h.Full t A := ht.full t (mem_tensors.2 ⟨hm, hl⟩)

theorem heads_sorted (ht : h.IsTTN r F) : F.heads.Pairwise fun x y => x.1 < y.1 := by
  rw [← ht.tree.heads]; exact pairwise_children ht.links.wf _ _ _

/-- The amplitude, evaluated recursively. -/
theorem amp_eq (ht : h.IsTTN r F) {x : ℕ → ℕ} (hx : ∀ p ∈ h.leafList r F, x p.1 < p.2) (σ : Assign) :
    h.treeAmp r F x = sumOver h.hdim (halfs r F) (fun τ => h.entry τ r *
      psi h.isLeaf h.hdim (fun t σ => h.entry σ t) x F r τ) σ := by
  obtain ⟨A, hA⟩ := ht.full_of (.inl rfl) ht.leaf
  obtain ⟨a1, a2⟩ := axes_of ht.links.wf ht.tree.rep ht.heads_sorted
  have hdep : Dep (· ∈ halfs r F) (fun σ => h.entry σ r) := by
    refine hA.entry_dep.mono ?_
    rintro ⟨t, k⟩ ⟨rfl, hk⟩
    obtain ⟨⟨u, l⟩, hu⟩ := Option.ne_none_iff_exists'.1 hk
    unfold halfs
    rw [← ht.tree.heads]
    exact List.mem_map.2 ⟨(k, u, l), (mem_children ht.links.wf (by simp [ht.leaf])).2 ⟨hu, by simp, by simp⟩, rfl⟩
  have h1 := flat_eq (G := fun σ => h.entry σ r) (σ := h.leafAssign x) (x := x) ht.tree.nodup
    (leafNil_of ht.tree.leafEnd) a1 a2
    (entOk_of ht.links.wf ht.tree.rep fun t hm hl => ht.full_of (.inr hm) hl) (leafLt_of hx)
    (hdep.mono fun p hp => halfs_fst hp) (leafVal_of ht.linkedIn x)
  rw [sumOver_base (P := (· ∈ halfs r F)) (τ := σ) (hdep.mul (psi_dep _ _ _ _ _ _)) (fun p hp hq => absurd hp hq)] at h1
  rw [← h1]
  unfold treeAmp amp
  rw [sumBonds_eq]
  have e1 : h.tensors r F = r :: tensOf h.isLeaf F := by
    unfold tensors tensOf
    rw [List.filter_cons, if_pos (by simp [ht.leaf])]
  rw [e1]
  rfl

end IsTTN

variable [StarRing R]

/-- The matrix element between the two networks: sum over all leaf indices. -/
noncomputable def denseElement (h : Heap R) (ua : Bool) (r : ℕ) (F : Forest) : R :=
  sumLL (h.leafList r F) ((h.braNet ua).leafList r F) (fun x y => h.treeAmp r F x *
    ((leavesOf h.isLeaf F).map fun l => opEntry (if ua then (h.node l).aux else h.array l) (x l) (y l)).prod *
      (h.braNet ua).treeAmp r F y) (fun _ => 0) (fun _ => 0)

theorem fits_of {h : Heap R} {ua : Bool} {F : Forest} {a : ℕ} (hl : h.LinkedIn F a)
    (hf : ∀ t ∈ F.ids, h.isLeaf t = false → (∃ A, h.Full t A) ∧ ∃ B, (h.braNet ua).Full t B)
    (hd : ∀ e ∈ F.edges a, h.isLeaf e.2.2.1 = false → h.hdim (e.1, e.2.1) = h.hdim (e.2.2.1, e.2.2.2) ∧
      (h.braNet ua).hdim (e.1, e.2.1) = (h.braNet ua).hdim (e.2.2.1, e.2.2.2))
    (ho : ∀ e ∈ F.edges a, h.isLeaf e.2.2.1 = true →
      OpFits (if ua then (h.node e.2.2.1).aux else h.array e.2.2.1) (h.hdim (e.1, e.2.1))
        ((h.braNet ua).hdim (e.1, e.2.1))) : h.Fits ua F a := by
  induction F generalizing a with
  | nil => trivial
  | cons i j id sub rest ih1 ih2 =>
    unfold LinkedIn at hl
    simp only [Forest.ids, List.cons_append, List.mem_cons, List.mem_append] at hf
    simp only [Forest.edges, List.cons_append, List.mem_cons, List.mem_append] at hl hd ho
    refine ⟨⟨fun q => ho _ (.inl rfl) q, fun q => ?_, ?_⟩, ?_, ?_⟩
    · obtain ⟨f1, f2⟩ := hf id (.inl rfl) q
      obtain ⟨d1, d2⟩ := hd _ (.inl rfl) q
      exact ⟨f1, f2, d1, d2⟩
    · have := (hl _ (.inl rfl)).2
      simp only at this
      rw [this]; simp
    · exact ih1 (fun e he => hl e (.inr (.inl he))) (fun t ht => hf t (.inr (.inl ht)))
        (fun e he => hd e (.inr (.inl he))) (fun e he => ho e (.inr (.inl he)))
    · exact ih2 (fun e he => hl e (.inr (.inr he))) (fun t ht => hf t (.inr (.inr ht)))
        (fun e he => hd e (.inr (.inr he))) (fun e he => ho e (.inr (.inr he)))

theorem IsTTN.fits {h : Heap R} {ua : Bool} {r : ℕ} {F : Forest} (ht : h.IsTTN r F) (hb : (h.braNet ua).IsTTN r F)
    (ho : ∀ e ∈ F.edges r, h.isLeaf e.2.2.1 = true →
      OpFits (if ua then (h.node e.2.2.1).aux else h.array e.2.2.1) (h.hdim (e.1, e.2.1))
        ((h.braNet ua).hdim (e.1, e.2.1))) : h.Fits ua F r :=
  fits_of ht.linkedIn (fun _ hm hl => ⟨ht.full_of (.inr hm) hl, hb.full_of (.inr hm) hl⟩)
    (fun e he hl => ⟨ht.dims e (mem_bonds.2 ⟨he, hl⟩), hb.dims e (mem_bonds.2 ⟨he, hl⟩)⟩) ho

theorem sumOver_zero {d : ℕ × ℕ → ℕ} {L : List (ℕ × ℕ)} {g g' : Assign → R} {σ : Assign}
    (h : ∀ τ : Assign, (∀ p ∈ L, τ p < d p) → g τ = g' τ) : sumOver d L g σ = sumOver d L g' σ :=
  sumOver_congr fun τ _ h2 => h τ h2

/-- The sum over leaf indices, evaluated recursively. -/
theorem denseElement_eq {h : Heap R} {ua : Bool} {r : ℕ} {F : Forest} (ht : h.IsTTN r F)
    (hb : (h.braNet ua).IsTTN r F) :
    h.denseElement ua r F = sumOver h.hdim (halfs r F) (fun σ => sumOver (h.braNet ua).hdim (halfs r F) (fun τ =>
      h.entry σ r * h.trueEnvs ua F r σ τ * (h.braNet ua).entry τ r) (fun _ => 0)) (fun _ => 0) := by
  set m : ℕ → ℕ → ℕ → R := fun l => opEntry (if ua then (h.node l).aux else h.array l) with hm
  have hnd : F.ids.Nodup := (List.nodup_cons.1 ht.tree.nodup).2
  have n1 := (leafDims_nodup (lf := h.isLeaf) (d := h.hdim) (a := r) hnd).2
  have n2 := (leafDims_nodup (lf := h.isLeaf) (d := (h.braNet ua).hdim) (a := r) hnd).2
  set ψ := fun x => psi h.isLeaf h.hdim (fun t σ => h.entry σ t) x F r with hψ
  set ψ' := fun y => psi h.isLeaf (h.braNet ua).hdim (fun t σ => (h.braNet ua).entry σ t) y F r with hψ'
  have e1 : h.denseElement ua r F = sumLL (leafDims h.isLeaf h.hdim F r) (leafDims h.isLeaf (h.braNet ua).hdim F r)
      (fun x y => sumOver h.hdim (halfs r F) (fun σ => sumOver (h.braNet ua).hdim (halfs r F) (fun τ =>
        (h.entry σ r * (h.braNet ua).entry τ r) * (ψ x σ * ((leavesOf h.isLeaf F).map fun l => m l (x l) (y l)).prod *
          ψ' y τ)) (fun _ => 0)) (fun _ => 0)) (fun _ => 0) (fun _ => 0) := by
    unfold denseElement sumLL
    refine sumLeaves_congr' n1 fun x _ hx => ?_
    refine sumLeaves_congr' n2 fun y _ hy => ?_
    beta_reduce
    rw [ht.amp_eq hx (fun _ => 0), hb.amp_eq hy (fun _ => 0)]
    rw [mul_assoc, ← sumOver_mul_right]
    refine sumOver_congr fun σ _ _ => ?_
    rw [← mul_assoc, ← sumOver_mul_left]
    refine sumOver_congr fun τ _ _ => ?_
    simp only [hψ, hψ']
    have : (h.braNet ua).isLeaf = h.isLeaf := rfl
    rw [this]
    ring
  rw [e1, sumLL_sumOver (d := h.hdim)]
  refine sumOver_zero fun σ hσ => ?_
  rw [sumLL_sumOver (d := (h.braNet ua).hdim)]
  refine sumOver_zero fun τ hτ => ?_
  rw [sumLL_mul_left, sum_psi_psi ht.tree.nodup (leafNil_of ht.tree.leafEnd) hσ hτ]
  unfold trueEnvs
  ring

/-- `partial_env` at the root. -/
theorem partialEnv_root {P : ℕ → ℕ → Prop} {h : Heap R} {ua : Bool} {r : ℕ} {F : Forest} (ht : h.IsTTN r F)
    (hP : ∀ e ∈ F.edges r, P e.2.2.1 e.2.2.2)
    (hb : (h.braNet ua).IsTTN r F)
    (ho : ∀ e ∈ F.edges r, h.isLeaf e.2.2.1 = true →
      OpFits (if ua then (h.node e.2.2.1).aux else h.array e.2.2.1) (h.hdim (e.1, e.2.1))
        ((h.braNet ua).hdim (e.1, e.2.1)))
    {h1 : Heap R} (hc : SameCore h1 h) (hs : Sound P h h1 ua)
    (hroot : ua = false → (h.node r).axis = none → h.MarkOk r) {fuel : ℕ} (hf : F.depth < fuel) :
    ∃ h', partialEnv fuel h1 r none ua = .ok (h', some ⟨[], [h.denseElement ua r F]⟩) ∧ SameCore h' h ∧
      Sound P h h' ua := by
  obtain ⟨f, rfl⟩ : ∃ f, fuel = f + 1 := ⟨fuel - 1, by omega⟩
  obtain ⟨A, hA⟩ := ht.full_of (.inl rfl) ht.leaf
  obtain ⟨B, hB⟩ := hb.full_of (.inl rfl) hb.leaf
  obtain ⟨h', env, g1, g2, g3, g4⟩ := envs_ok ht.links.wf hP (ht.fits hb ho) ht.tree.rep ht.tree.leafEnd
    (List.nodup_cons.1 ht.tree.nodup).2 (fuel := f) (by omega) hc hs []
  obtain ⟨ans, a1, a2⟩ := answer_none g2 ht.links.wf hA hB ht.tree.heads g4 hroot
  refine ⟨h', ?_, g2, g3⟩
  have hc0 : h1.cached r none ua = none := by unfold cached; cases ua <;> rfl
  rw [partialEnv_succ, hc.isLeaf, ht.leaf, hc0, hc.children, ht.tree.heads, g1]
  simp only [Bool.false_eq_true, if_false, List.nil_append, Except.bind, a1, envStore]
  rw [a2, denseElement_eq ht hb, traceOver_eq hA hB]

end Heap
