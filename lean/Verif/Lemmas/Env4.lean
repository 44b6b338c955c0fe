import Verif.Lemmas.Env3

/-!
Environments of branches, from any tensor of the network and towards any axis.
-/

open scoped BigOperators
open Py

theorem Forest.depth_le (F : Forest) : F.depth ≤ F.ids.length := by
  induction F with
  | nil => simp [Forest.depth]
  | cons i j id sub rest ih1 ih2 =>
    simp only [Forest.depth, Forest.ids, List.length_append, List.length_cons]
    omega

namespace Heap

variable {R : Type} [CommRing R]

open TreeSum

namespace IsTTN

variable {h : Heap R} {r : ℕ} {F : Forest}

theorem link_dims (ht : h.IsTTN r F) {t k u l : ℕ} (h1 : t ∈ h.tensors r F) (h2 : u ∈ h.tensors r F)
    (e : h.acc t k = some (u, l)) : h.hdim (t, k) = h.hdim (u, l) := by
  obtain ⟨-, -, p3, -⟩ := edges_props ht.links.wf ht.links.sym ht.tree ht.leaf
  rw [mem_tensors] at h1 h2
  rcases p3 t k u l ((ht.mem_linked t).1 h1.1) e with q | q
  · exact ht.dims _ (mem_bonds.2 ⟨q, h2.2⟩)
  · exact (ht.dims _ (mem_bonds.2 ⟨q, h1.2⟩)).symm

/-- The same network, with another root. -/
theorem reroot (ht : h.IsTTN r F) {t : ℕ} (hm : t ∈ h.tensors r F) :
    ∃ F', h.IsTTN t F' ∧ (t :: F'.ids).Perm (r :: F.ids) := by
  have hm' := mem_tensors.1 hm
  obtain ⟨F', f1, f2⟩ := ht.tree.reroot_any ht.links.wf ht.links.sym (b := t) (List.mem_cons.2 hm'.1) hm'.2
  have hmem : ∀ u, u ∈ h.tensors t F' ↔ u ∈ h.tensors r F := by
    intro u
    rw [mem_tensors, mem_tensors]
    have := f2.mem_iff (a := u)
    simp only [List.mem_cons] at this
    rw [this]
  refine ⟨F', ⟨ht.links, f1, hm'.2, ht.isNet.lt t hm, fun u hu => ht.full u ((hmem u).1 hu), ?_,
    fun u hu => ht.names u ((hmem u).1 hu)⟩, f2⟩
  intro e he
  obtain ⟨e1, e2⟩ := mem_bonds.1 he
  have h1 := (edges_props ht.links.wf ht.links.sym f1 hm'.2).1 e e1
  have m1 : e.1 ∈ h.tensors t F' := mem_tensors.2 ⟨(edges_mem e1).1,
    Forest.edges_src_leaf hm'.2 f1.leafEnd (k := e.2.1) (y := e.2.2.1) (l := e.2.2.2) e1⟩
  have m2 : e.2.2.1 ∈ h.tensors t F' := mem_tensors.2 ⟨.inr (edges_mem e1).2, e2⟩
  exact ht.link_dims ((hmem _).1 m1) ((hmem _).1 m2) h1

end IsTTN

/-- The objects of a network, with any axis. -/
def InNet (r : ℕ) (F : Forest) (t _k : ℕ) : Prop := t = r ∨ t ∈ F.ids

/-- Every branch of a network lies in the network. -/
theorem IsTTN.inNet {h : Heap R} {r : ℕ} {F : Forest} (ht : h.IsTTN r F) {t : ℕ} (hm : t ∈ h.tensors r F) {o : Option ℕ}
    {G : Forest} (hG : IsTree h t o G) : ∀ e ∈ G.edges t, InNet r F e.2.2.1 e.2.2.2 := by
  intro e he
  have h1 : Linked h t e.2.2.1 := Forest.linked_of_mem ht.links.wf G t hG.rep (fun i id j hx => by
    rw [← hG.heads, mem_children ht.links.wf (by simp [(mem_tensors.1 hm).2])] at hx
    exact hx.1) (edges_mem he).2
  exact (ht.mem_linked _).2 (((ht.mem_linked t).1 (mem_tensors.1 hm).1).trans h1)

/-- A branch of a network: tensor `t` with the tree `G` below it, towards axis `k`. -/
structure IsBranch (h : Heap R) (t k : ℕ) (G : Forest) : Prop where
  wf : h.Wf
  tree : IsTree h t (some k) G
  leaf : h.isLeaf t = false
  acc : h.acc t k ≠ none
  linked : h.LinkedIn G t
  full : ∀ u, (u = t ∨ u ∈ G.ids) → h.isLeaf u = false → ∃ A, h.Full u A
  dims : ∀ e ∈ G.edges t, h.isLeaf e.2.2.1 = false → h.hdim (e.1, e.2.1) = h.hdim (e.2.2.1, e.2.2.2)

theorem IsTTN.branch {h : Heap R} {r : ℕ} {F : Forest} (ht : h.IsTTN r F) {k : ℕ} (hk : h.acc r k ≠ none) :
    ∃ G, h.IsBranch r k G ∧ G.ids.length ≤ F.ids.length ∧ (∀ e ∈ G.edges r, e ∈ F.edges r) ∧ ∀ u ∈ G.ids, u ∈ F.ids := by
  obtain ⟨⟨u, l⟩, hu⟩ := Option.ne_none_iff_exists'.1 hk
  have hmem : (k, u, l) ∈ F.heads := by
    rw [← ht.tree.heads, mem_children ht.links.wf (by simp [ht.leaf])]
    exact ⟨hu, by simp, .inl rfl⟩
  obtain ⟨sub, hsub⟩ := Forest.exists_has hmem
  have hp := Forest.ids_rem hsub ht.heads_sorted
  have he := Forest.edges_rem hsub ht.heads_sorted r
  have he' : ∀ e ∈ (F.rem k).edges r, e ∈ F.edges r := fun e q => he.mem_iff.2 (by simp [q])
  have hi' : ∀ u ∈ (F.rem k).ids, u ∈ F.ids := fun e q => hp.mem_iff.2 (by simp [q])
  refine ⟨F.rem k, ⟨ht.links.wf, ht.tree.rem hsub ht.links.wf, ht.leaf, hk, fun e q => ht.linkedIn e (he' e q),
    fun u q hl => ht.full_of (q.imp id (hi' u)) hl, fun e q hl => ht.dims e (mem_bonds.2 ⟨he' e q, hl⟩)⟩, ?_, he', hi'⟩
  rw [hp.length_eq]; simp; omega

theorem IsBranch.amp_eq {h : Heap R} {t k : ℕ} {G : Forest} (hb : h.IsBranch t k G) {x : ℕ → ℕ}
    (hx : ∀ p ∈ h.leafList t G, x p.1 < p.2) (v : ℕ) :
    sumBonds h (h.bonds t G) (fun σ => ((h.tensors t G).map (h.entry σ)).prod) (Nd.upd (h.leafAssign x) (t, k) v) =
      sumOver h.hdim (halfs t G) (fun τ => h.entry τ t *
        psi h.isLeaf h.hdim (fun t σ => h.entry σ t) x G t τ) (Nd.upd (fun _ => 0) (t, k) v) := by
  obtain ⟨A, hA⟩ := hb.full t (.inl rfl) hb.leaf
  have hsorted : G.heads.Pairwise fun x y => x.1 < y.1 := by
    rw [← hb.tree.heads]; exact pairwise_children hb.wf _ _ _
  obtain ⟨a1, a2⟩ := axes_of hb.wf hb.tree.rep hsorted
  have hkG : (t, k) ∉ halfs t G := by
    unfold halfs
    rw [← hb.tree.heads]
    intro q
    obtain ⟨⟨i, u, l⟩, q1, q2⟩ := List.mem_map.1 q
    rw [mem_children hb.wf (by simp)] at q1
    exact q1.2.1 (by simpa using q2.symm)
  have hdep : Dep (fun p => p = (t, k) ∨ p ∈ halfs t G) (fun σ => h.entry σ t) := by
    refine hA.entry_dep.mono ?_
    rintro ⟨u, l⟩ ⟨rfl, hl⟩
    by_cases hlk : l = k
    · left; rw [hlk]
    · right
      obtain ⟨⟨w, m⟩, hw⟩ := Option.ne_none_iff_exists'.1 hl
      unfold halfs
      rw [← hb.tree.heads]
      refine List.mem_map.2 ⟨(l, w, m), (mem_children hb.wf (by simp)).2 ⟨hw, ?_, by simp⟩, rfl⟩
      simpa using fun q => hlk q.symm
  have hlv : LeafVal h.isLeaf x (Nd.upd (h.leafAssign x) (t, k) v) G t := by
    refine (leafVal_of hb.linked x).congr fun p hp => ?_
    rw [Nd.upd_ne]
    rintro rfl
    rcases hp with hp | hp
    · exact hkG hp
    · exact (List.nodup_cons.1 hb.tree.nodup).1 hp
  have h1 := flat_eq (G := fun σ => h.entry σ t) (σ := Nd.upd (h.leafAssign x) (t, k) v) (x := x) hb.tree.nodup
    (leafNil_of hb.tree.leafEnd) a1 a2
    (entOk_of hb.wf hb.tree.rep fun u hm hl => hb.full u (.inr hm) hl) (leafLt_of hx)
    (hdep.mono fun p hp => by
      rcases hp with rfl | hp
      · rfl
      · exact halfs_fst hp) hlv
  rw [sumOver_base (P := fun p => p = (t, k) ∨ p ∈ halfs t G) (τ := Nd.upd (fun _ => 0) (t, k) v)
    (hdep.mul ((psi_dep _ _ _ _ _ _).mono fun p hp => .inr hp)) (fun p hp hq => by
      rcases hp with rfl | hp
      · rw [Nd.upd_self, Nd.upd_self]
      · exact absurd hp hq)] at h1
  rw [← h1, sumBonds_eq]
  have e1 : h.tensors t G = t :: tensOf h.isLeaf G := by
    unfold tensors tensOf
    rw [List.filter_cons, if_pos (by simp [hb.leaf])]
  rw [e1]
  rfl

variable [StarRing R]

/-- Contraction of two branches over the leaves. -/
theorem IsBranch.dense_eq {h : Heap R} {ua : Bool} {t k : ℕ} {G : Forest} (ht : h.IsBranch t k G)
    (hb : (h.braNet ua).IsBranch t k G) (v w : ℕ) :
    sumLL (h.leafList t G) ((h.braNet ua).leafList t G) (fun x y => h.branchAmp t k G x v *
      ((leavesOf h.isLeaf G).map fun l => opEntry (if ua then (h.node l).aux else h.array l) (x l) (y l)).prod *
        (h.braNet ua).branchAmp t k G y w) (fun _ => 0) (fun _ => 0) = h.trueEnv ua G t k v w := by
  set m : ℕ → ℕ → ℕ → R := fun l => opEntry (if ua then (h.node l).aux else h.array l) with hm
  have hnd : G.ids.Nodup := (List.nodup_cons.1 ht.tree.nodup).2
  have n1 := (leafDims_nodup (lf := h.isLeaf) (d := h.hdim) (a := t) hnd).2
  have n2 := (leafDims_nodup (lf := h.isLeaf) (d := (h.braNet ua).hdim) (a := t) hnd).2
  set ψ := fun x => psi h.isLeaf h.hdim (fun t σ => h.entry σ t) x G t with hψ
  set ψ' := fun y => psi h.isLeaf (h.braNet ua).hdim (fun t σ => (h.braNet ua).entry σ t) y G t with hψ'
  have e1 : sumLL (h.leafList t G) ((h.braNet ua).leafList t G) (fun x y => h.branchAmp t k G x v *
      ((leavesOf h.isLeaf G).map fun l => m l (x l) (y l)).prod *
        (h.braNet ua).branchAmp t k G y w) (fun _ => 0) (fun _ => 0) =
      sumLL (leafDims h.isLeaf h.hdim G t) (leafDims h.isLeaf (h.braNet ua).hdim G t)
      (fun x y => sumOver h.hdim (halfs t G) (fun σ => sumOver (h.braNet ua).hdim (halfs t G) (fun τ =>
        (h.entry σ t * (h.braNet ua).entry τ t) * (ψ x σ * ((leavesOf h.isLeaf G).map fun l => m l (x l) (y l)).prod *
          ψ' y τ)) (Nd.upd (fun _ => 0) (t, k) w)) (Nd.upd (fun _ => 0) (t, k) v)) (fun _ => 0) (fun _ => 0) := by
    unfold sumLL
    refine sumLeaves_congr' n1 fun x _ hx => ?_
    refine sumLeaves_congr' n2 fun y _ hy => ?_
    beta_reduce
    unfold branchAmp
    rw [ht.amp_eq hx v, hb.amp_eq hy w]
    rw [mul_assoc, ← sumOver_mul_right]
    refine sumOver_congr fun σ _ _ => ?_
    rw [← mul_assoc, ← sumOver_mul_left]
    refine sumOver_congr fun τ _ _ => ?_
    simp only [hψ, hψ']
    have : (h.braNet ua).isLeaf = h.isLeaf := rfl
    rw [this]
    ring
  rw [e1, sumLL_sumOver (d := h.hdim)]
  unfold trueEnv envMat
  simp only [ht.leaf, Bool.false_eq_true, if_false]
  refine sumOver_zero fun σ hσ => ?_
  rw [sumLL_sumOver (d := (h.braNet ua).hdim)]
  refine sumOver_zero fun τ hτ => ?_
  rw [sumLL_mul_left, sum_psi_psi ht.tree.nodup (leafNil_of ht.tree.leafEnd) hσ hτ]
  ring

theorem braNet_sum {h : Heap R} {T : List ℕ} {E : List (ℕ × ℕ × ℕ × ℕ)} (hT : ∀ t ∈ T, h.isLeaf t = false)
    (hE : ∀ e ∈ E, h.isLeaf e.1 = false) (σ : Assign) :
    sumBonds (h.braNet false) E (fun σ => (T.map ((h.braNet false).entry σ)).prod) σ =
      star (sumBonds h E (fun σ => (T.map (h.entry σ)).prod) σ) := by
  have hdim_eq : ∀ t, h.isLeaf t = false → ∀ k, (h.braNet false).hdim (t, k) = h.hdim (t, k) := by
    intro t hl k
    unfold hdim
    simp only
    rw [braNet_array hl]
    unfold braArray
    cases h.array t <;> rfl
  have hent : ∀ t, h.isLeaf t = false → ∀ σ, (h.braNet false).entry σ t = star (h.entry σ t) := by
    intro t hl σ
    unfold entry
    rw [braNet_array hl]
    unfold braArray
    cases h.array t with
    | none => simp
    | some A =>
      simp only [Bool.false_eq_true, if_false, Option.map_some]
      rw [conj_get]; rfl
  induction E generalizing σ with
  | nil =>
    simp only [sumBonds]
    rw [star_prod, List.map_map]
    exact congrArg List.prod (List.map_congr_left fun t ht' => hent t (hT t ht') σ)
  | cons e E ih =>
    simp only [sumBonds]
    rw [hdim_eq _ (hE e (by simp)), star_sum]
    exact Finset.sum_congr rfl fun v _ => ih (fun e' he' => hE e' (by simp [he'])) _

theorem IsTTN.conj {h : Heap R} {r : ℕ} {F : Forest} (ht : h.IsTTN r F) : (h.braNet false).IsTTN r F := by
  refine ht.congr (fun _ => rfl) rfl (fun _ => rfl) (fun _ => rfl) fun c A hA hw => ?_
  cases hl : h.isLeaf c with
  | false =>
    refine ⟨A.conj, ?_, ?_, rfl⟩
    · rw [braNet_array hl]; unfold braArray; rw [hA]; rfl
    · unfold Nd.conj; unfold Nd.Wf at hw ⊢; simpa using hw
  | true =>
    refine ⟨A, ?_, hw, rfl⟩
    have : (h.node c).isLeaf = true := hl
    have hA' : (h.node c).array = some A := hA
    unfold Heap.array braNet
    simp [this, hA']

theorem conj_hdim {h : Heap R} {t : ℕ} (hl : h.isLeaf t = false) (k : ℕ) :
    (h.braNet false).hdim (t, k) = h.hdim (t, k) := by
  unfold hdim
  simp only
  rw [braNet_array hl]
  unfold braArray
  cases h.array t <;> rfl

theorem branchEnv_eq {h : Heap R} {t k : ℕ} {G : Forest} (ht : h.IsBranch t k G)
    (hb : (h.braNet false).IsBranch t k G) (v w : ℕ) : h.branchEnv t k G v w = h.trueEnv false G t k v w := by
  rw [← ht.dense_eq hb]
  have hsrc : ∀ e ∈ G.edges t, h.isLeaf e.1 = false := fun e he =>
    Forest.edges_src_leaf ht.leaf ht.tree.leafEnd (k := e.2.1) (y := e.2.2.1) (l := e.2.2.2) he
  have hll : (h.braNet false).leafList t G = h.leafList t G := by
    unfold leafList
    have : (h.braNet false).isLeaf = h.isLeaf := rfl
    rw [this]
    refine List.map_congr_left fun e he => ?_
    rw [conj_hdim (hsrc e (List.mem_filter.1 he).1)]
  unfold branchEnv sumLL
  rw [hll]
  refine sumLeaves_congr fun x => sumLeaves_congr fun y => ?_
  rw [leafList_fst]
  have h1 : (h.braNet false).branchAmp t k G y w = star (h.branchAmp t k G y w) :=
    braNet_sum (fun u hu => (mem_tensors.1 hu).2) (fun e he => hsrc e (mem_bonds.1 he).1) _
  beta_reduce
  rw [h1]
  rfl

theorem means_of {ans : Option (Nd R)} {n m : ℕ} {E : ℕ → ℕ → R} (h : IsEnv ans n m E) (hm : m = n) :
    Means ans n E := by
  subst hm
  cases ans with
  | none => exact h.2
  | some M => exact h

/-- One call. -/
theorem call_ok {P : ℕ → ℕ → Prop} {h0 h : Heap R} {r : ℕ} {F : Forest} (ht : h0.IsTTN r F) (ho : h0.OpsFit r F) {t : ℕ}
    (hm : t ∈ h0.tensors r F) {k : ℕ} (hk : h0.acc t k ≠ none) (hPt : P t k)
    (hP : ∀ G, IsTree h0 t (some k) G → ∀ e ∈ G.edges t, P e.2.2.1 e.2.2.2) (hc : SameCore h h0) (hs : Sound P h0 h false)
    {fuel : ℕ} (hf : F.ids.length < fuel) :
    ∃ h' ans G, partialEnv fuel h t (some k) false = .ok (h', ans) ∧ SameCore h' h0 ∧ Sound P h0 h' false ∧
      IsTree h0 t (some k) G ∧ Means ans (h0.hdim (t, k)) (h0.branchEnv t k G) := by
  obtain ⟨F', f1, f2⟩ := ht.reroot hm
  obtain ⟨G, g1, g2, g3, -⟩ := f1.branch hk
  have f1' := f1.conj
  obtain ⟨G', g1', -, -⟩ := f1'.branch (k := k) hk
  have hGG : G = G' := forest_unique (h := h0.braNet false) (g1.tree.congr (h' := h0.braNet false) ht.links.wf
    f1'.links.wf (fun _ _ => rfl) (fun _ _ => rfl)).rep g1'.tree.rep (by
      rw [← g1'.tree.heads, ← g1.tree.heads]; rfl)
  subst hGG
  have hl := (mem_tensors.1 hm).2
  have hcover : ∀ e ∈ F'.edges t, h0.isLeaf e.2.2.1 = true →
      OpFits (h0.array e.2.2.1) (h0.hdim (e.1, e.2.1)) (h0.hdim (e.1, e.2.1)) := by
    intro e he hle
    have hq := (edges_props ht.links.wf ht.links.sym f1.tree hl).1 e he
    have hsl := Forest.edges_src_leaf hl f1.tree.leafEnd (k := e.2.1) (y := e.2.2.1) (l := e.2.2.2) he
    have hme : e.1 = r ∨ e.1 ∈ F.ids := by
      have := f2.mem_iff (a := e.1)
      simp only [List.mem_cons] at this
      exact this.1 (edges_mem he).1
    obtain ⟨-, -, p3, -⟩ := edges_props ht.links.wf ht.links.sym ht.tree ht.leaf
    rcases p3 e.1 e.2.1 e.2.2.1 e.2.2.2 ((ht.mem_linked e.1).1 hme) hq with q | q
    · exact ho _ q hle
    · have := Forest.edges_src_leaf ht.leaf ht.tree.leafEnd q
      rw [hle] at this; cases this
  have hsrc : ∀ e ∈ G.edges t, h0.isLeaf e.1 = false := fun e he =>
    Forest.edges_src_leaf g1.leaf g1.tree.leafEnd (k := e.2.1) (y := e.2.2.1) (l := e.2.2.2) he
  have hfit : h0.Fits false G t := fits_of g1.linked
    (fun u hu hlu => ⟨g1.full u (.inr hu) hlu, g1'.full u (.inr hu) hlu⟩)
    (fun e he hle => ⟨g1.dims e he hle, g1'.dims e he hle⟩)
    (fun e he hle => by
      rw [conj_hdim (hsrc e he)]
      exact hcover e (g3 e he) hle)
  have hfit' : h0.Fits false (.cons k k t G .nil) t := by
    refine ⟨⟨fun q => ?_, fun _ => ⟨g1.full t (.inl rfl) hl, g1'.full t (.inl rfl) hl, rfl, rfl⟩, hk⟩, hfit, trivial⟩
    rw [hl] at q; cases q
  have hlen : G.ids.length ≤ F.ids.length := by
    have := f2.length_eq
    simp only [List.length_cons] at this
    omega
  have hdep := Forest.depth_le G
  obtain ⟨h', env, e1, e2, e3, e4⟩ := envs_ok (F := .cons k k t G .nil) (a := t) ht.links.wf (fun e he => by
      simp only [Forest.edges, List.cons_append, List.append_nil, List.mem_cons] at he
      rcases he with rfl | he
      · exact hPt
      · exact hP G g1.tree e he) hfit'
    ⟨g1.tree.heads, g1.tree.rep, trivial⟩ ⟨(fun q => absurd q (by simp [hl])), g1.tree.leafEnd, trivial⟩
    (by simpa [Forest.ids] using g1.tree.nodup) (fuel := fuel) (by simp only [Forest.depth]; omega) hc hs []
  cases hp : partialEnv fuel h t (some k) false with
  | error er =>
    rw [Forest.heads, Forest.heads, List.foldlM_cons] at e1
    unfold envStep at e1
    simp only [hp] at e1
    cases e1
  | ok res =>
    obtain ⟨h2, ans⟩ := res
    rw [Forest.heads, Forest.heads, List.foldlM_cons] at e1
    unfold envStep at e1
    simp only [hp] at e1
    have e1' : (h2, ([] : List (ℕ × Option (Nd R))) ++ [(k, ans)]) = (h', [] ++ env) := by
      simpa [bind, Except.bind, pure, Except.pure] using e1
    simp only [List.nil_append, Prod.mk.injEq] at e1'
    obtain ⟨rfl, rfl⟩ := e1'
    refine ⟨h2, ans, G, rfl, e2, e3, g1.tree, ?_⟩
    obtain ⟨-, q⟩ := (List.forall₂_cons.1 e4).1
    have := means_of q (by simp only; rw [conj_hdim hl])
    simp only at this
    have e5 : h0.branchEnv t k G = h0.trueEnv false G t k := funext fun v => funext fun w => branchEnv_eq g1 g1' v w
    rw [e5]
    exact this

/-- One call at a root. -/
theorem call_root_ok {P : ℕ → ℕ → Prop} {h0 h : Heap R} {r : ℕ} {F : Forest} (ht : h0.IsTTN r F) (ho : h0.OpsFit r F) {t : ℕ}
    (hm : t ∈ h0.tensors r F) (hP : ∀ G, IsTree h0 t none G → ∀ e ∈ G.edges t, P e.2.2.1 e.2.2.2) (hc : SameCore h h0)
    (hs : Sound P h0 h false) (hroot : (h0.node t).axis = none → h0.MarkOk t)
    {fuel : ℕ} (hf : F.ids.length < fuel) :
    ∃ h' G, h0.IsTTN t G ∧ partialEnv fuel h t none false = .ok (h', some ⟨[], [sumLeaves (h0.leafList t G) (fun x =>
      sumLeaves (h0.leafList t G) (fun y => h0.treeAmp t G x *
        (((h0.leafList t G).map Prod.fst).map fun l => opEntry (h0.array l) (x l) (y l)).prod *
          star (h0.treeAmp t G y)) (fun _ => 0)) (fun _ => 0)]⟩) ∧ SameCore h' h0 ∧ Sound P h0 h' false := by
  obtain ⟨G, f1, f2⟩ := ht.reroot hm
  have hl := (mem_tensors.1 hm).2
  have hsrc : ∀ e ∈ G.edges t, h0.isLeaf e.1 = false := fun e he =>
    Forest.edges_src_leaf f1.leaf f1.tree.leafEnd (k := e.2.1) (y := e.2.2.1) (l := e.2.2.2) he
  have hcover : ∀ e ∈ G.edges t, h0.isLeaf e.2.2.1 = true →
      OpFits (h0.array e.2.2.1) (h0.hdim (e.1, e.2.1)) (h0.hdim (e.1, e.2.1)) := by
    intro e he hle
    have hq := (edges_props ht.links.wf ht.links.sym f1.tree hl).1 e he
    have hme : e.1 = r ∨ e.1 ∈ F.ids := by
      have := f2.mem_iff (a := e.1)
      simp only [List.mem_cons] at this
      exact this.1 (edges_mem he).1
    obtain ⟨-, -, p3, -⟩ := edges_props ht.links.wf ht.links.sym ht.tree ht.leaf
    rcases p3 e.1 e.2.1 e.2.2.1 e.2.2.2 ((ht.mem_linked e.1).1 hme) hq with q | q
    · exact ho _ q hle
    · have := Forest.edges_src_leaf ht.leaf ht.tree.leafEnd q
      rw [hle] at this; cases this
  have hlen := f2.length_eq
  simp only [List.length_cons] at hlen
  have hdep := Forest.depth_le G
  obtain ⟨h', e1, e2, e3⟩ := partialEnv_root (ua := false) (fuel := fuel) f1 (hP G f1.tree) f1.conj (fun e he hle => by
    rw [conj_hdim (hsrc e he)]; exact hcover e he hle) hc hs (fun _ => hroot) (by omega)
  refine ⟨h', G, f1, ?_, e2, e3⟩
  rw [e1]
  congr 5
  have hll : (h0.braNet false).leafList t G = h0.leafList t G := by
    unfold leafList
    have : (h0.braNet false).isLeaf = h0.isLeaf := rfl
    rw [this]
    refine List.map_congr_left fun e he => ?_
    rw [conj_hdim (hsrc e (List.mem_filter.1 he).1)]
  unfold denseElement sumLL
  rw [hll]
  refine sumLeaves_congr fun x => sumLeaves_congr fun y => ?_
  rw [leafList_fst]
  beta_reduce
  rw [braNet_amp f1]
  rfl

end Heap
