import Verif.Spec.Env
import Verif.Lemmas.EnvArr
import Verif.Lemmas.Tree

/-!
`partial_env` computes the contraction of a branch.
-/

open scoped BigOperators
open Py

namespace Heap

variable {R : Type} [CommRing R] [StarRing R]

open TreeSum

theorem SameCore.rfl' (h : Heap R) : SameCore h h := ⟨rfl, fun _ => rfl⟩

theorem SameCore.trans {h h' h'' : Heap R} (e : SameCore h h') (e' : SameCore h' h'') : SameCore h h'' :=
  ⟨e.1.trans e'.1, fun t => (e.2 t).trans (e'.2 t)⟩

theorem SameCore.symm {h h' : Heap R} (e : SameCore h h') : SameCore h' h :=
  ⟨e.1.symm, fun t => (e.2 t).symm⟩

section

variable {h h' : Heap R}

theorem SameCore.isLeaf (e : SameCore h h') (t : ℕ) : h.isLeaf t = h'.isLeaf t := by
  have := congrArg Node.isLeaf (e.2 t)
  exact this

theorem SameCore.array (e : SameCore h h') (t : ℕ) : h.array t = h'.array t := by
  have := congrArg Node.array (e.2 t)
  exact this

theorem SameCore.aux (e : SameCore h h') (t : ℕ) : (h.node t).aux = (h'.node t).aux := by
  have := congrArg Node.aux (e.2 t)
  exact this

theorem SameCore.axis (e : SameCore h h') (t : ℕ) : (h.node t).axis = (h'.node t).axis := by
  have := congrArg Node.axis (e.2 t)
  exact this

theorem SameCore.normalized (e : SameCore h h') (t : ℕ) : (h.node t).normalized = (h'.node t).normalized := by
  have := congrArg Node.normalized (e.2 t)
  exact this

theorem SameCore.access (e : SameCore h h') (t : ℕ) : h.access t = h'.access t := by
  have := congrArg Node.access (e.2 t)
  exact this

theorem SameCore.children (e : SameCore h h') (t : ℕ) (i : Option ℕ) (leaf : Bool) :
    h.children t i leaf = h'.children t i leaf := by
  unfold Heap.children Heap.linkages
  rw [e.access, e.isLeaf]
  simp only [e.isLeaf]

end

/-- The ingredients of the recursive contraction, of a heap. -/
noncomputable def trueEnv (h : Heap R) (ua : Bool) (G : Forest) (t k v w : ℕ) : R :=
  envMat h.isLeaf h.hdim (h.braNet ua).hdim (fun t σ => h.entry σ t) (fun t σ => (h.braNet ua).entry σ t)
    (fun l => opEntry (if ua then (h.node l).aux else h.array l)) G t k v w

noncomputable def trueEnvs (h : Heap R) (ua : Bool) (G : Forest) (t : ℕ) (σ τ : Assign) : R :=
  envs h.isLeaf h.hdim (h.braNet ua).hdim (fun t σ => h.entry σ t) (fun t σ => (h.braNet ua).entry σ t)
    (fun l => opEntry (if ua then (h.node l).aux else h.array l)) G t σ τ

/-- The environments of the branches. -/
noncomputable def envList (h : Heap R) (ua : Bool) : Forest → List (ℕ × (ℕ → ℕ → R))
  | .nil => []
  | .cons i j id sub rest => (i, h.trueEnv ua sub id j) :: envList h ua rest

theorem envList_fst (h : Heap R) (ua : Bool) (F : Forest) :
    (h.envList ua F).map Prod.fst = F.heads.map fun x => x.1 := by
  induction F with
  | nil => rfl
  | cons i j id sub rest _ ih => simp [envList, Forest.heads, ih]

theorem trueEnvs_eq (h : Heap R) (ua : Bool) (F : Forest) (a : ℕ) (σ τ : Assign) :
    h.trueEnvs ua F a σ τ = ((h.envList ua F).map fun p => p.2 (σ (a, p.1)) (τ (a, p.1))).prod := by
  induction F with
  | nil => rfl
  | cons i j id sub rest _ ih =>
    simp only [envList, List.map_cons, List.prod_cons, ← ih]
    rfl

/-- Every branch fits: leaf operators have the right shape, tensors have both arrays, and bonds have the same
dimension at both ends. -/
def Fits (h : Heap R) (ua : Bool) : Forest → ℕ → Prop
  | .nil, _ => True
  | .cons i j id sub rest, a =>
    ((h.isLeaf id = true → OpFits (if ua then (h.node id).aux else h.array id) (h.hdim (a, i))
        ((h.braNet ua).hdim (a, i))) ∧
     (h.isLeaf id = false → (∃ A, h.Full id A) ∧ (∃ B, (h.braNet ua).Full id B) ∧ h.hdim (a, i) = h.hdim (id, j) ∧
        (h.braNet ua).hdim (a, i) = (h.braNet ua).hdim (id, j)) ∧ h.acc id j ≠ none) ∧
    Fits h ua sub id ∧ Fits h ua rest a

/-- The caches hold what `partial_env` would compute, for the tensors and axes in `P`. -/
def CacheOk (P : ℕ → ℕ → Prop) (h0 h : Heap R) : Prop :=
  ∀ t k v, P t k → Dict.get? (h.node t).penv k = some v → h.isLeaf t = false → ∀ G, IsTree h0 t (some k) G →
    IsEnv v (h0.hdim (t, k)) ((h0.braNet false).hdim (t, k)) (h0.trueEnv false G t k)

theorem sorted_nat_ext {l l' : List ℕ} (h : l.Pairwise (· < ·)) (h' : l'.Pairwise (· < ·))
    (he : ∀ x, x ∈ l ↔ x ∈ l') : l = l' := by
  have n1 : l.Nodup := h.imp (fun {x y} hxy e => by subst e; omega)
  have n2 : l'.Nodup := h'.imp (fun {x y} hxy e => by subst e; omega)
  refine List.Perm.eq_of_pairwise (le := fun x y => x < y) ?_ h h' ((List.perm_ext_iff_of_nodup n1 n2).2 he)
  intro a b _ _ h1 h2; omega

theorem Full.keys_some {h : Heap R} (hw : h.Wf) {t : ℕ} {A : Nd R} (hA : h.Full t A) {j : ℕ} (hj : j < A.ndim) :
    (h.children t (some j)).map (fun x => x.1) = (List.range A.ndim).eraseIdx j := by
  refine sorted_nat_ext ?_ ?_ fun k => ?_
  · rw [List.pairwise_map]; exact pairwise_children hw t _ _
  · exact List.pairwise_lt_range.sublist (List.eraseIdx_sublist _ _)
  · have e1 : (List.range A.ndim).eraseIdx j = List.range j ++ List.range' (j + 1) (A.ndim - j - 1) := by
      rw [range_split hj, List.eraseIdx_append_of_length_le (by simp)]
      simp
    rw [e1]
    have e2 : k ∈ List.range j ++ List.range' (j + 1) (A.ndim - j - 1) ↔ k < A.ndim ∧ k ≠ j := by
      simp only [List.mem_append, List.mem_range, List.mem_range'_1]; omega
    rw [e2, List.mem_map]
    constructor
    · rintro ⟨⟨i, u, l⟩, hx, rfl⟩
      obtain ⟨q1, q2, -⟩ := (mem_children hw (by simp)).1 hx
      refine ⟨(hA.acc i).1 (by rw [q1]; simp), fun q => q2 (by simpa using q.symm)⟩
    · rintro ⟨q1, q2⟩
      have := (hA.acc k).2 q1
      obtain ⟨⟨u, l⟩, hu⟩ := Option.ne_none_iff_exists'.1 this
      refine ⟨(k, u, l), (mem_children hw (by simp)).2 ⟨hu, by simpa using fun q => q2 q.symm, by simp⟩, rfl⟩

theorem Full.keys_none {h : Heap R} (hw : h.Wf) {t : ℕ} {A : Nd R} (hA : h.Full t A) :
    (h.children t none).map (fun x => x.1) = List.range A.ndim := by
  refine sorted_nat_ext ?_ List.pairwise_lt_range fun k => ?_
  · rw [List.pairwise_map]; exact pairwise_children hw t _ _
  · rw [List.mem_range, List.mem_map]
    constructor
    · rintro ⟨⟨i, u, l⟩, hx, rfl⟩
      obtain ⟨q1, q2, -⟩ := (mem_children hw (by simp [hA.leaf])).1 hx
      exact (hA.acc i).1 (by rw [q1]; simp)
    · intro q1
      obtain ⟨⟨u, l⟩, hu⟩ := Option.ne_none_iff_exists'.1 ((hA.acc k).2 q1)
      exact ⟨(k, u, l), (mem_children hw (by simp [hA.leaf])).2 ⟨hu, by simp, by simp⟩, rfl⟩

theorem braNet_acc (h : Heap R) (ua : Bool) (t k : ℕ) : (h.braNet ua).acc t k = h.acc t k := rfl

theorem braNet_isLeaf (h : Heap R) (ua : Bool) (t : ℕ) : (h.braNet ua).isLeaf t = h.isLeaf t := rfl

theorem braNet_array {h : Heap R} {ua : Bool} {t : ℕ} (hl : h.isLeaf t = false) :
    (h.braNet ua).array t = h.braArray t ua := by
  unfold braArray Heap.array braNet
  have : (h.node t).isLeaf = false := hl
  simp [this]

theorem Full.ndim_eq {h : Heap R} {ua : Bool} {t : ℕ} {A B : Nd R} (hA : h.Full t A) (hB : (h.braNet ua).Full t B) :
    A.ndim = B.ndim := by
  have : ∀ k, k < A.ndim ↔ k < B.ndim := fun k => by rw [← hA.acc, ← hB.acc, braNet_acc]
  have h1 := this A.ndim
  have h2 := this B.ndim
  omega

/-- The sum computed at one tensor is the environment. -/
theorem traceOver_eq {h : Heap R} {ua : Bool} {t : ℕ} {A B : Nd R} (hA : h.Full t A)
    (hB : (h.braNet ua).Full t B) (G : Forest) (s s' : Assign) :
    sumOver h.hdim (halfs t G) (fun σ => sumOver (h.braNet ua).hdim (halfs t G) (fun τ =>
      h.entry σ t * h.trueEnvs ua G t σ τ * (h.braNet ua).entry τ t) s') s =
    traceOver A B (h.envList ua G) (fun k => s (t, k)) (fun k => s' (t, k)) := by
  unfold traceOver
  have e0 : halfs t G = ((h.envList ua G).map Prod.fst).map fun k => (t, k) := by
    rw [envList_fst, List.map_map]; rfl
  have dA : (fun k => h.hdim (t, k)) = fun k => A.shape.getD k 1 := funext fun k => hA.hdim_eq k
  have dB : (fun k => (h.braNet ua).hdim (t, k)) = fun k => B.shape.getD k 1 := funext fun k => hB.hdim_eq k
  rw [e0, ← dA, ← dB]
  have inner : ∀ σ : Assign, sumOver (h.braNet ua).hdim (((h.envList ua G).map Prod.fst).map fun k => (t, k))
      (fun τ => h.entry σ t * h.trueEnvs ua G t σ τ * (h.braNet ua).entry τ t) s' =
      sumOver (fun k => (h.braNet ua).hdim (t, k)) ((h.envList ua G).map Prod.fst) (fun w =>
        A.get ((List.range A.ndim).map fun k => σ (t, k)) *
          ((h.envList ua G).map fun p => p.2 (σ (t, p.1)) (w p.1)).prod * B.get ((List.range B.ndim).map w))
        fun k => s' (t, k) := by
    intro σ
    rw [← sumOver_axes (h.braNet ua).hdim t _ (fun w : ℕ → ℕ =>
        A.get ((List.range A.ndim).map fun k => σ (t, k)) *
          ((h.envList ua G).map fun p => p.2 (σ (t, p.1)) (w p.1)).prod * B.get ((List.range B.ndim).map w))]
    refine sumOver_congr fun τ _ _ => ?_
    rw [trueEnvs_eq]
    unfold entry
    simp only [hA.array, hB.array]
  simp only [inner]
  rw [sumOver_axes h.hdim t _ (fun u : ℕ → ℕ =>
    sumOver (fun k => (h.braNet ua).hdim (t, k)) ((h.envList ua G).map Prod.fst) (fun w =>
        A.get ((List.range A.ndim).map u) *
          ((h.envList ua G).map fun p => p.2 (u p.1) (w p.1)).prod * B.get ((List.range B.ndim).map w))
        fun k => s' (t, k))]

theorem trueEnv_eq {h : Heap R} {ua : Bool} {t : ℕ} {A B : Nd R} (hA : h.Full t A)
    (hB : (h.braNet ua).Full t B) (G : Forest) (j v w : ℕ) :
    h.trueEnv ua G t j v w =
      traceOver A B (h.envList ua G) (Nd.upd (fun _ => 0) j v) (Nd.upd (fun _ => 0) j w) := by
  have h1 := traceOver_eq hA hB G (Nd.upd (fun _ => 0) (t, j) v) (Nd.upd (fun _ => 0) (t, j) w)
  have e1 : ∀ v, (fun k => Nd.upd (fun _ => 0) (t, j) v (t, k)) = Nd.upd (fun _ : ℕ => 0) j v := by
    intro v
    funext k
    by_cases hk : k = j
    · subst hk; simp
    · rw [Nd.upd_ne _ _ hk, Nd.upd_ne _ _ (by simpa using hk)]
  rw [e1, e1] at h1
  rw [← h1]
  unfold trueEnv envMat
  simp only [hA.leaf, Bool.false_eq_true, if_false]
  rfl

/-- Multiplying identities does nothing. -/
theorem fold_none {env : List (ℕ × Option (Nd R))} (h : env.all (fun p => p.2.isNone) = true) (A : Nd R) :
    env.foldlM (fun a p => Tensor.partialProduct a p.1 p.2) A = (.ok A : Res (Nd R)) := by
  induction env generalizing A with
  | nil => rfl
  | cons p env ih =>
    simp only [List.all_cons, Bool.and_eq_true, Option.isNone_iff_eq_none] at h
    rw [List.foldlM_cons, h.1]
    exact ih h.2 A

theorem conj_get (A : Nd R) (p : List ℕ) : A.conj.get p = star (A.get p) := by
  unfold Nd.conj Nd.get
  simp only [List.getD_eq_getElem?_getD, List.getElem?_map]
  cases A.data[ravel A.shape p]? <;> simp

theorem SameCore.braArray {h h' : Heap R} (e : SameCore h h') (t : ℕ) (ua : Bool) :
    h.braArray t ua = h'.braArray t ua := by
  unfold Heap.braArray; rw [e.aux, e.array]

/-- The environments of the branches, as computed. -/
def EnvsOk (h0 : Heap R) (ua : Bool) (t : ℕ) (G : Forest) (env : List (ℕ × Option (Nd R))) : Prop :=
  List.Forall₂ (fun p q => p.1 = q.1 ∧ IsEnv p.2 (h0.hdim (t, p.1)) ((h0.braNet ua).hdim (t, p.1)) q.2) env
    (h0.envList ua G)

theorem EnvsOk.shape {h0 : Heap R} {ua : Bool} {t : ℕ} {G : Forest} {env : List (ℕ × Option (Nd R))} {A B : Nd R}
    (he : EnvsOk h0 ua t G env) (hA : h0.Full t A) (hB : (h0.braNet ua).Full t B) :
    List.Forall₂ (fun p q => p.1 = q.1 ∧ IsEnv p.2 (A.shape.getD p.1 1) (B.shape.getD p.1 1) q.2) env
      (h0.envList ua G) := by
  refine List.Forall₂.imp ?_ he
  rintro p q ⟨h1, h2⟩
  rw [hA.hdim_eq, hB.hdim_eq] at h2
  exact ⟨h1, h2⟩

theorem contractEnv_eq {h0 h : Heap R} (e : SameCore h h0) {ua : Bool} {t : ℕ} {A B : Nd R} (hA : h0.Full t A)
    (hB : (h0.braNet ua).Full t B) (i : Option ℕ) (env : List (ℕ × Option (Nd R))) :
    h.contractEnv t i ua env = (do
      let temp ← env.foldlM (fun a p => Tensor.partialProduct a p.1 p.2) A
      Tensor.partialTrace temp i B i) := by
  unfold contractEnv
  have h1 : h.array t = some A := (e.array t).trans hA.array
  have h2 : h.braArray t ua = some B := by rw [e.braArray, ← braNet_array hA.leaf]; exact hB.array
  rw [h1, h2]

theorem bra_conj {h0 : Heap R} {t : ℕ} {A B : Nd R} (hA : h0.Full t A) (hB : (h0.braNet false).Full t B) :
    B = A.conj := by
  have h2 := hB.array
  rw [braNet_array hA.leaf] at h2
  unfold Heap.braArray at h2
  rw [hA.array] at h2
  simpa using h2.symm

/-- The answer at a tensor, towards an axis. -/
theorem answer_some {h0 h : Heap R} (e : SameCore h h0) (hw : h0.Wf) {ua : Bool} {t : ℕ} {A B : Nd R}
    (hA : h0.Full t A) (hB : (h0.braNet ua).Full t B) {j : ℕ} (hj : h0.acc t j ≠ none) {G : Forest}
    (hG : h0.children t (some j) = G.heads) {env : List (ℕ × Option (Nd R))} (he : EnvsOk h0 ua t G env)
    (hn : ua = false → (h0.node t).axis = some j → h0.MarkOk t) :
    ∃ ans, h.envAnswer t (some j) ua env = .ok ans ∧
      IsEnv ans (h0.hdim (t, j)) ((h0.braNet ua).hdim (t, j)) (h0.trueEnv ua G t j) := by
  have hjA : j < A.ndim := (hA.acc j).1 hj
  have hK : (h0.envList ua G).map Prod.fst = (List.range A.ndim).eraseIdx j := by
    rw [envList_fst, ← hG, hA.keys_some hw hjA]
  obtain ⟨T, C, c1, c2, c3⟩ := trace_some hA.wf (hA.ndim_eq hB) hA.pos hB.pos (he.shape hA hB) hjA hK
  have hc : h.contractEnv t (some j) ua env = .ok C := by
    rw [contractEnv_eq e hA hB, c1]; exact c2
  have c3' : IsEnv (some C) (h0.hdim (t, j)) ((h0.braNet ua).hdim (t, j)) (h0.trueEnv ua G t j) := by
    rw [hA.hdim_eq, hB.hdim_eq]
    obtain ⟨q1, q2, q3⟩ := c3
    exact ⟨q1, q2, fun v hv w hw => by rw [trueEnv_eq hA hB]; exact q3 v hv w hw⟩
  unfold envAnswer
  split
  · rename_i hs
    refine ⟨none, rfl, ?_⟩
    unfold shortcut at hs
    simp only [Bool.and_eq_true, Bool.not_eq_true', decide_eq_true_eq] at hs
    obtain ⟨⟨⟨rfl, s2⟩, s3⟩, s4⟩ := hs
    rw [e.axis] at s2
    rw [e.normalized] at s3
    have hnorm := hn rfl s2.symm A s3 hA.leaf hA.array
    rw [← s2] at hnorm
    obtain ⟨A', a1, a2, a3⟩ := hnorm
    rw [hA.array] at a1
    cases a1
    have hBA := bra_conj hA hB
    rw [fold_none s4] at c1
    cases c1
    obtain ⟨q1, q2, q3⟩ := c3'
    have hdd : (h0.braNet false).hdim (t, j) = h0.hdim (t, j) := by
      rw [hA.hdim_eq, hB.hdim_eq, hBA]; rfl
    refine ⟨hdd.symm, fun v hv w hw => ?_⟩
    rw [← q3 v hv w hw]
    have hjB : j < B.ndim := by rw [← hA.ndim_eq hB]; exact hjA
    have p0 : A.shape.getD j 1 ≠ 0 := by rw [← hA.hdim_eq]; exact (hA.hdim_pos j).ne'
    obtain ⟨C', d1, d2, d3, d4⟩ := Tensor.partialTrace_spec A B hjA hjB (by rw [hBA]; rfl) p0
      (by rw [← hB.hdim_eq]; exact (hB.hdim_pos j).ne')
    rw [c2] at d1
    cases d1
    rw [hA.hdim_eq] at hv
    rw [hB.hdim_eq] at hw
    rw [d4 v w hv hw, ← a3 v w hv (by rw [hBA] at hw; exact hw)]
    congr 1
    funext p
    rw [hBA, conj_get]
  · rw [hc]
    exact ⟨some C, rfl, c3'⟩

/-- The answer at the root. -/
theorem answer_none {h0 h : Heap R} (e : SameCore h h0) (hw : h0.Wf) {ua : Bool} {t : ℕ} {A B : Nd R}
    (hA : h0.Full t A) (hB : (h0.braNet ua).Full t B) {G : Forest}
    (hG : h0.children t none = G.heads) {env : List (ℕ × Option (Nd R))} (he : EnvsOk h0 ua t G env)
    (hn : ua = false → (h0.node t).axis = none → h0.MarkOk t) :
    ∃ ans, h.envAnswer t none ua env = .ok ans ∧
      ans.getD ⟨[], [1]⟩ = ⟨[], [traceOver A B (h0.envList ua G) (fun _ => 0) (fun _ => 0)]⟩ := by
  have hK : (h0.envList ua G).map Prod.fst = List.range A.ndim := by
    rw [envList_fst, ← hG, hA.keys_none hw]
  obtain ⟨T, c1, c2⟩ := trace_none hA.wf (hA.ndim_eq hB) (he.shape hA hB) hK (fun _ => 0) (fun _ => 0)
  have hc : h.contractEnv t none ua env =
      .ok ⟨[], [traceOver A B (h0.envList ua G) (fun _ => 0) (fun _ => 0)]⟩ := by
    rw [contractEnv_eq e hA hB, c1]; exact c2
  unfold envAnswer
  split
  · rename_i hs
    refine ⟨none, rfl, ?_⟩
    unfold shortcut at hs
    simp only [Bool.and_eq_true, Bool.not_eq_true', decide_eq_true_eq] at hs
    obtain ⟨⟨⟨rfl, s2⟩, s3⟩, s4⟩ := hs
    rw [e.axis] at s2
    rw [e.normalized] at s3
    have hnorm := hn rfl s2.symm A s3 hA.leaf hA.array
    rw [← s2] at hnorm
    simp only at hnorm
    have hBA := bra_conj hA hB
    rw [fold_none s4] at c1
    cases c1
    rw [Tensor.partialTrace_none_spec A B (by rw [hBA]; rfl)] at c2
    have : sumIdx A.shape (fun p => A.get p * B.get p) = 1 := by
      rw [← hnorm]
      congr 1
      funext p
      rw [hBA, conj_get]
    rw [this] at c2
    injection c2
  · rw [hc]
    exact ⟨_, rfl, rfl⟩

theorem forest_unique {h : Heap R} {F G : Forest} (hF : F.RepIn h) (hG : G.RepIn h) (hh : F.heads = G.heads) :
    F = G := by
  induction F generalizing G with
  | nil =>
    cases G with
    | nil => rfl
    | cons => simp [Forest.heads] at hh
  | cons i j id sub rest ih1 ih2 =>
    cases G with
    | nil => simp [Forest.heads] at hh
    | cons i' j' id' sub' rest' =>
      simp only [Forest.heads, List.cons.injEq, Prod.mk.injEq] at hh
      obtain ⟨⟨rfl, rfl, rfl⟩, hr⟩ := hh
      obtain ⟨f1, f2, f3⟩ := hF
      obtain ⟨g1, g2, g3⟩ := hG
      rw [ih1 f2 g2 (f1.symm.trans g1), ih2 f3 g3 hr]

/-- What is assumed of the caches and marks when they are used. -/
def Sound (P : ℕ → ℕ → Prop) (h0 h : Heap R) (ua : Bool) : Prop :=
  ua = false → CacheOk P h0 h ∧ ∀ t k, P t k → (h0.node t).axis = some k → h0.MarkOk t

theorem partialEnv_succ (fuel : ℕ) (h : Heap R) (t : ℕ) (i : Option ℕ) (ua : Bool) :
    partialEnv (fuel + 1) h t i ua =
      if h.isLeaf t then .ok (h, if ua then (h.node t).aux else h.array t)
      else match h.cached t i ua with
      | some v => .ok (h, v)
      | none => ((h.children t i).foldlM (envStep fuel ua) (h, ([] : List (ℕ × Option (Nd R))))).bind fun s =>
          (s.1.envAnswer t i ua s.2).bind fun ans => .ok (s.1.envStore t i ua ans) := by
  rw [partialEnv]
  rfl

/-- Storing a correct answer. -/
theorem store_ok {P : ℕ → ℕ → Prop} {h0 h : Heap R} (e : SameCore h h0) {ua : Bool} (hs : Sound P h0 h ua) {t j : ℕ} {G : Forest}
    (hG : G.RepIn h0) (hc : h0.children t (some j) = G.heads) {ans : Option (Nd R)}
    (ha : IsEnv ans (h0.hdim (t, j)) ((h0.braNet ua).hdim (t, j)) (h0.trueEnv ua G t j)) :
    SameCore (h.envStore t (some j) ua ans).1 h0 ∧ Sound P h0 (h.envStore t (some j) ua ans).1 ua := by
  unfold envStore
  cases ua with
  | true => exact ⟨e, hs⟩
  | false =>
    simp only [Bool.false_eq_true, if_false]
    constructor
    · refine SameCore.trans (h' := h) ⟨rfl, fun u => ?_⟩ e
      simp only [Heap.upd]
      split <;> rfl
    · intro _
      refine ⟨?_, (hs rfl).2⟩
      intro u k v hP hv hl G' hG'
      simp only [Heap.upd] at hv hl
      unfold Heap.isLeaf at hl
      by_cases hu : u = t
      · subst hu
        simp only [if_true] at hv hl
        by_cases hk : k = j
        · subst hk
          rw [Dict.get?_set, if_pos rfl] at hv
          cases hv
          have : G = G' := forest_unique hG hG'.rep (hc.symm.trans hG'.heads)
          rw [← this]; exact ha
        · rw [Dict.get?_set, if_neg (fun q => hk q.symm)] at hv
          exact (hs rfl).1 u k v hP hv hl G' hG'
      · simp only [hu, if_false] at hv hl
        exact (hs rfl).1 u k v hP hv hl G' hG'

/-- The environments of all branches below `a`. -/
theorem envs_ok {P : ℕ → ℕ → Prop} {h0 : Heap R} (hw : h0.Wf) {ua : Bool} {F : Forest} {a : ℕ}
    (hP : ∀ e ∈ F.edges a, P e.2.2.1 e.2.2.2) (hf : h0.Fits ua F a) (hr : F.RepIn h0)
    (hle : F.LeafEnd h0) (hnd : F.ids.Nodup) {fuel : ℕ} (hd : F.depth ≤ fuel) {h : Heap R} (e : SameCore h h0)
    (hs : Sound P h0 h ua) (acc : List (ℕ × Option (Nd R))) :
    ∃ h' env, F.heads.foldlM (envStep fuel ua) (h, acc) = .ok (h', acc ++ env) ∧ SameCore h' h0 ∧ Sound P h0 h' ua ∧
      EnvsOk h0 ua a F env := by
  induction F generalizing a fuel h acc with
  | nil => exact ⟨h, [], by simp [Forest.heads, pure, Except.pure], e, hs, List.Forall₂.nil⟩
  | cons i j id sub rest ih1 ih2 =>
    obtain ⟨⟨f1, f2, f3⟩, f4, f5⟩ := hf
    obtain ⟨r1, r2, r3⟩ := hr
    obtain ⟨l1, l2, l3⟩ := hle
    have hPj : P id j := hP (a, i, id, j) (by simp [Forest.edges])
    have hP1 : ∀ e ∈ sub.edges id, P e.2.2.1 e.2.2.2 := fun e he => hP e (by simp [Forest.edges, he])
    have hP2 : ∀ e ∈ rest.edges a, P e.2.2.1 e.2.2.2 := fun e he => hP e (by simp [Forest.edges, he])
    simp only [Forest.ids, List.cons_append, List.nodup_cons, List.mem_append, not_or,
      List.nodup_append] at hnd
    obtain ⟨⟨n1, n2⟩, n3, n4, n5⟩ := hnd
    simp only [Forest.depth] at hd
    obtain ⟨f, rfl⟩ : ∃ f, fuel = f + 1 := ⟨fuel - 1, by omega⟩
    have key : ∃ h' v, partialEnv (f + 1) h id (some j) ua = .ok (h', v) ∧ SameCore h' h0 ∧ Sound P h0 h' ua ∧
        IsEnv v (h0.hdim (a, i)) ((h0.braNet ua).hdim (a, i)) (h0.trueEnv ua sub id j) := by
      rw [partialEnv_succ, e.isLeaf]
      cases hlf : h0.isLeaf id with
      | true =>
        simp only [if_true]
        refine ⟨h, _, rfl, e, hs, ?_⟩
        rw [e.aux, e.array]
        have h1 := f1 hlf
        unfold trueEnv envMat
        simp only [hlf, if_true]
        unfold OpFits at h1
        unfold IsEnv opEntry
        split at h1
        · rename_i q
          rw [q]; exact ⟨h1, fun v _ w _ => rfl⟩
        · rename_i M q
          rw [q]; exact ⟨h1.1, h1.2, fun v _ w _ => rfl⟩
      | false =>
        obtain ⟨⟨A, hA⟩, ⟨B, hB⟩, q1, q2⟩ := f2 hlf
        simp only [Bool.false_eq_true, if_false]
        rw [q1, q2]
        cases hc : h.cached id (some j) ua with
        | some v =>
          refine ⟨h, v, rfl, e, hs, ?_⟩
          unfold cached at hc
          cases ua with
          | true => simp at hc
          | false =>
            simp only [Bool.false_eq_true, if_false, Option.bind_some] at hc
            refine (hs rfl).1 id j v hPj hc (by rw [e.isLeaf]; exact hlf) sub ⟨r1, r2, ?_, l2⟩
            exact List.nodup_cons.2 ⟨n1, n3⟩
        | none =>
          simp only
          rw [e.children, r1]
          obtain ⟨h', env, g1, g2, g3, g4⟩ := ih1 hP1 f4 r2 l2 n3 (fuel := f) (by omega) e hs []
          obtain ⟨ans, a1, a2⟩ := answer_some g2 hw hA hB f3 r1 g4 (fun q => (g3 q).2 id j hPj)
          obtain ⟨s1, s2⟩ := store_ok g2 g3 r2 r1 a2
          refine ⟨_, ans, ?_, s1, s2, a2⟩
          rw [g1]
          simp only [List.nil_append, Except.bind, a1]
          rfl
    obtain ⟨h1, v, k1, k2, k3, k4⟩ := key
    obtain ⟨h2, env, g1, g2, g3, g4⟩ := ih2 hP2 f5 r3 l3 n4 (fuel := f + 1) (by omega) k2 k3 (acc ++ [(i, v)])
    refine ⟨h2, (i, v) :: env, ?_, g2, g3, List.Forall₂.cons ⟨rfl, k4⟩ g4⟩
    rw [Forest.heads, List.foldlM_cons]
    have : envStep (f + 1) ua (h, acc) (i, id, j) = .ok (h1, acc ++ [(i, v)]) := by
      unfold envStep
      simp only [k1]
      rfl
    rw [this]
    simpa using g1

end Heap
