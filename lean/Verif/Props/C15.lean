import Verif.Lemmas.Env4
import Verif.Props.C14

/-!
C15: the normalization shortcut and the cache of `Tensor.partial_env` are sound.

`h0` is a tree-shaped network rooted at `r` (`IsTTN`), with fitting operators on its leaves (`None` or a square
matrix), in which every tensor of it marked `normalized` has orthonormal slices along its `axis` (`NormOk`), and whose
caches are empty. After any history of calls (`EnvReach`):

* a further call returns a value which stands for the full contraction of the branch (`Means … branchEnv`),
  so `None` is returned only if the full contraction is the identity;
* every cached value stands for the full contraction;
* nothing but the caches has changed.
-/

namespace Heap

open Py TreeSum

variable {R : Type} [CommRing R] [StarRing R]

private theorem reach_inv {h0 h : Heap R} {r : ℕ} {F : Forest} (ht : h0.IsTTN r F) (ho : h0.OpsFit r F)
    (hn : h0.NormOk r F) (hp : ∀ t ∈ h0.tensors r F, (h0.node t).penv = []) (hr : h0.EnvReach r F h) :
    SameCore h h0 ∧ Sound (InNet r F) h0 h false := by
  induction hr with
  | start =>
    refine ⟨⟨rfl, fun _ => rfl⟩, fun _ => ⟨fun t k v ht' hv hl => ?_, fun t k ht' _ A h1 h2 =>
      hn t (mem_tensors.2 ⟨ht', h2⟩) A h1 h2⟩⟩
    rw [hp t (mem_tensors.2 ⟨ht', hl⟩)] at hv; cases hv
  | @call h h' t i fuel ans _ hm hk hf hc ih =>
    cases i with
    | none =>
      obtain ⟨h2, G, -, e, s1, s2⟩ := call_root_ok ht ho hm (fun _ => ht.inNet hm) ih.1 ih.2 (fun _ => hn t hm) hf
      rw [hc] at e
      obtain ⟨rfl, -⟩ := Prod.mk.inj (Except.ok.inj e)
      exact ⟨s1, s2⟩
    | some k =>
      obtain ⟨h2, a, G, e, s1, s2, -⟩ := call_ok ht ho hm (hk k rfl) (mem_tensors.1 hm).1 (fun _ => ht.inNet hm) ih.1 ih.2 hf
      rw [hc] at e
      obtain ⟨rfl, -⟩ := Prod.mk.inj (Except.ok.inj e)
      exact ⟨s1, s2⟩

/-- After every history, `t.partial_env(k)` returns the full contraction of the branch at `t` away from `k`, or
`None` if that is the identity. -/
theorem C15_partial_env {h0 h : Heap R} {r : ℕ} {F : Forest} (ht : h0.IsTTN r F) (ho : h0.OpsFit r F)
    (hn : h0.NormOk r F) (hp : ∀ t ∈ h0.tensors r F, (h0.node t).penv = []) (hr : h0.EnvReach r F h) {t k : ℕ} (hm : t ∈ h0.tensors r F)
    (hk : h0.acc t k ≠ none) {fuel : ℕ} (hf : F.ids.length < fuel) :
    ∃ h' ans G, partialEnv fuel h t (some k) false = .ok (h', ans) ∧ IsTree h0 t (some k) G ∧
      Means ans (h0.hdim (t, k)) (h0.branchEnv t k G) := by
  obtain ⟨s1, s2⟩ := reach_inv ht ho hn hp hr
  obtain ⟨h', ans, G, e, -, -, g1, g2⟩ := call_ok ht ho hm hk (mem_tensors.1 hm).1 (fun _ => ht.inNet hm) s1 s2 hf
  exact ⟨h', ans, G, e, g1, g2⟩

/-- After every history, `t.partial_env(None)` returns the full contraction of the network. -/
theorem C15_partial_env_root {h0 h : Heap R} {r : ℕ} {F : Forest} (ht : h0.IsTTN r F) (ho : h0.OpsFit r F)
    (hn : h0.NormOk r F) (hp : ∀ t ∈ h0.tensors r F, (h0.node t).penv = []) (hr : h0.EnvReach r F h) {t : ℕ} (hm : t ∈ h0.tensors r F)
    {fuel : ℕ} (hf : F.ids.length < fuel) :
    ∃ h' G, h0.IsTTN t G ∧ partialEnv fuel h t none false = .ok (h', some ⟨[], [sumLeaves (h0.leafList t G) (fun x =>
      sumLeaves (h0.leafList t G) (fun y => h0.treeAmp t G x *
        (((h0.leafList t G).map Prod.fst).map fun l => opEntry (h0.array l) (x l) (y l)).prod *
          star (h0.treeAmp t G y)) (fun _ => 0)) (fun _ => 0)]⟩) := by
  obtain ⟨s1, s2⟩ := reach_inv ht ho hn hp hr
  obtain ⟨h', G, f, e, -⟩ := call_root_ok ht ho hm (fun _ => ht.inNet hm) s1 s2 (fun _ => hn t hm) hf
  exact ⟨h', G, f, e⟩

/-- After every history, every cached value of a tensor of the network is the full contraction (what a call would
compute afresh), and nothing but the caches has changed. -/
theorem C15_cache {h0 h : Heap R} {r : ℕ} {F : Forest} (ht : h0.IsTTN r F) (ho : h0.OpsFit r F)
    (hn : h0.NormOk r F) (hp : ∀ t ∈ h0.tensors r F, (h0.node t).penv = []) (hr : h0.EnvReach r F h) :
    SameCore h h0 ∧ ∀ t ∈ h0.tensors r F, ∀ k v, h0.acc t k ≠ none → Dict.get? (h.node t).penv k = some v →
      ∃ G, IsTree h0 t (some k) G ∧ Means v (h0.hdim (t, k)) (h0.branchEnv t k G) := by
  obtain ⟨s1, s2⟩ := reach_inv ht ho hn hp hr
  refine ⟨s1, fun t hm k v hk hv => ?_⟩
  obtain ⟨F', f1, f2⟩ := ht.reroot hm
  obtain ⟨G, g1, -⟩ := f1.branch hk
  obtain ⟨G', g1', -⟩ := f1.conj.branch (k := k) hk
  have hGG : G = G' := forest_unique (h := h0.braNet false) (g1.tree.congr (h' := h0.braNet false) ht.links.wf
    f1.conj.links.wf (fun _ _ => rfl) (fun _ _ => rfl)).rep g1'.tree.rep (by
      rw [← g1'.tree.heads, ← g1.tree.heads]; rfl)
  subst hGG
  have hl := (mem_tensors.1 hm).2
  have hlh : h.isLeaf t = false := by rw [s1.isLeaf]; exact hl
  have := means_of ((s2 rfl).1 t k v (mem_tensors.1 hm).1 hv hlh G g1.tree) (by rw [conj_hdim hl])
  have e5 : h0.branchEnv t k G = h0.trueEnv false G t k := funext fun v => funext fun w => branchEnv_eq g1 g1' v w
  exact ⟨G, g1.tree, e5 ▸ this⟩

/-! A case: `exTwo` with an orthogonal second tensor, marked normalized, and an operator on the leaf of the first. -/

def exTwoNorm : Heap ℤ :=
  (exTwoCanon.upd 1 fun n => { n with normalized := true, axis := some 1 }).setArray 2
    (some ⟨[2, 2], [0, 1, 2, 0]⟩)

theorem exTwoNorm_ttn : exTwoNorm.IsTTN 0 exTwoForest := by
  refine exTwoCanon_ttn.congr ?_ rfl ?_ ?_ ?_
  · rintro (_ | _ | _ | _ | c) <;> rfl
  · rintro (_ | _ | _ | _ | c) <;> rfl
  · rintro (_ | _ | _ | _ | c) <;> rfl
  · rintro (_ | _ | _ | _ | c) A hA hw
    · exact ⟨A, hA, hw, rfl⟩
    · exact ⟨A, hA, hw, rfl⟩
    · cases hA
    · cases hA
    · cases hA

theorem exTwoNorm_ops : exTwoNorm.OpsFit 0 exTwoForest := by
  intro e he hl
  have : e ∈ [(0, 0, 1, 1), (1, 0, 3, 0), (0, 1, 2, 0)] := he
  simp only [List.mem_cons, List.not_mem_nil, or_false] at this
  rcases this with rfl | rfl | rfl
  · cases hl
  · rfl
  · exact ⟨by simp [Nd.Wf], rfl⟩

theorem exTwoNorm_norm : exTwoNorm.NormOk 0 exTwoForest := by
  rintro (_ | _ | _ | _ | c) - A h1 h2 h3
  · cases h1
  · refine ⟨⟨[2, 2], [0, 1, 1, 0]⟩, rfl, by decide, fun z w hz hw => ?_⟩
    change z < 2 at hz
    change w < 2 at hw
    obtain rfl | rfl : z = 0 ∨ z = 1 := by omega
    all_goals obtain rfl | rfl : w = 0 ∨ w = 1 := by omega
    all_goals decide +kernel
  · cases h2
  · cases h3
  · cases h3

theorem exTwoNorm_penv (t : ℕ) (_ : t ∈ exTwoNorm.tensors 0 exTwoForest) : (exTwoNorm.node t).penv = [] := by
  obtain _ | _ | _ | _ | c := t <;> rfl

example : ∃ h' ans G, partialEnv 4 exTwoNorm 0 (some 0) false = .ok (h', ans) ∧ IsTree exTwoNorm 0 (some 0) G ∧
    Means ans 2 (exTwoNorm.branchEnv 0 0 G) :=
  C15_partial_env exTwoNorm_ttn exTwoNorm_ops exTwoNorm_norm exTwoNorm_penv .start (by decide) (by decide) (by decide)

/-- The environment of the normalized tensor is `None`, that of the other one is not. -/
example : (partialEnv 4 exTwoNorm 1 (some 1) false).toOption.map (fun p => p.2.map Nd.data) = some none ∧
    (partialEnv 4 exTwoNorm 0 (some 0) false).toOption.map (fun p => p.2.map Nd.data) =
      some (some [6, 16, 14, 36]) := by
  decide +kernel

end Heap
