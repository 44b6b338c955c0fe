import Verif.Lemmas.Autocomplete3
import Verif.Lemmas.Env2

/-!
Lemmas about `autocomplete`: the state that the completed network represents.
-/

open scoped BigOperators
open Py

namespace Heap.Bare.Filled

open TreeSum

variable {R : Type} [Field R] [StarRing R]
variable {h h' : Heap R} {r : ℕ} {F : Forest} {dims : Dict (ℕ × ℕ × ℕ × ℕ) ℕ} {want : ℕ × ℕ → ℕ}

/-- The axes of a tensor towards what hangs below it. -/
theorem halfs_iff (hw : h.Wf) {id j : ℕ} {sub : Forest} (hr : h.children id (some j) true = sub.heads) {p : ℕ × ℕ} :
    p ∈ halfs id sub ↔ p.1 = id ∧ p.2 ≠ j ∧ h.acc id p.2 ≠ none := by
  unfold halfs
  rw [← hr]
  constructor
  · intro q
    obtain ⟨⟨k, u, l⟩, y1, rfl⟩ := List.mem_map.1 q
    obtain ⟨q1, q2, -⟩ := (mem_children hw (by simp)).1 y1
    refine ⟨rfl, fun e => q2 (by simpa using e.symm), by simp [q1]⟩
  · rintro ⟨q1, q2, q3⟩
    obtain ⟨⟨u, l⟩, hu⟩ := Option.ne_none_iff_exists'.1 q3
    refine List.mem_map.2 ⟨(p.2, u, l), (mem_children hw (by simp)).2 ⟨hu, fun e => q2 (by simpa using e.symm), by simp⟩, ?_⟩
    rw [← q1]

/-- The axes of the root. -/
theorem halfs_root (hw : h.Wf) (hl : h.isLeaf r = false) (hr : h.children r none true = F.heads) {p : ℕ × ℕ} :
    p ∈ halfs r F ↔ p.1 = r ∧ h.acc r p.2 ≠ none := by
  unfold halfs
  rw [← hr]
  constructor
  · intro q
    obtain ⟨⟨k, u, l⟩, y1, rfl⟩ := List.mem_map.1 q
    obtain ⟨q1, -, -⟩ := (mem_children hw (by simp [hl])).1 y1
    exact ⟨rfl, by simp [q1]⟩
  · rintro ⟨q1, q3⟩
    obtain ⟨⟨u, l⟩, hu⟩ := Option.ne_none_iff_exists'.1 q3
    refine List.mem_map.2 ⟨(p.2, u, l), (mem_children hw (by simp [hl])).2 ⟨hu, by simp, by simp⟩, ?_⟩
    rw [← q1]

/-- A tensor below the root with an array of `autocomplete`, entered with index 0, is 1 where all indices are 0, and 0 elsewhere. -/
theorem ground_node (f : Filled0 h h' r F want) (hb : Bare h r F dims want) {a i id j : ℕ} {sub : Forest} (hbd : (a, i, id, j) ∈ h.bonds r F)
    (r1 : h.children id (some j) true = sub.heads) {A : Nd R} (a1 : h'.array id = some A) (hdone : Done h want id A) :
    (∀ p ∈ halfs id sub, 0 < h'.hdim p) ∧ ∀ σ : Assign, σ (id, j) = 0 → (∀ p ∈ halfs id sub, σ p < h'.hdim p) →
      h'.entry σ id = if ∀ p ∈ halfs id sub, σ p = 0 then 1 else 0 := by
  obtain ⟨he, hl⟩ := mem_bonds.1 hbd
  simp only at hl
  have hid := Forest.edges_tgt he
  have ht : id ∈ h.tensors r F := mem_tensors.2 ⟨.inr hid, hl⟩
  obtain ⟨-, a3, a4'⟩ := hdone
  have hax := hb.rooted.2 _ hbd
  simp only at hax
  rw [hax] at a4'
  obtain ⟨c, a4, a5, -⟩ := a4'
  have hlink := (edges_props hb.links.wf hb.links.sym hb.tree hb.leaf).1 _ he
  have hback := hb.links.sym _ _ _ _ hlink
  have hkj := (hb.complete _ (.inr hid) j).1 (by rw [hback]; simp)
  have a2 : j < A.ndim := by unfold Nd.ndim; rw [a3]; simpa using hkj
  have hn : A.ndim = h.order id := by unfold Nd.ndim; rw [a3]; simp
  have hd : ∀ k < h.order id, h'.hdim (id, k) = want (id, k) := fun k hk => f.hdim ht hk
  have hh : ∀ p ∈ halfs id sub, p.1 = id ∧ p.2 ≠ j ∧ p.2 < h.order id := fun p hp => by
    obtain ⟨q1, q2, q3⟩ := (halfs_iff hb.links.wf r1).1 hp
    exact ⟨q1, q2, (hb.complete id (.inr hid) _).1 q3⟩
  refine ⟨fun p hp => ?_, fun σ s1 s2 => ?_⟩
  · obtain ⟨q1, q2, q3⟩ := hh p hp
    obtain ⟨p1, p2⟩ := p
    cases q1
    rw [hd _ q3]
    exact hb.pos ht q3
  · have hv : Valid A.shape ((List.range A.ndim).map fun k => σ (id, k)) := by
      rw [a3, hn]
      refine Nd.valid_map fun k hk => ?_
      have hk' := List.mem_range.1 hk
      by_cases e : k = j
      · rw [e, s1]
        exact hb.pos ht (by rw [← e]; exact hk')
      · rw [← hd k hk']
        exact s2 _ ((halfs_iff hb.links.wf r1).2 ⟨rfl, e, (hb.complete id (.inr hid) _).2 hk'⟩)
    have hlen : j < ((List.range A.ndim).map fun k => σ (id, k)).length := by simpa using a2
    have h0 : ((List.range A.ndim).map fun k => σ (id, k)).getD j 0 = 0 := by
      rw [List.getD_eq_getElem _ _ hlen]; simp [s1]
    have hins := insertIdx_eraseIdx_getD hlen 0
    rw [h0] at hins
    have hv' := hv.eraseIdx j
    have hz : 0 < A.shape.getD j 1 := by
      have := hv.getD_lt (k := j) a2 0 1
      omega
    beta_reduce
    rw [entry_eq a1, ← hins, a4 0 hz _ hv', a5]
    refine if_congr ?_ rfl rfl
    rw [eq_comm, ravel_eq_zero hv']
    constructor
    · intro q p hp
      obtain ⟨q1, q2, q3⟩ := hh p hp
      obtain ⟨p1, p2⟩ := p
      cases q1
      refine q _ ?_
      rw [List.eraseIdx_map, ← range_filter_ne]
      exact List.mem_map.2 ⟨p2, List.mem_filter.2 ⟨List.mem_range.2 (by omega), by simpa using q2⟩, rfl⟩
    · intro q x hx
      rw [List.eraseIdx_map, ← range_filter_ne] at hx
      obtain ⟨k, hk, rfl⟩ := List.mem_map.1 hx
      obtain ⟨k1, k2⟩ := List.mem_filter.1 hk
      have k3 := List.mem_range.1 k1
      exact q _ ((halfs_iff hb.links.wf r1).2 ⟨rfl, by simpa using k2, (hb.complete id (.inr hid) _).2 (by omega)⟩)

theorem ground (f : Filled h h' r F want) (hb : Bare h r F dims want) {G : Forest} {a : ℕ} (hr : G.RepIn h)
    (hE : ∀ e ∈ G.edges a, e ∈ F.edges r) (hnone : ∀ t ∈ h.tensors r F, h.array t = none) :
    GroundIn h'.isLeaf h'.hdim (fun t σ => h'.entry σ t) G := by
  induction G generalizing a with
  | nil => trivial
  | cons i j id sub rest ih1 ih2 =>
    obtain ⟨r1, r2, r3⟩ := hr
    simp only [Forest.edges, List.cons_append, List.mem_cons, List.mem_append] at hE
    refine ⟨fun hl => ?_, ih1 (a := id) r2 fun e he => hE e (.inr (.inl he)), ih2 (a := a) r3 fun e he => hE e (.inr (.inr he))⟩
    rw [f.isLeaf] at hl
    have he := hE _ (.inl rfl)
    have ht : id ∈ h.tensors r F := mem_tensors.2 ⟨.inr (Forest.edges_tgt he), hl⟩
    obtain ⟨A, a1, a2⟩ := f.done id ht (hnone _ ht)
    exact ground_node f.toFilled0 hb (mem_bonds.2 ⟨he, hl⟩) r1 a1 a2

/-- The root, with an array of `autocomplete`. -/
theorem root_sum (f : Filled0 h h' r F want) (hb : Bare h r F dims want) {A : Nd R} (a1 : h'.array r = some A) (hdone : Done h want r A)
    (g : Assign → R) : sumOver h'.hdim (halfs r F) (fun τ => h'.entry τ r * g τ) (fun _ => 0) =
      g fun _ => 0 := by
  have ht := f.ttn hb
  have hrt : r ∈ h.tensors r F := mem_tensors.2 ⟨.inl rfl, hb.leaf⟩
  obtain ⟨a2, a3, a4⟩ := hdone
  rw [hb.rooted.1] at a4
  simp only at a4
  have hn : A.ndim = h.order r := by unfold Nd.ndim; rw [a3]; simp
  obtain ⟨x1, x2⟩ := axes_of ht.links.wf ht.tree.rep ht.heads_sorted
  have hh : ∀ p : ℕ × ℕ, p ∈ halfs r F ↔ p.1 = r ∧ p.2 < h.order r := fun p => by
    rw [halfs_root hb.links.wf hb.leaf hb.tree.heads, hb.complete r (.inl rfl)]
  have : sumOver h'.hdim (halfs r F) (fun τ => h'.entry τ r * g τ) (fun _ => 0) =
      sumOver h'.hdim (halfs r F) (fun τ => if ∀ p ∈ halfs r F, τ p = 0 then g τ else 0) (fun _ => 0) := by
    refine sumOver_congr fun τ t1 t2 => ?_
    have hv : Valid A.shape ((List.range A.ndim).map fun k => τ (r, k)) := by
      rw [a3, hn]
      refine Nd.valid_map fun k hk => ?_
      have hk' := List.mem_range.1 hk
      rw [← f.hdim hrt hk']
      exact t2 _ ((hh _).2 ⟨rfl, hk'⟩)
    have e1 : (ravel A.shape ((List.range A.ndim).map fun k => τ (r, k)) = 0) ↔ ∀ p ∈ halfs r F, τ p = 0 := by
      rw [ravel_eq_zero hv]
      constructor
      · intro q p hp
        obtain ⟨q1, q3⟩ := (hh p).1 hp
        obtain ⟨p1, p2⟩ := p
        cases q1
        exact q _ (List.mem_map.2 ⟨p2, List.mem_range.2 (by omega), rfl⟩)
      · intro q y hy
        obtain ⟨k, hk, rfl⟩ := List.mem_map.1 hy
        have := List.mem_range.1 hk
        exact q _ ((hh _).2 ⟨rfl, by omega⟩)
    rw [entry_eq a1, a4 _ hv, if_congr e1 rfl rfl]
    split <;> simp
  rw [this]
  refine (sumOver_zeros (R := R) (g := g) (nodup_halfs x1 r) (fun p hp => ?_) _).trans (by simp only [ite_self])
  obtain ⟨q1, q3⟩ := (hh p).1 hp
  obtain ⟨p1, p2⟩ := p
  cases q1
  rw [f.hdim hrt q3]
  exact hb.pos hrt q3

/-- The completed network is the product of the first states of the leaves. -/
theorem amp (f : Filled h h' r F want) (hb : Bare h r F dims want) (hnone : ∀ t ∈ h.tensors r F, h.array t = none) {x : ℕ → ℕ}
    (hx : ∀ p ∈ h'.leafList r F, x p.1 < p.2) :
    h'.treeAmp r F x = if ∀ l ∈ F.ids.filter fun t => h.isLeaf t, x l = 0 then 1 else 0 := by
  have ht := f.ttn hb
  have hrt : r ∈ h.tensors r F := mem_tensors.2 ⟨.inl rfl, hb.leaf⟩
  obtain ⟨A, a1, a2⟩ := f.done r hrt (hnone r hrt)
  obtain ⟨x1, x2⟩ := axes_of ht.links.wf ht.tree.rep ht.heads_sorted
  have hlf : h'.isLeaf = h.isLeaf := funext f.isLeaf
  rw [ht.amp_eq hx fun _ => 0, root_sum f.toFilled0 hb a1 a2 (psi h'.isLeaf h'.hdim (fun t σ => h'.entry σ t) x F r),
    psi_ground x (f.ground hb hb.tree.rep (fun e he => he) hnone) (leafNil_of ht.tree.leafEnd) x1 x2 fun p _ => rfl]
  exact if_congr (by rw [hlf]) rfl rfl

end Heap.Bare.Filled
