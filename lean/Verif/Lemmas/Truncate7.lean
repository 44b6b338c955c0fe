import Verif.Lemmas.Truncate6
import Verif.Lemmas.Conserve4
import Verif.Lemmas.Overlap2
import Verif.Lemmas.Eom

/-!
Two networks that differ in two neighbouring tensors: their distance, when the rest is in canonical form, is that of the two pairs of
tensors.
-/

open scoped BigOperators

open Py TreeSum

namespace Heap

section
variable {R : Type} [CommRing R]

theorem map_range_getD (l : List ℕ) (d : ℕ) {n : ℕ} (hn : n ≤ l.length) : (List.range n).map (fun k => l.getD k d) = l.take n := by
  refine List.ext_getElem (by simp; omega) fun k h1 h2 => ?_
  have h3 : k < n := by simpa using h1
  rw [List.getElem_map, List.getElem_range, List.getElem_take, List.getD_eq_getElem _ _ (by omega)]

theorem map_range'_getD (l : List ℕ) (d : ℕ) {s n : ℕ} (hn : s + n = l.length) : (List.range' s n).map (fun k => l.getD k d) = l.drop s := by
  refine List.ext_getElem (by simp; omega) fun k h1 h2 => ?_
  have h3 : k < n := by simpa using h1
  rw [List.getElem_map, List.getElem_range', List.getElem_drop, List.getD_eq_getElem _ _ (by omega)]
  simp

/-- A function of the labels of a merged tensor. -/
theorem map_uniteLabels {f : ℕ × ℕ → ℕ} {s i t j d : ℕ} {u v : List ℕ} (hs : ∀ k, f (s, k) = u.getD k d) (ht : ∀ k, f (t, k) = v.getD k d)
    (hi : i < u.length) (hj : j < v.length) :
    (uniteLabels s i u.length t j v.length).map f = u.take i ++ v.eraseIdx j ++ u.drop (i + 1) := by
  unfold uniteLabels
  simp only [List.map_append, List.map_map]
  have e : ∀ x : ℕ, (f ∘ fun k => (x, k)) = fun k => f (x, k) := fun x => rfl
  simp only [e, hs, ht]
  rw [map_range_getD _ _ (by omega), map_range_getD _ _ (by omega), map_range'_getD _ _ (by omega), map_range'_getD _ _ (by omega),
    List.eraseIdx_eq_take_drop_succ]

/-- The tensors at `r` and `fin` replaced. -/
def setPair (h : Heap R) (r fin : ℕ) (A B : Nd R) : Heap R := (h.setArray r (some A)).setArray fin (some B)

theorem node_setPair (h : Heap R) {r fin : ℕ} (hne : r ≠ fin) (A B : Nd R) (c : ℕ) : (h.setPair r fin A B).node c =
    if c = fin then { h.node c with array := some B } else if c = r then { h.node c with array := some A } else h.node c := by
  unfold setPair
  rw [node_setArray, node_setArray]
  by_cases q : c = fin
  · subst q; simp [hne.symm]
  · simp [q]

/-- The new arrays fit in the old places: they have the same dimensions except for that of the bond between them. -/
structure PairFits (A B A₂ B₂ : Nd R) (i j m : ℕ) : Prop where
  wfA : A₂.Wf
  wfB : B₂.Wf
  shapeA : A₂.shape = A.shape.set i m
  shapeB : B₂.shape = B.shape.set j m
  pos : 0 < m

section
variable {h : Heap R} {r : ℕ} {F : Forest} {i fin j m : ℕ} {A B A₂ B₂ : Nd R}

theorem array_setPair (h : Heap R) (hne : r ≠ fin) (A B : Nd R) (c : ℕ) : (h.setPair r fin A B).array c =
    if c = fin then some B else if c = r then some A else h.array c := by
  unfold Heap.array
  rw [node_setPair h hne]
  split
  · rfl
  · split <;> rfl

theorem leaf_setPair (h : Heap R) (hne : r ≠ fin) (A B : Nd R) (c : ℕ) : (h.setPair r fin A B).isLeaf c = h.isLeaf c := by
  unfold Heap.isLeaf
  rw [node_setPair h hne]
  split
  · rfl
  · split <;> rfl

theorem access_setPair (h : Heap R) (hne : r ≠ fin) (A B : Nd R) (c : ℕ) : (h.setPair r fin A B).access c = h.access c := by
  unfold Heap.access
  rw [node_setPair h hne]
  split
  · rfl
  · split <;> rfl

theorem acc_setPair (h : Heap R) (hne : r ≠ fin) (A B : Nd R) (c k : ℕ) : (h.setPair r fin A B).acc c k = h.acc c k := by
  rw [acc_def, access_setPair h hne, ← acc_def]

theorem name_setPair (h : Heap R) (hne : r ≠ fin) (A B : Nd R) (c : ℕ) : ((h.setPair r fin A B).node c).name = (h.node c).name ∧
    ((h.setPair r fin A B).node c).axis = (h.node c).axis := by
  rw [node_setPair h hne]
  split
  · exact ⟨rfl, rfl⟩
  · split <;> exact ⟨rfl, rfl⟩

theorem hdim_setPair (hne : r ≠ fin) (hA : h.array r = some A) (hB : h.array fin = some B) (pf : PairFits A B A₂ B₂ i j m)
    (hi : i < A.ndim) (hj : j < B.ndim) (p : ℕ × ℕ) :
    (h.setPair r fin A₂ B₂).hdim p = if p = (r, i) ∨ p = (fin, j) then m else h.hdim p := by
  obtain ⟨c, k⟩ := p
  unfold hdim
  simp only
  rw [array_setPair h hne]
  by_cases q : c = fin
  · subst q
    rw [if_pos rfl, hB]
    simp only [pf.shapeB]
    by_cases q2 : k = j
    · subst q2
      rw [if_pos (.inr rfl), List.getD_eq_getElem _ _ (by rw [List.length_set]; exact hj), List.getElem_set_self]
    · rw [if_neg (by simp [q2, hne.symm])]
      rw [List.getD_eq_getElem?_getD, List.getElem?_set_ne (Ne.symm q2), ← List.getD_eq_getElem?_getD]
  · rw [if_neg q]
    by_cases q1 : c = r
    · subst q1
      rw [if_pos rfl, hA]
      simp only [pf.shapeA]
      by_cases q2 : k = i
      · subst q2
        rw [if_pos (.inl rfl), List.getD_eq_getElem _ _ (by rw [List.length_set]; exact hi), List.getElem_set_self]
      · rw [if_neg (by simp [q2, hne])]
        rw [List.getD_eq_getElem?_getD, List.getElem?_set_ne (Ne.symm q2), ← List.getD_eq_getElem?_getD]
    · rw [if_neg q1, if_neg (by simp [q, q1])]

theorem full_setPair_src (hne : r ≠ fin) (hA : h.Full r A) (pf : PairFits A B A₂ B₂ i j m) : (h.setPair r fin A₂ B₂).Full r A₂ := by
  refine ⟨by rw [leaf_setPair h hne]; exact hA.leaf, by rw [array_setPair h hne, if_neg hne, if_pos rfl], pf.wfA, ?_, fun k => ?_⟩
  · rw [pf.shapeA]
    intro d hd
    rcases List.mem_or_eq_of_mem_set hd with q | q
    · exact hA.pos d q
    · rw [q]; exact pf.pos
  · rw [acc_setPair h hne, hA.acc]
    unfold Nd.ndim
    rw [pf.shapeA, List.length_set]

theorem full_setPair_fin (hne : r ≠ fin) (hB : h.Full fin B) (pf : PairFits A B A₂ B₂ i j m) : (h.setPair r fin A₂ B₂).Full fin B₂ := by
  refine ⟨by rw [leaf_setPair h hne]; exact hB.leaf, by rw [array_setPair h hne, if_pos rfl], pf.wfB, ?_, fun k => ?_⟩
  · rw [pf.shapeB]
    intro d hd
    rcases List.mem_or_eq_of_mem_set hd with q | q
    · exact hB.pos d q
    · rw [q]; exact pf.pos
  · rw [acc_setPair h hne, hB.acc]
    unfold Nd.ndim
    rw [pf.shapeB, List.length_set]

/-- The network with the two tensors replaced. -/
theorem IsTTN.setPair (ht : h.IsTTN r F) (hne : r ≠ fin) (hb : h.acc r i = some (fin, j)) (hA : h.Full r A) (hB : h.Full fin B)
    (pf : PairFits A B A₂ B₂ i j m) : (h.setPair r fin A₂ B₂).IsTTN r F := by
  have hbs := ht.links.sym _ _ _ _ hb
  have hin : i < A.ndim := (hA.acc i).1 (by rw [hb]; simp)
  have hjn : j < B.ndim := (hB.acc j).1 (by rw [hbs]; simp)
  have hi' : (h.setPair r fin A₂ B₂).LinkInv := ht.links.congr' (access_setPair h hne A₂ B₂) rfl
  have hl := leaf_setPair h hne A₂ B₂
  have e1 : (h.setPair r fin A₂ B₂).tensors r F = h.tensors r F := by unfold tensors; simp only [hl]
  have e2 : (h.setPair r fin A₂ B₂).bonds r F = h.bonds r F := by unfold bonds; simp only [hl]
  refine ⟨hi', ht.tree.congr ht.links.wf hi'.wf (acc_setPair h hne A₂ B₂) (fun c _ => hl c), by rw [hl]; exact ht.leaf, ht.lt, ?_, ?_, ?_⟩
  · rw [e1]; intro t ht'
    by_cases q : t = fin
    · subst q; exact ⟨_, full_setPair_fin hne hB pf⟩
    by_cases q' : t = r
    · subst q'; exact ⟨_, full_setPair_src hne hA pf⟩
    obtain ⟨X, hX⟩ := ht.full t ht'
    exact ⟨X, by rw [hl]; exact hX.leaf, by rw [array_setPair h hne, if_neg q, if_neg q']; exact hX.array, hX.wf, hX.pos,
      fun k => by rw [acc_setPair h hne]; exact hX.acc k⟩
  · rw [e2]; intro e he
    obtain ⟨q0, q1, q2⟩ := ht.isNet.isLink e he
    have q0 : h.acc e.1 e.2.1 = some e.2.2 := q0.1
    have q3 := ht.links.sym _ _ _ _ q0
    rw [hdim_setPair hne hA.array hB.array pf hin hjn, hdim_setPair hne hA.array hB.array pf hin hjn, ht.dims e he]
    refine if_congr ⟨fun q => ?_, fun q => ?_⟩ rfl rfl
    · rcases q with q | q
      · obtain ⟨a1, a2⟩ := Prod.mk.inj q
        rw [a1, a2, hb] at q0
        exact .inr (Option.some.inj q0).symm
      · obtain ⟨a1, a2⟩ := Prod.mk.inj q
        rw [a1, a2, hbs] at q0
        exact .inl (Option.some.inj q0).symm
    · rcases q with q | q
      · obtain ⟨a1, a2⟩ := Prod.mk.inj q
        rw [a1, a2, hb] at q3
        exact .inr (Option.some.inj q3).symm
      · obtain ⟨a1, a2⟩ := Prod.mk.inj q
        rw [a1, a2, hbs] at q3
        exact .inl (Option.some.inj q3).symm
  · rw [e1]; intro t ht'; rw [(name_setPair h hne A₂ B₂ t).1]; exact ht.names t ht'

/-- The two tensors multiplied along the bond. -/
def pairGet (A B : Nd R) (i j : ℕ) (p q : List ℕ) : R :=
  ∑ v ∈ Finset.range (A.shape.getD i 1), A.get (q.insertIdx i v) * B.get (p.insertIdx j v)

theorem insertIdx_append {a b : List ℕ} {i v : ℕ} (ha : a.length = i) : (a ++ b).insertIdx i v = a ++ v :: b := by
  subst ha
  induction a with
  | nil => simp
  | cons x a ih => simp [List.insertIdx_succ_cons, ih]

theorem valid_take {A : List ℕ} {i : ℕ} {a b : List ℕ} (ha : Valid (A.take i) a) (hb : Valid (A.drop (i + 1)) b) :
    Valid (A.eraseIdx i) (a ++ b) := by
  rw [List.eraseIdx_eq_take_drop_succ]
  exact valid_append ha hb

/-- The entries of the merged tensor. -/
theorem merged_get (hne : r ≠ fin) (hA : h.Full r A) (hB : h.Full fin B) (hin : i < A.ndim) (hjn : j < B.ndim) {C : Nd R}
    (hC : ∀ σ : Assign, (∀ p ∈ uniteLabels r i A.ndim fin j B.ndim, σ p < h.hdim p) →
      C.get ((uniteLabels r i A.ndim fin j B.ndim).map σ) = h.pairSum (r, i, fin, j) σ) {a b p : List ℕ}
    (ha : Valid (A.shape.take i) a) (hb : Valid (A.shape.drop (i + 1)) b) (hp : Valid (B.shape.eraseIdx j) p) :
    C.get (a ++ p ++ b) = pairGet A B i j p (a ++ b) := by
  have hin' : i < A.shape.length := hin
  have hjn' : j < B.shape.length := hjn
  have la : a.length = i := by rw [ha.length_eq, List.length_take]; omega
  have lb : b.length = A.shape.length - (i + 1) := by rw [hb.length_eq, List.length_drop]
  have lp : p.length = B.shape.length - 1 := by rw [hp.length_eq, List.length_eraseIdx_of_lt hjn']
  obtain ⟨u, hu⟩ : ∃ u, u = a ++ 0 :: b := ⟨_, rfl⟩
  obtain ⟨w, hw⟩ : ∃ w, w = p.insertIdx j 0 := ⟨_, rfl⟩
  have lu : u.length = A.ndim := by rw [hu]; simp [Nd.ndim]; omega
  have lw : w.length = B.ndim := by rw [hw, List.length_insertIdx_of_le_length (by omega)]; unfold Nd.ndim; omega
  let σ : Assign := fun x => if x.1 = fin then w.getD x.2 0 else u.getD x.2 0
  have s1 : ∀ k, σ (fin, k) = w.getD k 0 := fun k => by simp [σ]
  have s2 : ∀ k, σ (r, k) = u.getD k 0 := fun k => by simp [σ, hne]
  have em : (uniteLabels r i A.ndim fin j B.ndim).map σ = a ++ p ++ b := by
    rw [← lu, ← lw, map_uniteLabels (d := 0) s2 s1 (by omega) (by omega), hw, List.eraseIdx_insertIdx_self, hu]
    congr 1
    · congr 1
      rw [List.take_append_of_le_length (by omega), List.take_of_length_le (by omega)]
    · rw [List.drop_append, List.drop_of_length_le (by omega)]
      simp [la]
  rw [← em, hC σ (fun x hx => ?_)]
  · unfold pairGet pairSum
    simp only
    rw [hA.hdim_eq]
    refine Finset.sum_congr rfl fun z hz => ?_
    have hsb : ∀ p, setBond (r, i, fin, j) z σ p = if p = (fin, j) then z else if p = (r, i) then z else σ p := by
      intro p; unfold setBond Nd.upd; simp only
    obtain ⟨na, nA⟩ : ∃ n, A.ndim = n + 1 := ⟨A.ndim - 1, by omega⟩
    obtain ⟨nb, nB⟩ : ∃ n, B.ndim = n + 1 := ⟨B.ndim - 1, by omega⟩
    have ia : i ≤ na := by omega
    have jb : j ≤ nb := by omega
    rw [entry_bond hA.array nA ia (σ := σ) (v := z) (by rw [hsb]; simp [hne]) (by intro k hk; rw [hsb]; simp [hne, hk]),
      entry_bond hB.array nB jb (σ := σ) (v := z) (by rw [hsb]; simp) (by intro k hk; rw [hsb]; simp [hne.symm, hk])]
    rw [← nA, ← nB]
    simp only [s1, s2]
    rw [map_range_getD u 0 (by omega), map_range_getD w 0 (by omega), ← lu, ← lw, List.take_length, List.take_length, hw,
      List.eraseIdx_insertIdx_self, hu, ← insertIdx_append la, List.eraseIdx_insertIdx_self]
  · obtain ⟨c, k⟩ := x
    rcases (mem_uniteLabels hin hjn).1 hx with ⟨rfl, q1, q2⟩ | ⟨rfl, q1, q2⟩
    · rw [s2, hA.hdim_eq, hu, ← insertIdx_append la]
      have hpos := hA.pos _ (List.getElem_mem hin')
      exact (ML.valid_insert hin' rfl (valid_take ha hb) (z := 0) (by rw [List.getD_eq_getElem _ _ hin']; exact hpos)).getD_lt q1 0 1
    · rw [s1, hB.hdim_eq, hw]
      have hpos := hB.pos _ (List.getElem_mem hjn')
      exact (ML.valid_insert hjn' rfl hp (z := 0) (by rw [List.getD_eq_getElem _ _ hjn']; exact hpos)).getD_lt q1 0 1

/-- The shape of the merged tensor. -/
theorem merged_shape {h1 : Heap R} {mid : ℕ} (hA : h.Full r A) (hB : h.Full fin B) (hin : i < A.ndim) (hjn : j < B.ndim) {C : Nd R}
    (hC : h1.array mid = some C) (hn : C.ndim = (uniteLabels r i A.ndim fin j B.ndim).length)
    (hd : ∀ k p, (uniteLabels r i A.ndim fin j B.ndim)[k]? = some p → h1.hdim (mid, k) = h.hdim p) :
    C.shape = A.shape.take i ++ B.shape.eraseIdx j ++ A.shape.drop (i + 1) := by
  have e := map_uniteLabels (f := h.hdim) (s := r) (t := fin) (i := i) (j := j) (d := 1) (u := A.shape) (v := B.shape)
    hA.hdim_eq hB.hdim_eq hin hjn
  rw [← e]
  refine List.ext_getElem (by rw [List.length_map]; exact hn) fun k h1' h2 => ?_
  rw [List.length_map] at h2
  have := hd k _ (List.getElem?_eq_getElem h2)
  rw [List.getElem_map, ← this]
  unfold hdim
  rw [hC]
  simp only
  rw [List.getD_eq_getElem _ _ h1']

/-- A sum over the indices of two merged tensors. -/
theorem sum_merged {α : Type} [AddCommMonoid α] {sa sb : List ℕ} {i j : ℕ} {C C₂ : Nd R} {N N₂ : List ℕ → List ℕ → R}
    (hC : ∀ a p b, Valid (sa.take i) a → Valid (sa.drop (i + 1)) b → Valid (sb.eraseIdx j) p → C.get (a ++ p ++ b) = N p (a ++ b))
    (hC₂ : ∀ a p b, Valid (sa.take i) a → Valid (sa.drop (i + 1)) b → Valid (sb.eraseIdx j) p → C₂.get (a ++ p ++ b) = N₂ p (a ++ b))
    (Φ : R → R → α) :
    sumIdx (sa.take i ++ sb.eraseIdx j ++ sa.drop (i + 1)) (fun w => Φ (C.get w) (C₂.get w)) =
      ∑ x ∈ Finset.range (sb.eraseIdx j).prod, ∑ y ∈ Finset.range (sa.eraseIdx i).prod,
        Φ (N (unravel (sb.eraseIdx j) x) (unravel (sa.eraseIdx i) y)) (N₂ (unravel (sb.eraseIdx j) x) (unravel (sa.eraseIdx i) y)) := by
  rw [sumIdx_append, sumIdx_append, sumIdx_comm]
  rw [← sumIdx_eq_sum_range (sb.eraseIdx j) fun p => ∑ y ∈ Finset.range (sa.eraseIdx i).prod,
        Φ (N p (unravel (sa.eraseIdx i) y)) (N₂ p (unravel (sa.eraseIdx i) y))]
  refine sumIdx_congr fun p hp => ?_
  rw [← sumIdx_eq_sum_range (sa.eraseIdx i) fun q => Φ (N p q) (N₂ p q), List.eraseIdx_eq_take_drop_succ, sumIdx_append]
  refine sumIdx_congr fun a ha => sumIdx_congr fun b hb => ?_
  rw [hC a p b ha hb hp, hC₂ a p b ha hb hp]

end
end

section
variable {R : Type} [Field R] [StarRing R]

/-- Overlaps of states that differ in two neighbouring tensors of a canonical network. -/
theorem setPair_overlap {csvd : Svd R} (hsv : SvdShape csvd) {h : Heap R} {r : ℕ} {F : Forest} (ht : h.IsTTN r F)
    (hpl : h.PlainNames (h.tensors r F)) (hax : (h.node r).axis = none)
    (hc : h.CanonicalTree r F) (hleaf : ∀ e ∈ F.edges r, h.isLeaf e.2.2.1 = true → h.array e.2.2.1 = none) {i fin j : ℕ}
    (hb : h.acc r i = some (fin, j)) (hl : h.isLeaf fin = false) {A B : Nd R} (hA : h.Full r A) (hB : h.Full fin B)
    {m : ℕ} {A₂ B₂ : Nd R} (pf : PairFits A B A₂ B₂ i j m) :
    let ov := fun f g : (ℕ → ℕ) → R => sumLeaves (h.leafList r F) (fun x => f x * star (g x)) (fun _ => 0)
    let ar := fun N N' : List ℕ → List ℕ → R => ∑ x ∈ Finset.range (B.shape.eraseIdx j).prod, ∑ y ∈ Finset.range (A.shape.eraseIdx i).prod,
        N (unravel (B.shape.eraseIdx j) x) (unravel (A.shape.eraseIdx i) y) *
          star (N' (unravel (B.shape.eraseIdx j) x) (unravel (A.shape.eraseIdx i) y))
    ov (h.treeAmp r F) (h.treeAmp r F) = ar (pairGet A B i j) (pairGet A B i j) ∧
    ov (h.treeAmp r F) ((h.setPair r fin A₂ B₂).treeAmp r F) = ar (pairGet A B i j) (pairGet A₂ B₂ i j) ∧
    ov ((h.setPair r fin A₂ B₂).treeAmp r F) (h.treeAmp r F) = ar (pairGet A₂ B₂ i j) (pairGet A B i j) ∧
    ov ((h.setPair r fin A₂ B₂).treeAmp r F) ((h.setPair r fin A₂ B₂).treeAmp r F) = ar (pairGet A₂ B₂ i j) (pairGet A₂ B₂ i j) := by
  intro ov ar
  have hn := ht.isNet
  have hrT : r ∈ h.tensors r F := mem_tensors.2 ⟨.inl rfl, ht.leaf⟩
  have hfT : fin ∈ h.tensors r F := mem_tensors.2 ⟨(ht.mem_linked fin).2 (Relation.ReflTransGen.single ⟨i, j, hb⟩), hl⟩
  have hne : r ≠ fin := (hn.simple r hrT i fin j hb hfT).1.symm
  have hbs := ht.links.sym _ _ _ _ hb
  have hin : i < A.ndim := (hA.acc i).1 (by rw [hb]; simp)
  have hjn : j < B.ndim := (hB.acc j).1 (by rw [hbs]; simp)
  obtain ⟨nm1, hn1⟩ := hn.names r hrT
  obtain ⟨nm2, hn2⟩ := hn.names fin hfT
  have hp1 := hpl r hrT nm1 hn1
  have hp2 := hpl fin hfT nm2 hn2
  have unite : ∀ (k : Heap R) (X Y : Nd R), k.IsTTN r F → k.Full r X → k.Full fin Y → (∀ c l, k.acc c l = h.acc c l) →
      (∀ c, k.isLeaf c = h.isLeaf c) → (∀ c, (k.node c).name = (h.node c).name ∧ (k.node c).axis = (h.node c).axis) →
      ∃ k1 mid, k.MidUnite k1 r i fin j mid X.ndim Y.ndim := by
    intro k X Y kt kX kY ka kl kn
    have kT : k.tensors r F = h.tensors r F := by unfold tensors; simp only [kl]
    have kb : k.acc r i = some (fin, j) := by rw [ka]; exact hb
    have kr : r ∈ k.tensors r F := by rw [kT]; exact hrT
    have kf : fin ∈ k.tensors r F := by rw [kT]; exact hfT
    have kn' := kt.isNet
    obtain ⟨s1, s2⟩ := kn'.simple r kr i fin j kb kf
    obtain ⟨k1, mid, -, mu, -⟩ := uniteSplit_steps hsv kt.links kX kY kb s1.symm
      (fun k l e => (kn'.simple r kr k r l e kr).1 rfl) (fun k l e => (kn'.simple fin kf k fin l e kf).1 rfl)
      (fun k l e => s2 k l e) (.inl (by rw [(kn r).2]; exact hax))
      (by
        rcases kn'.mem_bond kr kf kb with q | q
        · exact kn'.dims _ q
        · exact (kn'.dims _ q).symm) (by rw [(kn r).1]; exact hn1) hp1 (by rw [(kn fin).1]; exact hn2) hp2 true
    exact ⟨k1, mid, mu⟩
  obtain ⟨h1, mid, mu⟩ := unite h A B ht hA hB (fun _ _ => rfl) (fun _ => rfl) fun _ => ⟨rfl, rfl⟩
  have fA2 := full_setPair_src hne hA pf
  have fB2 := full_setPair_fin hne hB pf
  have ht2 := ht.setPair hne hb hA hB pf
  obtain ⟨k1, mid', mu2⟩ := unite _ A₂ B₂ ht2 fA2 fB2 (acc_setPair h hne A₂ B₂) (leaf_setPair h hne A₂ B₂) (name_setPair h hne A₂ B₂)
  have emid : mid' = mid := by rw [← mu.fresh, ← mu2.fresh]; rfl
  subst emid
  have nA : A₂.ndim = A.ndim := by unfold Nd.ndim; rw [pf.shapeA, List.length_set]
  have nB : B₂.ndim = B.ndim := by unfold Nd.ndim; rw [pf.shapeB, List.length_set]
  rw [nA, nB] at mu2
  have b2 : (h.setPair r fin A₂ B₂).acc r i = some (fin, j) := by rw [acc_setPair h hne]; exact hb
  have l2 : (h.setPair r fin A₂ B₂).isLeaf fin = false := by rw [leaf_setPair h hne]; exact hl
  obtain ⟨F1, mt⟩ := mu.tree ht hA hB hb hl
  obtain ⟨C, fC, nC⟩ := mu.fullMid
  obtain ⟨C₂, fC₂, nC₂⟩ := mu2.fullMid
  have sC := merged_shape hA hB hin hjn fC.array nC mu.dimsMid
  have hin2 : i < A₂.ndim := by omega
  have hjn2 : j < B₂.ndim := by omega
  have sC₂ := merged_shape fA2 fB2 hin2 hjn2 fC₂.array (by rw [nA, nB]; exact nC₂) (by rw [nA, nB]; exact mu2.dimsMid)
  have tA : A₂.shape.take i = A.shape.take i := by rw [pf.shapeA, List.take_set_of_le (le_refl i)]
  have dA : A₂.shape.drop (i + 1) = A.shape.drop (i + 1) := by rw [pf.shapeA, List.drop_set_of_lt (by omega)]
  have eB : B₂.shape.eraseIdx j = B.shape.eraseIdx j := by rw [pf.shapeB, List.eraseIdx_set_eq]
  rw [tA, dA, eB, ← sC] at sC₂
  -- the second state
  have hm : mid' ∉ r :: F.ids := fun q => by have := ht.ids_lt q; have := mu.fresh; omega
  have hm1 : mid' ∉ r :: F.ids := hm
  have tg := mt.ttn.setArray fC.array fC₂.wf sC₂
  have ag : ∀ c, c ≠ mid' → (h1.setArray mid' (some C₂)).array c = h1.array c := fun c q => by
    unfold Heap.array; rw [node_setArray, if_neg q]
  have lg : ∀ c, (h1.setArray mid' (some C₂)).isLeaf c = h1.isLeaf c := fun c => by
    unfold Heap.isLeaf; rw [node_setArray]; split <;> rfl
  have mg : Merge (h.setPair r fin A₂ B₂) (h1.setArray mid' (some C₂)) r i fin j mid' A₂.ndim B₂.ndim C₂ := by
    rw [nA, nB]
    refine ⟨tg.links, ⟨by rw [lg]; exact fC.leaf, by unfold Heap.array; rw [node_setArray, if_pos rfl], fC₂.wf, fC₂.pos, fun k => ?_⟩, nC₂,
      fun n p hp => ?_, fun x k h1 h2 h3 h4 => ?_, fun n p hp => ?_, fun c h1 h2 h3 => ?_, mu2.entry C₂ fC₂.array⟩
    · rw [acc_setArray, fC.acc]
      unfold Nd.ndim; rw [sC₂]
    · rw [acc_setArray, acc_setPair h hne]; exact mu.accMid n p hp
    · rw [acc_setArray, acc_setPair h hne]
      exact mu.accOther x k h1 h2 h3 fun l => by rw [← acc_setPair h hne A₂ B₂]; exact h4 l
    · rw [← mu2.dimsMid n p hp]
      unfold hdim
      simp only
      rw [fC₂.array]
      unfold Heap.array; rw [node_setArray, if_pos rfl]
    · rw [ag c h3, lg, array_setPair h hne, if_neg h2, if_neg h1, leaf_setPair h hne]
      exact ⟨(core_eq (mu.other c h3)).2.2.1, (core_eq (mu.other c h3)).2.2.2.2.2.2⟩
  obtain ⟨p1, a1⟩ := mu.state ht mt.ttn hA hB hb hl
  obtain ⟨p2, a2⟩ := mg.state ht2 tg hm fA2 fB2 b2 l2
  have hll : (h.setPair r fin A₂ B₂).leafList r F = h.leafList r F := by
    unfold leafList
    simp only [leaf_setPair h hne]
    refine List.map_congr_left fun e he => ?_
    obtain ⟨he1, he2⟩ := List.mem_filter.1 he
    have hk := (ht.isLink_edge he1).1
    rw [hdim_setPair hne hA.array hB.array pf hin hjn, if_neg]
    rintro (q | q)
    · obtain ⟨u1, u2⟩ := Prod.mk.inj q
      rw [u1, u2, hb] at hk
      have := (Prod.mk.inj (Option.some.inj hk)).1
      rw [← this, hl] at he2; cases he2
    · obtain ⟨u1, u2⟩ := Prod.mk.inj q
      rw [u1, u2, hbs] at hk
      have := (Prod.mk.inj (Option.some.inj hk)).1
      rw [← this, ht.leaf] at he2; cases he2
  have cn := SplitProp.canon_unite ht (fun e he _ => hc e he) mu mt
  have hleaf1 : ∀ e ∈ F1.edges mid', h1.isLeaf e.2.2.1 = true → h1.array e.2.2.1 = none := by
    intro e he hle
    have hback := mu.links.sym _ _ _ _ (mt.ttn.isLink_edge he).1
    rcases mt.target e he with q | q | ⟨e', q1, q2, q3⟩
    · rw [show e.2.2.1 = r from congrArg Prod.fst q, (mu.accNone _).1] at hback; cases hback
    · rw [show e.2.2.1 = fin from congrArg Prod.fst q, (mu.accNone _).2] at hback; cases hback
    · have hnm : e.2.2.1 ≠ mid' := by
        have := ht.ids_lt (List.mem_cons_of_mem _ (TreeSum.edges_mem q1).2)
        have := mu.fresh
        rw [q2] at *
        omega
      have hcore := core_eq (mu.other _ hnm)
      have := hleaf e' q1 (by rw [q2]; exact hcore.2.2.2.2.2.2.symm.trans hle)
      rw [q2] at this
      exact hcore.2.2.1.trans this
  have o := fun (X Y : Nd R) (hX : X.Wf) (sX : X.shape = C.shape) (hY : Y.Wf) (sY : Y.shape = C.shape) =>
    overlap_root mt.ttn cn hleaf1 fC (B := Y) (C := X) hY sY hX sX
  have hnd := leafList_nodup ht
  have toO : ∀ {f g f' g' : (ℕ → ℕ) → R}, (∀ x, (∀ p ∈ h.leafList r F, x p.1 < p.2) → f x = f' x) →
      (∀ x, (∀ p ∈ h.leafList r F, x p.1 < p.2) → g x = g' x) →
      sumLeaves (h1.leafList mid' F1) (fun x => f x * star (g x)) (fun _ => 0) = ov f' g' := by
    intro f g f' g' hf hg
    rw [sumLeaves_perm p1 (leafList_nodup mt.ttn)]
    refine sumLeaves_congr' hnd fun y _ hy => ?_
    rw [hf y hy, hg y hy]
  have f1 : ∀ x, (∀ p ∈ h.leafList r F, x p.1 < p.2) → (h1.setArray mid' (some C)).treeAmp mid' F1 x = h.treeAmp r F x := by
    intro x hx
    rw [setArray_same fC.array]
    exact a1 x hx
  have f2 : ∀ x, (∀ p ∈ h.leafList r F, x p.1 < p.2) → (h1.setArray mid' (some C₂)).treeAmp mid' F1 x = (h.setPair r fin A₂ B₂).treeAmp r F x :=
    fun x hx => a2 x (ht2.inRange (by rw [hll]; exact hx))
  have g1 : ∀ a p b, Valid (A.shape.take i) a → Valid (A.shape.drop (i + 1)) b → Valid (B.shape.eraseIdx j) p →
      C.get (a ++ p ++ b) = pairGet A B i j p (a ++ b) := fun a p b ha hb hp =>
    merged_get hne hA hB hin hjn (mu.entry C fC.array) ha hb hp
  have g2 : ∀ a p b, Valid (A.shape.take i) a → Valid (A.shape.drop (i + 1)) b → Valid (B.shape.eraseIdx j) p →
      C₂.get (a ++ p ++ b) = pairGet A₂ B₂ i j p (a ++ b) := fun a p b ha hb hp =>
    merged_get hne fA2 fB2 hin2 hjn2 (by rw [nA, nB]; exact mu2.entry C₂ fC₂.array) (by rw [tA]; exact ha)
      (by rw [dA]; exact hb) (by rw [eB]; exact hp)
  refine ⟨?_, ?_, ?_, ?_⟩
  · rw [← toO f1 f1, o C C fC.wf rfl fC.wf rfl, sC]
    exact sum_merged g1 g1 fun x y => x * star y
  · rw [← toO f1 f2, o C C₂ fC.wf rfl fC₂.wf sC₂, sC]
    exact sum_merged g1 g2 fun x y => x * star y
  · rw [← toO f2 f1, o C₂ C fC₂.wf sC₂ fC.wf rfl, sC]
    exact sum_merged g2 g1 fun x y => x * star y
  · rw [← toO f2 f2, o C₂ C₂ fC₂.wf sC₂ fC₂.wf sC₂, sC]
    exact sum_merged g2 g2 fun x y => x * star y

end
end Heap
