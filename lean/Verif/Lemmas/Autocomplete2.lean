import Verif.Lemmas.Autocomplete
import Verif.Lemmas.Sweep
import Verif.Props.C03
import Verif.Props.C04

/-!
Lemmas about `autocomplete`: one pass of the loop.
-/

open scoped BigOperators
open Py

namespace Heap

variable {R : Type} [Field R] [StarRing R]

theorem map_get {s : List ℕ} {data : List R} {f : R → R} (h0 : f 0 = 0) (p : List ℕ) :
    (⟨s, data.map f⟩ : Nd R).get p = f ((⟨s, data⟩ : Nd R).get p) := by
  unfold Nd.get
  simp only [List.getD_eq_getElem?_getD, List.getElem?_map]
  cases data[ravel s p]? <;> simp [h0]

/-- The matrix that `local_norm` returns is the identity. -/
theorem localNorm_pick {sqrt : R → R} (h1 : sqrt 1 = 1) (h0 : sqrt 0 = 0) {h : Heap R} {t k : ℕ} {B : Nd R}
    (hB : h.array t = some B) (hk : k < B.ndim) (hpos : ∀ d ∈ B.shape, 0 < d) {c : ℕ → ℕ} (hp : Pick B k c)
    (c1 : ∀ z < B.shape.getD k 1, c z < (B.shape.eraseIdx k).prod)
    (c2 : ∀ z < B.shape.getD k 1, ∀ w < B.shape.getD k 1, c z = c w → z = w) :
    localNorm sqrt h t k = .ok (h.setAux t (some B.conj), identity (B.shape.getD k 1)) := by
  have hd : B.shape.getD k 1 ≠ 0 := by
    have hk' : k < B.shape.length := hk
    rw [List.getD_eq_getElem _ _ hk']
    exact (hpos _ (List.getElem_mem _)).ne'
  obtain ⟨m, m1, m2, m3, m4⟩ := Tensor.partialTrace_spec B B.conj (i := k) (j := k) hk hk rfl hd hd
  unfold localNorm
  rw [hB]
  simp only [m1, ok_bind, pure_eq_ok]
  congr 2
  refine Nd.ext_get ?_ (Nd.ofFn_wf _ _) ?_ ?_
  · unfold Nd.Wf at m2 ⊢; simpa using m2
  · rw [m3]; rfl
  · intro p hv
    simp only at hv
    rw [map_get h0, identity, Nd.get_ofFn _ (by rw [m3] at hv; exact hv)]
    rw [m3] at hv
    obtain ⟨x, p', rfl, hx, hv'⟩ := valid_cons_iff.1 hv
    obtain ⟨y, p'', rfl, hy, hv''⟩ := valid_cons_iff.1 hv'
    rw [valid_nil_iff] at hv''
    subst hv''
    have : (⟨m.shape, m.data⟩ : Nd R).get [x, y] = if x = y then 1 else 0 := by
      change m.get [x, y] = _
      rw [m4 x y hx hy, ← hp.orth c1 c2 hx hy]
      exact sumIdx_congr fun q _ => by rw [conj_get]
    rw [this]
    simp only [List.getD_cons_zero, List.getD_cons_succ]
    split <;> simp [h1, h0]

/-- What the array of tensor `t` is to be. -/
def Done (h : Heap R) (want : ℕ × ℕ → ℕ) (t : ℕ) (A : Nd R) : Prop :=
  A.Wf ∧ A.shape = ((List.range (h.order t)).map fun i => want (t, i)) ∧
    match (h.node t).axis with
    | some k => ∃ c : ℕ → ℕ, Pick A k c ∧ c 0 = 0 ∧ (∀ z < A.shape.getD k 1, c z < (A.shape.eraseIdx k).prod) ∧
        (∀ z < A.shape.getD k 1, ∀ w < A.shape.getD k 1, c z = c w → z = w) ∧
        ∀ z < A.shape.getD k 1, (Triangular.triangular (A.shape.eraseIdx k))[z]? = some (c z)
    | none => ∀ p, Valid A.shape p → A.get p = if ravel A.shape p = 0 then 1 else 0

/-- A node without its arrays. -/
def shell (n : Node R) : Node R := { n with array := none, aux := none }

namespace Bare

variable {h : Heap R} {r : ℕ} {F : Forest} {dims : Dict (ℕ × ℕ × ℕ × ℕ) ℕ} {want : ℕ × ℕ → ℕ}

theorem cover (hb : Bare h r F dims want) {t k u l : ℕ} (ht : t = r ∨ t ∈ F.ids) (e : h.acc t k = some (u, l)) :
    (t, k, u, l) ∈ F.edges r ∨ (u, l, t, k) ∈ F.edges r := by
  refine (edges_props hb.links.wf hb.links.sym hb.tree hb.leaf).2.2.1 t k u l ?_ e
  rw [← hb.tree.mem_iff_linked hb.links.wf hb.links.sym hb.leaf, List.mem_cons]
  exact ht

theorem linkages (hb : Bare h r F dims want) {t : ℕ} (ht : t = r ∨ t ∈ F.ids) : ∃ f : ℕ → ℕ × ℕ,
    (∀ k < h.order t, h.acc t k = some (f k)) ∧ h.linkages t = (List.range (h.order t)).map fun k => (k, f k) := by
  have hc := hb.complete t ht
  refine ⟨fun k => (h.acc t k).getD (0, 0), fun k hk => ?_, Sweep.linkages_full hb.links.wf (fun k hk => ?_) fun k hk => ?_⟩
  · obtain ⟨x, hx⟩ := Option.ne_none_iff_exists'.1 ((hc k).2 hk)
    simp [hx]
  · obtain ⟨x, hx⟩ := Option.ne_none_iff_exists'.1 ((hc k).2 hk)
    simp [hx]
  · by_contra q; exact hk ((hc k).1 q)

/-- The axis of a tensor, and what it is linked to. -/
theorem axis (hb : Bare h r F dims want) {t : ℕ} (ht : t ∈ h.tensors r F) :
    (t = r ∧ (h.node t).axis = none) ∨ ∃ p i k, (p, i, t, k) ∈ h.bonds r F ∧ (h.node t).axis = some k := by
  obtain ⟨h1, h2⟩ := mem_tensors.1 ht
  rcases h1 with rfl | h1
  · exact .inl ⟨rfl, hb.rooted.1⟩
  · obtain ⟨⟨p, i, t', k⟩, he, e⟩ := forest_mem_edges (a := r) h1
    simp only at e
    subst e
    have := mem_bonds.2 ⟨he, h2⟩
    exact .inr ⟨p, i, k, this, hb.rooted.2 _ this⟩

/-- A link of a tensor, other than that on its `axis`, is an edge. -/
theorem down (hb : Bare h r F dims want) {t k u l : ℕ} (ht : t ∈ h.tensors r F) (e : h.acc t k = some (u, l))
    (hk : (h.node t).axis ≠ some k) : (t, k, u, l) ∈ F.edges r := by
  obtain ⟨h1, h2⟩ := mem_tensors.1 ht
  rcases hb.cover h1 e with q | q
  · exact q
  · exact absurd (hb.rooted.2 _ (mem_bonds.2 ⟨q, h2⟩)) hk

/-- Every axis of a tensor has a positive requested dimension. -/
theorem pos (hb : Bare h r F dims want) {t k : ℕ} (ht : t ∈ h.tensors r F) (hk : k < h.order t) : 0 < want (t, k) := by
  obtain ⟨h1, h2⟩ := mem_tensors.1 ht
  obtain ⟨⟨u, l⟩, hx⟩ := Option.ne_none_iff_exists'.1 ((hb.complete t h1 k).2 hk)
  rcases hb.cover h1 hx with q | q
  · exact (hb.asked _ q).2
  · rw [← hb.ends _ (mem_bonds.2 ⟨q, h2⟩)]
    exact (hb.asked _ q).2

theorem init_ok (hb : Bare h r F dims want) {t : ℕ} (ht : t ∈ h.tensors r F) :
    ∃ A, initArray h dims t = .ok A ∧ Done h want t A := by
  obtain ⟨h1, h2⟩ := mem_tensors.1 ht
  obtain ⟨f, f1, f2⟩ := hb.linkages h1
  set n := h.order t with hn
  set D := (List.range n).map fun i => want (t, i) with hD
  have hDl : D.length = n := by simp [hD]
  have hpos : ∀ d ∈ D, 0 < d := by
    intro d hd
    obtain ⟨i, hi, rfl⟩ := List.mem_map.1 hd
    exact hb.pos ht (List.mem_range.1 hi)
  rcases hb.axis ht with ⟨rfl, hax⟩ | ⟨p, i, k, he, hax⟩
  · -- the root
    have hch : (h.childrenDflt t).mapM (fun x => Dict.get! dims (t, x.1, x.2.1, x.2.2)) = .ok D := by
      have e1 : h.childrenDflt t = (List.range n).map fun k => (k, f k) := by
        unfold childrenDflt children
        rw [hax, if_neg (by simp [h2]), f2]
        simp
      rw [e1, mapM_ok (g := fun x => want (t, x.1))]
      · rw [List.map_map]; rfl
      · intro x hx
        obtain ⟨k, hk, rfl⟩ := List.mem_map.1 hx
        have := hb.down ht (f1 k (List.mem_range.1 hk)) (by rw [hax]; simp)
        unfold Dict.get!
        rw [(hb.asked _ this).1]
    have hne : D ≠ [] := by
      obtain ⟨k, hk, -⟩ := hb.below t ht
      intro e
      rw [e] at hDl
      simp at hDl
      omega
    have hp : D.prod ≠ 0 := (prod_pos_of hpos).ne'
    obtain ⟨c, c1, c2, c3⟩ := Triangular.cols_spec hp
    obtain ⟨U, u1, u2, u3, u4⟩ := unitRows_ok (R := R) (take_cols_lt (sh := D) 1)
    refine ⟨⟨D, U.data⟩, ?_, ?_, rfl, ?_⟩
    · unfold initArray
      simp only [hax, hch, ok_bind, pure_eq_ok, hne, if_false]
      rw [u1, ok_bind]
      unfold Nd.reshape
      rw [if_pos (by simp [u3]), ok_bind]
    · unfold Nd.Wf at u2 ⊢
      rw [u2, u3]; simp
    · rw [hax]
      simp only
      intro p hv
      have e1 : (⟨D, U.data⟩ : Nd R).get p = U.get [0, ravel D p] := by
        simp only [Nd.get, u3, ravel, List.prod_cons, List.prod_nil, mul_one, add_zero, zero_mul, zero_add]
      rw [e1, u4 0 (by omega) _ (ravel_lt hv), (c2 0 (by omega)).1, c1]
      simp only [Option.some.injEq, eq_comm]
  · -- with an axis
    have hlink := (edges_props hb.links.wf hb.links.sym hb.tree hb.leaf).1 _ (mem_bonds.1 he).1
    simp only at hlink
    have hback := hb.links.sym _ _ _ _ hlink
    have hk : k < n := (hb.complete t h1 k).1 (by rw [hback]; simp)
    have hsh : D.eraseIdx k = ((List.range n).eraseIdx k).map fun i => want (t, i) := by
      rw [hD, List.eraseIdx_map]
    have hch : (h.childrenDflt t).mapM (fun x => Dict.get! dims (t, x.1, x.2.1, x.2.2)) = .ok (D.eraseIdx k) := by
      have e1 : h.childrenDflt t = ((List.range n).eraseIdx k).map fun k => (k, f k) := by
        unfold childrenDflt children
        rw [hax, if_neg (by simp), f2, List.filter_map, ← range_filter_ne]
        congr 1
        refine List.filter_congr fun x _ => ?_
        simp
      rw [e1, mapM_ok (g := fun x => want (t, x.1))]
      · rw [List.map_map, hsh]; rfl
      · intro x hx
        obtain ⟨m, hm, rfl⟩ := List.mem_map.1 hx
        rw [← range_filter_ne, List.mem_filter] at hm
        have hmk : m ≠ k := by simpa using hm.2
        have := hb.down ht (f1 m (List.mem_range.1 hm.1)) (by rw [hax]; simpa using fun q => hmk q.symm)
        unfold Dict.get!
        rw [(hb.asked _ this).1]
    have hDk : D.getD k 1 = want (t, k) := by
      rw [List.getD_eq_getElem _ _ (by omega)]
      simp [hD]
    have hle : D.getD k 1 ≤ (D.eraseIdx k).prod := by
      rw [hDk, hsh]; exact hb.fits _ he
    obtain ⟨A, c, a1, a2, a3, a4, a5, a6, a7, a8⟩ := init_axis (R := R) (by omega : k < D.length) hpos hle
    have hne : D.eraseIdx k ≠ [] := by
      obtain ⟨m, hm, hm'⟩ := hb.below t ht
      have : m ≠ k := by rintro rfl; exact hm' hax
      intro e
      have := congrArg List.length e
      rw [List.length_eraseIdx_of_lt (by omega)] at this
      simp at this
      omega
    refine ⟨A, ?_, a2, a3, ?_⟩
    · unfold initArray
      have hacc : (h.access t).get! k = .ok (p, i) := by
        unfold Dict.get!
        rw [← acc_def, hback]
      have hdim : Dict.get! dims (p, i, t, k) = .ok (D.getD k 1) := by
        unfold Dict.get!
        rw [(hb.asked _ (mem_bonds.1 he).1).1, hb.ends _ he, hDk]
      simp only [hax, hch, hacc, hdim, ok_bind, pure_eq_ok, hne, if_false]
      exact a1
    · rw [hax]
      exact ⟨c, a4, a5, by rw [a3]; exact a6, by rw [a3]; exact a7, by rw [a3]; exact a8⟩

theorem init_congr {h0 h : Heap R} {t : ℕ} (e : h.node t = h0.node t) : initArray h dims t = initArray h0 dims t := by
  have hc : h.childrenDflt t = h0.childrenDflt t := by
    unfold childrenDflt children Heap.linkages access isLeaf
    rw [e]
    simp
  unfold initArray access
  rw [hc, e]

theorem one_ok {h0 : Heap R} (hb : Bare h0 r F dims want) {sqrt : R → R} {rank : Nd R → ℕ} (s1 : sqrt 1 = 1) (s0 : sqrt 0 = 0)
    (hrank : ∀ n, rank (identity n) = n) {t : ℕ} (ht : t ∈ h0.tensors r F) (h0none : h0.array t = none)
    {h : Heap R} (e : h.node t = h0.node t) :
    ∃ h' A, completeOne sqrt rank dims h t = .ok h' ∧ h'.next = h.next ∧ (∀ u, u ≠ t → h'.node u = h.node u) ∧
      shell (h'.node t) = shell (h0.node t) ∧ h'.array t = some A ∧ Done h0 want t A := by
  obtain ⟨A, a1, a2, a3, a4⟩ := hb.init_ok ht
  obtain ⟨h1, h2⟩ := mem_tensors.1 ht
  have hnone : h.array t = none := by unfold array; rw [e]; exact h0none
  have hpos : ∀ d ∈ A.shape, 0 < d := by
    rw [a3]
    intro d hd
    obtain ⟨i, hi, rfl⟩ := List.mem_map.1 hd
    exact hb.pos ht (List.mem_range.1 hi)
  have hnode : ∀ B : Nd R, (h.setArray t (some B)).node t = { h0.node t with array := some B } := by
    intro B; unfold setArray Heap.upd; simp [e]
  have harr : ∀ B : Nd R, (h.setArray t (some B)).array t = some B := by
    intro B; unfold array; rw [hnode]
  unfold completeOne
  rw [hnone]
  simp only
  rw [init_congr e, a1, ok_bind]
  rcases hb.axis ht with ⟨rfl, hax⟩ | ⟨p, i, k, he, hax⟩
  · -- the root
    rw [hax] at a4
    simp only at a4
    have hP : 0 < A.shape.prod := prod_pos_of hpos
    have hS : sumIdx A.shape (fun p => A.get p * A.conj.get p) = 1 := by
      rw [sumIdx_eq_sum_range]
      have : ∀ q ∈ Finset.range A.shape.prod, A.get (unravel A.shape q) * A.conj.get (unravel A.shape q) =
          if q = 0 then 1 else 0 := by
        intro q hq
        have hq' := Finset.mem_range.1 hq
        rw [conj_get, a4 _ (valid_unravel hq'), ravel_unravel hq']
        split <;> simp
      rw [Finset.sum_congr rfl this, Finset.sum_ite_eq', if_pos (Finset.mem_range.2 hP)]
    have hN : normalize sqrt (h.setArray t (some A)) t true =
        .ok (((h.setArray t (some A)).setAux t (some A.conj)).setArray t (some A), some [1]) := by
      unfold normalize
      rw [harr]
      simp only [hnode]
      rw [if_neg (by simp), hax]
      simp only
      unfold localNorm0
      rw [Tensor.partialTrace_none_spec A A.conj rfl, hS]
      simp only [ok_bind, pure_eq_ok, Nd.get, ravel, List.getD_cons_zero, s1]
      congr 3
      simp
    rw [hN]
    simp only [ok_bind]
    set h' := ((h.setArray t (some A)).setAux t (some A.conj)).setArray t (some A) with hh'
    have hn' : h'.node t = { h0.node t with array := some A, aux := some A.conj } := by
      rw [hh']; unfold setArray setAux Heap.upd; simp [e]
    rw [hn', hax]
    refine ⟨h', A, rfl, rfl, fun u hu => ?_, by rw [hn']; rfl, by unfold array; rw [hn'], a2, a3, ?_⟩
    · rw [hh']; unfold setArray setAux Heap.upd; simp [hu]
    · rw [hax]; exact a4
  · -- with an axis
    rw [hax] at a4
    obtain ⟨c, c0, c1, c2, c3, c4⟩ := a4
    have hlink := (edges_props hb.links.wf hb.links.sym hb.tree hb.leaf).1 _ (mem_bonds.1 he).1
    simp only at hlink
    have hk : k < h0.order t := (hb.complete t h1 k).1 (by rw [hb.links.sym _ _ _ _ hlink]; simp)
    have hkA : k < A.ndim := by unfold Nd.ndim; rw [a3]; simpa using hk
    obtain ⟨B, norms, b1, b2, b3, b4⟩ := normalize_pick s1 hkA hpos c0 c2 c3
    have hN : normalize sqrt (h.setArray t (some A)) t true =
        .ok ((h.setArray t (some A)).setArray t (some B), some norms) := by
      unfold normalize
      rw [harr]
      simp only [hnode]
      rw [if_neg (by simp), hax]
      simp only
      rw [if_neg (by omega), b1]
      rfl
    rw [hN]
    simp only [ok_bind]
    set h' := (h.setArray t (some A)).setArray t (some B) with hh'
    have hn' : h'.node t = { h0.node t with array := some B } := by
      rw [hh']; unfold setArray Heap.upd; simp [e]
    have hkB : k < B.ndim := by unfold Nd.ndim; rw [b3]; exact hkA
    rw [hn', hax]
    simp only
    rw [localNorm_pick s1 s0 (by unfold array; rw [hn']) hkB (by rw [b3]; exact hpos) b4 (by rw [b3]; exact c2)
      (by rw [b3]; exact c3)]
    simp only [ok_bind]
    set h'' := h'.setAux t (some B.conj) with hh''
    have hn'' : h''.node t = { h0.node t with array := some B, aux := some B.conj } := by
      rw [hh'']; unfold setAux Heap.upd; simp [hn']
    have hsh : h''.shapeAt t k = .ok (B.shape.getD k 1) := by
      have hkB' : k < B.shape.length := hkB
      unfold shapeAt array
      rw [hn'']
      simp only
      rw [List.getElem?_eq_getElem hkB', List.getD_eq_getElem _ _ hkB']
    rw [hsh, ok_bind, if_pos (hrank _)]
    refine ⟨h'', B, rfl, rfl, fun u hu => ?_, by rw [hn'']; rfl, by unfold array; rw [hn''], b2, by rw [b3, a3], ?_⟩
    · rw [hh'', hh']; unfold setArray setAux Heap.upd; simp [hu]
    · rw [hax]
      exact ⟨c, b4, c1, by rw [b3]; exact c2, by rw [b3]; exact c3, by rw [b3]; exact c4⟩

/-- The loop over the tensors. -/
theorem loop_ok {h0 : Heap R} (hb : Bare h0 r F dims want) {sqrt : R → R} {rank : Nd R → ℕ} (s1 : sqrt 1 = 1) (s0 : sqrt 0 = 0)
    (hrank : ∀ n, rank (identity n) = n) (ts : List ℕ) (hn : ts.Nodup) (hts : ∀ t ∈ ts, t ∈ h0.tensors r F) {h : Heap R}
    (he : ∀ t ∈ ts, h.node t = h0.node t) :
    ∃ h', ts.foldlM (completeOne sqrt rank dims) h = .ok h' ∧ h'.next = h.next ∧ (∀ u, u ∉ ts → h'.node u = h.node u) ∧
      ∀ t ∈ ts, shell (h'.node t) = shell (h0.node t) ∧ (h0.array t ≠ none → h'.node t = h0.node t) ∧
        (h0.array t = none → ∃ A, h'.array t = some A ∧ Done h0 want t A) := by
  induction ts generalizing h with
  | nil => exact ⟨h, rfl, rfl, fun _ _ => rfl, by simp⟩
  | cons t ts ih =>
    obtain ⟨n1, n2⟩ := List.nodup_cons.1 hn
    have step : ∃ h1, completeOne sqrt rank dims h t = .ok h1 ∧ h1.next = h.next ∧ (∀ u, u ≠ t → h1.node u = h.node u) ∧
        shell (h1.node t) = shell (h0.node t) ∧ (h0.array t ≠ none → h1.node t = h0.node t) ∧
          (h0.array t = none → ∃ A, h1.array t = some A ∧ Done h0 want t A) := by
      have et := he t (by simp)
      cases ha : h0.array t with
      | none =>
        obtain ⟨h1, A, q1, q2, q3, q4, q5, q6⟩ := hb.one_ok s1 s0 hrank (hts t (by simp)) ha et
        exact ⟨h1, q1, q2, q3, q4, fun q => absurd rfl q, fun _ => ⟨A, q5, q6⟩⟩
      | some A =>
        have : h.array t = some A := by unfold array at ha ⊢; rw [et]; exact ha
        refine ⟨h, ?_, rfl, fun _ _ => rfl, by rw [et], fun _ => et, fun q => by cases q⟩
        unfold completeOne; rw [this]
    obtain ⟨h1, q1, q2, q3, q4, q5, q6⟩ := step
    obtain ⟨h', p1, p2, p3, p4⟩ := ih n2 (fun u hu => hts u (by simp [hu])) (h := h1) fun u hu => by
      rw [q3 u (by rintro rfl; exact n1 hu)]; exact he u (by simp [hu])
    refine ⟨h', by rw [List.foldlM_cons, q1, ok_bind, p1], by rw [p2, q2], fun u hu => ?_, fun u hu => ?_⟩
    · simp only [List.mem_cons, not_or] at hu
      rw [p3 u hu.2, q3 u hu.1]
    · rcases List.mem_cons.1 hu with rfl | hu
      · have e := p3 u n1
        refine ⟨by rw [e]; exact q4, fun q => by rw [e]; exact q5 q, fun q => ?_⟩
        obtain ⟨A, b1, b2⟩ := q6 q
        exact ⟨A, by unfold array at b1 ⊢; rw [e]; exact b1, b2⟩
      · exact p4 u hu

end Bare

end Heap
