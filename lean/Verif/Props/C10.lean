import Verif.Lemmas.TreeNet
import Verif.Props.C02

/-!
C10–C13: moving the root of a tree tensor network.

`IsTTN h r F`, `Rooted`, `treeAmp`, `CanonicalTree` are in `Verif.Spec.Network`. `SvdShape`,
`SvdExact`, `SvdIso` (in `Verif.Lemmas.SplitArrays`) say what is assumed of the singular value
decomposition: it returns three matrices of fitting shapes; their product is the decomposed matrix
(nothing is truncated); the rows of the last are orthonormal.
-/

open Py

namespace Heap

variable {R : Type} [CommRing R]

theorem splitUnite_tree {csvd : Svd R} (hsv : SvdShape csvd) {op : Option (Operator R)} (ho : GoodOp op)
    {h : Heap R} {r : ℕ} {F : Forest} (ht : h.IsTTN r F)
    (hpl : h.PlainNames (h.tensors r F)) (hax : (h.node r).axis = none) {i fin j : ℕ}
    (hb : h.acc r i = some (fin, j)) (hl : h.isLeaf fin = false) (nrm : Option Bool) :
    ∃ h' mid, h.splitUnite csvd r i op nrm = .ok (h', r, mid, fin) ∧
      MoveSpec csvd op h h' r i fin j mid := by
  have hn := ht.isNet
  have hrT : r ∈ h.tensors r F := mem_tensors.2 ⟨.inl rfl, ht.leaf⟩
  have hfT : fin ∈ h.tensors r F := by
    refine mem_tensors.2 ⟨(ht.mem_linked fin).2 ?_, hl⟩
    exact Relation.ReflTransGen.single ⟨i, j, hb⟩
  obtain ⟨A, hA⟩ := hn.full r hrT
  obtain ⟨B, hB⟩ := hn.full fin hfT
  obtain ⟨n1, hn1⟩ := hn.names r hrT
  obtain ⟨n2, hn2⟩ := hn.names fin hfT
  have hp1 := hpl r hrT n1 hn1
  have hp2 := hpl fin hfT n2 hn2
  obtain ⟨s1, s2⟩ := hn.simple r hrT i fin j hb hfT
  refine splitUnite_full hsv ho hn.links hA hB hb s1.symm ?_ ?_ ?_ hax ?_ hn1 hp1 hn2 nrm
  · intro k l e; exact (hn.simple r hrT k r l e hrT).1 rfl
  · intro k l e; exact (hn.simple fin hfT k fin l e hfT).1 rfl
  · intro k l e; exact s2 k l e
  · rcases hn.mem_bond hrT hfT hb with q | q
    · exact hn.dims _ q
    · exact (hn.dims _ q).symm

theorem uniteSplit_tree {csvd : Svd R} (hsv : SvdShape csvd) {op : Option (Operator R)} (ho : GoodOp op)
    {h : Heap R} {r : ℕ} {F : Forest} (ht : h.IsTTN r F)
    (hpl : h.PlainNames (h.tensors r F)) (hax : (h.node r).axis = none) {i fin j : ℕ}
    (hb : h.acc r i = some (fin, j)) (hl : h.isLeaf fin = false) (nrm : Option Bool) {fuel : ℕ}
    (hfu : F.depth < fuel) :
    ∃ h' mid, h.uniteSplit fuel csvd r i op nrm = .ok (h', r, mid, fin) ∧
      MoveSpec csvd op h h' r i fin j mid := by
  have hn := ht.isNet
  have hrT : r ∈ h.tensors r F := mem_tensors.2 ⟨.inl rfl, ht.leaf⟩
  have hfT : fin ∈ h.tensors r F := by
    refine mem_tensors.2 ⟨(ht.mem_linked fin).2 ?_, hl⟩
    exact Relation.ReflTransGen.single ⟨i, j, hb⟩
  obtain ⟨A, hA⟩ := hn.full r hrT
  obtain ⟨B, hB⟩ := hn.full fin hfT
  obtain ⟨n1, hn1⟩ := hn.names r hrT
  obtain ⟨n2, hn2⟩ := hn.names fin hfT
  have hp1 := hpl r hrT n1 hn1
  have hp2 := hpl fin hfT n2 hn2
  obtain ⟨s1, s2⟩ := hn.simple r hrT i fin j hb hfT
  obtain ⟨h', mid, e, m⟩ := uniteSplit_full hsv ho hn.links hA hB hb s1.symm
    (fun k l e => (hn.simple r hrT k r l e hrT).1 rfl)
    (fun k l e => (hn.simple fin hfT k fin l e hfT).1 rfl) (fun k l e => s2 k l e) (.inl hax)
    (by
      rcases hn.mem_bond hrT hfT hb with q | q
      · exact hn.dims _ q
      · exact (hn.dims _ q).symm) hn1 hp1 hn2 hp2 nrm
  obtain ⟨F', mv⟩ := ht.moved m hb hl
  exact ⟨h', mid, uniteSplit_of_core (linkageVisitor_tree ht.tree true hfu) e
    ((linkageVisitor_tree mv.oldTree true hfu).trans (by simp)), m⟩

/-- **C10.** On the root `r` of a tree tensor network, `r.split_unite(i)` towards a tensor `fin`
returns normally; every link of every tensor is as it was; `fin` is now the only root (of the same
tensors), and the normalization axis of `r` is `i`. -/
theorem C10_split_unite {csvd : Svd R} (hsv : SvdShape csvd) {op : Option (Operator R)} (ho : GoodOp op)
    {h : Heap R} {r : ℕ} {F : Forest} (ht : h.IsTTN r F) (hpl : h.PlainNames (h.tensors r F)) (hr : h.Rooted r F) {i fin j : ℕ}
    (hb : h.acc r i = some (fin, j)) (hl : h.isLeaf fin = false) (nrm : Option Bool) :
    ∃ h' mid F', h.splitUnite csvd r i op nrm = .ok (h', r, mid, fin) ∧
      (∀ t k, h'.acc t k = h.acc t k) ∧ (h'.node r).axis = some i ∧
      h'.IsTTN fin F' ∧ h'.Rooted fin F' ∧ (h'.tensors fin F').Perm (h.tensors r F) := by
  obtain ⟨h', mid, e, m⟩ := splitUnite_tree hsv ho ht hpl hr.1 hb hl nrm
  obtain ⟨F', mv⟩ := ht.moved m hb hl
  exact ⟨h', mid, F', e, m.acc, m.axisSelf, mv.ttn, mv.rooted ht m hb hl hr, mv.tensors⟩

/-- **C11.** The same for `r.unite_split(i)`. In particular its assertion that no link has changed
never fails. (`fuel` bounds the recursion depth of the walk the assertion makes.) -/
theorem C11_unite_split {csvd : Svd R} (hsv : SvdShape csvd) {op : Option (Operator R)} (ho : GoodOp op)
    {h : Heap R} {r : ℕ} {F : Forest} (ht : h.IsTTN r F) (hpl : h.PlainNames (h.tensors r F)) (hr : h.Rooted r F) {i fin j : ℕ}
    (hb : h.acc r i = some (fin, j)) (hl : h.isLeaf fin = false) (nrm : Option Bool) {fuel : ℕ}
    (hfu : F.depth < fuel) :
    ∃ h' mid F', h.uniteSplit fuel csvd r i op nrm = .ok (h', r, mid, fin) ∧
      (∀ t k, h'.acc t k = h.acc t k) ∧ (h'.node r).axis = some i ∧
      h'.IsTTN fin F' ∧ h'.Rooted fin F' ∧ (h'.tensors fin F').Perm (h.tensors r F) := by
  obtain ⟨h', mid, e, m⟩ := uniteSplit_tree hsv ho ht hpl hr.1 hb hl nrm hfu
  obtain ⟨F', mv⟩ := ht.moved m hb hl
  exact ⟨h', mid, F', e, m.acc, m.axisSelf, mv.ttn, mv.rooted ht m hb hl hr, mv.tensors⟩

/-- Any sequence of root moves, by either method, without operator: `Moves csvd (h, r) (h', r')`. -/
inductive Moves (csvd : Svd R) : Heap R × ℕ → Heap R × ℕ → Prop
  | refl (s : Heap R × ℕ) : Moves csvd s s
  | splitUnite {s : Heap R × ℕ} {h h' : Heap R} {r i fin j mid : ℕ} {nrm : Option Bool} :
      Moves csvd s (h, r) → h.acc r i = some (fin, j) → h.isLeaf fin = false →
      h.splitUnite csvd r i none nrm = .ok (h', r, mid, fin) → Moves csvd s (h', fin)
  | uniteSplit {s : Heap R × ℕ} {h h' : Heap R} {r i fin j mid fuel : ℕ} {nrm : Option Bool} :
      Moves csvd s (h, r) → h.acc r i = some (fin, j) → h.isLeaf fin = false →
      h.uniteSplit fuel csvd r i none nrm = .ok (h', r, mid, fin) → Moves csvd s (h', fin)

/-- The result of a successful `unite_split` does not depend on the fuel. -/
theorem uniteSplit_core {csvd : Svd R} {h : Heap R} {self i : ℕ} {op : Option (Operator R)}
    {nrm : Option Bool} {fuel fuel' : ℕ} {x y : Heap R × ℕ × ℕ × ℕ}
    (e : h.uniteSplit fuel csvd self i op nrm = .ok x) (e' : h.uniteSplit fuel' csvd self i op nrm = .ok y) :
    x = y := by
  have key : ∀ {fuel x}, h.uniteSplit fuel csvd self i op nrm = .ok x →
      h.uniteSplitCore csvd self i op nrm = .ok x := by
    intro fuel x e
    unfold uniteSplit at e
    unfold uniteSplitCore
    simp only [bind_eq_ok] at e
    obtain ⟨old, -, ⟨fin', j⟩, e1, ⟨h1, mid1⟩, e2, ⟨h2, mid2⟩, e3, ⟨h3, a, b⟩, e4, new, -, e5⟩ := e
    simp only at e2 e3 e4
    split at e5
    · rw [e1]; simp only [ok_bind]
      rw [e2]; simp only [ok_bind]
      rw [e3]; simp only [ok_bind]
      rw [e4]; simp only [ok_bind]
      exact e5
    · cases e5
  have h1 := key e
  rw [key e'] at h1
  cases h1; rfl

/-- What is kept along a sequence of moves. -/
theorem moves_spec {csvd : Svd R} (hsv : SvdShape csvd) {s s' : Heap R × ℕ} (hm : Moves csvd s s')
    {F : Forest} (ht : s.1.IsTTN s.2 F) (hpl : s.1.PlainNames (s.1.tensors s.2 F)) (hr : s.1.Rooted s.2 F) :
    ∃ F', s'.1.IsTTN s'.2 F' ∧ s'.1.PlainNames (s'.1.tensors s'.2 F') ∧ s'.1.Rooted s'.2 F' ∧
      (SvdExact csvd → ∀ x, s.1.InRange (s.1.tensors s.2 F) x →
        s'.1.InRange (s'.1.tensors s'.2 F') x ∧ s'.1.treeAmp s'.2 F' x = s.1.treeAmp s.2 F x) ∧
      (∀ [StarRing R], SvdIso csvd → s.1.CanonicalTree s.2 F → s'.1.CanonicalTree s'.2 F') := by
  have step : ∀ {h h' : Heap R} {r i fin j mid : ℕ} {F' : Forest},
      MoveSpec csvd none h h' r i fin j mid → h.acc r i = some (fin, j) → h.isLeaf fin = false →
      h.IsTTN r F' → h.PlainNames (h.tensors r F') → h.Rooted r F' →
      (SvdExact csvd → ∀ x, s.1.InRange (s.1.tensors s.2 F) x →
        h.InRange (h.tensors r F') x ∧ h.treeAmp r F' x = s.1.treeAmp s.2 F x) →
      (∀ [StarRing R], SvdIso csvd → s.1.CanonicalTree s.2 F → h.CanonicalTree r F') →
      ∃ F', h'.IsTTN fin F' ∧ h'.PlainNames (h'.tensors fin F') ∧ h'.Rooted fin F' ∧
      (SvdExact csvd → ∀ x, s.1.InRange (s.1.tensors s.2 F) x →
        h'.InRange (h'.tensors fin F') x ∧ h'.treeAmp fin F' x = s.1.treeAmp s.2 F x) ∧
      (∀ [StarRing R], SvdIso csvd → s.1.CanonicalTree s.2 F → h'.CanonicalTree fin F') := by
    intro h h' r i fin j mid F1 m hb hl t1 tp t2 t3 t4
    obtain ⟨F', mv⟩ := t1.moved m hb hl
    refine ⟨F', mv.ttn, mv.plain t1 m tp, mv.rooted t1 m hb hl t2, ?_, ?_⟩
    · intro hex x hx
      obtain ⟨q1, q2⟩ := t3 hex x hx
      exact ⟨(mv.inRange t1 m hb hl).2 q1, (mv.amp t1 m hb hl hex rfl q1).trans q2⟩
    · intro _ hiso hc
      exact mv.canonical t1 m hb hl hiso (t4 hiso hc)
  induction hm with
  | refl => exact ⟨F, ht, hpl, hr, fun _ x hx => ⟨hx, rfl⟩, fun _ h => h⟩
  | @splitUnite h h' r i fin j mid nrm _ hb hl e ih =>
    obtain ⟨F', t1, tp, t2, t3, t4⟩ := ih
    obtain ⟨h'', mid', e', m⟩ := splitUnite_tree hsv goodOp_none t1 tp t2.1 hb hl nrm
    simp only at e'
    rw [e] at e'; cases e'
    exact step m hb hl t1 tp t2 t3 t4
  | @uniteSplit h h' r i fin j mid fuel nrm _ hb hl e ih =>
    obtain ⟨F', t1, tp, t2, t3, t4⟩ := ih
    obtain ⟨h'', mid', e', m⟩ := uniteSplit_tree hsv goodOp_none t1 tp t2.1 hb hl nrm (Nat.lt_succ_self _)
    have := uniteSplit_core e e'
    cases this
    exact step m hb hl t1 tp t2 t3 t4

/-- **C12.** A single move by `split_unite` of an exact decomposition leaves the amplitude of every
assignment of leaf indices as it was. -/
theorem C12_split_unite {csvd : Svd R} (hsv : SvdShape csvd) (hex : SvdExact csvd) {h : Heap R} {r : ℕ}
    {F : Forest} (ht : h.IsTTN r F) (hpl : h.PlainNames (h.tensors r F)) (hr : h.Rooted r F) {i fin j : ℕ}
    (hb : h.acc r i = some (fin, j)) (hl : h.isLeaf fin = false) (nrm : Option Bool) :
    ∃ h' mid F', h.splitUnite csvd r i none nrm = .ok (h', r, mid, fin) ∧ h'.IsTTN fin F' ∧
      ∀ x, h.InRange (h.tensors r F) x → h'.treeAmp fin F' x = h.treeAmp r F x := by
  obtain ⟨h', mid, e, m⟩ := splitUnite_tree hsv goodOp_none ht hpl hr.1 hb hl nrm
  obtain ⟨F', mv⟩ := ht.moved m hb hl
  exact ⟨h', mid, F', e, mv.ttn, fun x hx => mv.amp ht m hb hl hex rfl hx⟩

/-- **C12.** The same for `unite_split`. -/
theorem C12_unite_split {csvd : Svd R} (hsv : SvdShape csvd) (hex : SvdExact csvd) {h : Heap R} {r : ℕ}
    {F : Forest} (ht : h.IsTTN r F) (hpl : h.PlainNames (h.tensors r F)) (hr : h.Rooted r F) {i fin j : ℕ}
    (hb : h.acc r i = some (fin, j)) (hl : h.isLeaf fin = false) (nrm : Option Bool) {fuel : ℕ}
    (hfu : F.depth < fuel) :
    ∃ h' mid F', h.uniteSplit fuel csvd r i none nrm = .ok (h', r, mid, fin) ∧ h'.IsTTN fin F' ∧
      ∀ x, h.InRange (h.tensors r F) x → h'.treeAmp fin F' x = h.treeAmp r F x := by
  obtain ⟨h', mid, e, m⟩ := uniteSplit_tree hsv goodOp_none ht hpl hr.1 hb hl nrm hfu
  obtain ⟨F', mv⟩ := ht.moved m hb hl
  exact ⟨h', mid, F', e, mv.ttn, fun x hx => mv.amp ht m hb hl hex rfl hx⟩

/-- **C12.** No sequence of exact moves changes the state. -/
theorem C12_moves {csvd : Svd R} (hsv : SvdShape csvd) (hex : SvdExact csvd) {h h' : Heap R} {r r' : ℕ}
    (hm : Moves csvd (h, r) (h', r')) {F : Forest} (ht : h.IsTTN r F) (hpl : h.PlainNames (h.tensors r F)) (hr : h.Rooted r F) :
    ∃ F', h'.IsTTN r' F' ∧ h'.Rooted r' F' ∧
      ∀ x, h.InRange (h.tensors r F) x → h'.treeAmp r' F' x = h.treeAmp r F x := by
  obtain ⟨F', t1, -, t2, t3, -⟩ := moves_spec hsv hm ht hpl hr
  exact ⟨F', t1, t2, fun x hx => (t3 hex x hx).2⟩

/-- The amplitudes are those of the network, however its tensors and bonds are listed; in particular
they do not depend on the tensor from which the tree is looked at. -/
theorem C12_root_independent {h : Heap R} {r r' : ℕ} {F F' : Forest} (ht : h.IsTTN r F)
    (ht' : h.IsTTN r' F') (hp : (h.tensors r' F').Perm (h.tensors r F)) (x : ℕ → ℕ) :
    h.treeAmp r' F' x = h.treeAmp r F x :=
  ht.isNet.amp_listing ht'.isNet hp x

/-- **C13.** If every tensor but the root is normalised towards the root, it is so after any
sequence of moves, towards the new root (if the decomposition returns orthonormal rows). -/
theorem C13_canonical [StarRing R] {csvd : Svd R} (hsv : SvdShape csvd) (hiso : SvdIso csvd)
    {h h' : Heap R} {r r' : ℕ} (hm : Moves csvd (h, r) (h', r')) {F : Forest} (ht : h.IsTTN r F)
    (hpl : h.PlainNames (h.tensors r F)) (hr : h.Rooted r F) (hc : h.CanonicalTree r F) :
    ∃ F', h'.IsTTN r' F' ∧ h'.Rooted r' F' ∧ h'.CanonicalTree r' F' := by
  obtain ⟨F', t1, -, t2, -, t4⟩ := moves_spec hsv hm ht hpl hr
  exact ⟨F', t1, t2, t4 hiso hc⟩

/-- **C13**, one move with any operator on the root (as in the propagators): the operator may
replace the array of the tensor it is given. -/
theorem C13_split_unite [StarRing R] {csvd : Svd R} (hsv : SvdShape csvd) (hiso : SvdIso csvd)
    {op : Option (Operator R)} (ho : GoodOp op) {h : Heap R} {r : ℕ} {F : Forest} (ht : h.IsTTN r F)
    (hpl : h.PlainNames (h.tensors r F)) (hr : h.Rooted r F) (hc : h.CanonicalTree r F) {i fin j : ℕ} (hb : h.acc r i = some (fin, j))
    (hl : h.isLeaf fin = false) (nrm : Option Bool) :
    ∃ h' mid F', h.splitUnite csvd r i op nrm = .ok (h', r, mid, fin) ∧ h'.IsTTN fin F' ∧
      h'.Rooted fin F' ∧ h'.CanonicalTree fin F' := by
  obtain ⟨h', mid, e, m⟩ := splitUnite_tree hsv ho ht hpl hr.1 hb hl nrm
  obtain ⟨F', mv⟩ := ht.moved m hb hl
  exact ⟨h', mid, F', e, mv.ttn, mv.rooted ht m hb hl hr, mv.canonical ht m hb hl hiso hc⟩

theorem C13_unite_split [StarRing R] {csvd : Svd R} (hsv : SvdShape csvd) (hiso : SvdIso csvd)
    {op : Option (Operator R)} (ho : GoodOp op) {h : Heap R} {r : ℕ} {F : Forest} (ht : h.IsTTN r F)
    (hpl : h.PlainNames (h.tensors r F)) (hr : h.Rooted r F) (hc : h.CanonicalTree r F) {i fin j : ℕ} (hb : h.acc r i = some (fin, j))
    (hl : h.isLeaf fin = false) (nrm : Option Bool) {fuel : ℕ} (hfu : F.depth < fuel) :
    ∃ h' mid F', h.uniteSplit fuel csvd r i op nrm = .ok (h', r, mid, fin) ∧ h'.IsTTN fin F' ∧
      h'.Rooted fin F' ∧ h'.CanonicalTree fin F' := by
  obtain ⟨h', mid, e, m⟩ := uniteSplit_tree hsv ho ht hpl hr.1 hb hl nrm hfu
  obtain ⟨F', mv⟩ := ht.moved m hb hl
  exact ⟨h', mid, F', e, mv.ttn, mv.rooted ht m hb hl hr, mv.canonical ht m hb hl hiso hc⟩

/-! Instance: the two-tensor network `exTwo` of C02, and the same with the second tensor
orthonormal. `trivialSvd` (`a = a · 1 · 1`) is an exact decomposition with orthonormal rows. -/

theorem trivialSvd_shape : SvdShape (trivialSvd (R := R)) := by
  intro a m n hw hs hm hn
  refine ⟨n, a, _, _, by unfold trivialSvd; rw [hs], hn, hw, hs, ?_, rfl, ?_, rfl⟩ <;>
    exact Nd.ofFn_wf _ _

theorem trivialSvd_one {a u s vh : Nd R} {m n : ℕ} (hs : a.shape = [m, n])
    (e : trivialSvd a = .ok (u, s, vh)) : u = a ∧ s.shape = [n, n] ∧ vh.shape = [n, n] ∧
      ∀ x y, x < n → y < n → s.get [x, y] = (if x = y then 1 else 0) ∧ vh.get [x, y] = if x = y then 1 else 0 := by
  unfold trivialSvd at e
  rw [hs] at e
  simp only [Except.ok.injEq, Prod.mk.injEq] at e
  obtain ⟨rfl, rfl, rfl⟩ := e
  refine ⟨rfl, rfl, rfl, fun x y hx hy => ?_⟩
  have hv : Valid [n, n] [x, y] := .cons hx (.cons hy .nil)
  have := Nd.get_ofFn (fun idx => if idx.getD 0 0 = idx.getD 1 0 then (1 : R) else 0) hv
  exact ⟨this, this⟩

theorem trivialSvd_exact : SvdExact (trivialSvd (R := R)) := by
  intro a m n u s vh r hw hs e hr x y hx hy
  obtain ⟨rfl, h1, h2, h3⟩ := trivialSvd_one hs e
  rw [h1] at hr
  obtain rfl : n = r := by simpa using hr
  have e1 : ∀ z ∈ Finset.range n, (∑ w ∈ Finset.range n, u.get [x, w] * s.get [w, z]) * vh.get [z, y] =
      if z = y then u.get [x, z] else 0 := by
    intro z hz
    have hz := Finset.mem_range.1 hz
    rw [(h3 z y hz hy).2]
    have e2 : ∑ w ∈ Finset.range n, u.get [x, w] * s.get [w, z] =
        ∑ w ∈ Finset.range n, if w = z then u.get [x, w] else 0 := by
      refine Finset.sum_congr rfl fun w hw => ?_
      rw [(h3 w z (Finset.mem_range.1 hw) hz).1]; simp
    rw [e2]; simp [hz]
  rw [Finset.sum_congr rfl e1]; simp [hy]

theorem trivialSvd_iso [StarRing R] : SvdIso (trivialSvd (R := R)) := by
  intro a m n u s vh r hw hs e hr z w hz hw'
  obtain ⟨rfl, h1, h2, h3⟩ := trivialSvd_one hs e
  rw [h2] at hr
  obtain rfl : n = r := by simpa using hr
  have e1 : ∀ y ∈ Finset.range n, vh.get [z, y] * star (vh.get [w, y]) = if z = y then (if w = y then 1 else 0) else 0 := by
    intro y hy
    have hy := Finset.mem_range.1 hy
    rw [(h3 z y hz hy).2, (h3 w y hw' hy).2]
    by_cases q1 : z = y <;> by_cases q2 : w = y <;> simp [q1, q2]
  rw [Finset.sum_congr rfl e1]
  simp [hz, eq_comm]

/-- The tree of `exTwo` seen from tensor 0. -/
def exTwoForest : Forest := .cons 0 1 1 (.cons 0 0 3 .nil .nil) (.cons 1 0 2 .nil .nil)

/-- `exTwo` with an orthonormal second tensor. -/
def exTwoCanon : Heap ℤ :=
  exTwo.setArray 1 (some ⟨[2, 2], [0, 1, 1, 0]⟩)

theorem exTwo_acc (k : ℕ) : exTwo.acc 0 (k + 2) = none ∧ exTwo.acc 1 (k + 2) = none := by
  constructor
  · change Dict.get? [(0, (1, 1)), (1, (2, 0))] (k + 2) = none
    simp [Dict.get?]
  · change Dict.get? [(1, (0, 0)), (0, (3, 0))] (k + 2) = none
    simp [Dict.get?]

theorem exTwo_full : (∃ A, exTwo.Full 0 A) ∧ ∃ A, exTwo.Full 1 A := by
  constructor
  · refine ⟨_, rfl, rfl, by simp [Nd.Wf], by decide, fun k => ?_⟩
    rcases k with _ | _ | k
    · exact ⟨fun _ => by decide, fun _ => by decide⟩
    · exact ⟨fun _ => by decide, fun _ => by decide⟩
    · exact ⟨fun q => absurd (exTwo_acc k).1 q, fun q => absurd q (by simp [Nd.ndim])⟩
  · refine ⟨_, rfl, rfl, by simp [Nd.Wf], by decide, fun k => ?_⟩
    rcases k with _ | _ | k
    · exact ⟨fun _ => by decide, fun _ => by decide⟩
    · exact ⟨fun _ => by decide, fun _ => by decide⟩
    · exact ⟨fun q => absurd (exTwo_acc k).2 q, fun q => absurd q (by simp [Nd.ndim])⟩

theorem exTwo_ttn : exTwo.IsTTN 0 exTwoForest where
  links := linkInv_of_reachable exTwo_reachable
  tree := ⟨by decide, ⟨by decide, ⟨by decide, trivial, trivial⟩, by decide, trivial, trivial⟩, by decide,
    ⟨by decide, ⟨fun _ => rfl, trivial, trivial⟩, fun _ => rfl, trivial, trivial⟩⟩
  leaf := rfl
  lt := by decide
  full := by
    have : exTwo.tensors 0 exTwoForest = [0, 1] := by decide
    rw [this]
    intro t ht
    simp only [List.mem_cons, List.not_mem_nil, or_false] at ht
    rcases ht with rfl | rfl
    · exact exTwo_full.1
    · exact exTwo_full.2
  dims := by decide
  names := by
    have : exTwo.tensors 0 exTwoForest = [0, 1] := by decide
    rw [this]
    intro t ht
    simp only [List.mem_cons, List.not_mem_nil, or_false] at ht
    rcases ht with rfl | rfl
    · exact ⟨['a'], rfl⟩
    · exact ⟨['b'], rfl⟩

theorem exTwo_plain : exTwo.PlainNames (exTwo.tensors 0 exTwoForest) := by
  have : exTwo.tensors 0 exTwoForest = [0, 1] := by decide
  rw [this]
  intro t ht nm hnm
  simp only [List.mem_cons, List.not_mem_nil, or_false] at ht
  rcases ht with rfl | rfl
  · obtain rfl : ['a'] = nm := Option.some.inj hnm
    decide
  · obtain rfl : ['b'] = nm := Option.some.inj hnm
    decide

theorem exTwo_rooted : exTwo.Rooted 0 exTwoForest := ⟨rfl, by decide⟩

example : ∃ h' mid F', exTwo.splitUnite trivialSvd 0 0 none none = .ok (h', 0, mid, 1) ∧ h'.IsTTN 1 F' ∧
    ∀ x, exTwo.InRange (exTwo.tensors 0 exTwoForest) x → h'.treeAmp 1 F' x = exTwo.treeAmp 0 exTwoForest x :=
  C12_split_unite trivialSvd_shape trivialSvd_exact exTwo_ttn exTwo_plain exTwo_rooted rfl rfl none

example : ∃ h' mid F', exTwo.uniteSplit 3 trivialSvd 0 0 none none = .ok (h', 0, mid, 1) ∧ h'.IsTTN 1 F' ∧
    ∀ x, exTwo.InRange (exTwo.tensors 0 exTwoForest) x → h'.treeAmp 1 F' x = exTwo.treeAmp 0 exTwoForest x :=
  C12_unite_split trivialSvd_shape trivialSvd_exact exTwo_ttn exTwo_plain exTwo_rooted rfl rfl none (by decide)

/-- The amplitudes of `exTwo` are the entries of a matrix product. -/
example : exTwo.treeAmp 0 exTwoForest (fun t => if t = 2 then 1 else 0) = 2 * 5 + 4 * 6 := by
  decide +kernel

example : exTwo.InRange (exTwo.tensors 0 exTwoForest) (fun t => if t = 2 then 1 else 0) := by
  have : exTwo.tensors 0 exTwoForest = [0, 1] := by decide
  rw [this]
  intro t ht k l m e hl
  simp only [List.mem_cons, List.not_mem_nil, or_false] at ht
  rcases ht with rfl | rfl <;> rcases k with _ | _ | k
  · cases e; simp at hl
  · cases e; decide
  · rw [(exTwo_acc k).1] at e; cases e
  · cases e; decide
  · cases e; simp at hl
  · rw [(exTwo_acc k).2] at e; cases e

theorem exTwoCanon_ttn : exTwoCanon.IsTTN 0 exTwoForest := by
  refine exTwo_ttn.congr ?_ rfl ?_ ?_ ?_
  · intro c; simp only [exTwoCanon, access, setArray, Heap.upd]; split <;> simp_all
  · intro c; simp only [exTwoCanon, isLeaf, setArray, Heap.upd]; split <;> simp_all
  · intro c; simp only [exTwoCanon, setArray, Heap.upd]; split <;> simp_all
  · intro c A hA hw
    simp only [exTwoCanon, array, setArray, Heap.upd]
    by_cases hc : c = 1
    · subst hc
      have : A = ⟨[2, 2], [5, 6, 7, 8]⟩ := by cases hA; rfl
      subst this
      exact ⟨⟨[2, 2], [0, 1, 1, 0]⟩, by simp, by simp [Nd.Wf], rfl⟩
    · simp only [if_neg hc]; exact ⟨A, hA, hw, rfl⟩

theorem exTwoCanon_plain : exTwoCanon.PlainNames (exTwoCanon.tensors 0 exTwoForest) := by
  have : exTwoCanon.tensors 0 exTwoForest = [0, 1] := by decide
  rw [this]
  intro t ht nm hnm
  simp only [List.mem_cons, List.not_mem_nil, or_false] at ht
  rcases ht with rfl | rfl
  · obtain rfl : ['a'] = nm := Option.some.inj hnm
    decide
  · obtain rfl : ['b'] = nm := Option.some.inj hnm
    decide

theorem exTwoCanon_canonical : exTwoCanon.CanonicalTree 0 exTwoForest := by
  intro e he
  have : exTwoCanon.bonds 0 exTwoForest = [(0, 0, 1, 1)] := by decide
  rw [this] at he
  simp only [List.mem_cons, List.not_mem_nil, or_false] at he
  subst he
  refine ⟨⟨[2, 2], [0, 1, 1, 0]⟩, rfl, by decide, fun z w hz hw => ?_⟩
  change z < 2 at hz
  change w < 2 at hw
  obtain rfl | rfl : z = 0 ∨ z = 1 := by omega
  all_goals obtain rfl | rfl : w = 0 ∨ w = 1 := by omega
  all_goals decide +kernel

example : ∃ h' mid F', exTwoCanon.splitUnite trivialSvd 0 0 none none = .ok (h', 0, mid, 1) ∧
    h'.IsTTN 1 F' ∧ h'.Rooted 1 F' ∧ h'.CanonicalTree 1 F' :=
  C13_split_unite trivialSvd_shape trivialSvd_iso goodOp_none exTwoCanon_ttn exTwoCanon_plain ⟨rfl, by decide⟩
    exTwoCanon_canonical rfl rfl none

end Heap
