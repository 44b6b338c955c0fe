import Verif.Model.Mctdh
import Verif.Py.Lemmas
import Mathlib.Tactic.Ring
import Mathlib.Tactic.LinearCombination
import Mathlib.Algebra.BigOperators.Ring.Finset

/-!
The Hamiltonian of MCTDH with fixed mean fields (`hMat`) is linear in its argument.
-/

open Py
open scoped BigOperators

namespace Mctdh

variable {R : Type} [CommRing R]

/-- The third list is the first plus `u` times the second. -/
inductive CombL (u : R) : List R → List R → List R → Prop
  | nil : CombL u [] [] []
  | cons {a b c : R} {as bs cs : List R} : c = a + u * b → CombL u as bs cs → CombL u (a :: as) (b :: bs) (c :: cs)

namespace CombL

variable {u : R} {x y z x' y' z' : List R}

theorem getD (h : CombL u x y z) (k : ℕ) : z.getD k 0 = x.getD k 0 + u * y.getD k 0 := by
  induction h generalizing k with
  | nil => simp
  | cons hc _ ih => cases k with
    | zero => simpa using hc
    | succ k => simpa using ih k

theorem length (h : CombL u x y z) : x.length = z.length ∧ y.length = z.length := by
  induction h with
  | nil => simp
  | cons _ _ ih => simpa using ih

theorem append (h : CombL u x y z) (h' : CombL u x' y' z') : CombL u (x ++ x') (y ++ y') (z ++ z') := by
  induction h with
  | nil => exact h'
  | cons hc _ ih => exact .cons hc ih

theorem drop (h : CombL u x y z) (k : ℕ) : CombL u (x.drop k) (y.drop k) (z.drop k) := by
  induction h generalizing k with
  | nil => simpa using .nil
  | cons hc h ih => cases k with
    | zero => exact .cons hc h
    | succ k => simpa using ih k

theorem take (h : CombL u x y z) (k : ℕ) : CombL u (x.take k) (y.take k) (z.take k) := by
  induction h generalizing k with
  | nil => simpa using .nil
  | cons hc h ih => cases k with
    | zero => simpa using .nil
    | succ k => simpa using .cons hc (ih k)

theorem zero (n : ℕ) : CombL u (List.replicate n 0) (List.replicate n 0) (List.replicate n 0) := by
  induction n with
  | zero => exact .nil
  | succ n ih => exact .cons (by ring) ih

theorem add (h : CombL u x y z) (h' : CombL u x' y' z') :
    CombL u (List.zipWith (· + ·) x x') (List.zipWith (· + ·) y y') (List.zipWith (· + ·) z z') := by
  induction h generalizing x' y' z' with
  | nil => simpa using .nil
  | cons hc h ih => cases h' with
    | nil => simpa using .nil
    | cons hc' h' => exact .cons (by rw [hc, hc']; ring) (ih h')

theorem map {α : Type} (l : List α) (f g e : α → R) (h : ∀ k ∈ l, e k = f k + u * g k) : CombL u (l.map f) (l.map g) (l.map e) := by
  induction l with
  | nil => exact .nil
  | cons a l ih => exact .cons (h a List.mem_cons_self) (ih fun k hk => h k (List.mem_cons_of_mem _ hk))

theorem maps (l : List R) (f g : R → R) (h : ∀ z ∈ l, z = f z + u * g z) : CombL u (l.map f) (l.map g) l := by
  simpa using map l f g id h

/-- The combination that `propagation` forms. -/
theorem zip (h : CombL u x y z) (hu : u * u = -1) (k : R) : List.zipWith (fun a b => k * a + u * (-k * b)) y x = z.map fun w => -(u * k) * w := by
  induction h with
  | nil => rfl
  | @cons a b c as bs cs hc _ ih =>
    simp only [List.zipWith_cons_cons, List.map_cons, ih, List.cons.injEq, and_true]
    rw [hc]
    linear_combination (k * b) * hu

end CombL

/-- The third array is the first plus `u` times the second. -/
structure Comb (u : R) (x y z : Nd R) : Prop where
  sx : x.shape = z.shape
  sy : y.shape = z.shape
  data : CombL u x.data y.data z.data

variable {u : R}

theorem Comb.get {x y z : Nd R} (h : Comb u x y z) (p : List ℕ) : z.get p = x.get p + u * y.get p := by
  unfold Nd.get
  rw [h.sx, h.sy, h.data.getD]

theorem Comb.ofFn (s : List ℕ) (f g e : List ℕ → R) (h : ∀ p, e p = f p + u * g p) : Comb u (Nd.ofFn s f) (Nd.ofFn s g) (Nd.ofFn s e) :=
  ⟨rfl, rfl, CombL.map _ _ _ _ fun _ _ => h _⟩

/-- A function that respects such combinations. -/
def LinR (u : R) (f : Nd R → Res (Nd R)) : Prop := ∀ x y z z', Comb u x y z → f z = .ok z' →
  ∃ x' y', f x = .ok x' ∧ f y = .ok y' ∧ Comb u x' y' z'

theorem LinR.id : LinR u fun t : Nd R => .ok t := by
  intro x y z z' h hz
  obtain rfl := Except.ok.inj hz
  exact ⟨x, y, rfl, rfl, h⟩

theorem LinR.bind {f g : Nd R → Res (Nd R)} (hf : LinR u f) (hg : LinR u g) : LinR u fun t => f t >>= g := by
  intro x y z z' h hz
  obtain ⟨v, h1, h2⟩ := bind_eq_ok.1 hz
  obtain ⟨x1, y1, a1, a2, a3⟩ := hf x y z v h h1
  obtain ⟨x2, y2, b1, b2, b3⟩ := hg x1 y1 v z' a3 h2
  refine ⟨x2, y2, ?_, ?_, b3⟩
  · dsimp only; rw [a1, ok_bind, b1]
  · dsimp only; rw [a2, ok_bind, b2]

theorem LinR.foldlM {α : Type} (l : List α) (f : Nd R → α → Res (Nd R)) (h : ∀ a ∈ l, LinR u fun t => f t a) : LinR u fun t => l.foldlM f t := by
  induction l with
  | nil => exact LinR.id
  | cons a l ih =>
    have := (h a List.mem_cons_self).bind (ih fun b hb => h b (List.mem_cons_of_mem _ hb))
    simpa only [List.foldlM_cons] using this

theorem lin_swapaxes (i j : ℕ) : LinR u fun t => t.swapaxes i j := by
  intro x y z z' h hz
  unfold Nd.swapaxes at hz ⊢
  unfold Nd.ndim at hz ⊢
  dsimp only at hz ⊢
  rw [h.sx, h.sy]
  split at hz
  · rename_i hc
    obtain rfl := Except.ok.inj hz
    rw [if_pos hc, if_pos hc]
    refine ⟨_, _, rfl, rfl, ?_⟩
    unfold Nd.swapaxesCore
    rw [h.sx, h.sy]
    exact Comb.ofFn _ _ _ _ fun p => h.get _
  · cases hz

theorem lin_moveaxis (i j : ℕ) : LinR u fun t => t.moveaxis i j := by
  intro x y z z' h hz
  unfold Nd.moveaxis at hz ⊢
  unfold Nd.ndim at hz ⊢
  dsimp only at hz ⊢
  rw [h.sx, h.sy]
  split at hz
  · rename_i hc
    obtain rfl := Except.ok.inj hz
    rw [if_pos hc, if_pos hc]
    refine ⟨_, _, rfl, rfl, ?_⟩
    unfold Nd.moveaxisCore
    rw [h.sx, h.sy]
    exact Comb.ofFn _ _ _ _ fun p => h.get _
  · cases hz

theorem lin_reshape (s : List ℕ) : LinR u fun t => t.reshape s := by
  intro x y z z' h hz
  unfold Nd.reshape at hz ⊢
  dsimp only at hz ⊢
  rw [h.sx, h.sy]
  split at hz
  · rename_i hc
    obtain rfl := Except.ok.inj hz
    rw [if_pos hc, if_pos hc]
    exact ⟨_, _, rfl, rfl, rfl, rfl, h.data⟩
  · cases hz

theorem lin_reshapeInfer (p q : List ℕ) : LinR u fun t => t.reshapeInfer p q := by
  intro x y z z' h hz
  unfold Nd.reshapeInfer at hz ⊢
  dsimp only at hz ⊢
  rw [h.sx, h.sy]
  split at hz
  · cases hz
  · rename_i hc
    obtain rfl := Except.ok.inj hz
    rw [if_neg hc, if_neg hc]
    exact ⟨_, _, rfl, rfl, rfl, rfl, h.data⟩

theorem lin_matmul_left (b : Nd R) : LinR u fun t => t.matmul b := by
  intro x y z z' h hz
  unfold Nd.matmul at hz ⊢
  unfold Nd.ndim at hz ⊢
  dsimp only at hz ⊢
  rw [h.sx, h.sy]
  split at hz
  · rename_i hc
    obtain rfl := Except.ok.inj hz
    rw [if_pos hc, if_pos hc]
    refine ⟨_, _, rfl, rfl, ?_⟩
    unfold Nd.matmulCore
    rw [h.sx, h.sy]
    refine Comb.ofFn _ _ _ _ fun p => ?_
    rw [Finset.mul_sum, ← Finset.sum_add_distrib]
    refine Finset.sum_congr rfl fun k _ => ?_
    rw [h.get]
    ring
  · cases hz

theorem lin_matmul_right (a : Nd R) : LinR u fun t => a.matmul t := by
  intro x y z z' h hz
  unfold Nd.matmul at hz ⊢
  unfold Nd.ndim at hz ⊢
  dsimp only at hz ⊢
  rw [h.sx, h.sy]
  split at hz
  · rename_i hc
    obtain rfl := Except.ok.inj hz
    rw [if_pos hc, if_pos hc]
    refine ⟨_, _, rfl, rfl, ?_⟩
    unfold Nd.matmulCore
    rw [h.sx, h.sy]
    refine Comb.ofFn _ _ _ _ fun p => ?_
    rw [Finset.mul_sum, ← Finset.sum_add_distrib]
    refine Finset.sum_congr rfl fun k _ => ?_
    rw [h.get]
    ring
  · cases hz

theorem comb_mapDot (m : Nd R) {x y z : Nd R} (h : Comb u x y z) : Comb u (Dvr.mapDot m x) (Dvr.mapDot m y) (Dvr.mapDot m z) := by
  unfold Dvr.mapDot Nd.dim
  rw [h.sx, h.sy]
  refine Comb.ofFn _ _ _ _ fun p => ?_
  rw [Finset.mul_sum, ← Finset.sum_add_distrib]
  refine Finset.sum_congr rfl fun k _ => ?_
  rw [h.get]
  ring

theorem comb_mapDot_mat (v : Nd R) {x y z : Nd R} (h : Comb u x y z) : Comb u (Dvr.mapDot x v) (Dvr.mapDot y v) (Dvr.mapDot z v) := by
  unfold Dvr.mapDot Nd.dim
  rw [h.sx, h.sy]
  refine Comb.ofFn _ _ _ _ fun p => ?_
  rw [Finset.mul_sum, ← Finset.sum_add_distrib]
  refine Finset.sum_congr rfl fun k _ => ?_
  rw [h.get]
  ring

/-- `_partial_transform` is linear in the tensor ... -/
theorem lin_transform (i : ℕ) (m : Nd R) : LinR u fun t => Dvr.partialTransform i t m := by
  intro x y z z' h hz
  unfold Dvr.partialTransform at hz ⊢
  dsimp only at hz ⊢
  unfold Nd.ndim at hz ⊢
  rw [h.sx, h.sy]
  obtain ⟨v1, h1, hz⟩ := bind_eq_ok.1 hz
  obtain ⟨x1, y1, a1, a2, a3⟩ := lin_swapaxes _ _ x y z v1 h h1
  obtain ⟨v2, h2, hz⟩ := bind_eq_ok.1 hz
  obtain ⟨x2, y2, b1, b2, b3⟩ := lin_reshapeInfer _ _ x1 y1 v1 v2 a3 h2
  obtain ⟨v3, h3, hz⟩ := bind_eq_ok.1 hz
  obtain ⟨x3, y3, c1, c2, c3⟩ := lin_reshape _ _ _ _ v3 (comb_mapDot m b3) h3
  dsimp only at a1 a2 b1 b2 c1 c2
  rw [a1, ok_bind, a2, ok_bind, b1, ok_bind, b2, ok_bind, c1, ok_bind, c2, ok_bind, c3.sx, c3.sy]
  exact lin_swapaxes _ _ x3 y3 v3 z' c3 hz

/-- ... and in the matrix. -/
theorem lin_transform_mat (i : ℕ) (t : Nd R) : LinR u fun m => Dvr.partialTransform i t m := by
  intro x y z z' h hz
  unfold Dvr.partialTransform at hz ⊢
  dsimp only at hz ⊢
  unfold Nd.ndim Nd.dim at hz ⊢
  rw [h.sx, h.sy]
  obtain ⟨v1, h1, hz⟩ := bind_eq_ok.1 hz
  obtain ⟨v2, h2, hz⟩ := bind_eq_ok.1 hz
  obtain ⟨v3, h3, hz⟩ := bind_eq_ok.1 hz
  obtain ⟨x3, y3, c1, c2, c3⟩ := lin_reshape _ _ _ _ v3 (comb_mapDot_mat v2 h) h3
  simp only [h1, ok_bind, h2, c1, c2]
  rw [c3.sx, c3.sy]
  exact lin_swapaxes _ _ x3 y3 v3 z' c3 hz

variable [StarRing R]

omit [StarRing R] in
theorem lin_coeffOp (mods : Term R) : LinR u fun t => coeffOp t mods :=
  LinR.foldlM _ _ fun p _ => lin_transform p.1 p.2

omit [StarRing R] in
theorem lin_partialProduct (i : ℕ) (b : Nd R) : LinR u fun t => partialProduct i t b := by
  intro x y z z' h hz
  unfold partialProduct Tensor.partialTrace at hz ⊢
  dsimp only at hz ⊢
  unfold Nd.ndim at hz ⊢
  rw [h.sx, h.sy]
  split at hz
  · cases hz
  · rename_i hc
    rw [if_neg hc, if_neg hc]
    obtain ⟨v1, h1, hz⟩ := bind_eq_ok.1 hz
    obtain ⟨x1, y1, a1, a2, a3⟩ := lin_moveaxis _ _ x y z v1 h h1
    obtain ⟨v2, h2, hz⟩ := bind_eq_ok.1 hz
    obtain ⟨x2, y2, b1, b2, b3⟩ := lin_reshapeInfer _ _ x1 y1 v1 v2 a3 h2
    obtain ⟨v3, h3, hz⟩ := bind_eq_ok.1 hz
    obtain ⟨v4, h4, hz⟩ := bind_eq_ok.1 hz
    obtain ⟨x5, y5, c1, c2, c3⟩ := lin_matmul_left v4 x2 y2 v2 z' b3 hz
    refine ⟨x5, y5, ?_, ?_, c3⟩
    · simp only [pure_bind, a1, ok_bind, b1, h3, h4, c1]
    · simp only [pure_bind, a2, ok_bind, b2, h3, h4, c2]

theorem lin_spOp (inv : Nd R → Res (Nd R)) (err : R) (o : Obj R) (i : ℕ) (hl : List (Nd R)) (mods : Term R) :
    LinR u fun t => spOp inv err o i t hl mods := by
  intro x y z z' h hz
  unfold spOp at hz ⊢
  dsimp only at hz ⊢
  by_cases h0 : hl = []
  · rw [if_pos h0] at hz
    rw [if_pos h0, if_pos h0]
    obtain rfl := Except.ok.inj hz
    refine ⟨_, _, rfl, rfl, h.sx, h.sy, ?_⟩
    dsimp only
    rw [h.sx, h.sy]
    exact CombL.zero _
  · rw [if_neg h0] at hz
    rw [if_neg h0, if_neg h0]
    unfold Nd.dim at hz ⊢
    rw [h.sx, h.sy]
    obtain ⟨a, h1, hz⟩ := bind_eq_ok.1 hz
    obtain ⟨dn, h2, hz⟩ := bind_eq_ok.1 hz
    obtain ⟨d, h3, hz⟩ := bind_eq_ok.1 hz
    obtain ⟨iv, h4, hz⟩ := bind_eq_ok.1 hz
    obtain ⟨sp, h5, hz⟩ := bind_eq_ok.1 hz
    obtain ⟨pr, h6, hz⟩ := bind_eq_ok.1 hz
    simp only [h1, ok_bind, h2, h3, h4, h5, h6]
    have hlin : LinR u fun t => (Dvr.partialTransform i a t >>= fun tmp => hl.foldlM (fun t h => Dvr.partialTransform i t h) tmp >>= fun tmp =>
        mods.foldlM (fun t p => if p.1 ≠ i then Dvr.partialTransform p.1 t p.2 else pure t) tmp >>= fun tmp =>
        partialProduct i tmp a.conj >>= fun tmp => tmp.matmul iv >>= fun x => pr.matmul x) := by
      refine (lin_transform_mat i a).bind (LinR.bind (LinR.foldlM _ _ fun p _ => lin_transform i p) (LinR.bind (LinR.foldlM _ _ fun p _ => ?_)
        ((lin_partialProduct i _).bind ((lin_matmul_left _).bind (lin_matmul_right _)))))
      by_cases hp : p.1 ≠ i
      · simp only [if_pos hp]
        exact lin_transform p.1 p.2
      · simp only [if_neg hp]
        exact LinR.id
    exact hlin x y z z' h hz

omit [StarRing R] in
theorem lin_getSubVec (shapes : List (List ℕ)) (i : ℤ) {x y z : List R} (h : CombL u x y z) {z' : Nd R} (hz : getSubVec shapes i z = .ok z') :
    ∃ x' y', getSubVec shapes i x = .ok x' ∧ getSubVec shapes i y = .ok y' ∧ Comb u x' y' z' := by
  unfold getSubVec at hz ⊢
  dsimp only at hz ⊢
  split at hz
  · cases hz
  · rename_i h0
    rw [if_neg h0, if_neg h0]
    refine lin_reshape _ _ _ _ z' ?_ hz
    have hs : ∀ s e : ℕ, CombL u (slice x s e) (slice y s e) (slice z s e) := by
      intro s e
      unfold slice
      first
        | exact (h.drop _).take _
        | exact (h.take _).drop _
    refine ⟨?_, ?_, hs _ _⟩
    · dsimp only; rw [(hs _ _).length.1]
    · dsimp only; rw [(hs _ _).length.2]

omit [StarRing R] in
/-- Blocks in a loop. -/
private theorem lin_mapM {α : Type} (l : List α) (f g e : α → Res (Nd R))
    (h : ∀ a ∈ l, ∀ c, e a = .ok c → ∃ x y, f a = .ok x ∧ g a = .ok y ∧ Comb u x y c) :
    ∀ cs, l.mapM e = .ok cs → ∃ xs ys, l.mapM f = .ok xs ∧ l.mapM g = .ok ys ∧ CombL u (concatenate xs) (concatenate ys) (concatenate cs) := by
  induction l with
  | nil =>
    intro cs hc
    obtain rfl := Except.ok.inj hc
    exact ⟨[], [], rfl, rfl, CombL.nil⟩
  | cons a l ih =>
    intro cs hc
    rw [List.mapM_cons] at hc
    obtain ⟨c, h1, hc⟩ := bind_eq_ok.1 hc
    obtain ⟨cs', h2, hc⟩ := bind_eq_ok.1 hc
    obtain rfl := Except.ok.inj hc
    obtain ⟨x, y, a1, a2, a3⟩ := h a List.mem_cons_self c h1
    obtain ⟨xs, ys, b1, b2, b3⟩ := ih (fun b hb => h b (List.mem_cons_of_mem _ hb)) cs' h2
    refine ⟨x :: xs, y :: ys, ?_, ?_, ?_⟩
    · rw [List.mapM_cons, a1, ok_bind, b1]; rfl
    · rw [List.mapM_cons, a2, ok_bind, b2]; rfl
    · unfold concatenate at b3 ⊢
      simp only [List.map_cons, List.flatten_cons]
      exact a3.data.append b3

theorem lin_term (inv : Nd R → Res (Nd R)) (err : R) (o : Obj R) (r : ℕ) {x y z : List R} (h : CombL u x y z) {z' : List R}
    (hz : termHamiltonian inv err o r z = .ok z') :
    ∃ x' y', termHamiltonian inv err o r x = .ok x' ∧ termHamiltonian inv err o r y = .ok y' ∧ CombL u x' y' z' := by
  unfold termHamiltonian at hz ⊢
  dsimp only at hz ⊢
  obtain ⟨ht, h1, hz⟩ := bind_eq_ok.1 hz
  obtain ⟨mt, h2, hz⟩ := bind_eq_ok.1 hz
  obtain ⟨bs, h3, hz⟩ := bind_eq_ok.1 hz
  obtain rfl := Except.ok.inj hz
  have := lin_mapM (u := u) (List.range o.shapes.length) (fun i : ℕ => do
      let v ← getSubVec o.shapes (i : ℤ) x
      if i + 1 < o.shapes.length then spOp inv err o i v ((ht.filter fun p => p.1 = i).map Prod.snd) mt else coeffOp v mt)
    (fun i : ℕ => do
      let v ← getSubVec o.shapes (i : ℤ) y
      if i + 1 < o.shapes.length then spOp inv err o i v ((ht.filter fun p => p.1 = i).map Prod.snd) mt else coeffOp v mt)
    _ (fun i _ c hc => ?_) bs h3
  · obtain ⟨xs, ys, a1, a2, a3⟩ := this
    refine ⟨_, _, ?_, ?_, a3⟩
    · simp only [h1, h2, ok_bind]
      rw [a1]; rfl
    · simp only [h1, h2, ok_bind]
      rw [a2]; rfl
  · obtain ⟨v, k1, hc⟩ := bind_eq_ok.1 hc
    obtain ⟨vx, vy, b1, b2, b3⟩ := lin_getSubVec _ _ h k1
    rw [b1, b2, ok_bind, ok_bind]
    split at hc
    · rename_i hi
      rw [if_pos hi, if_pos hi]
      exact lin_spOp inv err o i _ mt vx vy v c b3 hc
    · rename_i hi
      rw [if_neg hi, if_neg hi]
      exact lin_coeffOp mt vx vy v c b3 hc

/-- The Hamiltonian with fixed mean fields is linear. -/
theorem lin_hMat (inv : Nd R → Res (Nd R)) (err : R) (o : Obj R) {x y z : List R} (h : CombL u x y z) {z' : List R}
    (hz : hMat inv err o z = .ok z') :
    ∃ x' y', hMat inv err o x = .ok x' ∧ hMat inv err o y = .ok y' ∧ CombL u x' y' z' := by
  unfold hMat at hz ⊢
  rw [h.length.1, h.length.2]
  have key : ∀ (l : List ℕ) (ax ay az : List R), CombL u ax ay az → ∀ az', l.foldlM (fun ans r => do
        let x ← termHamiltonian inv err o r z
        if ans.length = x.length then pure (List.zipWith (· + ·) ans x) else throw .valueError) az = (.ok az' : Res (List R)) →
      ∃ ax' ay', l.foldlM (fun ans r => do
        let x ← termHamiltonian inv err o r x
        if ans.length = x.length then pure (List.zipWith (· + ·) ans x) else throw .valueError) ax = (.ok ax' : Res (List R)) ∧
      l.foldlM (fun ans r => do
        let x ← termHamiltonian inv err o r y
        if ans.length = x.length then pure (List.zipWith (· + ·) ans x) else throw .valueError) ay = (.ok ay' : Res (List R)) ∧ CombL u ax' ay' az' := by
    intro l
    induction l with
    | nil =>
      intro ax ay az ha az' hz
      obtain rfl := Except.ok.inj hz
      exact ⟨ax, ay, rfl, rfl, ha⟩
    | cons r l ih =>
      intro ax ay az ha az' hz
      rw [List.foldlM_cons] at hz
      obtain ⟨w, h1, hz⟩ := bind_eq_ok.1 hz
      obtain ⟨t, h2, h1⟩ := bind_eq_ok.1 h1
      obtain ⟨tx, ty, b1, b2, b3⟩ := lin_term inv err o r h h2
      split at h1
      · rename_i hl
        obtain rfl := Except.ok.inj h1
        obtain ⟨rx, ry, c1, c2, c3⟩ := ih _ _ _ (ha.add b3) az' hz
        refine ⟨rx, ry, ?_, ?_, c3⟩
        · rw [List.foldlM_cons, b1, ok_bind, if_pos (by rw [ha.length.1, b3.length.1, hl])]
          exact c1
        · rw [List.foldlM_cons, b2, ok_bind, if_pos (by rw [ha.length.2, b3.length.2, hl])]
          exact c2
      · cases h1
  exact key _ _ _ _ (CombL.zero _) z' hz

end Mctdh
