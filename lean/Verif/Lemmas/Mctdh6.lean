import Verif.Lemmas.Mctdh5

/-!
Sums of the blocks of several terms.
-/

open Py
open scoped BigOperators

namespace Mctdh

variable {R : Type} [CommRing R] [StarRing R]

/-- An array of zeros of the same shape. -/
def zeroLike (c : Nd R) : Nd R := ⟨c.shape, List.replicate c.shape.prod 0⟩

/-- The sum of two arrays of the same shape. -/
def sumNd (u v : Nd R) : Nd R := ⟨u.shape, List.zipWith (· + ·) u.data v.data⟩

omit [StarRing R] in
theorem zeroLike_get (c : Nd R) (p : List ℕ) : (zeroLike c).get p = 0 := by
  unfold Nd.get zeroLike
  simp [List.getD_eq_getElem?_getD, List.getElem?_replicate]
  split <;> rfl

omit [StarRing R] in
theorem zeroLike_wf (c : Nd R) : (zeroLike c).Wf := by unfold Nd.Wf zeroLike; simp

omit [StarRing R] in
theorem concatenate_zero : ∀ (bs : List (Nd R)), (∀ b ∈ bs, b.Wf) → concatenate (bs.map zeroLike) = List.replicate (concatenate bs).length 0 := by
  intro bs
  induction bs with
  | nil => intro _; rfl
  | cons b bs ih =>
    intro hw
    have h1 := ih fun c hc => hw c (List.mem_cons_of_mem _ hc)
    have h2 : b.data.length = b.shape.prod := hw b List.mem_cons_self
    unfold concatenate at *
    simp only [List.map_cons, List.flatten_cons, List.length_append]
    rw [h1, h2, List.replicate_add]
    rfl

omit [StarRing R] in
theorem sumNd_spec {u v : Nd R} (hu : u.Wf) (hv : v.Wf) (hs : u.shape = v.shape) :
    (sumNd u v).Wf ∧ (sumNd u v).shape = u.shape ∧ ∀ p, Valid u.shape p → (sumNd u v).get p = u.get p + v.get p := by
  obtain ⟨c, c1, c2, c3, c4⟩ := Nd.add_ok hu hv hs
  have : c = sumNd u v := by
    unfold Nd.add at c1
    rw [if_pos hs] at c1
    exact (Except.ok.inj c1).symm
  subst this
  exact ⟨c2, c3, c4⟩

omit [StarRing R] in
theorem concatenate_sum : ∀ (us vs : List (Nd R)), us.map Nd.shape = vs.map Nd.shape → (∀ u ∈ us, u.Wf) → (∀ v ∈ vs, v.Wf) →
    (concatenate us).length = (concatenate vs).length ∧
    List.zipWith (· + ·) (concatenate us) (concatenate vs) = concatenate (List.zipWith sumNd us vs) := by
  intro us
  induction us with
  | nil =>
    intro vs hs _ _
    obtain rfl : vs = [] := by simpa using hs.symm
    exact ⟨rfl, rfl⟩
  | cons u us ih =>
    intro vs hs hu hv
    cases vs with
    | nil => simp at hs
    | cons v vs =>
      simp only [List.map_cons, List.cons.injEq] at hs
      obtain ⟨h1, h2⟩ := ih vs hs.2 (fun x hx => hu x (List.mem_cons_of_mem _ hx)) fun x hx => hv x (List.mem_cons_of_mem _ hx)
      have hl : u.data.length = v.data.length := by
        have a1 : u.data.length = u.shape.prod := hu u List.mem_cons_self
        have a2 : v.data.length = v.shape.prod := hv v List.mem_cons_self
        rw [a1, a2, hs.1]
      unfold concatenate at *
      simp only [List.map_cons, List.flatten_cons, List.length_append, List.zipWith_cons_cons]
      refine ⟨by rw [hl, h1], ?_⟩
      rw [List.zipWith_append hl, h2]
      rfl

omit [StarRing R] in
theorem actTerm_nil_sum (f : List ℕ → R) (x : List ℕ) : actSum ([] : List (Term R)) f x = 0 := rfl

omit [StarRing R] in
theorem actSum_append (ts : List (Term R)) (t : Term R) (f : List ℕ → R) (x : List ℕ) : actSum (ts ++ [t]) f x = actSum ts f x + actTerm t f x := by
  unfold actSum
  simp

theorem project_add (cs : List (Nd R)) (f g : List ℕ → R) (j : List ℕ) : project cs (fun x => f x + g x) j = project cs f j + project cs g j := by
  unfold project
  rw [← sumIdx_add]
  exact sumIdx_congr fun y _ => mul_add _ _ _

theorem meanField_add (cs : List (Nd R)) (a : Nd R) (i : ℕ) (f g : List ℕ → R) (x k : ℕ) :
    meanField cs a i (fun y => f y + g y) x k = meanField cs a i f x k + meanField cs a i g x k := by
  unfold meanField
  rw [← sumIdx_add]
  refine sumIdx_congr fun j _ => ?_
  rw [← add_mul]
  congr 1
  unfold projectAt
  rw [← sumIdx_add]
  exact sumIdx_congr fun y _ => mul_add _ _ _

theorem project_zero (cs : List (Nd R)) (j : List ℕ) : project cs (fun _ => 0) j = 0 := by
  unfold project
  simp

theorem meanField_zero (cs : List (Nd R)) (a : Nd R) (i x k : ℕ) : meanField cs a i (fun _ => 0) x k = 0 := by
  unfold meanField projectAt
  simp

/-- Without terms all derivatives vanish. -/
theorem Equations.zero {cs : List (Nd R)} {a : Nd R} (err : R) : Equations cs a err [] (cs.map zeroLike) (zeroLike a) := by
  have hbz : ∀ i < cs.length, ∀ p, (block (cs.map zeroLike) i).get p = 0 := by
    intro i hi p
    unfold block
    rw [List.getD_eq_getElem _ _ (by simpa using hi), List.getElem_map]
    exact zeroLike_get _ _
  refine ⟨?_, ?_, ?_, ?_, ?_⟩
  · simp only [List.map_append, List.map_map, List.map_cons, List.map_nil]
    rfl
  · intro d hd
    rcases List.mem_append.1 hd with hd | hd
    · obtain ⟨c, _, rfl⟩ := List.mem_map.1 hd
      exact zeroLike_wf c
    · obtain rfl := List.mem_singleton.1 hd
      exact zeroLike_wf a
  · intro j _
    rw [zeroLike_get]
    exact (project_zero cs j).symm
  · intro i hi j _ k _
    simp [hbz i hi]
  · intro i hi x _ q _
    simp only [hbz i hi, zero_mul, Finset.sum_const_zero]
    have : (fun y => meanField cs a i (actSum ([] : List (Term R)) (amplitude cs a)) y q) = fun _ => 0 := by
      funext y
      exact meanField_zero cs a i y q
    rw [this, outside_zero]

/-- The sum for one more term. -/
theorem Equations.add {cs : List (Nd R)} {a : Nd R} {err : R} {ts : List (Term R)} {t : Term R} {ds ds' : List (Nd R)} {da da' : Nd R}
    (hb : Blocks cs a) (h : Equations cs a err ts ds da) (h' : Equations cs a err [t] ds' da') :
    Equations cs a err (ts ++ [t]) (List.zipWith sumNd ds ds') (sumNd da da') ∧
      (concatenate (ds ++ [da])).length = (concatenate (ds' ++ [da'])).length ∧
      List.zipWith (· + ·) (concatenate (ds ++ [da])) (concatenate (ds' ++ [da'])) =
        concatenate (List.zipWith sumNd ds ds' ++ [sumNd da da']) := by
  have hss := h.shapes.trans h'.shapes.symm
  have hl : ds.length = cs.length := by simpa using congrArg List.length h.shapes
  have hl' : ds'.length = cs.length := by simpa using congrArg List.length h'.shapes
  have hz : List.zipWith sumNd ds ds' ++ [sumNd da da'] = List.zipWith sumNd (ds ++ [da]) (ds' ++ [da']) := by
    rw [List.zipWith_append (by rw [hl, hl'])]
    rfl
  obtain ⟨z1, z2⟩ := concatenate_sum _ _ hss h.wf h'.wf
  have hsh : ds.map Nd.shape = cs.map Nd.shape ∧ da.shape = a.shape := by
    have := h.shapes
    simp only [List.map_append, List.map_cons, List.map_nil] at this
    obtain ⟨q1, q2⟩ := List.append_inj this (by simp [hl])
    exact ⟨q1, by simpa using q2⟩
  have hsh' : ds'.map Nd.shape = cs.map Nd.shape ∧ da'.shape = a.shape := by
    have := h'.shapes
    simp only [List.map_append, List.map_cons, List.map_nil] at this
    obtain ⟨q1, q2⟩ := List.append_inj this (by simp [hl'])
    exact ⟨q1, by simpa using q2⟩
  have bsh : ∀ {es : List (Nd R)}, es.map Nd.shape = cs.map Nd.shape → ∀ i < cs.length, (block es i).shape = (block cs i).shape := by
    intro es he i hi
    have hle : es.length = cs.length := by simpa using congrArg List.length he
    unfold block
    rw [List.getD_eq_getElem _ _ (hle ▸ hi), List.getD_eq_getElem _ _ hi]
    have := List.getElem_of_eq he (i := i) (by simpa using hle ▸ hi)
    simpa using this
  have bw : ∀ i < cs.length, (block ds i).Wf := fun i hi => h.wf _ (List.mem_append_left _ (Blocks.mem (hl ▸ hi)))
  have bw' : ∀ i < cs.length, (block ds' i).Wf := fun i hi => h'.wf _ (List.mem_append_left _ (Blocks.mem (hl' ▸ hi)))
  have bz : ∀ i < cs.length, block (List.zipWith sumNd ds ds') i = sumNd (block ds i) (block ds' i) := by
    intro i hi
    unfold block
    rw [List.getD_eq_getElem _ _ (by simp [hl, hl', hi]), List.getElem_zipWith, List.getD_eq_getElem _ _ (hl ▸ hi),
      List.getD_eq_getElem _ _ (hl' ▸ hi)]
  have bs : ∀ i (hi : i < cs.length), _ := fun i hi => sumNd_spec (bw i hi) (bw' i hi) ((bsh hsh.1 i hi).trans (bsh hsh'.1 i hi).symm)
  have bg : ∀ i < cs.length, ∀ x < (block cs i).dim 0, ∀ k < (block cs i).dim 1, (block (List.zipWith sumNd ds ds') i).get [x, k] =
      (block ds i).get [x, k] + (block ds' i).get [x, k] := by
    intro i hi x hx k hk
    rw [bz i hi]
    refine (bs i hi).2.2 _ ?_
    rw [bsh hsh.1 i hi, (hb.at hi).2.2]
    exact valid2 hx hk
  have wa := h.wf da (by simp)
  have wa' := h'.wf da' (by simp)
  have sa := sumNd_spec wa wa' (hsh.2.trans hsh'.2.symm)
  refine ⟨⟨?_, ?_, ?_, ?_, ?_⟩, z1, by rw [z2, hz]⟩
  · rw [List.map_append, List.map_append]
    congr 1
    · refine List.ext_getElem (by simp [hl, hl']) fun i h1 h2 => ?_
      have hi : i < cs.length := by simpa using h2
      have := (bs i hi).2.1.trans (bsh hsh.1 i hi)
      rw [← bz i hi] at this
      unfold block at this
      rw [List.getD_eq_getElem _ _ (by simpa using h1), List.getD_eq_getElem _ _ hi] at this
      simpa using this
    · simp only [List.map_cons, List.map_nil]
      rw [sa.2.1, hsh.2]
  · intro d hd
    rcases List.mem_append.1 hd with hd | hd
    · obtain ⟨i, hi, rfl⟩ := List.mem_iff_getElem.1 hd
      have hi' : i < cs.length := by simp [hl, hl'] at hi; exact hi
      have := (bs i hi').1
      rw [← bz i hi'] at this
      unfold block at this
      rwa [List.getD_eq_getElem _ _ hi] at this
    · obtain rfl := List.mem_singleton.1 hd
      exact sa.1
  · intro j hj
    rw [sa.2.2 j (hsh.2 ▸ hj), h.coefficients j hj, h'.coefficients j hj, ← project_add]
    congr 1
    funext x
    rw [actSum_append]
    simp [actSum]
  · intro i hi j hj k hk
    have e1 : ∀ x ∈ Finset.range ((block cs i).dim 0), star ((block cs i).get [x, j]) * (block (List.zipWith sumNd ds ds') i).get [x, k] =
        star ((block cs i).get [x, j]) * (block ds i).get [x, k] + star ((block cs i).get [x, j]) * (block ds' i).get [x, k] := by
      intro x hx
      rw [bg i hi x (Finset.mem_range.1 hx) k hk, mul_add]
    rw [Finset.sum_congr rfl e1, Finset.sum_add_distrib, h.gauge i hi j hj k hk, h'.gauge i hi j hj k hk, add_zero]
  · intro i hi x hx q hq
    have e1 : ∀ k ∈ Finset.range ((block cs i).dim 1), (block (List.zipWith sumNd ds ds') i).get [x, k] * density a err i k q =
        (block ds i).get [x, k] * density a err i k q + (block ds' i).get [x, k] * density a err i k q := by
      intro k hk
      rw [bg i hi x hx k (Finset.mem_range.1 hk), add_mul]
    rw [Finset.sum_congr rfl e1, Finset.sum_add_distrib, h.functions i hi x hx q hq, h'.functions i hi x hx q hq, ← outside_add]
    congr 1
    funext y
    rw [← meanField_add]
    congr 1
    funext z
    rw [actSum_append]
    simp [actSum]

end Mctdh
