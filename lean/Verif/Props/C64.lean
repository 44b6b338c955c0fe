import Verif.Props.C23

/-!
C64: the basis vectors that `autocomplete` gives a tensor are the configurations of its children with the lowest total index,
in the order of that total. True if all children have the same dimension; false otherwise: `triangular` numbers the
configurations with the first index running fastest, while `np.reshape` lets the last one run fastest.
-/

open Py

namespace Triangular

theorem quanta_replicate_succ (d n v : ℕ) : v < d ^ (n + 1) →
    quanta (List.replicate (n + 1) d) v = v / d ^ n + quanta (List.replicate n d) (v % d ^ n) := by
  induction n generalizing v with
  | zero => intro h; simp only [Nat.zero_add, pow_one] at h; simp [quanta, List.replicate, Nat.mod_eq_of_lt h]
  | succ n ih =>
    intro h
    have h1 : v / d < d ^ (n + 1) := Nat.div_lt_of_lt_mul (by rw [← pow_succ']; exact h)
    have e0 : quanta (List.replicate (n + 1 + 1) d) v = v % d + quanta (List.replicate (n + 1) d) (v / d) := rfl
    have e1 : quanta (List.replicate (n + 1) d) (v % d ^ (n + 1)) =
        v % d ^ (n + 1) % d + quanta (List.replicate n d) (v % d ^ (n + 1) / d) := rfl
    rw [e0, ih _ h1, e1, Nat.mod_mod_of_dvd _ (dvd_pow_self d (by omega)), Nat.div_div_eq_div_mul, ← pow_succ', pow_succ' d n,
      Nat.mod_mul_right_div_self]
    omega

/-- If all dimensions are equal, it makes no difference which index runs fastest. -/
theorem quanta_unravel (d n v : ℕ) (h : v < d ^ n) : quanta (List.replicate n d) v = (unravel (List.replicate n d) v).sum := by
  induction n generalizing v with
  | zero => simp [quanta, unravel]
  | succ n ih =>
    have hp : 0 < d ^ n := by
      rcases Nat.eq_zero_or_pos (d ^ n) with e | e
      · rw [pow_succ, e] at h; simp at h
      · exact e
    rw [quanta_replicate_succ d n v h, ih _ (Nat.mod_lt _ hp)]
    simp [List.replicate_succ, unravel]

end Triangular

namespace Heap

variable {R : Type} [Field R] [StarRing R]
variable {h : Heap R} {r : ℕ} {F : Forest} {dims : Dict (ℕ × ℕ × ℕ × ℕ) ℕ} {want : ℕ × ℕ → ℕ}

/-- For a tensor all of whose children have the same dimension `d`, `autocomplete` takes the configurations with the lowest total
index, in order. -/
theorem C64_equal_partial {sqrt : R → R} {rank : Nd R → ℕ} (hb : Bare h r F dims want) (s1 : sqrt 1 = 1) (s0 : sqrt 0 = 0)
    (hrank : ∀ n, rank (identity n) = n) {fuel : ℕ} (hf : F.depth < fuel) :
    ∃ h', autocomplete sqrt rank fuel dims h r = .ok h' ∧ ∀ e ∈ h.bonds r F, h.array e.2.2.1 = none →
      ∀ d, (∀ i < h.order e.2.2.1, i ≠ e.2.2.2 → want (e.2.2.1, i) = d) →
        ∃ A, h'.array e.2.2.1 = some A ∧ LowestSlices A e.2.2.2 := by
  obtain ⟨h', h1, f⟩ := hb.run s1 s0 hrank hf
  refine ⟨h', h1, fun e he hn d hd => ?_⟩
  obtain ⟨A, c, a1, a2, a3, a4, a5, a6, a7, a8⟩ := f.pick hb he hn
  refine ⟨A, a1, ?_⟩
  unfold Nd.ndim at a2
  obtain ⟨n, hsh⟩ : ∃ n, A.shape.eraseIdx e.2.2.2 = List.replicate n d := by
    refine ⟨(A.shape.eraseIdx e.2.2.2).length, List.eq_replicate_iff.2 ⟨rfl, fun x hx => ?_⟩⟩
    rw [a3, List.eraseIdx_map, ← range_filter_ne] at hx
    obtain ⟨i, hi, rfl⟩ := List.mem_map.1 hx
    obtain ⟨i1, i2⟩ := List.mem_filter.1 hi
    exact hd i (List.mem_range.1 i1) (by simpa using i2)
  have hprod : (A.shape.eraseIdx e.2.2.2).prod = d ^ n := by rw [hsh]; simp
  have hq : ∀ z < A.shape.getD e.2.2.2 1, (unravel (A.shape.eraseIdx e.2.2.2) (c z)).sum =
      Triangular.quanta (A.shape.eraseIdx e.2.2.2) (c z) := by
    intro z hz
    have := a6 z hz
    rw [hprod] at this
    rw [hsh, Triangular.quanta_unravel d n _ this]
  have hsort := Triangular.C22_sorted (A.shape.eraseIdx e.2.2.2)
  have hperm := Triangular.C22_permutation (A.shape.eraseIdx e.2.2.2)
  rw [List.pairwise_iff_getElem] at hsort
  refine ⟨fun z => unravel (A.shape.eraseIdx e.2.2.2) (c z), fun z hz => ⟨valid_unravel (a6 z hz), fun p hp => ?_⟩,
    fun z w hzw hw => ?_, fun z hz p hp hlt => ?_⟩ <;> beta_reduce at *
  · rw [a4 z hz p hp]
    refine if_congr ⟨fun q => ?_, fun q => ?_⟩ rfl rfl
    · rw [q, unravel_ravel hp]
    · rw [q, ravel_unravel (a6 z hz)]
  · rcases Nat.lt_or_eq_of_le hzw with q | rfl
    · obtain ⟨z1, z2⟩ := List.getElem?_eq_some_iff.1 (a8 z (by omega))
      obtain ⟨w1, w2⟩ := List.getElem?_eq_some_iff.1 (a8 w hw)
      have := hsort z w z1 w1 q
      rw [z2, w2] at this
      rw [hq z (by omega), hq w hw]
      exact this
    · exact le_refl _
  · have hv : ravel (A.shape.eraseIdx e.2.2.2) p ∈ Triangular.triangular (A.shape.eraseIdx e.2.2.2) :=
      hperm.mem_iff.2 (List.mem_range.2 (ravel_lt hp))
    obtain ⟨w, w1, w2⟩ := List.mem_iff_getElem.1 hv
    obtain ⟨z1, z2⟩ := List.getElem?_eq_some_iff.1 (a8 z hz)
    have hps : p.sum = Triangular.quanta (A.shape.eraseIdx e.2.2.2) (ravel (A.shape.eraseIdx e.2.2.2) p) := by
      have := ravel_lt hp
      rw [hprod] at this
      conv_lhs => rw [← unravel_ravel hp]
      rw [hsh] at this ⊢
      rw [Triangular.quanta_unravel d n _ this]
    have hwz : w < z := by
      by_contra hcon
      rcases Nat.lt_or_eq_of_le (Nat.le_of_not_lt hcon) with q | q
      · have := hsort z w z1 w1 q
        rw [z2, w2, ← hps, ← hq z hz] at this
        omega
      · subst q
        rw [z2] at w2
        rw [w2, unravel_ravel hp] at hlt
        omega
    refine ⟨w, hwz, ?_⟩
    have := a8 w (by omega)
    rw [List.getElem?_eq_getElem w1, w2, Option.some.injEq] at this
    rw [← this, unravel_ravel hp]

example : ∃ h', autocomplete Real.sqrt matrixRank 5 (exBareDims 2) exBare 0 = .ok h' ∧
    ∃ A, h'.array 1 = some A ∧ LowestSlices A 1 := by
  obtain ⟨h', a, b⟩ := C64_equal_partial (exBare_ok (.inl rfl)) Real.sqrt_one Real.sqrt_zero matrixRank_identity (fuel := 5) (by decide)
  exact ⟨h', a, b (0, 0, 1, 1) (by decide) (by decide) 2 (by decide)⟩

/-- A network for which the claim fails: the tensor `b` has children of dimensions 2 and 3, and four basis vectors are asked for. The
code takes `(0, 0)`, `(0, 1)`, `(0, 2)`, `(1, 0)`, in this order. -/
theorem C64_violated : ∃ (h : Heap ℝ) (F : Forest) (dims : Dict (ℕ × ℕ × ℕ × ℕ) ℕ) (want : ℕ × ℕ → ℕ), Bare h 0 F dims want ∧
    (∀ t ∈ h.tensors 0 F, h.array t = none) ∧ ∃ h', autocomplete Real.sqrt matrixRank 5 dims h 0 = .ok h' ∧
      ∃ e ∈ h.bonds 0 F, ∃ A, h'.array e.2.2.1 = some A ∧ ¬ LowestSlices A e.2.2.2 := by
  obtain ⟨h', h1, f⟩ := (exBare_ok (.inr rfl)).run Real.sqrt_one Real.sqrt_zero matrixRank_identity (fuel := 5) (by decide)
  have he : (0, 0, 1, 1) ∈ exBare.bonds 0 exBareForest := by decide
  obtain ⟨A, c, a1, a2, a3, a4, a5, a6, a7, a8⟩ := f.pick (exBare_ok (.inr rfl)) he (by decide)
  simp only at a1 a2 a3 a4 a6 a7 a8
  have hA : A.shape = [2, 4, 3] := by rw [a3]; decide
  unfold Pick at a4
  rw [hA] at a4 a6 a8
  refine ⟨exBare, exBareForest, exBareDims 3, exBareWant 3, exBare_ok (.inr rfl), by decide, h', h1, _, he, A, a1, ?_⟩
  rintro ⟨u, u1, u2, -⟩
  simp only at u1 u2
  rw [hA] at u1 u2
  have hu : ∀ z < 4, u z = unravel [2, 3] (c z) := by
    intro z hz
    have hv := valid_unravel (a6 z hz)
    have g1 := (u1 z hz).2 _ hv
    rw [a4 z hz _ hv, ravel_unravel (a6 z hz), if_pos rfl] at g1
    by_contra hne
    rw [if_neg fun q => hne q.symm] at g1
    exact one_ne_zero g1
  have c2 : c 2 = 2 := by
    have := a8 2 (by decide)
    have e : (Triangular.triangular [2, 3])[2]? = some 2 := by decide +kernel
    simpa [e] using this.symm
  have c3 : c 3 = 3 := by
    have := a8 3 (by decide)
    have e : (Triangular.triangular [2, 3])[3]? = some 3 := by decide +kernel
    simpa [e] using this.symm
  have := u2 2 3 (by decide) (by decide)
  rw [hu 2 (by decide), hu 3 (by decide), c2, c3] at this
  revert this
  decide

end Heap
