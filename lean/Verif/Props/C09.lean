import Verif.Lemmas.Reunite
import Verif.Props.C10

/-!
C09: `unite` undoes `split`.

`SvdShape` and `SvdExact` (in `Verif.Lemmas.SplitArrays`) say what is assumed of the singular value
decomposition: three matrices of fitting shapes, whose product is the decomposed matrix.
-/

open scoped BigOperators
open Py

namespace Heap

variable {R : Type} [CommRing R]

/-- Specification. Tensor `u` of `h'` is the old tensor `src` of `h` with array `A`, its axes in the
order `π` (axis `n` of `u` is the old axis `π[n]`): same entries, same neighbours, and all other
links of the objects of `h` are as before. -/
structure BackAs (h h' : Heap R) (src u : ℕ) (A : Nd R) (π : List ℕ) : Prop where
  perm : π.Perm (List.range A.ndim)
  array : ∃ C, h'.array u = some C ∧ C.Wf ∧ C.shape = π.map (fun k => A.shape.getD k 1) ∧
    ∀ f : ℕ → ℕ, (∀ k < A.ndim, f k < A.shape.getD k 1) →
      C.get (π.map f) = A.get ((List.range A.ndim).map f)
  links : ∀ n k, π[n]? = some k → h'.acc u n = h.acc src k
  only : ∀ n, A.ndim ≤ n → h'.acc u n = none
  back : ∀ x k l, h.acc x k = some (src, l) → h'.acc x k = some (u, π.idxOf l)
  other : ∀ x k, x < h.next → x ≠ src → (∀ l, h.acc x k ≠ some (src, l)) → h'.acc x k = h.acc x k
  axis : (h'.node u).axis = none
  mutual' : h'.LinkInv

theorem backAs_core {h h1 : Heap R} {self s t i j d : ℕ} {A S T : Nd R} {a b : List ℕ}
    {φ ψ : (Option ℕ → ℕ) → R} {root : Option ℕ} {nrm : Bool} {ns nt : List Char}
    (hi0 : h.LinkInv) (hA : h.Full self A) (lself : ∀ k l, h.acc self k ≠ some (self, l))
    (hi : h1.LinkInv) (hS : h1.Full s S) (hT : h1.Full t T) (hst : s ≠ t)
    (hp : (a ++ b).Perm (List.range A.ndim)) (ia : i ≤ a.length) (jb : j ≤ b.length)
    (labS : S.Lab (pyInsert (a.map some) i none) (dimO d fun k => A.shape.getD k 1) φ)
    (labT : T.Lab (pyInsert (b.map some) j none) (dimO d fun k => A.shape.getD k 1) ψ)
    (hex : ∀ f : Option ℕ → ℕ, (∀ k < A.ndim, f (some k) < A.shape.getD k 1) →
        ∑ z ∈ Finset.range d, φ (Nd.upd f none z) * ψ (Nd.upd f none z) =
          A.get ((List.range A.ndim).map fun k => f (some k)))
    (hb : h1.acc s i = some (t, j))
    (accS : ∀ n k, (pyInsert (a.map some) i none)[n]? = some (some k) → h1.acc s n = h.acc self k)
    (accT : ∀ n k, (pyInsert (b.map some) j none)[n]? = some (some k) → h1.acc t n = h.acc self k)
    (hfs : s = self ∨ h.next ≤ s) (hft : t = self ∨ h.next ≤ t)
    (oth : ∀ x k, x < h.next → x ≠ self → (∀ l, h.acc x k ≠ some (self, l)) → h1.acc x k = h.acc x k)
    (hax : (h1.node s).axis = none ∨ (h1.node t).axis = none)
    (hns : (h1.node s).name = some ns) (hnt : (h1.node t).name = some nt)
    (hr : root = none ∨ root = some s ∨ root = some t) :
    ∃ h' u, h1.unite s i root nrm = .ok (h', u) ∧ (∀ x, root = some x → u = x) ∧
      BackAs h h' self u A (backAxes a b i) := by
  have hlenS : (pyInsert (a.map some) i none).length = S.ndim := labS.ndim.symm
  have hlenT : (pyInsert (b.map some) j none).length = T.ndim := labT.ndim.symm
  have hfar : ∀ x, (x = self ∨ h.next ≤ x) → ∀ k l, h.acc self k ≠ some (x, l) := by
    rintro x (rfl | hx) k l e
    · exact lself k l e
    · have := (hi0.lt e).2; omega
  have caseS : ∀ k y, h1.acc s k = some y → k = i ∨ ∃ k', h.acc self k' = some y := by
    intro k y e
    have hk : k < S.ndim := (hS.acc k).1 (by rw [e]; simp)
    cases ho : (pyInsert (a.map some) i none)[k]? with
    | none => rw [List.getElem?_eq_none_iff, hlenS] at ho; omega
    | some o =>
      cases o with
      | none => exact .inl ((getElem?_pyInsert_none ia).1 ho)
      | some k' => exact .inr ⟨k', by rw [← accS k k' ho, e]⟩
  have caseT : ∀ k y, h1.acc t k = some y → k = j ∨ ∃ k', h.acc self k' = some y := by
    intro k y e
    have hk : k < T.ndim := (hT.acc k).1 (by rw [e]; simp)
    cases ho : (pyInsert (b.map some) j none)[k]? with
    | none => rw [List.getElem?_eq_none_iff, hlenT] at ho; omega
    | some o =>
      cases o with
      | none => exact .inl ((getElem?_pyInsert_none jb).1 ho)
      | some k' => exact .inr ⟨k', by rw [← accT k k' ho, e]⟩
  have hb' := hi.sym _ _ _ _ hb
  obtain ⟨nm, hnm⟩ : ∃ nm, uniteName (h1.node s).name (h1.node t).name = .ok nm := by
    rw [hns, hnt]; unfold uniteName
    simp only
    split
    · exact ⟨_, rfl⟩
    · split <;> exact ⟨_, rfl⟩
  obtain ⟨h', u, C, u1, u2, u3, u4, u5, u6, u7, u8, u9, u10, u11⟩ :=
    reunite (nrm := nrm) (root := root) hi hS hT ia jb labS labT hb hst
      (by
        intro k l e
        rcases caseS k _ e with rfl | ⟨k', e'⟩
        · rw [hb] at e; cases e; exact hst rfl
        · exact hfar s hfs _ _ e')
      (by
        intro k l e
        rcases caseT k _ e with rfl | ⟨k', e'⟩
        · rw [hb'] at e; cases e; exact hst rfl
        · exact hfar t hft _ _ e')
      (by
        intro k l e
        rcases caseS k _ e with rfl | ⟨k', e'⟩
        · rfl
        · exact absurd e' (hfar t hft _ _))
      hax hnm
      (by
        intro x hx
        rcases hr with rfl | rfl | rfl
        · cases hx
        · cases hx; exact ⟨(hi.lt hb).1, .inl (by simp)⟩
        · cases hx; exact ⟨(hi.lt hb).2, .inl (by simp)⟩)
      (by
        intro x hx
        rcases hr with rfl | rfl | rfl
        · cases hx
        · cases hx; exact hS.leaf
        · cases hx; exact hT.leaf)
  have hperm : (backAxes a b i).Perm (List.range A.ndim) := by
    refine List.Perm.trans ?_ hp
    unfold backAxes
    conv_rhs => rw [← List.take_append_drop i a]
    rw [List.append_assoc, List.append_assoc]
    exact List.Perm.append_left _ List.perm_append_comm
  have hnd : (backAxes a b i).Nodup := hperm.nodup_iff.2 List.nodup_range
  have hlinks : ∀ n k, (backAxes a b i)[n]? = some k → h'.acc u n = h.acc self k := by
    intro n k e
    rcases u5 n k e with ⟨m, m1, m2⟩ | ⟨m, m1, m2⟩
    · rw [m2, accS m k m1]
    · rw [m2, accT m k m1]
  refine ⟨h', u, u1, u11, hperm, ⟨C, u3.array, u4.wf, u4.shape, ?_⟩, hlinks, ?_, ?_, ?_, u9, u2⟩
  · intro f hf
    rw [u4.get f (fun k hk => hf k (List.mem_range.1 (hperm.subset hk)))]
    exact hex _ (fun k hk => by simpa using hf k hk)
  · intro n hn
    by_contra hc
    have h2 := (u3.acc n).1 hc
    rw [u4.ndim, hperm.length_eq, List.length_range] at h2
    omega
  · intro x k l e
    have e' := hi0.sym _ _ _ _ e
    have hl : l < A.ndim := (hA.acc l).1 (by rw [e']; simp)
    have hm : l ∈ backAxes a b i := hperm.mem_iff.2 (List.mem_range.2 hl)
    have h3 := hlinks _ l ((idxOf_eq_iff hnd).1 ⟨hm, rfl⟩)
    rw [e'] at h3
    exact u2.sym _ _ _ _ h3
  · intro x k hx hxs hxl
    have e1 := oth x k hx hxs hxl
    have hxS : x ≠ s := by rcases hfs with rfl | q <;> [exact hxs; omega]
    have hxT : x ≠ t := by rcases hft with rfl | q <;> [exact hxs; omega]
    have hxu : x ≠ u := by
      rcases hr with rfl | rfl | rfl
      · rw [u10 rfl]
        have := (hi.lt hb).1
        have := (hi.lt hb).2
        rcases hfs with rfl | q
        · rcases hft with rfl | q'
          · exact absurd rfl hst
          · omega
        · omega
      · rw [u11 _ rfl]; exact hxS
      · rw [u11 _ rfl]; exact hxT
    rw [u6 x k hxS hxT hxu, e1]
    intro l
    rw [e1]
    constructor
    · intro e
      rcases hfs with rfl | q
      · exact hxl _ e
      · have := (hi0.lt e).2; omega
    · intro e
      rcases hft with rfl | q
      · exact hxl _ e
      · have := (hi0.lt e).2; omega

theorem perm_axes {n : ℕ} {l : List ℕ} (hl : l.Nodup) (hlt : ∀ x ∈ l, x < n) :
    (l ++ axes2Of n l).Perm (List.range n) := by
  rw [List.perm_ext_iff_of_nodup _ List.nodup_range]
  · intro k
    unfold axes2Of
    simp only [List.mem_append, List.mem_filter, List.mem_range, decide_eq_true_eq]
    constructor
    · rintro (q | q)
      · exact hlt k q
      · exact q.1
    · intro q
      by_cases hk : k ∈ l
      · exact .inl hk
      · exact .inr ⟨q, hk⟩
  · rw [List.nodup_append]
    refine ⟨hl, List.nodup_range.filter _, ?_⟩
    intro x hx y hy e
    subst e
    unfold axes2Of at hy
    simp at hy
    exact hy.2 hx

theorem sorted_lt_of_nodup {l : List ℕ} (hl : l.Nodup) : (l.insertionSort (· ≤ ·)).Pairwise (· < ·) := by
  have h1 : (l.insertionSort (· ≤ ·)).Pairwise (· ≤ ·) := List.pairwise_insertionSort (· ≤ ·) l
  have h2 : (l.insertionSort (· ≤ ·)).Nodup := (List.perm_insertionSort (· ≤ ·) l).nodup_iff.2 hl
  exact (h1.and h2).imp fun ⟨q1, q2⟩ => lt_of_le_of_ne q1 q2

/-- Everything about `split` then `unite`, for both call forms. -/
theorem back_full {csvd : Svd R} (hsv : SvdShape csvd) (hex : SvdExact csvd) {h : Heap R} {self : ℕ}
    {A : Nd R} (hi : h.LinkInv) (hA : h.Full self A) (ls : ∀ k l, h.acc self k ≠ some (self, l))
    (hlt0 : self < h.next) (hax : (h.node self).axis = none) {n1 n2 : List Char}
    (hn : splitNames (h.node self).name = .ok (n1, n2)) {axis : AxisArg} {indice : Option (ℕ × ℕ)}
    {i1 i2 : ℕ} (hnd : (axes1Of axis).Pairwise (· < ·)) (hlt : ∀ x ∈ axes1Of axis, x < A.ndim)
    (eidx : indiceOf axis indice = (i1, i2)) (h1 : i1 ≤ (axes1Of axis).length)
    (h2 : i2 ≤ (axes2Of A.ndim (axes1Of axis)).length) {child : Option ℕ}
    (hc : child = none ∨ child = some self) (nrm nrm' : Bool) :
    ∃ h' r c, h.split csvd self axis indice none child nrm = .ok (h', r, c) ∧
      h'.acc r i1 = some (c, i2) ∧ (child = some self → c = self) ∧
      (∀ root, root = none ∨ root = some r ∨ root = some c →
        (∃ h'' u, h'.unite r i1 root nrm' = .ok (h'', u) ∧ (∀ x, root = some x → u = x) ∧
          BackAs h h'' self u A (backAxes (axes1Of axis) (axes2Of A.ndim (axes1Of axis)) i1)) ∧
        ∃ h'' u, h'.unite c i2 root nrm' = .ok (h'', u) ∧ (∀ x, root = some x → u = x) ∧
          BackAs h h'' self u A (backAxes (axes2Of A.ndim (axes1Of axis)) (axes1Of axis) i2)) := by
  obtain ⟨n, hname⟩ : ∃ n, (h.node self).name = some n := by
    cases hq : (h.node self).name with
    | none => rw [hq] at hn; cases hn
    | some n => exact ⟨n, rfl⟩
  obtain ⟨h', r, c, ra, ca, d, φ, ψ, s1, s2, s3, s4, s5, s6, s7, s8, s9, -, s11, s12, s13, s14, s15, s16, s17,
    s18, s19, s20, s21, s22, s23⟩ :=
    split_full (axis := axis) (indice := indice) (root := none) (child := child) (nrm := nrm) hsv hi hA ls hax hn
      rfl rfl eidx hnd hlt h1 h2 (by intro x hx; cases hx)
      (by rcases hc with rfl | rfl
          · intro x hx; cases hx
          · intro x hx; cases hx; exact ⟨hlt0, .inl (by simp)⟩)
      (by simp) (by simp)
      (by rcases hc with rfl | rfl
          · intro x hx; cases hx
          · intro x hx; cases hx; exact hA.leaf)
  obtain ⟨r1, r2, r3, r4⟩ := s20 rfl
  have hcf : c = self ∨ h.next ≤ c := by
    rcases hc with rfl | rfl
    · exact .inr (s22 rfl).1
    · exact .inl (s23 _ rfl).1
  have hcn : ∃ nt, (h'.node c).name = some nt := by
    rcases hc with rfl | rfl
    · exact ⟨_, (s22 rfl).2.2.1⟩
    · obtain ⟨q1, -, q2, -⟩ := s23 _ rfl
      exact ⟨n, by rw [q2, q1, hname]⟩
  obtain ⟨nt, hcn⟩ := hcn
  have hrf : r = self ∨ h.next ≤ r := .inr (by omega)
  have hoth : ∀ x k, x < h.next → x ≠ self → (∀ l, h.acc x k ≠ some (self, l)) → h'.acc x k = h.acc x k := by
    intro x k hx hxs hxl
    refine s15 x k hxs (by omega) ?_ hxl
    rcases hcf with rfl | q
    · exact hxs
    · omega
  have hp := perm_axes (hnd.imp fun h => Nat.ne_of_lt h) hlt
  refine ⟨h', r, c, s1, s11, fun hq => (s23 _ hq).1, fun root hroot => ⟨?_, ?_⟩⟩
  · exact backAs_core hi hA ls s2 s4 s5 s3 hp h1 h2 s7 s8 (s9 hex) s11 s12 s13 hrf hcf hoth (.inl s17) r3 hcn
      hroot
  · refine backAs_core hi hA ls s2 s5 s4 s3.symm (List.perm_append_comm.trans hp) h2 h1 s8 s7 ?_
      (s2.sym _ _ _ _ s11) s13 s12 hcf hrf hoth (.inr s17) hcn r3 ?_
    · intro f hf
      rw [← s9 hex f hf]
      exact Finset.sum_congr rfl fun z _ => mul_comm _ _
    · rcases hroot with q | q | q
      · exact .inl q
      · exact .inr (.inr q)
      · exact .inr (.inl q)

/-- **C09.** Split a tensor without normalization axis, whose axes are all linked and not to itself,
by an exact decomposition, at any list of different axes with the bond at any positions `(i1, i2)`,
the second part either new or kept in place. Then unite along the bond, from either part, into a new
tensor or into either part. The result has the old entries and neighbours: its axes are the old ones
in the order: the axes of the part it is called on, with those of the other part at the place of the
bond. -/
theorem C09_unite_split {csvd : Svd R} (hsv : SvdShape csvd) (hex : SvdExact csvd) {h : Heap R} {self : ℕ}
    {A : Nd R} (hi : h.LinkInv) (hA : h.Full self A) (ls : ∀ k l, h.acc self k ≠ some (self, l))
    (hlt0 : self < h.next) (hax : (h.node self).axis = none) {n1 n2 : List Char}
    (hn : splitNames (h.node self).name = .ok (n1, n2)) {l : List ℕ} (hl : l.Nodup)
    (hlt : ∀ x ∈ l, x < A.ndim) {i1 i2 : ℕ} (h1 : i1 ≤ l.length) (h2 : i2 ≤ A.ndim - l.length)
    {child : Option ℕ} (hc : child = none ∨ child = some self) (nrm nrm' : Bool) :
    ∃ h' r c, h.split csvd self (.many l) (some (i1, i2)) none child nrm = .ok (h', r, c) ∧
      h'.acc r i1 = some (c, i2) ∧
      ∀ root, root = none ∨ root = some r ∨ root = some c →
        ∀ first rest, first = l.insertionSort (· ≤ ·) → rest = (List.range A.ndim).filter (· ∉ l) →
        (∃ h'' u, h'.unite r i1 root nrm' = .ok (h'', u) ∧ (∀ x, root = some x → u = x) ∧
          BackAs h h'' self u A (first.take i1 ++ rest ++ first.drop i1)) ∧
        ∃ h'' u, h'.unite c i2 root nrm' = .ok (h'', u) ∧ (∀ x, root = some x → u = x) ∧
          BackAs h h'' self u A (rest.take i2 ++ first ++ rest.drop i2) := by
  have hps := List.perm_insertionSort (· ≤ ·) l
  have hlen : (axes2Of A.ndim (l.insertionSort (· ≤ ·))).length = A.ndim - l.length := by
    have := (perm_axes (n := A.ndim) (l := l.insertionSort (· ≤ ·)) (hps.nodup_iff.2 hl)
      (fun x hx => hlt x (hps.subset hx))).length_eq
    rw [List.length_append, List.length_range, hps.length_eq] at this
    omega
  obtain ⟨h', r, c, e1, e2, -, e3⟩ := back_full (axis := .many l) (indice := some (i1, i2)) (i1 := i1) (i2 := i2) hsv hex
    hi hA ls hlt0 hax hn (sorted_lt_of_nodup hl) (fun x hx => hlt x (hps.subset hx)) rfl
    (by simp only [axes1Of]; rw [hps.length_eq]; exact h1) (by simp only [axes1Of]; rw [hlen]; exact h2) hc nrm nrm'
  refine ⟨h', r, c, e1, e2, fun root hroot first rest hf hrest => ?_⟩
  obtain ⟨g1, g2⟩ := e3 root hroot
  have hr2 : rest = axes2Of A.ndim (axes1Of (.many l)) := by
    rw [hrest]; unfold axes2Of axes1Of
    refine List.filter_congr fun k _ => ?_
    simp only [hps.mem_iff]
  subst hf
  rw [hr2]
  exact ⟨g1, g2⟩

/-- **C09, one axis.** Splitting at one axis `i` with the second part kept in place, then uniting
the tensor with the new part along `i`, back in place: the very same array and the very same links. -/
theorem C09_in_place {csvd : Svd R} (hsv : SvdShape csvd) (hex : SvdExact csvd) {h : Heap R} {self : ℕ}
    {A : Nd R} (hi : h.LinkInv) (hA : h.Full self A) (ls : ∀ k l, h.acc self k ≠ some (self, l))
    (hlt0 : self < h.next) (hax : (h.node self).axis = none) {n1 n2 : List Char}
    (hn : splitNames (h.node self).name = .ok (n1, n2)) {i : ℕ} (hin : i < A.ndim) (nrm nrm' : Bool) :
    ∃ h' r h'', h.split csvd self (.one i) none none (some self) nrm = .ok (h', r, self) ∧
      h'.unite self i (some self) nrm' = .ok (h'', self) ∧ h''.array self = some A ∧
      (∀ x k, x < h.next → h''.acc x k = h.acc x k) ∧ (h''.node self).axis = none := by
  obtain ⟨h', r, c, e1, e2, e2', e3⟩ := back_full (axis := .one i) (indice := none) (i1 := 0) (i2 := i)
    (child := some self) hsv hex hi hA ls hlt0 hax hn (by simp [axes1Of]) (by simpa [axes1Of] using hin) rfl
    (by simp) (by simp only [axes1Of]; rw [length_axes2_one hin]; omega) (.inr rfl) nrm nrm'
  obtain rfl := e2' rfl
  obtain ⟨-, h'', u, g1, gu, g2⟩ := e3 (some c) (.inr (.inr rfl))
  obtain rfl := gu c rfl
  obtain ⟨-, a2⟩ := axes2Of_append (n := A.ndim) (i := i) (P := []) hin (by simp)
  simp only [List.nil_append, List.not_mem_nil, not_false_eq_true, decide_true, List.filter_true] at a2
  have hπ : backAxes (axes2Of A.ndim (axes1Of (.one i))) (axes1Of (.one i)) i = List.range A.ndim := by
    unfold backAxes axes1Of
    rw [a2, range_split hin]
    simp
  rw [hπ] at g2
  obtain ⟨C, c1, c2, c3, c4⟩ := g2.array
  have hCA : C = A := Nd.Lab.ext List.nodup_range ⟨c2, c3, fun f hf => c4 f fun k hk => hf k (List.mem_range.2 hk)⟩
    (Nd.Lab.self hA.wf)
  refine ⟨h', r, h'', e1, g1, by rw [c1, hCA], ?_, g2.axis⟩
  intro x k hx
  by_cases hxs : x = u
  · subst hxs
    by_cases hk : k < A.ndim
    · exact g2.links k k (by simp [hk])
    · rw [g2.only k (by omega)]
      by_contra hne
      exact hk ((hA.acc k).1 (Ne.symm hne))
  · by_cases hl : ∀ l, h.acc x k ≠ some (u, l)
    · exact g2.other x k hx hxs hl
    · push Not at hl
      obtain ⟨l, hl⟩ := hl
      have : l < A.ndim := (hA.acc l).1 (by rw [hi.sym _ _ _ _ hl]; simp)
      rw [g2.back x k l hl, hl]
      have h3 : (List.range A.ndim).idxOf l = l :=
        ((idxOf_eq_iff List.nodup_range).2 (by simp [this])).2
      rw [h3]

/-! Instance: the first tensor of `exTwo` split at axis 0, and at both orders of the bond. -/

example : ∃ h' r h'', exTwo.split trivialSvd 0 (.one 0) none none (some 0) false = .ok (h', r, 0) ∧
    h'.unite 0 0 (some 0) false = .ok (h'', 0) ∧ h''.array 0 = some ⟨[2, 2], [1, 2, 3, 4]⟩ ∧
    (∀ x k, x < 4 → h''.acc x k = exTwo.acc x k) ∧ (h''.node 0).axis = none := by
  obtain ⟨A, hA⟩ := exTwo_full.1
  have e : A = ⟨[2, 2], [1, 2, 3, 4]⟩ := by have := hA.array; cases this; rfl
  subst e
  exact C09_in_place trivialSvd_shape trivialSvd_exact exTwo_ttn.links hA
    (fun k l q => (exTwo_ttn.isNet.simple 0 (by decide) k 0 l q (by decide)).1 rfl) (by decide) rfl
    (n1 := ['a', '\'']) (n2 := ['a']) rfl (by decide) false false

/-- Uniting from the split-off part instead transposes the array. -/
example : ((exTwo.split trivialSvd 0 (.many [1]) (some (1, 0)) none none false).toOption.bind fun x =>
    (x.1.unite x.2.1 1 none).toOption.bind fun y => y.1.array y.2) = some ⟨[2, 2], [1, 3, 2, 4]⟩ := by
  decide +kernel

end Heap
