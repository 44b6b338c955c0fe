import Verif.Lemmas.TermVisitor
import Verif.Props.C14
import Verif.Nd.AddLemmas

/-!
`MultiLayer.matrix_element`, `expection` and `dense_hamiltonian`.
-/

open scoped BigOperators
open Py

namespace Heap

variable {R : Type} [CommRing R]

section
variable [StarRing R]

/-- `partial_env` changes caches only. -/
theorem partialEnv_core (fuel : ℕ) (h : Heap R) (t : ℕ) (i : Option ℕ) (ua : Bool) {h' : Heap R} {ans : Option (Nd R)}
    (e : partialEnv fuel h t i ua = .ok (h', ans)) : SameCore h' h := by
  induction fuel generalizing h t i h' ans with
  | zero => cases e
  | succ f ih =>
    rw [partialEnv_succ] at e
    split at e
    · cases e; exact SameCore.rfl' _
    · split at e
      · cases e; exact SameCore.rfl' _
      · obtain ⟨s, e1, e2⟩ := bind_eq_ok.1 e
        obtain ⟨v, e3, e4⟩ := bind_eq_ok.1 e2
        have hfold : ∀ (l : List (ℕ × ℕ × ℕ)) (x s : Heap R × List (ℕ × Option (Nd R))),
            l.foldlM (envStep f ua) x = .ok s → SameCore s.1 x.1 := by
          intro l
          induction l with
          | nil => intro x s e; cases e; exact SameCore.rfl' _
          | cons y l ihl =>
            intro x s e
            rw [List.foldlM_cons] at e
            obtain ⟨x', e5, e6⟩ := bind_eq_ok.1 e
            refine (ihl x' s e6).trans ?_
            unfold envStep at e5
            obtain ⟨z, e7, e8⟩ := bind_eq_ok.1 e5
            cases e8
            exact ih _ _ _ e7
        refine SameCore.trans ?_ (hfold _ _ _ e1)
        have e4' := congrArg Prod.fst (Except.ok.inj e4)
        simp only at e4'
        rw [← e4']
        unfold envStore
        cases i with
        | none => exact SameCore.rfl' _
        | some k =>
          cases ua with
          | true => exact SameCore.rfl' _
          | false =>
            simp only [Bool.false_eq_true, if_false]
            refine ⟨rfl, fun u => ?_⟩
            simp only [Heap.upd]
            split <;> rfl

end

theorem edges_src_mem {h : Heap R} {r : ℕ} {F : Forest} (ht : h.IsTTN r F) {e : ℕ × ℕ × ℕ × ℕ} (he : e ∈ F.edges r) :
    e.1 ∈ h.tensors r F :=
  mem_tensors.2 ⟨(TreeSum.edges_mem he).1, Forest.edges_src_leaf ht.leaf ht.tree.leafEnd (k := e.2.1) (y := e.2.2.1) (l := e.2.2.2) he⟩

theorem Sim2.hdim {h h' : Heap R} (e : Sim2 h h') {t : ℕ} (hl : h.isLeaf t = false) (k : ℕ) :
    h.hdim (t, k) = h'.hdim (t, k) := by
  unfold Heap.hdim; simp only [e.array hl]

theorem Sim2.leafList {h h' : Heap R} (e : Sim2 h h') {r : ℕ} {F : Forest} (ht : h.IsTTN r F) :
    h.leafList r F = h'.leafList r F := by
  unfold Heap.leafList
  have : h.isLeaf = h'.isLeaf := funext e.isLeaf
  rw [this]
  refine List.map_congr_left fun x hx => ?_
  rw [e.hdim (mem_tensors.1 (edges_src_mem ht (List.mem_filter.1 hx).1)).2]

theorem Sim2.treeAmp {h h' : Heap R} (e : Sim2 h h') {r : ℕ} {F : Forest} (ht : h.IsTTN r F) (x : ℕ → ℕ) :
    h'.treeAmp r F x = h.treeAmp r F x :=
  treeAmp_congr_on ht (fun t hm => (e.array (mem_tensors.1 hm).2).symm) (fun t k => (e.acc t k).symm)
    (fun t => (e.isLeaf t).symm) x

theorem Sim2.bra [StarRing R] {h h' : Heap R} (e : Sim2 h h')
    (ha : ∀ t, h.isLeaf t = false → (h.node t).aux = (h'.node t).aux) : Sim2 (h.braNet true) (h'.braNet true) := by
  refine ⟨e.1, fun t => ?_⟩
  have h1 := e.2 t
  have h2 := e.isLeaf t
  have h3 := ha t
  unfold Heap.isLeaf at h2 h3
  simp only [noOps, noAux, braNet, Node.mk.injEq, if_true] at h1 ⊢
  cases h4 : (h'.node t).isLeaf with
  | true => rw [h4] at h2; simp_all
  | false => rw [h4] at h2; simp_all

theorem SameCore.noAux {h h' : Heap R} (e : SameCore h h') : Sim noAux h h' :=
  ⟨e.1, fun t => by
    have := congrArg (fun n : Node R => Heap.noAux n) (e.2 t)
    exact this⟩

theorem setAux_noAux (h : Heap R) (l : ℕ) (x : Option (Nd R)) : Sim noAux (h.setAux l x) h := by
  refine ⟨rfl, fun u => ?_⟩
  unfold setAux
  rw [node_upd]
  split
  · rename_i q; subst q; rfl
  · rfl

/-- A sum over leaf indices as a sum over one index. -/
theorem sumLeaves_sumIdx (L : List (ℕ × ℕ)) (g : (ℕ → ℕ) → R) (x : ℕ → ℕ) :
    sumLeaves L g x = sumIdx (L.map Prod.snd) fun idx => g (leafPoint L idx x) := by
  induction L generalizing x with
  | nil => simp [sumLeaves, leafPoint]
  | cons p L ih =>
    obtain ⟨l, n⟩ := p
    simp only [sumLeaves, List.map_cons, sumIdx]
    exact Finset.sum_congr rfl fun v _ => by rw [ih]; rfl

theorem sumLeaves_range (L : List (ℕ × ℕ)) (g : (ℕ → ℕ) → R) (x : ℕ → ℕ) :
    sumLeaves L g x = ∑ k ∈ Finset.range (L.map Prod.snd).prod, g (leafPoint L (unravel (L.map Prod.snd) k) x) := by
  rw [sumLeaves_sumIdx, sumIdx_eq_sum_range]

theorem leafPoint_notMem {L : List (ℕ × ℕ)} {l : ℕ} (hl : l ∉ L.map Prod.fst) (idx : List ℕ) (x : ℕ → ℕ) :
    leafPoint L idx x l = x l := by
  induction L generalizing idx x with
  | nil => cases idx <;> rfl
  | cons p L ih =>
    rw [List.map_cons, List.mem_cons, not_or] at hl
    cases idx with
    | nil => rfl
    | cons i idx =>
      obtain ⟨q, n⟩ := p
      show leafPoint L idx (Nd.upd x q i) l = _
      rw [ih hl.2]
      exact if_neg hl.1

/-- The value of a function of the leaf indices of two points, leaf by leaf. -/
theorem leafPoint_map {α : Type} {L : List (ℕ × ℕ)} (hL : (L.map Prod.fst).Nodup) (f : ℕ → ℕ → ℕ → α) {I J : List ℕ}
    (hI : I.length = L.length) (hJ : J.length = L.length) (x y : ℕ → ℕ) :
    (L.map Prod.fst).map (fun l => f l (leafPoint L I x l) (leafPoint L J y l)) =
      List.zipWith (fun p q : ℕ × ℕ => f p.1 q.1 q.2) L (List.zip I J) := by
  induction L generalizing I J x y with
  | nil => simp
  | cons p L ih =>
    obtain ⟨l, n⟩ := p
    rw [List.map_cons, List.nodup_cons] at hL
    cases I with
    | nil => simp at hI
    | cons i I =>
    cases J with
    | nil => simp at hJ
    | cons j J =>
    simp only [List.map_cons, List.zip_cons_cons, List.zipWith_cons_cons, leafPoint]
    rw [ih hL.2 (by simpa using hI) (by simpa using hJ), leafPoint_notMem hL.1, leafPoint_notMem hL.1]
    simp [Nd.upd]

end Heap

namespace Nd

variable {R : Type} [CommRing R]

theorem kron_shape (a b : Nd R) : (a.kron b).shape = [a.dim 0 * b.dim 0, a.dim 1 * b.dim 1] := rfl

theorem kron_wf (a b : Nd R) : (a.kron b).Wf := by unfold kron; exact ofFn_wf _ _

theorem kron_get {a b : Nd R} {m n p q : ℕ} (ha : a.shape = [m, n]) (hb : b.shape = [p, q]) {i j k l : ℕ} (hi : i < m)
    (hj : j < n) (hk : k < p) (hl : l < q) : (a.kron b).get [i * p + k, j * q + l] = a.get [i, j] * b.get [k, l] := by
  have d1 : a.dim 0 = m := by unfold dim; rw [ha]; rfl
  have d2 : a.dim 1 = n := by unfold dim; rw [ha]; rfl
  have d3 : b.dim 0 = p := by unfold dim; rw [hb]; rfl
  have d4 : b.dim 1 = q := by unfold dim; rw [hb]; rfl
  unfold kron
  rw [d1, d2, d3, d4]
  refine (get_ofFn _ ?_).trans ?_
  · refine List.Forall₂.cons ?_ (List.Forall₂.cons ?_ List.Forall₂.nil)
    · calc i * p + k < i * p + p := by omega
        _ = (i + 1) * p := by ring
        _ ≤ m * p := Nat.mul_le_mul_right _ hi
    · calc j * q + l < j * q + q := by omega
        _ = (j + 1) * q := by ring
        _ ≤ n * q := Nat.mul_le_mul_right _ hj
  · have e : ∀ x y : ℕ, ([x, y] : List ℕ).getD 0 0 = x ∧ ([x, y] : List ℕ).getD 1 0 = y := fun x y => ⟨rfl, rfl⟩
    simp only [e]
    have e1 : (i * p + k) / p = i := by
      rw [Nat.mul_comm, Nat.mul_add_div (by omega), Nat.div_eq_of_lt hk, Nat.add_zero]
    have e2 : (j * q + l) / q = j := by
      rw [Nat.mul_comm, Nat.mul_add_div (by omega), Nat.div_eq_of_lt hl, Nat.add_zero]
    have e3 : (i * p + k) % p = k := by rw [Nat.mul_comm, Nat.mul_add_mod, Nat.mod_eq_of_lt hk]
    have e4 : (j * q + l) % q = l := by rw [Nat.mul_comm, Nat.mul_add_mod, Nat.mod_eq_of_lt hl]
    rw [e1, e2, e3, e4]

theorem kron_fold (m : ℕ × ℕ → Nd R) (L : List (ℕ × ℕ)) (hm : ∀ p ∈ L, (m p).shape = [p.2, p.2]) (M : Nd R) {P : ℕ}
    (hM : M.shape = [P, P]) (hMw : M.Wf) :
    (L.foldl (fun h p => h.kron (m p)) M).shape = [P * (L.map Prod.snd).prod, P * (L.map Prod.snd).prod] ∧
      (L.foldl (fun h p => h.kron (m p)) M).Wf ∧
      ∀ a < P, ∀ b < P, ∀ I J, Valid (L.map Prod.snd) I → Valid (L.map Prod.snd) J →
        (L.foldl (fun h p => h.kron (m p)) M).get [a * (L.map Prod.snd).prod + ravel (L.map Prod.snd) I,
          b * (L.map Prod.snd).prod + ravel (L.map Prod.snd) J] =
        M.get [a, b] * (List.zipWith (fun p q : ℕ × ℕ => (m p).get [q.1, q.2]) L (List.zip I J)).prod := by
  induction L generalizing M P with
  | nil =>
    refine ⟨by simpa using hM, hMw, fun a _ b _ I J hI hJ => ?_⟩
    simp [ravel]
  | cons p L ih =>
    have hp := hm p (by simp)
    have d3 : (m p).dim 0 = p.2 := by unfold dim; rw [hp]; rfl
    have d4 : (m p).dim 1 = p.2 := by unfold dim; rw [hp]; rfl
    have d1 : M.dim 0 = P := by unfold dim; rw [hM]; rfl
    have d2 : M.dim 1 = P := by unfold dim; rw [hM]; rfl
    have hsh : (M.kron (m p)).shape = [P * p.2, P * p.2] := by rw [kron_shape, d1, d2, d3, d4]
    obtain ⟨i1, i2, i3⟩ := ih (fun q hq => hm q (by simp [hq])) (M.kron (m p)) hsh (kron_wf _ _)
    refine ⟨?_, i2, fun a ha b hb I J hI hJ => ?_⟩
    · rw [List.foldl_cons, i1, List.map_cons, List.prod_cons, Nat.mul_assoc]
    · obtain ⟨i, is, rfl, hi, his⟩ := valid_cons_iff.1 hI
      obtain ⟨j, js, rfl, hj, hjs⟩ := valid_cons_iff.1 hJ
      rw [List.foldl_cons]
      have key : ∀ c k (ks : List ℕ), c * ((p :: L).map Prod.snd).prod + ravel ((p :: L).map Prod.snd) (k :: ks) =
          (c * p.2 + k) * (L.map Prod.snd).prod + ravel (L.map Prod.snd) ks := by
        intro c k ks
        rw [List.map_cons, List.prod_cons]
        show _ + (k * (L.map Prod.snd).prod + ravel (L.map Prod.snd) ks) = _
        ring
      have hlt : ∀ c k, c < P → k < p.2 → c * p.2 + k < P * p.2 := fun c k hc hk =>
        calc c * p.2 + k < c * p.2 + p.2 := by omega
          _ = (c + 1) * p.2 := by ring
          _ ≤ P * p.2 := Nat.mul_le_mul_right _ hc
      rw [key, key, i3 _ (hlt a i ha hi) _ (hlt b j hb hj) is js his hjs, kron_get hM hp ha hb hi hj]
      simp only [List.zip_cons_cons, List.zipWith_cons_cons, List.prod_cons]
      ring

end Nd

namespace ML

open Heap

variable {T R : Type} [Zero T] [CommRing R]

theorem termMat_eq (term : Term T R) (l d : ℕ) : termMat term l d = (opOn 0 term l).getD (Nd.identity d) := by
  have key : ∀ dct : Dict ℕ (TermOp T R), ((term.foldl (fun (dct : Dict ℕ (TermOp T R)) p => dct.set p.1 p.2) dct).get? l).map (TermOp.at 0)
      = term.foldl (fun acc p => if p.1 = l then some (p.2.at 0) else acc) ((dct.get? l).map (TermOp.at 0)) := by
    induction term with
    | nil => intro dct; rfl
    | cons p term ih =>
      intro dct
      rw [List.foldl_cons, List.foldl_cons, ih, Dict.get?_set]
      congr 1
      split <;> simp
  have h1 := key []
  unfold termMat opOn
  have h2 : ((Dict.get? ([] : Dict ℕ (TermOp T R)) l).map (TermOp.at 0)) = none := rfl
  rw [h2] at h1
  rw [← h1]
  cases (term.foldl (fun (dct : Dict ℕ (TermOp T R)) p => dct.set p.1 p.2) ([] : Dict ℕ (TermOp T R))).get? l <;> rfl

theorem opOn_mat {term : Term T R} (hm : ∀ p ∈ term, ∃ a, p.2 = TermOp.mat a) (t t' : T) (l : ℕ) :
    opOn t term l = opOn t' term l := by
  unfold opOn
  have : ∀ acc : Option (Nd R), term.foldl (fun acc p => if p.1 = l then some (p.2.at t) else acc) acc =
      term.foldl (fun acc p => if p.1 = l then some (p.2.at t') else acc) acc := by
    induction term with
    | nil => intro acc; rfl
    | cons p term ih =>
      intro acc
      obtain ⟨a, ha⟩ := hm p (by simp)
      rw [List.foldl_cons, List.foldl_cons, ih fun q hq => hm q (by simp [hq]), ha]
      rfl
  exact this none

theorem identity_get {n i j : ℕ} (hi : i < n) (hj : j < n) : (Nd.identity n : Nd R).get [i, j] = if i = j then 1 else 0 := by
  unfold Nd.identity
  refine (Nd.get_ofFn _ ?_).trans rfl
  exact List.Forall₂.cons hi (List.Forall₂.cons hj List.Forall₂.nil)

/-- The dense matrix of one term. -/
theorem denseTerm_spec {L : List (ℕ × ℕ)} (hL : (L.map Prod.fst).Nodup) {term : Term T R}
    (ho : ∀ p ∈ L, OpFits (opOn 0 term p.1) p.2 p.2) :
    (denseTerm L term).shape = [(L.map Prod.snd).prod, (L.map Prod.snd).prod] ∧ (denseTerm L term).Wf ∧
      ∀ i < (L.map Prod.snd).prod, ∀ j < (L.map Prod.snd).prod, (denseTerm L term).get [i, j] =
        ((L.map Prod.fst).map fun l => opEntry (opOn 0 term l)
          (leafPoint L (unravel (L.map Prod.snd) i) (fun _ => 0) l)
          (leafPoint L (unravel (L.map Prod.snd) j) (fun _ => 0) l)).prod := by
  have hm : ∀ p ∈ L, (termMat term p.1 p.2).shape = [p.2, p.2] := by
    intro p hp
    have h1 := ho p hp
    rw [termMat_eq]
    unfold OpFits at h1
    cases h2 : opOn 0 term p.1 with
    | none => rfl
    | some M => rw [h2] at h1; exact h1.2
  obtain ⟨k1, k2, k3⟩ := Nd.kron_fold (fun p => termMat term p.1 p.2) L hm ⟨[1, 1], [1]⟩ (P := 1) rfl (by simp [Nd.Wf])
  refine ⟨by unfold denseTerm; rw [k1]; simp, k2, fun i hi j hj => ?_⟩
  have hvi := valid_unravel hi
  have hvj := valid_unravel hj
  have h1 := k3 0 (by omega) 0 (by omega) _ _ hvi hvj
  rw [ravel_unravel hi, ravel_unravel hj] at h1
  simp only [Nat.zero_mul, Nat.zero_add] at h1
  have h0 : (⟨[1, 1], [1]⟩ : Nd R).get [0, 0] = 1 := rfl
  rw [h0, one_mul] at h1
  unfold denseTerm
  rw [h1, leafPoint_map hL (fun l a b => opEntry (opOn 0 term l) a b) (by rw [hvi.length_eq, List.length_map])
    (by rw [hvj.length_eq, List.length_map])]
  congr 1
  -- entry by entry
  have key : ∀ (L : List (ℕ × ℕ)), (∀ p ∈ L, OpFits (opOn 0 term p.1) p.2 p.2) → ∀ I J : List ℕ, Valid (L.map Prod.snd) I →
      Valid (L.map Prod.snd) J →
      List.zipWith (fun p q : ℕ × ℕ => (termMat term p.1 p.2).get [q.1, q.2]) L (List.zip I J) =
        List.zipWith (fun p q : ℕ × ℕ => opEntry (opOn 0 term p.1) q.1 q.2) L (List.zip I J) := by
    intro L
    induction L with
    | nil => intro _ I J _ _; simp
    | cons p L ih =>
      intro ho I J hI hJ
      obtain ⟨i, is, rfl, hi, his⟩ := valid_cons_iff.1 hI
      obtain ⟨j, js, rfl, hj, hjs⟩ := valid_cons_iff.1 hJ
      simp only [List.zip_cons_cons, List.zipWith_cons_cons]
      rw [ih (fun q hq => ho q (by simp [hq])) is js his hjs]
      congr 1
      rw [termMat_eq]
      cases opOn 0 term p.1 with
      | none => simp only [Option.getD_none, opEntry]; exact identity_get hi hj
      | some M => rfl
  exact key L ho _ _ hvi hvj

theorem leafDim_ok {h : Heap R} {r : ℕ} {F : Forest} (ht : h.IsTTN r F)
    (hz : ∀ e ∈ F.edges r, h.isLeaf e.2.2.1 = true → e.2.2.2 = 0) {p : ℕ × ℕ} (hp : p ∈ h.leafList r F) :
    leafDim h p.1 = .ok p.2 := by
  unfold Heap.leafList at hp
  obtain ⟨e, he, rfl⟩ := List.mem_map.1 hp
  obtain ⟨he, hl⟩ := List.mem_filter.1 he
  have h1 := (ht.isLink_edge he).2
  rw [hz e he hl] at h1
  obtain ⟨A, hA⟩ := ht.full _ (edges_src_mem ht he)
  have h2 := (ht.isLink_edge he).1
  have hlt : e.2.1 < A.ndim := by
    by_contra q
    have := (hA.acc e.2.1).1
    by_cases h3 : h.acc e.1 e.2.1 = none
    · rw [h3] at h2; cases h2
    · exact q (this h3)
  unfold leafDim
  have e1 : (h.access e.2.2.1).get! 0 = .ok (e.1, e.2.1) := by
    unfold Dict.get!
    have : Dict.get? (h.access e.2.2.1) 0 = some (e.1, e.2.1) := h1
    rw [this]
  simp only [e1, bind, Except.bind]
  unfold shapeAt
  rw [hA.array]
  simp only
  have hlt' : e.2.1 < A.shape.length := hlt
  rw [List.getElem?_eq_getElem hlt']
  simp only [hA.hdim_eq]
  rw [List.getD_eq_getElem _ _ hlt']

theorem mapM_pair {f : ℕ → Res ℕ} {L : List (ℕ × ℕ)} (h : ∀ p ∈ L, f p.1 = .ok p.2) :
    ((L.map Prod.fst).mapM fun l => do pure (l, ← f l) : Res (List (ℕ × ℕ))) = .ok L := by
  induction L with
  | nil => rfl
  | cons p L ih =>
    rw [List.map_cons, List.mapM_cons, h p (by simp), ih fun q hq => h q (by simp [hq])]
    rfl

/-- `dense_hamiltonian()`. -/
theorem denseHamiltonian_ok [StarRing R] {s : Obj T R} {F : Forest} (ht : s.heap.IsTTN s.root F)
    (hax : (s.heap.node s.root).axis = none) (hz : ∀ e ∈ F.edges s.root, s.heap.isLeaf e.2.2.1 = true → e.2.2.2 = 0)
    (hfl : s.fList = none) (hne : s.hList ≠ [])
    (ho : ∀ term ∈ s.hList, ∀ p ∈ s.heap.leafList s.root F, OpFits (opOn 0 term p.1) p.2 p.2) {fuel : ℕ} (hf : F.depth < fuel) :
    ∃ H, denseHamiltonian fuel s = .ok (some H) ∧ H.Wf ∧
      H.shape = [s.heap.stateDim s.root F, s.heap.stateDim s.root F] ∧
      ∀ i < s.heap.stateDim s.root F, ∀ j < s.heap.stateDim s.root F, H.get [i, j] =
        (s.hList.map fun term => (denseTerm (s.heap.leafList s.root F) term).get [i, j]).sum := by
  set L := s.heap.leafList s.root F with hLdef
  have hnd : (L.map Prod.fst).Nodup := leafList_nodup ht
  have e1 : s.heap.leaves fuel s.root = .ok (L.map Prod.fst) := by rw [leaves_tree ht hax hf, leafList_fst]
  have e2 := mapM_pair (f := leafDim s.heap) (L := L) (fun p hp => leafDim_ok ht hz hp)
  have key : ∀ (l : List (Term T R)), (∀ term ∈ l, term ∈ s.hList) → ∀ M : Nd R, M.Wf →
      M.shape = [(L.map Prod.snd).prod, (L.map Prod.snd).prod] →
      ∃ H, l.foldlM (fun (ans : Option (Nd R)) term => match ans with
        | none => (.ok (some (denseTerm L term)) : Res (Option (Nd R)))
        | some m => (m.add (denseTerm L term)).map some) (some M) = .ok (some H) ∧ H.Wf ∧ H.shape = M.shape ∧
        ∀ i < (L.map Prod.snd).prod, ∀ j < (L.map Prod.snd).prod, H.get [i, j] =
          M.get [i, j] + (l.map fun term => (denseTerm L term).get [i, j]).sum := by
    intro l
    induction l with
    | nil => intro _ M h1 h2; exact ⟨M, rfl, h1, rfl, by simp⟩
    | cons term l ih =>
      intro hl M h1 h2
      obtain ⟨d1, d2, -⟩ := denseTerm_spec hnd (ho term (hl term (by simp)))
      obtain ⟨c, c1, c2, c3, c4⟩ := Nd.add_ok h1 d2 (h2.trans d1.symm)
      obtain ⟨H, i1, i2, i3, i4⟩ := ih (fun t h => hl t (by simp [h])) c c2 (c3.trans h2)
      refine ⟨H, ?_, i2, i3.trans c3, fun i hi j hj => ?_⟩
      · rw [List.foldlM_cons]
        simp only [c1]
        exact i1
      · rw [i4 i hi j hj, c4 [i, j] (by
          rw [h2]; exact List.Forall₂.cons hi (List.Forall₂.cons hj List.Forall₂.nil)), List.map_cons, List.sum_cons, add_assoc]
  unfold denseHamiltonian
  rw [hfl]
  simp only [Option.isSome_none, Bool.false_eq_true, if_false, bind, Except.bind, pure, Except.pure]
  rw [e1]
  simp only [bind, Except.bind, pure, Except.pure] at e2
  simp only [e2]
  cases hh : s.hList with
  | nil => exact absurd hh hne
  | cons term l =>
    obtain ⟨d1, d2, -⟩ := denseTerm_spec hnd (ho term (by simp [hh]))
    obtain ⟨H, i1, i2, i3, i4⟩ := key l (fun t h => by simp [hh, h]) (denseTerm L term) d2 d1
    refine ⟨H, ?_, i2, i3.trans d1, fun i hi j hj => ?_⟩
    · rw [List.foldlM_cons]
      exact i1
    · rw [i4 i hi j hj, List.map_cons, List.sum_cons]

end ML
