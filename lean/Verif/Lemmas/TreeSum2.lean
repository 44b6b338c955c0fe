import Verif.Lemmas.TreeSum

/-!
Contraction of two trees over their leaves: from the sum over all leaf indices of the product of the
two amplitudes to the recursive evaluation from the leaves up.
-/

open scoped BigOperators

namespace TreeSum

variable {R : Type} [CommRing R]

open Heap (Assign sumLeaves)

/-- `g` depends only on the leaves satisfying `S`. -/
def DepL (S : ℕ → Prop) (g : (ℕ → ℕ) → R) : Prop := ∀ x y : ℕ → ℕ, (∀ l, S l → x l = y l) → g x = g y

theorem DepL.mono {S S' : ℕ → Prop} {g : (ℕ → ℕ) → R} (h : DepL S g) (hS : ∀ l, S l → S' l) : DepL S' g :=
  fun x y e => h x y fun l hl => e l (hS l hl)

theorem sumLeaves_congr {L : List (ℕ × ℕ)} {g g' : (ℕ → ℕ) → R} {x : ℕ → ℕ} (h : ∀ y, g y = g' y) :
    sumLeaves L g x = sumLeaves L g' x := by rw [show g = g' from funext h]

theorem sumLeaves_append (L L' : List (ℕ × ℕ)) (g : (ℕ → ℕ) → R) (x : ℕ → ℕ) :
    sumLeaves (L ++ L') g x = sumLeaves L (sumLeaves L' g) x := by
  induction L generalizing x with
  | nil => rfl
  | cons p L ih => simp only [List.cons_append, sumLeaves, ih]

theorem sumLeaves_dep {L : List (ℕ × ℕ)} {g : (ℕ → ℕ) → R} {S : ℕ → Prop} (hg : DepL S g) :
    DepL S (sumLeaves L g) := by
  induction L with
  | nil => exact hg
  | cons p L ih =>
    intro x y h
    refine Finset.sum_congr rfl fun v _ => ih _ _ fun l hl => ?_
    unfold Nd.upd
    split
    · rfl
    · exact h l hl

theorem sumLeaves_mul_dep {L : List (ℕ × ℕ)} {c g : (ℕ → ℕ) → R} {S : ℕ → Prop} (hc : DepL S c)
    (hL : ∀ p ∈ L, ¬ S p.1) (x : ℕ → ℕ) :
    sumLeaves L (fun y => c y * g y) x = c x * sumLeaves L g x := by
  induction L generalizing x with
  | nil => rfl
  | cons p L ih =>
    simp only [sumLeaves, Finset.mul_sum]
    refine Finset.sum_congr rfl fun v _ => ?_
    rw [ih fun q hq => hL q (by simp [hq])]
    congr 1
    refine hc _ _ fun l hl => ?_
    rw [Nd.upd_ne _ _ (by rintro rfl; exact hL p (by simp) hl)]

theorem sumLeaves_mul_left (L : List (ℕ × ℕ)) (c : R) (g : (ℕ → ℕ) → R) (x : ℕ → ℕ) :
    sumLeaves L (fun y => c * g y) x = c * sumLeaves L g x :=
  sumLeaves_mul_dep (c := fun _ => c) (S := fun _ => False) (fun _ _ _ => rfl) (by simp) x

theorem sumLeaves_mul {L L' : List (ℕ × ℕ)} {g g' : (ℕ → ℕ) → R} {S S' : ℕ → Prop} (hg : DepL S g)
    (hg' : DepL S' g') (hL : ∀ p ∈ L, ¬ S' p.1) (hL' : ∀ p ∈ L', ¬ S p.1) (x : ℕ → ℕ) :
    sumLeaves (L ++ L') (fun y => g y * g' y) x = sumLeaves L g x * sumLeaves L' g' x := by
  rw [sumLeaves_append, sumLeaves_congr fun y => sumLeaves_mul_dep hg hL' y,
    sumLeaves_congr fun y => mul_comm _ _, sumLeaves_mul_dep (sumLeaves_dep hg') hL, mul_comm]

theorem sumLeaves_sum (L : List (ℕ × ℕ)) {ι : Type} (s : Finset ι) (g : ι → (ℕ → ℕ) → R) (x : ℕ → ℕ) :
    sumLeaves L (fun y => ∑ v ∈ s, g v y) x = ∑ v ∈ s, sumLeaves L (g v) x := by
  induction L generalizing x with
  | nil => rfl
  | cons p L ih => simp only [sumLeaves, ih]; exact Finset.sum_comm

theorem sumLeaves_sumOver {d : ℕ × ℕ → ℕ} (L : List (ℕ × ℕ)) (K : List (ℕ × ℕ)) (g : (ℕ → ℕ) → Assign → R)
    (x : ℕ → ℕ) (σ : Assign) :
    sumLeaves L (fun y => sumOver d K (fun σ' => g y σ') σ) x =
      sumOver d K (fun σ' => sumLeaves L (fun y => g y σ') x) σ := by
  induction K generalizing σ with
  | nil => rfl
  | cons p K ih => simp only [sumOver, sumLeaves_sum, ih]

/-- Sum over the leaf indices of both trees. -/
def sumLL (L L' : List (ℕ × ℕ)) (g : (ℕ → ℕ) → (ℕ → ℕ) → R) (x y : ℕ → ℕ) : R :=
  sumLeaves L (fun x => sumLeaves L' (fun y => g x y) y) x

theorem sumLL_congr {L L' : List (ℕ × ℕ)} {g g' : (ℕ → ℕ) → (ℕ → ℕ) → R} {x y : ℕ → ℕ}
    (h : ∀ x y, g x y = g' x y) : sumLL L L' g x y = sumLL L L' g' x y := by
  rw [show g = g' from funext fun x => funext fun y => h x y]

/-- `g` depends only on the leaves satisfying `S`, in both arguments. -/
def DepLL (S : ℕ → Prop) (g : (ℕ → ℕ) → (ℕ → ℕ) → R) : Prop :=
  ∀ x x' y y' : ℕ → ℕ, (∀ l, S l → x l = x' l) → (∀ l, S l → y l = y' l) → g x y = g x' y'

theorem sumLL_mul {L₁ L₂ L₁' L₂' : List (ℕ × ℕ)} {g g' : (ℕ → ℕ) → (ℕ → ℕ) → R} {S S' : ℕ → Prop}
    (hg : DepLL S g) (hg' : DepLL S' g') (h1 : ∀ p ∈ L₁, ¬ S' p.1) (h2 : ∀ p ∈ L₂, ¬ S p.1)
    (h1' : ∀ p ∈ L₁', ¬ S' p.1) (h2' : ∀ p ∈ L₂', ¬ S p.1) (x y : ℕ → ℕ) :
    sumLL (L₁ ++ L₂) (L₁' ++ L₂') (fun x y => g x y * g' x y) x y =
      sumLL L₁ L₁' g x y * sumLL L₂ L₂' g' x y := by
  unfold sumLL
  have e : ∀ x, sumLeaves (L₁' ++ L₂') (fun y => g x y * g' x y) y =
      sumLeaves L₁' (g x) y * sumLeaves L₂' (g' x) y := fun x =>
    sumLeaves_mul (S := S) (S' := S') (fun a b hab => hg x x a b (fun _ _ => rfl) hab)
      (fun a b hab => hg' x x a b (fun _ _ => rfl) hab) h1' h2' y
  rw [sumLeaves_congr e]
  refine sumLeaves_mul (S := S) (S' := S') ?_ ?_ h1 h2 x
  · intro a b hab
    exact sumLeaves_congr fun z => hg a b z z hab fun _ _ => rfl
  · intro a b hab
    exact sumLeaves_congr fun z => hg' a b z z hab fun _ _ => rfl

theorem sumLL_mul_left (L L' : List (ℕ × ℕ)) (c : R) (g : (ℕ → ℕ) → (ℕ → ℕ) → R) (x y : ℕ → ℕ) :
    sumLL L L' (fun x y => c * g x y) x y = c * sumLL L L' g x y := by
  unfold sumLL
  rw [sumLeaves_congr fun x => sumLeaves_mul_left L' c (g x) y, sumLeaves_mul_left]

theorem sumLL_sumOver {d : ℕ × ℕ → ℕ} (L L' K : List (ℕ × ℕ)) (g : Assign → (ℕ → ℕ) → (ℕ → ℕ) → R)
    (x y : ℕ → ℕ) (σ : Assign) :
    sumLL L L' (fun x y => sumOver d K (fun σ' => g σ' x y) σ) x y =
      sumOver d K (fun σ' => sumLL L L' (g σ') x y) σ := by
  unfold sumLL
  rw [sumLeaves_congr fun x => sumLeaves_sumOver (d := d) L' K (fun y σ' => g σ' x y) y σ, sumLeaves_sumOver]

/-- The leaves of a forest, with the dimension of the axis each is on. -/
def leafDims (lf : ℕ → Bool) (d : ℕ × ℕ → ℕ) (F : Forest) (a : ℕ) : List (ℕ × ℕ) :=
  ((F.edges a).filter fun e => lf e.2.2.1).map fun e => (e.2.2.1, d (e.1, e.2.1))

/-- The leaves of a forest. -/
def leavesOf (lf : ℕ → Bool) (F : Forest) : List ℕ := F.ids.filter fun t => lf t

theorem leafDims_fst {lf : ℕ → Bool} {d : ℕ × ℕ → ℕ} {F : Forest} {a : ℕ} {p : ℕ × ℕ}
    (hp : p ∈ leafDims lf d F a) : p.1 ∈ F.ids := by
  unfold leafDims at hp
  obtain ⟨e, he, rfl⟩ := List.mem_map.1 hp
  exact (edges_mem (List.mem_of_mem_filter he)).2

/-- The contraction of the branches `F` of two trees with operators `m` on the leaves, given the
indices of the axes of `a` in both trees: evaluated from the leaves up. -/
def envs (lf : ℕ → Bool) (d d' : ℕ × ℕ → ℕ) (ent ent' : ℕ → Assign → R) (m : ℕ → ℕ → ℕ → R) :
    Forest → ℕ → Assign → Assign → R
  | .nil, _, _, _ => 1
  | .cons i j id sub rest, a, σ, τ =>
    (if lf id then m id (σ (a, i)) (τ (a, i))
     else sumOver d (halfs id sub) (fun σ' => sumOver d' (halfs id sub) (fun τ' =>
       ent id σ' * envs lf d d' ent ent' m sub id σ' τ' * ent' id τ')
         (Nd.upd (fun _ => 0) (id, j) (τ (a, i)))) (Nd.upd (fun _ => 0) (id, j) (σ (a, i)))) *
      envs lf d d' ent ent' m rest a σ τ

/-- The environment of the branch at `id`, a matrix. -/
def envMat (lf : ℕ → Bool) (d d' : ℕ × ℕ → ℕ) (ent ent' : ℕ → Assign → R) (m : ℕ → ℕ → ℕ → R)
    (sub : Forest) (id j v w : ℕ) : R :=
  if lf id then m id v w
  else sumOver d (halfs id sub) (fun σ' => sumOver d' (halfs id sub) (fun τ' =>
       ent id σ' * envs lf d d' ent ent' m sub id σ' τ' * ent' id τ')
         (Nd.upd (fun _ => 0) (id, j) w)) (Nd.upd (fun _ => 0) (id, j) v)

theorem psi_depL (lf : ℕ → Bool) (d : ℕ × ℕ → ℕ) (ent : ℕ → Assign → R) (F : Forest) (a : ℕ) (σ : Assign) :
    DepL (· ∈ F.ids) fun x => psi lf d ent x F a σ := by
  induction F generalizing a σ with
  | nil => intro x y _; rfl
  | cons i j id sub rest ih1 ih2 =>
    intro x y h
    simp only [Forest.ids, List.cons_append, List.mem_cons, List.mem_append] at h
    simp only [psi]
    have h1 := fun σ => ih1 id σ x y fun l hl => h l (.inr (.inl hl))
    have h2 := ih2 a σ x y fun l hl => h l (.inr (.inr hl))
    simp only at h1 h2
    rw [h2]
    simp only [h1, h id (.inl rfl)]

theorem mprod_dep (m : ℕ → ℕ → ℕ → R) (L : List ℕ) :
    DepLL (· ∈ L) fun x y => (L.map fun l => m l (x l) (y l)).prod := by
  intro x x' y y' h h'
  exact congrArg List.prod (List.map_congr_left fun l hl => by rw [h l hl, h' l hl])

/-- The indices `σ` are in range on the half-edges of `a` towards `F`. -/
def InR (d : ℕ × ℕ → ℕ) (a : ℕ) (F : Forest) (σ : Assign) : Prop := ∀ p ∈ halfs a F, σ p < d p

theorem sum_psi_psi {lf : ℕ → Bool} {d d' : ℕ × ℕ → ℕ} {ent ent' : ℕ → Assign → R} {m : ℕ → ℕ → ℕ → R}
    {F : Forest} {a : ℕ} (hn : (a :: F.ids).Nodup) (hl : LeafNil lf F) {σ τ : Assign} (hσ : InR d a F σ)
    (hτ : InR d' a F τ) (x y : ℕ → ℕ) :
    sumLL (leafDims lf d F a) (leafDims lf d' F a) (fun x y =>
      psi lf d ent x F a σ * ((leavesOf lf F).map fun l => m l (x l) (y l)).prod * psi lf d' ent' y F a τ) x y =
      envs lf d d' ent ent' m F a σ τ := by
  induction F generalizing a σ τ x y with
  | nil => simp [leafDims, leavesOf, Forest.edges, Forest.ids, sumLL, sumLeaves, psi, envs]
  | cons i j id sub rest ih1 ih2 =>
    obtain ⟨l1, l2, l3⟩ := hl
    simp only [Forest.ids, List.cons_append, List.nodup_cons, List.mem_cons, List.mem_append, not_or,
      List.nodup_append] at hn
    obtain ⟨⟨m1, m2, m3⟩, ⟨m4, m5⟩, m6, m7, m8⟩ := hn
    have hrest : InR d a rest σ := fun p hp => hσ p (by simp [hp])
    have hrest' : InR d' a rest τ := fun p hp => hτ p (by simp [hp])
    have hs := hσ (a, i) (by simp)
    have ht := hτ (a, i) (by simp)
    have ihr := ih2 (List.nodup_cons.2 ⟨m3, m7⟩) l3 hrest hrest' x y
    have dr : DepLL (· ∈ rest.ids) (fun x y => psi lf d ent x rest a σ *
        ((leavesOf lf rest).map fun l => m l (x l) (y l)).prod * psi lf d' ent' y rest a τ) := by
      intro x x' y y' h h'
      have e1 := psi_depL lf d ent rest a σ x x' h
      have e2 := psi_depL lf d' ent' rest a τ y y' h'
      have e3 := mprod_dep m (leavesOf lf rest) x x' y y' (fun l hl => h l (List.mem_of_mem_filter hl))
        (fun l hl => h' l (List.mem_of_mem_filter hl))
      simp only at e1 e2 e3 ⊢
      rw [e1, e2, e3]
    cases hlf : lf id with
    | true =>
      obtain rfl := l1 hlf
      have ed : ∀ d, leafDims lf d (.cons i j id .nil rest) a = [(id, d (a, i))] ++ leafDims lf d rest a := by
        intro d; simp [leafDims, Forest.edges, hlf]
      have el : leavesOf lf (.cons i j id .nil rest) = id :: leavesOf lf rest := by
        simp [leavesOf, Forest.ids, hlf]
      rw [ed, ed, el]
      simp only [psi, envs, hlf, if_true]
      rw [← ihr]
      have e1 : ∀ x y : ℕ → ℕ, (if σ (a, i) = x id then (1 : R) else 0) * psi lf d ent x rest a σ *
          ((id :: leavesOf lf rest).map fun l => m l (x l) (y l)).prod *
          ((if τ (a, i) = y id then 1 else 0) * psi lf d' ent' y rest a τ) =
          ((if σ (a, i) = x id then (1 : R) else 0) * m id (x id) (y id) * (if τ (a, i) = y id then 1 else 0)) *
          (psi lf d ent x rest a σ * ((leavesOf lf rest).map fun l => m l (x l) (y l)).prod *
            psi lf d' ent' y rest a τ) := by
        intro x y
        simp only [List.map_cons, List.prod_cons]
        ring
      rw [sumLL_congr e1, sumLL_mul (S := (· = id)) (S' := (· ∈ rest.ids)) _ dr]
      · congr 1
        simp only [sumLL, sumLeaves, Nd.upd_self]
        rw [Finset.sum_eq_single (σ (a, i)), Finset.sum_eq_single (τ (a, i))]
        · simp
        · intro w _ hw; rw [if_neg (Ne.symm hw)]; ring
        · intro q; exact absurd (Finset.mem_range.2 ht) q
        · intro v _ hv
          refine Finset.sum_eq_zero fun w _ => ?_
          rw [if_neg (Ne.symm hv)]; ring
        · intro q; exact absurd (Finset.mem_range.2 hs) q
      · intro p hp; simp at hp; subst hp; exact m5
      · intro p hp q; exact m5 (q ▸ leafDims_fst hp)
      · intro p hp; simp at hp; subst hp; exact m5
      · intro p hp q; exact m5 (q ▸ leafDims_fst hp)
      · intro x x' y y' h h'; simp only [h id rfl, h' id rfl]
    | false =>
      have ed : ∀ d, leafDims lf d (.cons i j id sub rest) a = leafDims lf d sub id ++ leafDims lf d rest a := by
        intro d; simp [leafDims, Forest.edges, hlf]
      have el : leavesOf lf (.cons i j id sub rest) = leavesOf lf sub ++ leavesOf lf rest := by
        simp [leavesOf, Forest.ids, hlf]
      rw [ed, ed, el]
      simp only [psi, envs, hlf, Bool.false_eq_true, if_false]
      rw [← ihr]
      set base := Nd.upd (fun _ => 0) (id, j) (σ (a, i)) with hb
      set base' := Nd.upd (fun _ => 0) (id, j) (τ (a, i)) with hb'
      set f : (ℕ → ℕ) → (ℕ → ℕ) → R := fun x y =>
        sumOver d (halfs id sub) (fun σ' => sumOver d' (halfs id sub) (fun τ' => (ent id σ' * ent' id τ') *
          (psi lf d ent x sub id σ' * ((leavesOf lf sub).map fun l => m l (x l) (y l)).prod *
            psi lf d' ent' y sub id τ')) base') base with hf
      have e1 : ∀ x y : ℕ → ℕ, sumOver d (halfs id sub) (fun σ' => ent id σ' * psi lf d ent x sub id σ') base *
          psi lf d ent x rest a σ * ((leavesOf lf sub ++ leavesOf lf rest).map fun l => m l (x l) (y l)).prod *
          (sumOver d' (halfs id sub) (fun τ' => ent' id τ' * psi lf d' ent' y sub id τ') base' *
            psi lf d' ent' y rest a τ) =
          f x y * (psi lf d ent x rest a σ * ((leavesOf lf rest).map fun l => m l (x l) (y l)).prod *
            psi lf d' ent' y rest a τ) := by
        intro x y
        have e2 : f x y = sumOver d (halfs id sub) (fun σ' => ent id σ' * psi lf d ent x sub id σ') base *
            ((leavesOf lf sub).map fun l => m l (x l) (y l)).prod *
            sumOver d' (halfs id sub) (fun τ' => ent' id τ' * psi lf d' ent' y sub id τ') base' := by
          rw [hf, ← sumOver_mul_right, ← sumOver_mul_right]
          refine sumOver_congr fun σ' _ _ => ?_
          rw [← sumOver_mul_left]
          refine sumOver_congr fun τ' _ _ => ?_
          ring
        rw [e2]
        simp only [List.map_append, List.prod_append]
        ring
      rw [sumLL_congr e1, sumLL_mul (S := (· ∈ sub.ids)) (S' := (· ∈ rest.ids)) _ dr]
      · congr 1
        rw [hf, sumLL_sumOver]
        refine sumOver_congr fun σ' _ h2 => ?_
        rw [sumLL_sumOver]
        refine sumOver_congr fun τ' _ h2' => ?_
        rw [sumLL_mul_left, ih1 (List.nodup_cons.2 ⟨m4, m6⟩) l2 h2 h2']
        ring
      · intro p hp q; exact m8 _ (leafDims_fst hp) _ q rfl
      · intro p hp q; exact m8 _ q _ (leafDims_fst hp) rfl
      · intro p hp q; exact m8 _ (leafDims_fst hp) _ q rfl
      · intro p hp q; exact m8 _ q _ (leafDims_fst hp) rfl
      · intro x x' y y' h h'
        refine sumOver_congr fun σ' _ _ => sumOver_congr fun τ' _ _ => ?_
        have e1 := psi_depL lf d ent sub id σ' x x' h
        have e2 := psi_depL lf d' ent' sub id τ' y y' h'
        have e3 := mprod_dep m (leavesOf lf sub) x x' y y' (fun l hl => h l (List.mem_of_mem_filter hl))
          (fun l hl => h' l (List.mem_of_mem_filter hl))
        simp only at e1 e2 e3
        rw [e1, e2, e3]

end TreeSum
