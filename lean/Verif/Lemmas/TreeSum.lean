import Verif.Spec.Network

/-!
Sums over the indices of a tree, from the flat definition (`amp`: sum over all bonds of the product
of all entries) to the recursive one.
-/

open scoped BigOperators

namespace TreeSum

variable {R : Type} [CommRing R]

open Heap (Assign)

variable {κ : Type} [DecidableEq κ]

/-- Sum over the indices of the half-edges (or axes, or any keys) in `L`. -/
def sumOver (d : κ → ℕ) : List κ → ((κ → ℕ) → R) → (κ → ℕ) → R
  | [], g, σ => g σ
  | p :: L, g, σ => ∑ v ∈ Finset.range (d p), sumOver d L g (Nd.upd σ p v)

/-- `g` depends only on the half-edges satisfying `P`. -/
def Dep {κ : Type} (P : κ → Prop) (g : (κ → ℕ) → R) : Prop :=
  ∀ σ τ : (κ → ℕ), (∀ p, P p → σ p = τ p) → g σ = g τ

theorem Dep.mono {P Q : κ → Prop} {g : (κ → ℕ) → R} (h : Dep P g) (hPQ : ∀ p, P p → Q p) : Dep Q g :=
  fun σ τ e => h σ τ fun p hp => e p (hPQ p hp)

theorem Dep.mul {P : κ → Prop} {g g' : (κ → ℕ) → R} (h : Dep P g) (h' : Dep P g') :
    Dep P fun σ => g σ * g' σ := fun σ τ e => by simp only [h σ τ e, h' σ τ e]

theorem sumOver_congr {d : κ → ℕ} {L : List κ} {g g' : (κ → ℕ) → R} {σ : (κ → ℕ)}
    (h : ∀ τ : (κ → ℕ), (∀ p, p ∉ L → τ p = σ p) → (∀ p ∈ L, τ p < d p) → g τ = g' τ) :
    sumOver d L g σ = sumOver d L g' σ := by
  induction L generalizing σ with
  | nil => exact h σ (fun _ _ => rfl) (by simp)
  | cons p L ih =>
    refine Finset.sum_congr rfl fun v hv => ih fun τ h1 h2 => h τ ?_ ?_
    · intro q hq
      simp only [List.mem_cons, not_or] at hq
      rw [h1 q hq.2, Nd.upd_ne _ _ hq.1]
    · intro q hq
      by_cases hqL : q ∈ L
      · exact h2 q hqL
      · rcases List.mem_cons.1 hq with rfl | h3
        · rw [h1 _ hqL, Nd.upd_self]; exact Finset.mem_range.1 hv
        · exact absurd h3 hqL

/-- Change of the base assignment. -/
theorem sumOver_base {d : κ → ℕ} {L : List κ} {g : (κ → ℕ) → R} {P : κ → Prop} (hg : Dep P g)
    {σ τ : (κ → ℕ)} (h : ∀ p, P p → p ∉ L → σ p = τ p) : sumOver d L g σ = sumOver d L g τ := by
  induction L generalizing σ τ with
  | nil => exact hg σ τ fun p hp => h p hp (by simp)
  | cons p L ih =>
    refine Finset.sum_congr rfl fun v _ => ih fun q hq hqL => ?_
    by_cases e : q = p
    · subst e; simp
    · rw [Nd.upd_ne _ _ e, Nd.upd_ne _ _ e]
      exact h q hq (by simp [e, hqL])

theorem sumOver_dep {d : κ → ℕ} {L : List κ} {g : (κ → ℕ) → R} {P : κ → Prop} (hg : Dep P g) :
    Dep (fun p => P p ∧ p ∉ L) (sumOver d L g) :=
  fun _ _ e => sumOver_base hg fun p h1 h2 => e p ⟨h1, h2⟩

theorem sumOver_mul_left {d : κ → ℕ} (L : List κ) (c : R) (g : (κ → ℕ) → R) (σ : (κ → ℕ)) :
    sumOver d L (fun τ => c * g τ) σ = c * sumOver d L g σ := by
  induction L generalizing σ with
  | nil => rfl
  | cons p L ih => simp only [sumOver, ih, Finset.mul_sum]

theorem sumOver_mul_right {d : κ → ℕ} (L : List κ) (c : R) (g : (κ → ℕ) → R) (σ : (κ → ℕ)) :
    sumOver d L (fun τ => g τ * c) σ = sumOver d L g σ * c := by
  induction L generalizing σ with
  | nil => rfl
  | cons p L ih => simp only [sumOver, ih, Finset.sum_mul]

theorem sumOver_sum {d : κ → ℕ} (L : List κ) {ι : Type} (s : Finset ι) (g : ι → (κ → ℕ) → R)
    (σ : (κ → ℕ)) : sumOver d L (fun τ => ∑ v ∈ s, g v τ) σ = ∑ v ∈ s, sumOver d L (g v) σ := by
  induction L generalizing σ with
  | nil => rfl
  | cons p L ih => simp only [sumOver, ih]; exact Finset.sum_comm

theorem sumOver_swap {d d' : κ → ℕ} (L L' : List κ) (g : (κ → ℕ) → (κ → ℕ) → R) (σ τ : (κ → ℕ)) :
    sumOver d L (fun σ' => sumOver d' L' (fun τ' => g σ' τ') τ) σ =
      sumOver d' L' (fun τ' => sumOver d L (fun σ' => g σ' τ') σ) τ := by
  induction L generalizing σ with
  | nil => rfl
  | cons p L ih => simp only [sumOver, ih, sumOver_sum]

theorem upd_comm {σ : Assign} {p q : ℕ × ℕ} (h : p ≠ q) (v w : ℕ) :
    Nd.upd (Nd.upd σ p v) q w = Nd.upd (Nd.upd σ q w) p v := by
  funext x
  unfold Nd.upd
  by_cases h1 : x = q
  · by_cases h2 : x = p
    · exact absurd (h2.symm.trans h1) h
    · simp [h1, h2, h.symm]
  · by_cases h2 : x = p <;> simp [h1, h2, h]

/-- Sum over all bonds, for arbitrary dimensions (`Heap.sumBonds` is the case `d = hdim`). -/
def sumB (d : ℕ × ℕ → ℕ) : List (ℕ × ℕ × ℕ × ℕ) → (Assign → R) → Assign → R
  | [], g, σ => g σ
  | e :: E, g, σ => ∑ v ∈ Finset.range (d (e.1, e.2.1)), sumB d E g (Heap.setBond e v σ)

theorem sumBonds_eq (h : Heap R) (E : List (ℕ × ℕ × ℕ × ℕ)) (g : Assign → R) (σ : Assign) :
    h.sumBonds E g σ = sumB h.hdim E g σ := by
  induction E generalizing σ with
  | nil => rfl
  | cons e E ih => simp only [Heap.sumBonds, sumB, ih]

theorem sumB_append (d : ℕ × ℕ → ℕ) (E E' : List (ℕ × ℕ × ℕ × ℕ)) (g : Assign → R) (σ : Assign) :
    sumB d (E ++ E') g σ = sumB d E (sumB d E' g) σ := by
  induction E generalizing σ with
  | nil => rfl
  | cons e E ih => simp only [List.cons_append, sumB, ih]

theorem sumB_mul_left {d : ℕ × ℕ → ℕ} {E : List (ℕ × ℕ × ℕ × ℕ)} {c g : Assign → R} {P : ℕ × ℕ → Prop}
    (hc : Dep P c) (hE : ∀ e ∈ E, ¬ P (e.1, e.2.1) ∧ ¬ P (e.2.2.1, e.2.2.2)) (σ : Assign) :
    sumB d E (fun τ => c τ * g τ) σ = c σ * sumB d E g σ := by
  induction E generalizing σ with
  | nil => rfl
  | cons e E ih =>
    simp only [sumB, Finset.mul_sum]
    refine Finset.sum_congr rfl fun v _ => ?_
    rw [ih fun e he => hE e (by simp [he])]
    congr 1
    refine hc _ _ fun p hp => ?_
    have h1 := hE e (by simp)
    unfold Heap.setBond
    rw [Nd.upd_ne _ _ (by rintro rfl; exact h1.2 hp), Nd.upd_ne _ _ (by rintro rfl; exact h1.1 hp)]

theorem sumB_dep {d : ℕ × ℕ → ℕ} {E : List (ℕ × ℕ × ℕ × ℕ)} {g : Assign → R} {P : ℕ × ℕ → Prop}
    (hg : Dep P g) : Dep P (sumB d E g) := by
  induction E with
  | nil => exact hg
  | cons e E ih =>
    intro σ τ h
    refine Finset.sum_congr rfl fun v _ => ih _ _ fun p hp => ?_
    unfold Heap.setBond Nd.upd
    split
    · rfl
    · split
      · rfl
      · exact h p hp

theorem sumB_congr {d : ℕ × ℕ → ℕ} {E : List (ℕ × ℕ × ℕ × ℕ)} {g g' : Assign → R} (σ : Assign)
    (h : ∀ τ, g τ = g' τ) : sumB d E g σ = sumB d E g' σ := by
  rw [show g = g' from funext h]

/-- The sum of a product of two factors that live on different parts. -/
theorem sumB_mul {d : ℕ × ℕ → ℕ} {E E' : List (ℕ × ℕ × ℕ × ℕ)} {g g' : Assign → R} {P Q : ℕ × ℕ → Prop}
    (hg : Dep P g) (hg' : Dep Q g') (hE : ∀ e ∈ E, ¬ Q (e.1, e.2.1) ∧ ¬ Q (e.2.2.1, e.2.2.2))
    (hE' : ∀ e ∈ E', ¬ P (e.1, e.2.1) ∧ ¬ P (e.2.2.1, e.2.2.2)) (σ : Assign) :
    sumB d (E ++ E') (fun τ => g τ * g' τ) σ = sumB d E g σ * sumB d E' g' σ := by
  rw [sumB_append, sumB_congr σ fun τ => sumB_mul_left hg hE' τ,
    sumB_congr σ fun τ => mul_comm _ _, sumB_mul_left (sumB_dep hg') hE, mul_comm]

/-- The half-edges of `a` towards the branches `F`. -/
def halfs (a : ℕ) (F : Forest) : List (ℕ × ℕ) := F.heads.map fun x => (a, x.1)

@[simp] theorem halfs_nil (a : ℕ) : halfs a .nil = [] := rfl
@[simp] theorem halfs_cons (a i j id : ℕ) (sub rest : Forest) :
    halfs a (.cons i j id sub rest) = (a, i) :: halfs a rest := rfl

theorem halfs_fst {a : ℕ} {F : Forest} {p : ℕ × ℕ} (h : p ∈ halfs a F) : p.1 = a := by
  unfold halfs at h
  obtain ⟨x, -, rfl⟩ := List.mem_map.1 h; rfl

/-- The branches are on different axes, at all levels. -/
def AxesOk : Forest → Prop
  | .nil => True
  | .cons i _ _ sub rest => (∀ x ∈ rest.heads, x.1 ≠ i) ∧ AxesOk sub ∧ AxesOk rest

/-- In each tensor of the forest the axis towards the parent is not one towards a child. -/
def AxesIn : Forest → Prop
  | .nil => True
  | .cons _ j _ sub rest => (∀ x ∈ sub.heads, x.1 ≠ j) ∧ AxesIn sub ∧ AxesIn rest

/-- The amplitude of the branches `F` below `a`, given the indices `σ` of the axes of `a` and the
indices `x` of the leaves. -/
def psi (lf : ℕ → Bool) (d : ℕ × ℕ → ℕ) (ent : ℕ → Assign → R) (x : ℕ → ℕ) : Forest → ℕ → Assign → R
  | .nil, _, _ => 1
  | .cons i j id sub rest, a, σ =>
    (if lf id then (if σ (a, i) = x id then 1 else 0)
     else sumOver d (halfs id sub) (fun σ' => ent id σ' * psi lf d ent x sub id σ')
       (Nd.upd (fun _ => 0) (id, j) (σ (a, i)))) * psi lf d ent x rest a σ

theorem psi_dep (lf : ℕ → Bool) (d : ℕ × ℕ → ℕ) (ent : ℕ → Assign → R) (x : ℕ → ℕ) (F : Forest) (a : ℕ) :
    Dep (· ∈ halfs a F) (psi lf d ent x F a) := by
  induction F with
  | nil => intro σ τ _; rfl
  | cons i j id sub rest _ ih =>
    intro σ τ h
    simp only [psi]
    rw [ih σ τ fun p hp => h p (by simp [hp]), h (a, i) (by simp)]

/-- The bonds and the tensors of a forest. -/
def bondsOf (lf : ℕ → Bool) (F : Forest) (a : ℕ) : List (ℕ × ℕ × ℕ × ℕ) :=
  (F.edges a).filter fun e => !(lf e.2.2.1)

def tensOf (lf : ℕ → Bool) (F : Forest) : List ℕ := F.ids.filter fun t => !(lf t)

/-- Leaves have nothing below them. -/
def LeafNil (lf : ℕ → Bool) : Forest → Prop
  | .nil => True
  | .cons _ _ id sub rest => (lf id = true → sub = .nil) ∧ LeafNil lf sub ∧ LeafNil lf rest

/-- The entry of each tensor of the forest depends only on its axes towards parent and children. -/
def EntOk (lf : ℕ → Bool) (ent : ℕ → Assign → R) : Forest → Prop
  | .nil => True
  | .cons _ j id sub rest =>
    (lf id = false → Dep (fun p => p = (id, j) ∨ p ∈ halfs id sub) (ent id)) ∧ EntOk lf ent sub ∧ EntOk lf ent rest

/-- `σ` gives each half-edge towards a leaf `l` the index `x l`. -/
def LeafVal (lf : ℕ → Bool) (x : ℕ → ℕ) (σ : Assign) : Forest → ℕ → Prop
  | .nil, _ => True
  | .cons i _ id sub rest, a =>
    (lf id = true → σ (a, i) = x id) ∧ LeafVal lf x σ sub id ∧ LeafVal lf x σ rest a

/-- The leaf indices are in range. -/
def LeafLt (lf : ℕ → Bool) (x : ℕ → ℕ) (d : ℕ × ℕ → ℕ) : Forest → ℕ → Prop
  | .nil, _ => True
  | .cons i _ id sub rest, a =>
    (lf id = true → x id < d (a, i)) ∧ LeafLt lf x d sub id ∧ LeafLt lf x d rest a

theorem edges_mem {F : Forest} {a : ℕ} {e : ℕ × ℕ × ℕ × ℕ} (he : e ∈ F.edges a) :
    (e.1 = a ∨ e.1 ∈ F.ids) ∧ e.2.2.1 ∈ F.ids := by
  induction F generalizing a with
  | nil => simp [Forest.edges] at he
  | cons i j id sub rest ih1 ih2 =>
    simp only [Forest.edges, List.cons_append, List.mem_cons, List.mem_append] at he
    simp only [Forest.ids, List.cons_append, List.mem_cons, List.mem_append]
    rcases he with rfl | he | he
    · simp
    · obtain ⟨h1, h2⟩ := ih1 he; tauto
    · obtain ⟨h1, h2⟩ := ih2 he; tauto

theorem LeafVal.congr {lf : ℕ → Bool} {x : ℕ → ℕ} {σ τ : Assign} {F : Forest} {a : ℕ}
    (h : LeafVal lf x σ F a) (e : ∀ p, (p ∈ halfs a F ∨ p.1 ∈ F.ids) → σ p = τ p) :
    LeafVal lf x τ F a := by
  induction F generalizing a with
  | nil => trivial
  | cons i j id sub rest ih1 ih2 =>
    obtain ⟨h1, h2, h3⟩ := h
    refine ⟨fun hl => ?_, ih1 h2 fun p hp => e p ?_, ih2 h3 fun p hp => e p ?_⟩
    · rw [← h1 hl]
      exact (e (a, i) (.inl (by simp))).symm
    · right
      simp only [Forest.ids, List.cons_append, List.mem_cons, List.mem_append]
      rcases hp with hp | hp
      · exact .inl (halfs_fst hp)
      · tauto
    · rcases hp with hp | hp
      · exact .inl (by simp [hp])
      · right; simp [Forest.ids, hp]

theorem prod_dep {L : List ℕ} {ent : ℕ → Assign → R} {P : ℕ × ℕ → Prop} (h : ∀ t ∈ L, Dep P (ent t)) :
    Dep P fun τ => (L.map fun t => ent t τ).prod := by
  intro σ τ e
  exact congrArg List.prod (List.map_congr_left fun t ht => h t ht σ τ e)

theorem EntOk.dep {lf : ℕ → Bool} {ent : ℕ → Assign → R} {F : Forest} (h : EntOk lf ent F) :
    ∀ t ∈ tensOf lf F, Dep (fun p => p.1 = t) (ent t) := by
  induction F with
  | nil => intro t ht; simp [tensOf, Forest.ids] at ht
  | cons i j id sub rest ih1 ih2 =>
    obtain ⟨h1, h2, h3⟩ := h
    intro t ht
    simp only [tensOf, Forest.ids, List.cons_append, List.filter_cons, List.filter_append] at ht
    have key : t = id ∧ lf id = false ∨ t ∈ tensOf lf sub ∨ t ∈ tensOf lf rest := by
      unfold tensOf
      split at ht
      · rename_i q
        simp only [List.mem_cons, List.mem_append] at ht
        rcases ht with rfl | q' | q'
        · exact .inl ⟨rfl, by simpa using q⟩
        · exact .inr (.inl q')
        · exact .inr (.inr q')
      · simp only [List.mem_append] at ht
        exact .inr ht
    rcases key with ⟨rfl, q⟩ | q | q
    · refine (h1 q).mono ?_
      rintro p (rfl | hp)
      · rfl
      · exact halfs_fst hp
    · exact ih1 h2 t q
    · exact ih2 h3 t q

/-- From the flat sum over all bonds to the recursive one. -/
theorem flat_eq {lf : ℕ → Bool} {d : ℕ × ℕ → ℕ} {ent : ℕ → Assign → R} {x : ℕ → ℕ} {F : Forest} {a : ℕ}
    (hn : (a :: F.ids).Nodup) (hl : LeafNil lf F) (ho : AxesOk F) (hin : AxesIn F) (he : EntOk lf ent F)
    (hx : LeafLt lf x d F a) {G : Assign → R} (hG : Dep (fun p => p.1 = a) G) {σ : Assign}
    (hσ : LeafVal lf x σ F a) :
    sumB d (bondsOf lf F a) (fun τ => G τ * ((tensOf lf F).map fun t => ent t τ).prod) σ =
      sumOver d (halfs a F) (fun τ => G τ * psi lf d ent x F a τ) σ := by
  induction F generalizing a G σ with
  | nil => simp [bondsOf, tensOf, Forest.edges, Forest.ids, sumB, sumOver, psi]
  | cons i j id sub rest ih1 ih2 =>
    obtain ⟨l1, l2, l3⟩ := hl
    obtain ⟨o1, o2, o3⟩ := ho
    obtain ⟨n1, n2, n3⟩ := hin
    obtain ⟨e1, e2, e3⟩ := he
    obtain ⟨x1, x2, x3⟩ := hx
    obtain ⟨s1, s2, s3⟩ := hσ
    simp only [Forest.ids, List.cons_append, List.nodup_cons, List.mem_cons, List.mem_append, not_or,
      List.nodup_append] at hn
    obtain ⟨⟨m1, m2, m3⟩, ⟨m4, m5⟩, m6, m7, m8⟩ := hn
    have hai : (a, i) ∉ halfs a rest := by
      intro q
      unfold halfs at q
      obtain ⟨y, y1, y2⟩ := List.mem_map.1 q
      exact o1 y y1 (by cases y2; rfl)
    have hnrest : (a :: rest.ids).Nodup := List.nodup_cons.2 ⟨m3, m7⟩
    cases hlf : lf id with
    | true =>
      obtain rfl := l1 hlf
      have eb : bondsOf lf (.cons i j id .nil rest) a = bondsOf lf rest a := by
        simp [bondsOf, Forest.edges, hlf]
      have et : tensOf lf (.cons i j id .nil rest) = tensOf lf rest := by
        simp [tensOf, Forest.ids, hlf]
      rw [eb, et, ih2 hnrest l3 o3 n3 e3 x3 hG s3]
      simp only [halfs_cons, sumOver, psi, hlf, if_true]
      have hv := x1 hlf
      rw [Finset.sum_eq_single (x id)]
      · have : Nd.upd σ (a, i) (x id) = σ := by
          funext p
          by_cases hp : p = (a, i)
          · subst hp; rw [Nd.upd_self, s1 hlf]
          · rw [Nd.upd_ne _ _ hp]
        rw [this]
        refine sumOver_congr fun τ h1 _ => ?_
        rw [if_pos (by rw [h1 _ hai, s1 hlf]), one_mul]
      · intro v _ hne
        have : sumOver d (halfs a rest) (fun τ => G τ * ((if τ (a, i) = x id then 1 else 0) * psi lf d ent x rest a τ))
            (Nd.upd σ (a, i) v) = sumOver d (halfs a rest) (fun τ => (0 : R) * G τ) (Nd.upd σ (a, i) v) := by
          refine sumOver_congr fun τ h1 _ => ?_
          rw [if_neg (by rw [h1 _ hai, Nd.upd_self]; exact hne)]; ring
        rw [this, sumOver_mul_left, zero_mul]
      · intro q; exact absurd (Finset.mem_range.2 hv) q
    | false =>
      have eb : bondsOf lf (.cons i j id sub rest) a = (a, i, id, j) :: (bondsOf lf sub id ++ bondsOf lf rest a) := by
        simp [bondsOf, Forest.edges, hlf]
      have et : tensOf lf (.cons i j id sub rest) = id :: (tensOf lf sub ++ tensOf lf rest) := by
        simp [tensOf, Forest.ids, hlf]
      rw [eb, et]
      simp only [sumB, halfs_cons, sumOver, psi, hlf, Bool.false_eq_true, if_false]
      refine Finset.sum_congr rfl fun v hv => ?_
      set σ' := Heap.setBond (a, i, id, j) v σ with hσ'
      have hσv : ∀ p, p ≠ (a, i) → p ≠ (id, j) → σ' p = σ p := by
        intro p p1 p2
        simp only [hσ', Heap.setBond]
        rw [Nd.upd_ne _ _ p2, Nd.upd_ne _ _ p1]
      have hσa : σ' (a, i) = v := by
        simp only [hσ', Heap.setBond]
        rw [Nd.upd_ne _ _ (by intro q; exact m1 (by cases q; rfl)), Nd.upd_self]
      have hσi : σ' (id, j) = v := by simp [hσ', Heap.setBond]
      have hsub : LeafVal lf x σ' sub id := by
        refine s2.congr fun p hp => ?_
        refine (hσv p ?_ ?_).symm
        · rintro rfl
          rcases hp with hp | hp
          · exact m1 (halfs_fst hp)
          · exact m2 hp
        · rintro rfl
          rcases hp with hp | hp
          · unfold halfs at hp
            obtain ⟨y, y1, y2⟩ := List.mem_map.1 hp
            exact n1 y y1 (by cases y2; rfl)
          · exact m4 hp
      have hrest : LeafVal lf x σ' rest a := by
        refine s3.congr fun p hp => ?_
        refine (hσv p ?_ ?_).symm
        · rintro rfl
          rcases hp with hp | hp
          · exact hai hp
          · exact m3 hp
        · rintro rfl
          rcases hp with hp | hp
          · exact m1 (halfs_fst hp).symm
          · exact m5 hp
      have hdid : Dep (fun p => p.1 = id) (ent id) := by
        refine (e1 hlf).mono ?_
        rintro p (rfl | hp)
        · rfl
        · exact halfs_fst hp
      have g1 : Dep (fun p => p.1 = id ∨ p.1 ∈ sub.ids)
          (fun τ => ent id τ * ((tensOf lf sub).map fun t => ent t τ).prod) := by
        refine Dep.mul (hdid.mono fun p hp => .inl hp) (prod_dep fun t ht => ((e2.dep t ht)).mono ?_)
        rintro p rfl
        exact .inr (List.mem_of_mem_filter ht)
      have g2 : Dep (fun p => p.1 = a ∨ p.1 ∈ rest.ids)
          (fun τ => G τ * ((tensOf lf rest).map fun t => ent t τ).prod) := by
        refine Dep.mul (hG.mono fun p hp => .inl hp) (prod_dep fun t ht => ((e3.dep t ht)).mono ?_)
        rintro p rfl
        exact .inr (List.mem_of_mem_filter ht)
      have hprod : (fun τ => G τ * ((id :: (tensOf lf sub ++ tensOf lf rest)).map fun t => ent t τ).prod) =
          fun τ => (ent id τ * ((tensOf lf sub).map fun t => ent t τ).prod) *
            (G τ * ((tensOf lf rest).map fun t => ent t τ).prod) := by
        funext τ
        simp only [List.map_cons, List.map_append, List.prod_cons, List.prod_append]
        ring
      rw [hprod, sumB_mul g1 g2]
      · rw [ih1 (List.nodup_cons.2 ⟨m4, m6⟩) l2 o2 n2 e2 x2 hdid hsub, ih2 hnrest l3 o3 n3 e3 x3 hG hrest]
        have q1 : sumOver d (halfs id sub) (fun τ => ent id τ * psi lf d ent x sub id τ) σ' =
            sumOver d (halfs id sub) (fun τ => ent id τ * psi lf d ent x sub id τ)
              (Nd.upd (fun _ => 0) (id, j) v) := by
          refine sumOver_base (Dep.mul (e1 hlf) ((psi_dep lf d ent x sub id).mono fun p hp => .inr hp)) ?_
          rintro p (rfl | hp) hp'
          · rw [hσi, Nd.upd_self]
          · exact absurd hp hp'
        have q2 : sumOver d (halfs a rest) (fun τ => G τ * psi lf d ent x rest a τ) σ' =
            sumOver d (halfs a rest) (fun τ => G τ * psi lf d ent x rest a τ) (Nd.upd σ (a, i) v) := by
          refine sumOver_base (P := fun p => p.1 = a) (Dep.mul hG ((psi_dep lf d ent x rest a).mono fun p hp => halfs_fst hp)) ?_
          intro p hp _
          by_cases h1 : p = (a, i)
          · subst h1; rw [hσa, Nd.upd_self]
          · rw [Nd.upd_ne _ _ h1]
            refine hσv p h1 ?_
            rintro rfl; exact m1 hp.symm
        rw [q1, q2, ← sumOver_mul_left]
        refine sumOver_congr fun τ h1 _ => ?_
        rw [h1 _ hai, Nd.upd_self]
        ring
      · intro e he
        have := edges_mem (List.mem_of_mem_filter he)
        constructor
        · rintro (q | q)
          · rcases this.1 with h | h
            · exact m1 (q.symm.trans h)
            · exact m2 (q ▸ h)
          · rcases this.1 with h | h
            · exact m5 (h ▸ q)
            · exact m8 _ h _ q rfl
        · rintro (q | q)
          · exact m2 (q ▸ this.2)
          · exact m8 _ this.2 _ q rfl
      · intro e he
        have := edges_mem (List.mem_of_mem_filter he)
        constructor
        · rintro (q | q)
          · rcases this.1 with h | h
            · exact m1 (h.symm.trans q)
            · exact m5 (q ▸ h)
          · rcases this.1 with h | h
            · exact m2 (h ▸ q)
            · exact m8 _ q _ h rfl
        · rintro (q | q)
          · exact m5 (q ▸ this.2)
          · exact m8 _ q _ this.2 rfl

end TreeSum
