import Verif.Lemmas.Moves2
import Mathlib.Algebra.BigOperators.Ring.Finset
import Mathlib.Algebra.BigOperators.Group.Finset.Sigma
import Mathlib.Tactic.Ring

/-!
Sums over bonds, and what a move does to a network.
-/

open scoped BigOperators
open Py

namespace Heap

variable {R : Type} [CommRing R]

/-- A bond in the other direction. -/
def flipE (e : ℕ × ℕ × ℕ × ℕ) : ℕ × ℕ × ℕ × ℕ := (e.2.2.1, e.2.2.2, e.1, e.2.1)

theorem setBond_apply (e : ℕ × ℕ × ℕ × ℕ) (v : ℕ) (σ : Assign) (p : ℕ × ℕ) :
    setBond e v σ p = if p = (e.1, e.2.1) ∨ p = (e.2.2.1, e.2.2.2) then v else σ p := by
  unfold setBond Nd.upd
  by_cases h1 : p = (e.2.2.1, e.2.2.2)
  · simp [h1]
  · by_cases h2 : p = (e.1, e.2.1)
    · rw [if_neg h1, if_pos h2, if_pos (.inl h2)]
    · rw [if_neg h1, if_neg h2, if_neg (by tauto)]

theorem setBond_flip (e : ℕ × ℕ × ℕ × ℕ) (v : ℕ) (σ : Assign) :
    setBond (flipE e) v σ = setBond e v σ := by
  funext p
  rw [setBond_apply, setBond_apply]
  simp only [flipE]
  congr 1
  exact propext or_comm

theorem setBond_comm {e f : ℕ × ℕ × ℕ × ℕ} (hn : (halves [e, f]).Nodup) (v w : ℕ) (σ : Assign) :
    setBond e v (setBond f w σ) = setBond f w (setBond e v σ) := by
  funext p
  simp only [setBond_apply]
  simp only [halves_cons, halves_nil, List.nodup_cons, List.mem_cons, List.not_mem_nil, or_false,
    not_or] at hn
  obtain ⟨⟨n1, n2, n3⟩, ⟨n4, n5⟩, n6, -⟩ := hn
  by_cases h1 : p = (e.1, e.2.1) ∨ p = (e.2.2.1, e.2.2.2)
  · have : ¬ (p = (f.1, f.2.1) ∨ p = (f.2.2.1, f.2.2.2)) := by
      rintro (rfl | rfl) <;> rcases h1 with q | q
      · exact n2 q.symm
      · exact n4 q.symm
      · exact n3 q.symm
      · exact n5 q.symm
    simp [h1, this]
  · simp [h1]

theorem nodup_halves_pair {e f : ℕ × ℕ × ℕ × ℕ} {E : List (ℕ × ℕ × ℕ × ℕ)}
    (hn : (halves (e :: f :: E)).Nodup) : (halves [e, f]).Nodup := by
  refine hn.sublist ?_
  have : halves (e :: f :: E) = halves [e, f] ++ halves E := by
    rw [← halves_append]; rfl
  rw [this]
  exact List.sublist_append_left _ _

theorem halves_sublist {E E' : List (ℕ × ℕ × ℕ × ℕ)} (h : E'.Sublist E) : (halves E').Sublist (halves E) := by
  induction h with
  | slnil => exact List.Sublist.refl _
  | cons a _ ih => simp only [halves_cons]; exact (ih.cons _).cons _
  | cons_cons a _ ih => simp only [halves_cons]; exact (ih.cons_cons _).cons_cons _

/-- The sum over the first bond can be done last. -/
theorem sumBonds_inner (h : Heap R) (e : ℕ × ℕ × ℕ × ℕ) (E : List (ℕ × ℕ × ℕ × ℕ))
    (hn : (halves (e :: E)).Nodup) (g : Assign → R) (σ : Assign) :
    sumBonds h (e :: E) g σ = sumBonds h E
      (fun τ => ∑ v ∈ Finset.range (h.hdim (e.1, e.2.1)), g (setBond e v τ)) σ := by
  induction E generalizing σ with
  | nil => rfl
  | cons f E ih =>
    have hn1 : (halves (e :: E)).Nodup :=
      hn.sublist (halves_sublist ((List.sublist_cons_self f E).cons_cons e))
    calc sumBonds h (e :: f :: E) g σ
        = ∑ v ∈ Finset.range (h.hdim (e.1, e.2.1)), ∑ w ∈ Finset.range (h.hdim (f.1, f.2.1)),
            sumBonds h E g (setBond f w (setBond e v σ)) := rfl
      _ = ∑ w ∈ Finset.range (h.hdim (f.1, f.2.1)), ∑ v ∈ Finset.range (h.hdim (e.1, e.2.1)),
            sumBonds h E g (setBond e v (setBond f w σ)) := by
          rw [Finset.sum_comm]
          refine Finset.sum_congr rfl fun w _ => Finset.sum_congr rfl fun v _ => ?_
          rw [setBond_comm (nodup_halves_pair hn)]
      _ = ∑ w ∈ Finset.range (h.hdim (f.1, f.2.1)), sumBonds h (e :: E) g (setBond f w σ) := rfl
      _ = _ := by
          conv_rhs => rw [sumBonds]
          exact Finset.sum_congr rfl fun w _ => ih hn1 _

theorem sumBonds_middle (h : Heap R) (e : ℕ × ℕ × ℕ × ℕ) (E1 E2 : List (ℕ × ℕ × ℕ × ℕ))
    (hn : (halves (E1 ++ e :: E2)).Nodup) (g : Assign → R) (σ : Assign) :
    sumBonds h (E1 ++ e :: E2) g σ = sumBonds h (E1 ++ E2)
      (fun τ => ∑ v ∈ Finset.range (h.hdim (e.1, e.2.1)), g (setBond e v τ)) σ := by
  induction E1 generalizing σ with
  | nil => exact sumBonds_inner h e E2 hn g σ
  | cons f E1 ih =>
    simp only [List.cons_append, sumBonds]
    refine Finset.sum_congr rfl fun w _ => ?_
    refine ih ?_ _
    rw [List.cons_append, halves_cons] at hn
    exact (List.nodup_cons.1 (List.nodup_cons.1 hn).2).2

/-- The bond sums only look at assignments that agree outside the bonds and are in range on them. -/
theorem sumBonds_congr {h h' : Heap R} {E : List (ℕ × ℕ × ℕ × ℕ)} (hn : (halves E).Nodup)
    {g g' : Assign → R} {σ : Assign}
    (hd : ∀ e ∈ E, h'.hdim (e.1, e.2.1) = h.hdim (e.1, e.2.1))
    (hg : ∀ τ : Assign, (∀ p, p ∉ halves E → τ p = σ p) →
      (∀ e ∈ E, τ (e.1, e.2.1) < h.hdim (e.1, e.2.1) ∧ τ (e.2.2.1, e.2.2.2) = τ (e.1, e.2.1)) →
      g' τ = g τ) :
    sumBonds h' E g' σ = sumBonds h E g σ := by
  induction E generalizing σ with
  | nil => exact hg σ (fun _ _ => rfl) (by simp)
  | cons e E ih =>
    simp only [sumBonds]
    rw [hd e (by simp)]
    refine Finset.sum_congr rfl fun v hv => ?_
    rw [halves_cons, List.nodup_cons, List.nodup_cons] at hn
    obtain ⟨n1, n2, n3⟩ := hn
    refine ih n3 (fun f hf => hd f (by simp [hf])) fun τ t1 t2 => hg τ ?_ ?_
    · intro p hp
      rw [halves_cons, List.mem_cons, List.mem_cons, not_or, not_or] at hp
      rw [t1 p hp.2.2, setBond_apply, if_neg (by tauto)]
    · intro f hf
      rcases List.mem_cons.1 hf with rfl | hf
      · rw [t1 _ (fun q => n1 (List.mem_cons_of_mem _ q)), t1 _ n2, setBond_apply, setBond_apply]
        simpa using Finset.mem_range.1 hv
      · exact t2 f hf

/-- Two listings of the same bonds, each in either direction, give the same sum. -/
theorem sumBonds_listing {h : Heap R} {E E' : List (ℕ × ℕ × ℕ × ℕ)} (hn : (halves E).Nodup)
    (hn' : (halves E').Nodup)
    (hs : ∀ e, e ∈ E' → e ∈ E ∨ flipE e ∈ E) (hs' : ∀ e, e ∈ E → e ∈ E' ∨ flipE e ∈ E')
    (hd : ∀ e ∈ E, h.hdim (e.1, e.2.1) = h.hdim (e.2.2.1, e.2.2.2)) (g : Assign → R) (σ : Assign) :
    sumBonds h E' g σ = sumBonds h E g σ := by
  induction E' generalizing E g with
  | nil =>
    cases E with
    | nil => rfl
    | cons e E => simpa using hs' e (by simp)
  | cons e E' ih =>
    rw [sumBonds_inner h e E' hn' g σ]
    have key : ∀ f, f ∈ E → (f = e ∨ f = flipE e) →
        sumBonds h E g σ = sumBonds h E'
          (fun τ => ∑ v ∈ Finset.range (h.hdim (e.1, e.2.1)), g (setBond e v τ)) σ := by
      intro f hf hfe
      obtain ⟨E1, E2, rfl⟩ := List.append_of_mem hf
      rw [sumBonds_middle h f E1 E2 hn]
      have hfun : (fun τ => ∑ v ∈ Finset.range (h.hdim (f.1, f.2.1)), g (setBond f v τ)) =
          fun τ => ∑ v ∈ Finset.range (h.hdim (e.1, e.2.1)), g (setBond e v τ) := by
        rcases hfe with rfl | rfl
        · rfl
        · funext τ
          have := hd _ hf
          simp only [flipE] at this
          simp only [setBond_flip]
          simp only [flipE]
          rw [this]
      rw [hfun]
      have hsub : (E1 ++ E2).Sublist (E1 ++ f :: E2) :=
        (List.Sublist.refl _).append (List.sublist_cons_self _ _)
      have hnE : ∀ x ∈ E1 ++ E2, x ≠ f ∧ x ≠ flipE f := by
        intro x hx
        have hp : (halves (E1 ++ f :: E2)).Perm (halves (f :: (E1 ++ E2))) := by
          rw [halves_append, halves_cons, halves_cons, halves_append]
          exact (List.perm_middle.trans (List.Perm.cons _ List.perm_middle))
        have hn2 := hp.nodup hn
        rw [halves_cons, List.nodup_cons, List.nodup_cons] at hn2
        obtain ⟨m1, m2, m3⟩ := hn2
        constructor
        · rintro rfl
          exact m1 (List.mem_cons_of_mem _ (mem_halves.2 ⟨x, hx, .inl rfl⟩))
        · rintro rfl
          exact m2 (mem_halves.2 ⟨_, hx, .inl rfl⟩)
      have hnE' : ∀ x ∈ E', x ≠ e ∧ x ≠ flipE e := by
        intro x hx
        rw [halves_cons, List.nodup_cons, List.nodup_cons] at hn'
        obtain ⟨m1, m2, m3⟩ := hn'
        constructor
        · rintro rfl
          exact m1 (List.mem_cons_of_mem _ (mem_halves.2 ⟨x, hx, .inl rfl⟩))
        · rintro rfl
          exact m2 (mem_halves.2 ⟨_, hx, .inl rfl⟩)
      have hff : ∀ x : ℕ × ℕ × ℕ × ℕ, flipE (flipE x) = x := fun x => rfl
      rw [halves_cons, List.nodup_cons, List.nodup_cons] at hn'
      refine (ih (hn.sublist (halves_sublist hsub)) hn'.2.2 ?_ ?_ (fun x hx => hd x (hsub.subset hx)) _).symm
      · intro x hx
        obtain ⟨q1, q2⟩ := hnE' x hx
        have q3 : flipE x ≠ e := by intro q; exact q2 (by rw [← q, hff])
        have q4 : flipE x ≠ flipE e := by
          intro q; exact q1 (by rw [← hff x, q, hff])
        have hne : x ≠ f ∧ flipE x ≠ f := by
          rcases hfe with rfl | rfl
          · exact ⟨q1, q3⟩
          · exact ⟨q2, q4⟩
        have := hs x (List.mem_cons_of_mem _ hx)
        simp only [List.mem_append, List.mem_cons] at this ⊢
        tauto
      · intro x hx
        obtain ⟨q1, q2⟩ := hnE x hx
        have q3 : flipE x ≠ f := by intro q; exact q2 (by rw [← q, hff])
        have q4 : flipE x ≠ flipE f := by
          intro q; exact q1 (by rw [← hff x, q, hff])
        have hne : x ≠ e ∧ flipE x ≠ e := by
          rcases hfe with rfl | rfl
          · exact ⟨q1, q3⟩
          · rw [hff] at q2 q4; exact ⟨q2, q4⟩
        have := hs' x (hsub.subset hx)
        simp only [List.mem_cons] at this
        tauto
    rcases hs e (by simp) with q | q
    · exact (key e q (.inl rfl)).symm
    · exact (key _ q (.inr rfl)).symm

namespace IsNet

variable {h h' : Heap R} {T : List ℕ} {E : List (ℕ × ℕ × ℕ × ℕ)}

/-- The bond between two tensors of a network is listed, in one of its directions. -/
theorem mem_bond (hn : h.IsNet T E) {t k u l : ℕ} (ht : t ∈ T) (hu : u ∈ T)
    (e : h.acc t k = some (u, l)) : (t, k, u, l) ∈ E ∨ (u, l, t, k) ∈ E := by
  obtain ⟨f, hf, q⟩ := mem_halves.1 (hn.all t ht k u l e hu)
  obtain ⟨⟨l1, l2⟩, -, -⟩ := hn.isLink f hf
  obtain ⟨a, i, b, j⟩ := f
  rcases q with q | q <;> cases q
  · rw [e] at l1; cases l1; exact .inl hf
  · rw [e] at l2; cases l2; exact .inr hf

/-- The amplitudes do not depend on how tensors and bonds are listed. -/
theorem amp_listing {T' : List ℕ} {E' : List (ℕ × ℕ × ℕ × ℕ)} (hn : h.IsNet T E) (hn' : h.IsNet T' E')
    (hp : T'.Perm T) (x : ℕ → ℕ) : h.amp T' E' x = h.amp T E x := by
  unfold amp
  have e1 : (fun σ => (T'.map (h.entry σ)).prod) = fun σ => (T.map (h.entry σ)).prod := by
    funext σ; exact (hp.map _).prod_eq
  rw [e1]
  refine sumBonds_listing hn.once hn'.once ?_ ?_ hn.dims _ _
  · intro e he
    obtain ⟨⟨l1, -⟩, l2, l3⟩ := hn'.isLink e he
    exact hn.mem_bond (hp.mem_iff.1 l2) (hp.mem_iff.1 l3) l1
  · intro e he
    obtain ⟨⟨l1, -⟩, l2, l3⟩ := hn.isLink e he
    exact hn'.mem_bond (hp.mem_iff.2 l2) (hp.mem_iff.2 l3) l1

variable {csvd : Svd R} {op : Option (Operator R)} {self i fin j mid : ℕ}

theorem mid_not_mem (hn : h.IsNet T E) (m : MoveSpec csvd op h h' self i fin j mid) : mid ∉ T := by
  intro q
  have := hn.lt _ q
  have := m.fresh
  omega

/-- After a move the network is a network with the same tensors and bonds. -/
theorem move (hn : h.IsNet T E) (m : MoveSpec csvd op h h' self i fin j mid)
    (hs : self ∈ T) (hf : fin ∈ T) (hb : h.acc self i = some (fin, j)) : h'.IsNet T E := by
  have hm := hn.mid_not_mem m
  have hbs := hn.links.sym _ _ _ _ hb
  have hne : fin ≠ self := (hn.simple self hs i fin j hb hf).1
  refine ⟨m.links, hn.nodup, fun t ht => lt_of_lt_of_le (hn.lt t ht) m.mono, ?_, hn.once, ?_, ?_, ?_, ?_, ?_⟩
  · intro t ht
    by_cases h1 : t = self
    · subst h1; exact m.fullSelf
    by_cases h2 : t = fin
    · subst h2; exact m.fullFin
    have h3 : t ≠ mid := by rintro rfl; exact hm ht
    obtain ⟨A, hA⟩ := hn.full t ht
    exact ⟨A, hA.congr (m.acc t) (m.otherAxis t h1 h2 h3).2 (m.other t h3).2.1⟩
  · intro e he
    obtain ⟨⟨l1, l2⟩, l3, l4⟩ := hn.isLink e he
    exact ⟨⟨by rw [m.acc]; exact l1, by rw [m.acc]; exact l2⟩, l3, l4⟩
  · intro t ht k u l e hu
    rw [m.acc] at e
    exact hn.all t ht k u l e hu
  · intro t ht k u l e hu
    simp only [m.acc] at e ⊢
    exact hn.simple t ht k u l e hu
  · -- dimensions
    have hdim : ∀ t ∈ T, ∀ k, (t, k) ≠ (self, i) → (t, k) ≠ (fin, j) → h'.hdim (t, k) = h.hdim (t, k) := by
      intro t ht k q1 q2
      by_cases h1 : t = self
      · subst h1; exact m.dimsSelf k (fun q => q1 (by rw [q]))
      by_cases h2 : t = fin
      · subst h2; exact m.dimsFin k (fun q => q2 (by rw [q]))
      have h3 : t ≠ mid := by rintro rfl; exact hm ht
      unfold Heap.hdim
      rw [(m.otherAxis t h1 h2 h3).2]
    rintro ⟨a, p, b, q⟩ he
    obtain ⟨⟨l1, l2⟩, l3, l4⟩ := hn.isLink _ he
    simp only at l1 l2 l3 l4 ⊢
    by_cases h1 : (a, p) = (self, i)
    · cases h1
      rw [hb] at l1; cases l1
      exact m.dims
    by_cases h2 : (a, p) = (fin, j)
    · cases h2
      rw [hbs] at l1; cases l1
      exact m.dims.symm
    have h3 : (b, q) ≠ (self, i) := by
      intro h3; cases h3; rw [hb] at l2; cases l2; exact h2 rfl
    have h4 : (b, q) ≠ (fin, j) := by
      intro h4; cases h4; rw [hbs] at l2; cases l2; exact h1 rfl
    rw [hdim a l3 p h1 h2, hdim b l4 q h3 h4]
    exact hn.dims _ he
  · intro t ht
    have h3 : t ≠ mid := by rintro rfl; exact hm ht
    rw [(m.other t h3).1]; exact hn.names t ht

theorem move_inRange (hn : h.IsNet T E) (m : MoveSpec csvd op h h' self i fin j mid)
    (hs : self ∈ T) (hf : fin ∈ T) (hb : h.acc self i = some (fin, j)) {x : ℕ → ℕ} :
    h'.InRange T x ↔ h.InRange T x := by
  have hm := hn.mid_not_mem m
  have hbs := hn.links.sym _ _ _ _ hb
  have key : ∀ t ∈ T, ∀ k l n, h.acc t k = some (l, n) → l ∉ T → h'.hdim (t, k) = h.hdim (t, k) := by
    intro t ht k l n e hl
    by_cases h1 : t = self
    · subst h1; refine m.dimsSelf k ?_
      rintro rfl; rw [hb] at e; cases e; exact hl hf
    by_cases h2 : t = fin
    · subst h2; refine m.dimsFin k ?_
      rintro rfl; rw [hbs] at e; cases e; exact hl hs
    have h3 : t ≠ mid := by rintro rfl; exact hm ht
    unfold Heap.hdim
    rw [(m.otherAxis t h1 h2 h3).2]
  constructor
  · intro hr t ht k l n e hl
    rw [← key t ht k l n e hl]
    exact hr t ht k l n (by rw [m.acc]; exact e) hl
  · intro hr t ht k l n e hl
    rw [m.acc] at e
    rw [key t ht k l n e hl]
    exact hr t ht k l n e hl

/-- An exact move without operator leaves every amplitude as it was. -/
theorem move_amp (hn : h.IsNet T E) (m : MoveSpec csvd op h h' self i fin j mid)
    (hs : self ∈ T) (hf : fin ∈ T) (hb : h.acc self i = some (fin, j)) (hex : SvdExact csvd)
    (hop : op = none) {x : ℕ → ℕ} (hx : h.InRange T x) : h'.amp T E x = h.amp T E x := by
  have hn' := hn.move m hs hf hb
  have hm := hn.mid_not_mem m
  have hbs := hn.links.sym _ _ _ _ hb
  have hne : fin ≠ self := (hn.simple self hs i fin j hb hf).1
  set e0 : ℕ × ℕ × ℕ × ℕ := (self, i, fin, j) with he0
  obtain ⟨T', hT⟩ : ∃ T', T.Perm (self :: fin :: T') := by
    have h1 := List.perm_cons_erase hs
    have h2 : fin ∈ T.erase self := (List.mem_erase_of_ne hne).2 hf
    exact ⟨_, h1.trans ((List.perm_cons_erase h2).cons _)⟩
  have hTn : (self :: fin :: T').Nodup := hT.nodup hn.nodup
  -- the inner sum
  have inner : ∀ (g : Heap R), g.IsNet T E → ∀ f ∈ E, (f = e0 ∨ f = flipE e0) → ∀ τ : Assign,
      ∑ v ∈ Finset.range (g.hdim (f.1, f.2.1)), (T.map (g.entry (setBond f v τ))).prod =
        g.pairSum e0 τ * (T'.map (g.entry τ)).prod := by
    intro g hg f hf hfe τ
    have e1 : ∑ v ∈ Finset.range (g.hdim (f.1, f.2.1)), (T.map (g.entry (setBond f v τ))).prod =
        ∑ v ∈ Finset.range (g.hdim (e0.1, e0.2.1)), (T.map (g.entry (setBond e0 v τ))).prod := by
      rcases hfe with rfl | rfl
      · rfl
      · have := hg.dims _ hf
        simp only [flipE] at this
        simp only [setBond_flip]
        simp only [flipE]
        rw [this]
    rw [e1, pairSum, Finset.sum_mul]
    refine Finset.sum_congr rfl fun v _ => ?_
    rw [(hT.map _).prod_eq, List.map_cons, List.map_cons, List.prod_cons, List.prod_cons, ← mul_assoc]
    congr 2
    refine List.map_congr_left fun t ht => ?_
    have t1 : t ≠ self := by rintro rfl; simp [ht] at hTn
    have t2 : t ≠ fin := by rintro rfl; simp [ht] at hTn
    unfold entry
    cases g.array t with
    | none => rfl
    | some A =>
      simp only
      congr 1
      refine List.map_congr_left fun k _ => ?_
      rw [setBond_apply, if_neg]
      simp [he0, t1, t2]
  have hfT := hf
  obtain ⟨f, hf, hfe⟩ : ∃ f ∈ E, f = e0 ∨ f = flipE e0 := by
    rcases hn.mem_bond hs hf hb with q | q
    · exact ⟨_, q, .inl rfl⟩
    · exact ⟨_, q, .inr rfl⟩
  obtain ⟨E1, E2, hE⟩ := List.append_of_mem hf
  have hsub : (E1 ++ E2).Sublist E := by
    rw [hE]; exact (List.Sublist.refl _).append (List.sublist_cons_self _ _)
  unfold amp
  have hla : h'.leafAssign x = h.leafAssign x := by
    funext p; unfold leafAssign; rw [m.acc]
  rw [hla]
  have a1 : ∀ g : Heap R, g.IsNet T E → ∀ σ, sumBonds g E (fun σ => (T.map (g.entry σ)).prod) σ =
      sumBonds g (E1 ++ E2) (fun τ => g.pairSum e0 τ * (T'.map (g.entry τ)).prod) σ := by
    intro g hg σ
    conv_lhs => rw [hE]
    rw [sumBonds_middle g f E1 E2 (hE ▸ hn.once)]
    congr 1
    funext τ
    exact inner g hg f hf hfe τ
  rw [a1 h' hn', a1 h hn]
  have hperm : (halves E).Perm (halves (f :: (E1 ++ E2))) := by
    rw [hE, halves_append, halves_cons, halves_cons, halves_append]
    exact (List.perm_middle.trans (List.Perm.cons _ List.perm_middle))
  have hnd := hperm.nodup hn.once
  rw [halves_cons, List.nodup_cons, List.nodup_cons] at hnd
  obtain ⟨m1, m2, m3⟩ := hnd
  have hout : ∀ p, p = (self, i) ∨ p = (fin, j) → p ∉ halves (E1 ++ E2) := by
    intro p hp q
    have q1 : p ∉ [(f.1, f.2.1), (f.2.2.1, f.2.2.2)] := by
      intro q2
      simp only [List.mem_cons, List.not_mem_nil, or_false] at q2
      rcases q2 with rfl | rfl
      · exact m1 (List.mem_cons_of_mem _ q)
      · exact m2 q
    apply q1
    rcases hfe with rfl | rfl <;> rcases hp with rfl | rfl <;> simp [he0, flipE]
  have hin : ∀ p ∈ halves E, p ≠ (self, i) → p ≠ (fin, j) → p ∈ halves (E1 ++ E2) := by
    intro p hp p1 p2
    have := hperm.mem_iff.1 hp
    rw [halves_cons, List.mem_cons, List.mem_cons] at this
    rcases hfe with rfl | rfl <;> simp only [he0, flipE] at this <;> tauto
  have hdimo : ∀ t ∈ T, ∀ k, (t, k) ≠ (self, i) → (t, k) ≠ (fin, j) → h'.hdim (t, k) = h.hdim (t, k) := by
    intro t ht k q1 q2
    by_cases h1 : t = self
    · subst h1; exact m.dimsSelf k (fun q => q1 (by rw [q]))
    by_cases h2 : t = fin
    · subst h2; exact m.dimsFin k (fun q => q2 (by rw [q]))
    have h3 : t ≠ mid := by rintro rfl; exact hm ht
    unfold Heap.hdim
    rw [(m.otherAxis t h1 h2 h3).2]
  refine sumBonds_congr m3 ?_ ?_
  · intro e he
    have hh : (e.1, e.2.1) ∈ halves (E1 ++ E2) := mem_halves.2 ⟨e, he, .inl rfl⟩
    refine hdimo e.1 (hn.isLink e (hsub.subset he)).2.1 _ ?_ ?_
    · intro q; exact hout _ (.inl q) hh
    · intro q; exact hout _ (.inr q) hh
  · intro τ t1 t2
    have hrange : ∀ t ∈ T, ∀ k, (t, k) ≠ (self, i) → (t, k) ≠ (fin, j) → h.acc t k ≠ none →
        τ (t, k) < h.hdim (t, k) := by
      intro t ht k q1 q2 q3
      cases hk : h.acc t k with
      | none => exact absurd hk q3
      | some y =>
        obtain ⟨u, l⟩ := y
        by_cases hu : u ∈ T
        · obtain ⟨e, he, q⟩ := mem_halves.1 (hin _ (hn.all t ht k u l hk hu) q1 q2)
          obtain ⟨r1, r2⟩ := t2 e he
          rcases q with q | q
          · rw [q]; exact r1
          · rw [q, r2, ← hn.dims e (hsub.subset he)]; exact r1
        · have hno : (t, k) ∉ halves (E1 ++ E2) := by
            intro q
            obtain ⟨e, he, q⟩ := mem_halves.1 q
            obtain ⟨⟨l1, l2⟩, l3, l4⟩ := hn.isLink e (hsub.subset he)
            rcases q with q | q <;> cases q
            · rw [hk] at l1; cases l1; exact hu l4
            · rw [hk] at l2; cases l2; exact hu l3
          rw [t1 _ hno]
          unfold leafAssign
          simp only [hk]
          exact hx t ht k u l hk hu
    rw [m.exact hex hop τ
      (fun k hk ha => hrange self hs k (fun q => hk (by cases q; rfl)) (fun q => by cases q; exact hne rfl) ha)
      (fun k hk ha => hrange fin hfT k (fun q => by cases q; exact hne rfl) (fun q => hk (by cases q; rfl)) ha)]
    congr 2
    refine List.map_congr_left fun t ht => ?_
    have q1 : t ≠ self := by rintro rfl; simp [ht] at hTn
    have q2 : t ≠ fin := by rintro rfl; simp [ht] at hTn
    have q3 : t ≠ mid := by
      rintro rfl; exact hm (hT.mem_iff.2 (by simp [ht]))
    unfold entry
    rw [(m.otherAxis t q1 q2 q3).2]

end IsNet

end Heap
