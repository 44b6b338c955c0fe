import Verif.Spec.Autocorr
import Verif.Lemmas.Autocorr
import Verif.Props.C14

/-!
C68: what `autocorr` yields.
-/

open scoped BigOperators
open Py

namespace Autocorr

open Heap TreeSum

variable {R : Type} [CommRing R] [StarRing R] {X K : Type} [Ring K]

omit [CommRing R] [StarRing R] in
private theorem init_get (h : Heap R) (ts : List ℕ) : ∀ (d : Dict ℕ (Option (Nd R))) (t : ℕ),
    (ts.foldl (fun d t => d.set t (h.array t)) d).get? t = if t ∈ ts then some (h.array t) else d.get? t := by
  induction ts with
  | nil => intro d t; simp
  | cons a ts ih =>
    intro d t
    rw [List.foldl_cons, ih, Dict.get?_set]
    by_cases h1 : t ∈ ts
    · simp [h1]
    · by_cases h2 : a = t
      · subst h2; simp [h1]
      · have : ¬ t = a := fun e => h2 e.symm
        simp [h1, h2, this]

omit [CommRing R] [StarRing R] in
private theorem heap_ext {h k : Heap R} (h1 : h.next = k.next) (h2 : ∀ t, h.node t = k.node t) : h = k := by
  obtain ⟨a, b⟩ := h
  obtain ⟨c, d⟩ := k
  simp only at h1 h2
  obtain rfl := funext h2
  subst h1
  rfl

/-- Setting the bra. -/
private theorem bra_fold (fast : Bool) (init : Dict ℕ (Option (Nd R))) (h0 : Heap R) (ts : List ℕ)
    (hi : fast = false → ∀ t ∈ ts, ∃ A, h0.array t = some A ∧ init.get? t = some (some A)) :
    ∀ h : Heap R, ∃ h1, ts.foldlM (setBra fast init) h = .ok h1 ∧ h1.next = h.next ∧ ∀ t, h1.node t =
      if t ∈ ts then { h.node t with aux := if fast then h.array t else (h0.array t).map Nd.conj } else h.node t := by
  induction ts with
  | nil => intro h; exact ⟨h, rfl, rfl, by simp⟩
  | cons a ts ih =>
    intro h
    set h' := h.setAux a (if fast then h.array a else (h0.array a).map Nd.conj) with hh'
    have e1 : setBra fast init h a = .ok h' := by
      unfold setBra
      cases fast with
      | true => rfl
      | false =>
        obtain ⟨A, a1, a2⟩ := hi rfl a (List.mem_cons_self ..)
        rw [a2, hh', a1]
        rfl
    obtain ⟨h1, f1, f2, f3⟩ := ih (fun hf t ht => hi hf t (List.mem_cons_of_mem _ ht)) h'
    refine ⟨h1, ?_, f2, fun t => ?_⟩
    · rw [List.foldlM_cons, e1]; exact f1
    · have harr : h'.array t = h.array t := by
        rw [hh']; unfold Heap.array Heap.setAux Heap.upd; simp only; split <;> rfl
      rw [f3, harr]
      by_cases h3 : t = a
      · subst h3
        have : h'.node t = { h.node t with aux := if fast then h.array t else (h0.array t).map Nd.conj } := by
          rw [hh']; simp [Heap.setAux, Heap.upd]
        rw [this]
        by_cases h4 : t ∈ ts <;> simp [h4]
      · have : h'.node t = h.node t := by rw [hh']; simp [Heap.setAux, Heap.upd, h3]
        rw [this]
        by_cases h4 : t ∈ ts <;> simp [h3, h4]

/-- The value, and what remains in the heap. -/
private theorem measure_ok {h0 h : Heap R} {r : ℕ} {F : Forest} (ht0 : h0.IsTTN r F) (hl : Like h0 r F h) (fast : Bool)
    (init : Dict ℕ (Option (Nd R)))
    (hi : fast = false → ∀ t ∈ h.tensors r F, ∃ A, h0.array t = some A ∧ init.get? t = some (some A))
    {fuel : ℕ} (hf : F.depth < fuel) :
    ∃ h1, measure fuel fast init h r = .ok (h1, some ⟨[], [overlap h0 r F (h.treeAmp r F)
        (if fast then h.treeAmp r F else fun x => star (h0.treeAmp r F x))]⟩) ∧ clear fuel h1 r = .ok h := by
  obtain ⟨h1, e1, e2, e3⟩ := bra_fold fast init h0 (h.tensors r F) hi h
  set g : Heap R := if fast then h else h0.braNet false with hg
  have hgt : g.IsTTN r F := by
    rw [hg]; split
    · exact hl.ttn
    · exact braNet_false_ttn ht0
  have hgl : h.isLeaf = g.isLeaf := by
    rw [hg]; split
    · rfl
    · exact hl.leaf
  have hga : ∀ t k, h.acc t k = g.acc t k := by
    intro t k
    rw [hg]; split
    · rfl
    · exact hl.acc t k
  have hgd : g.leafList r F = h.leafList r F := by
    rw [hg]; split
    · rfl
    · rw [braNet_false_leafList ht0, hl.dims]
  have hgm : ∀ x, g.treeAmp r F x = (if fast then h.treeAmp r F else fun x => star (h0.treeAmp r F x)) x := by
    intro x
    rw [hg]
    cases fast with
    | true => rfl
    | false => exact braNet_amp ht0 x
  obtain ⟨n1, n2, n3, n4, n5, n6, n7⟩ := auxNet_tree hl.ttn hgt hga hgl e2 (fun t => by
    rw [e3]
    by_cases hm : t ∈ h.tensors r F
    · rw [if_pos hm, if_pos hm]
      have : (if fast then h.array t else (h0.array t).map Nd.conj) = g.array t := by
        rw [hg]
        cases fast with
        | true => rfl
        | false =>
          have hlt : h0.isLeaf t = false := by rw [← hl.leaf]; exact (mem_tensors.1 hm).2
          simp only [Bool.false_eq_true, if_false]
          rw [braNet_array hlt]
          rfl
      rw [this]
    · rw [if_neg hm, if_neg hm])
  obtain ⟨h2, m1⟩ := C14_inner_product n1 n2 (n3.trans hl.axis) (by rw [n6, n4, hgd]) hf
  refine ⟨h2, ?_, ?_⟩
  · unfold measure
    rw [visitor_tensors hl.ttn hl.axis hf]
    simp only [ok_bind, e1, m1]
    congr 5
    unfold overlap
    rw [n4, hl.dims]
    exact sumLeaves_congr fun x => by rw [n5, n7, hgm]
  · -- the heap after `global_inner_product`
    have m2 := m1
    unfold globalInnerProduct at m2
    rw [leaves_tree n1 (n3.trans hl.axis) hf] at m2
    have e4 := partialEnv_aux _ _ _ _ _ _ m2
    obtain ⟨p1, p2⟩ := foldl_setAux (fun _ _ => none) (fun _ _ _ _ => rfl) (leavesOf h1.isLeaf F) h1
    have hlf1 : h1.isLeaf = h.isLeaf := funext fun t => by unfold Heap.isLeaf; rw [e3]; split <;> rfl
    have q2 : ∀ t, h2.access t = h.access t := fun t => by
      unfold Heap.access; rw [e4, p2]
      split <;> (rw [e3]; split <;> rfl)
    have q3 : ∀ t, h2.isLeaf t = h.isLeaf t := fun t => by
      unfold Heap.isLeaf; rw [e4, p2]
      split <;> (rw [e3]; split <;> rfl)
    have q5 : ∀ t, (h2.node t).axis = (h.node t).axis := fun t => by
      rw [e4, p2]
      split <;> (rw [e3]; split <;> rfl)
    have q4 : ∀ t, (h2.node t).name = (h.node t).name := fun t => by
      rw [e4, p2]
      split <;> (rw [e3]; split <;> rfl)
    have q1 : ∀ t, h2.array t = h.array t := fun t => by
      unfold Heap.array; rw [e4, p2]
      split <;> (rw [e3]; split <;> rfl)
    have ht2 : h2.IsTTN r F := hl.ttn.congr q2 (by rw [e4, p1, e2]) q3 q4 fun c A hA hw => ⟨A, by rw [q1]; exact hA, hw, rfl⟩
    unfold clear
    rw [visitor_tensors ht2 (by rw [q5]; exact hl.axis) hf]
    obtain ⟨r1, r2⟩ := foldl_setAux (fun _ _ => none) (fun _ _ _ _ => rfl) (h2.tensors r F) h2
    simp only [ok_bind]
    refine congrArg Except.ok (heap_ext (by rw [r1, e4, p1, e2]) fun t => ?_)
    have hten : h2.tensors r F = h.tensors r F := by unfold tensors; rw [show h2.isLeaf = h.isLeaf from funext q3]
    rw [r2, hten, e4, p2, hlf1, e3]
    by_cases hm : t ∈ r :: F.ids
    · have ha := hl.aux t hm
      have hn : ∀ y : Node R, y.aux = none → { y with aux := none } = y := by
        intro y hy; obtain ⟨⟩ := y; simp only at hy; subst hy; rfl
      by_cases h5 : t ∈ h.tensors r F
      · simp only [if_pos h5]
        split <;> exact hn _ ha
      · simp only [if_neg h5]
        split
        · exact hn _ ha
        · rfl
    · have h5 : t ∉ h.tensors r F := fun h6 => hm (by
        rcases (mem_tensors.1 h6).1 with h7 | h7
        · rw [h7]; exact List.mem_cons_self ..
        · exact List.mem_cons_of_mem _ h7)
      have h6 : t ∉ leavesOf h.isLeaf F := fun h7 => hm (List.mem_cons_of_mem _ (List.mem_filter.1 h7).1)
      rw [if_neg h5, if_neg h6, if_neg h5]

private theorem loop_eq {h0 : Heap R} {r : ℕ} {F : Forest} (ht0 : h0.IsTTN r F) (fast : Bool) (init : Dict ℕ (Option (Nd R)))
    (hi : fast = false → ∀ t ∈ h0.tensors r F, ∃ A, h0.array t = some A ∧ init.get? t = some (some A))
    {fuel : ℕ} (hf : F.depth < fuel) (Inv : X × Heap R → Prop) (hInv : ∀ s, Inv s → Like h0 r F s.2)
    (steps : Option ℤ) (dt start : K) (time : K → X × Heap R → X × Heap R) (step : Ode.Call (X × Heap R))
    (htime : ∀ t s, Inv s → Inv (time t s)) (hstep : ∀ s s', Inv s → step s = (s', .ok ()) → Inv s') (k : ℕ) :
    ∀ (n : ℕ) (s : X × Heap R), Inv s →
    loop fuel fast init r steps dt start time step k n s =
      ((Ode.generator (fun e => if e = .runtimeWarning then .stopped else .raised e) r steps dt start time step k n s).1.map
        fun y => (if fast then 2 * y.1 else y.1, some ⟨[], [overlap h0 r F (y.2.2.2.treeAmp r F)
          (if fast then y.2.2.2.treeAmp r F else fun x => star (h0.treeAmp r F x))]⟩, y.2.2),
       (Ode.generator (fun e => if e = .runtimeWarning then .stopped else .raised e) r steps dt start time step k n s).2) := by
  induction k with
  | zero => intro n s hs; rfl
  | succ k ih =>
    intro n s hs
    rw [loop, Ode.generator]
    by_cases h1 : steps.any (fun m => decide (m ≤ (n : ℤ))) = true
    · rw [if_pos h1, if_pos h1]; rfl
    · rw [if_neg h1, if_neg h1]
      simp only
      have hs' := htime (start + (n : K) * dt) s hs
      set s1 := time (start + (n : K) * dt) s with hs1
      have hten : s1.2.tensors r F = h0.tensors r F := by unfold tensors; rw [(hInv _ hs').leaf]
      obtain ⟨h2, m1, m2⟩ := measure_ok ht0 (hInv _ hs') fast init (by rw [hten]; exact hi) hf
      rw [m1]
      simp only [m2]
      by_cases h3 : k = 0
      · rw [if_pos h3, if_pos h3]; rfl
      · rw [if_neg h3, if_neg h3]
        cases e : step (s1.1, s1.2) with
        | mk s' res =>
          have e' : step s1 = (s', res) := e
          cases res with
          | error x => rfl
          | ok u =>
            simp only
            rw [ih _ _ (hstep _ _ hs' e')]
            rfl

/-- **C68.** `autocorr()` yields at the times of the propagator the overlaps `∑ₓ ψₜ(x) conj(ψ₀(x))` of the propagated
state with the initial one, and it does not disturb the propagation: the states and the end of the iteration are those of
`propagator`. `Inv` is any invariant of the steps that implies `Like`. -/
theorem C68_autocorr {s0 : X × Heap R} {r : ℕ} {F : Forest} {fuel : ℕ} (hf : F.depth < fuel)
    (Inv : X × Heap R → Prop) (hInv : ∀ s, Inv s → Like s0.2 r F s.2) (h0 : Inv s0)
    (steps : Option ℤ) (dt start : K) (time : K → X × Heap R → X × Heap R) (step : Ode.Call (X × Heap R))
    (htime : ∀ t s, Inv s → Inv (time t s)) (hstep : ∀ s s', Inv s → step s = (s', .ok ()) → Inv s') (k : ℕ) :
    autocorr fuel false r steps dt start time step k s0 =
      ((Ode.propagate r steps dt start time step k s0).1.map fun y => (y.1, some ⟨[], [overlap s0.2 r F
        (y.2.2.2.treeAmp r F) (fun x => star (s0.2.treeAmp r F x))]⟩, y.2.2),
       (Ode.propagate r steps dt start time step k s0).2) := by
  have hl := hInv _ h0
  unfold autocorr
  by_cases hk : k = 0
  · subst hk; rfl
  · rw [if_neg hk, if_neg Bool.false_ne_true]
    unfold initArrays
    rw [visitor_tensors hl.ttn hl.axis hf]
    simp only [ok_bind, pure, Except.pure]
    rw [loop_eq (h0 := s0.2) hl.ttn false _ (fun _ t hm => by
      obtain ⟨A, hA⟩ := hl.ttn.full t hm
      exact ⟨A, hA.array, by rw [init_get, if_pos hm, hA.array]⟩) hf Inv hInv steps dt start time step htime hstep k 0 s0 h0]
    rfl

/-- **C68.** With `fast=True` the values are `∑ₓ ψₜ(x)²`, at the doubled times. -/
theorem C68_fast {s0 : X × Heap R} {r : ℕ} {F : Forest} {fuel : ℕ} (hf : F.depth < fuel)
    (Inv : X × Heap R → Prop) (hInv : ∀ s, Inv s → Like s0.2 r F s.2) (h0 : Inv s0)
    (steps : Option ℤ) (dt start : K) (time : K → X × Heap R → X × Heap R) (step : Ode.Call (X × Heap R))
    (htime : ∀ t s, Inv s → Inv (time t s)) (hstep : ∀ s s', Inv s → step s = (s', .ok ()) → Inv s') (k : ℕ) :
    autocorr fuel true r steps dt start time step k s0 =
      ((Ode.propagate r steps dt start time step k s0).1.map fun y => (2 * y.1, some ⟨[], [overlap s0.2 r F
        (y.2.2.2.treeAmp r F) (y.2.2.2.treeAmp r F)]⟩, y.2.2),
       (Ode.propagate r steps dt start time step k s0).2) := by
  have hl := hInv _ h0
  unfold autocorr
  by_cases hk : k = 0
  · subst hk; rfl
  · rw [if_neg hk, if_pos rfl]
    rw [loop_eq (h0 := s0.2) hl.ttn true _ (fun h => by cases h) hf Inv hInv steps dt start time step htime hstep k 0 s0 h0]
    rfl

omit [StarRing R] in
private theorem swap (L L' : List (ℕ × ℕ)) (g : (ℕ → ℕ) → (ℕ → ℕ) → R) (x y : ℕ → ℕ) :
    sumLeaves L (fun u => sumLeaves L' (fun v => g u v) y) x = sumLeaves L' (fun v => sumLeaves L (fun u => g u v) x) y := by
  induction L generalizing x with
  | nil => rfl
  | cons p L ih =>
    simp only [sumLeaves, ih]
    rw [← sumLeaves_sum]

/-- **C68.** Why `fast=True` doubles the times: if every step applies one symmetric matrix to the state and the initial
state is real, the value after `n` steps is the overlap of the state after `2 n` steps with the initial one. -/
theorem C68_fast_agrees {h0 : Heap R} {r : ℕ} {F : Forest} (ht : h0.IsTTN r F) (M : (ℕ → ℕ) → (ℕ → ℕ) → R)
    (hM : ∀ x y, M x y = M y x) (ψ : ℕ → (ℕ → ℕ) → R) (hr : ∀ x, star (ψ 0 x) = ψ 0 x)
    (hψ : ∀ n x, (∀ p ∈ h0.leafList r F, x p.1 < p.2) →
      ψ (n + 1) x = sumLeaves (h0.leafList r F) (fun y => M x y * ψ n y) (fun _ => 0)) (n : ℕ) :
    overlap h0 r F (ψ n) (ψ n) = overlap h0 r F (ψ (2 * n)) (fun x => star (ψ 0 x)) := by
  have hstep : ∀ a b, overlap h0 r F (ψ (a + 1)) (ψ b) = overlap h0 r F (ψ a) (ψ (b + 1)) := by
    intro a b
    unfold overlap
    have e1 : sumLeaves (h0.leafList r F) (fun x => ψ (a + 1) x * ψ b x) (fun _ => 0) =
        sumLeaves (h0.leafList r F) (fun x => sumLeaves (h0.leafList r F) (fun y => M x y * ψ a y * ψ b x) (fun _ => 0))
          (fun _ => 0) := by
      refine sumLeaves_congr' (leafList_nodup ht) fun x _ hx => ?_
      rw [hψ a x hx, mul_comm, ← sumLeaves_mul_left]
      exact sumLeaves_congr fun y => mul_comm _ _
    have e2 : sumLeaves (h0.leafList r F) (fun x => ψ a x * ψ (b + 1) x) (fun _ => 0) =
        sumLeaves (h0.leafList r F) (fun x => sumLeaves (h0.leafList r F) (fun y => M y x * ψ a x * ψ b y) (fun _ => 0))
          (fun _ => 0) := by
      refine sumLeaves_congr' (leafList_nodup ht) fun x _ hx => ?_
      rw [hψ b x hx, ← sumLeaves_mul_left]
      refine sumLeaves_congr fun y => ?_
      rw [hM x y]; ring
    rw [e1, e2, swap]
  have key : ∀ b a, overlap h0 r F (ψ a) (ψ b) = overlap h0 r F (ψ (a + b)) (ψ 0) := by
    intro b
    induction b with
    | zero => intro a; rfl
    | succ b ih => intro a; rw [← hstep, ih, show a + 1 + b = a + (b + 1) by omega]
  rw [key, two_mul]
  simp only [hr]

/-! Instance: the network `exTwo` of C02; the step doubles the array of the root. -/

/-- Double the array of the root. -/
def exStep : Ode.Call (Unit × Heap ℤ) := fun s => match s.2.array 0 with
  | some A => (((), s.2.setArray 0 (some ⟨A.shape, A.data.map (2 * ·)⟩)), .ok ())
  | none => (s, .error .typeError)

theorem exStep_like {h : Heap ℤ} (hl : Like exTwo 0 exTwoForest h) {s' : Unit × Heap ℤ}
    (e : exStep ((), h) = (s', .ok ())) : Like exTwo 0 exTwoForest s'.2 := by
  unfold exStep at e
  cases hA : h.array 0 with
  | none => simp only [hA] at e; cases e
  | some A =>
    simp only [hA, Prod.mk.injEq, and_true] at e
    subst e
    set k := h.setArray 0 (some ⟨A.shape, A.data.map (2 * ·)⟩) with hk
    have kn : ∀ c, c ≠ 0 → k.node c = h.node c := fun c hc => by rw [hk]; simp [setArray, upd, hc]
    have k0 : k.node 0 = { h.node 0 with array := some ⟨A.shape, A.data.map (2 * ·)⟩ } := by
      rw [hk]; simp [setArray, upd]
    have ka : ∀ c, k.access c = h.access c := fun c => by
      unfold Heap.access
      by_cases hc : c = 0
      · subst hc; rw [k0]
      · rw [kn c hc]
    have kl : ∀ c, k.isLeaf c = h.isLeaf c := fun c => by
      unfold Heap.isLeaf
      by_cases hc : c = 0
      · subst hc; rw [k0]
      · rw [kn c hc]
    have kna : ∀ c, (k.node c).name = (h.node c).name := fun c => by
      by_cases hc : c = 0
      · subst hc; rw [k0]
      · rw [kn c hc]
    have kd : k.hdim = h.hdim := by
      funext p
      unfold hdim Heap.array
      by_cases hc : p.1 = 0
      · rw [hc, k0]
        have : (h.node 0).array = some A := hA
        rw [this]
      · rw [kn _ hc]
    refine ⟨hl.ttn.congr ka rfl kl kna fun c B hB hw => ?_, by rw [k0]; exact hl.axis, fun t i => ?_,
      (funext kl).trans hl.leaf, ?_, fun t ht => ?_⟩
    · by_cases hc : c = 0
      · subst hc
        obtain rfl : A = B := Option.some.inj (hA.symm.trans hB)
        refine ⟨⟨A.shape, A.data.map (2 * ·)⟩, by unfold Heap.array; rw [k0], ?_, rfl⟩
        unfold Nd.Wf at hw ⊢
        simpa using hw
      · exact ⟨B, by unfold Heap.array; rw [kn c hc]; exact hB, hw, rfl⟩
    · rw [Heap.acc_def, ka, ← Heap.acc_def]; exact hl.acc t i
    · rw [← hl.dims]
      unfold leafList
      rw [kd, show k.isLeaf = h.isLeaf from funext kl]
    · by_cases hc : t = 0
      · subst hc; rw [k0]; exact hl.aux _ ht
      · rw [kn t hc]; exact hl.aux t ht

theorem exTwo_like : Like exTwo 0 exTwoForest exTwo := by
  refine ⟨exTwo_ttn, rfl, fun _ _ => rfl, rfl, rfl, ?_⟩
  intro t ht
  have : t ∈ [0, 1, 3, 2] := ht
  simp only [List.mem_cons, List.not_mem_nil, or_false] at this
  rcases this with rfl | rfl | rfl | rfl <;> rfl

example (fast : Bool) : autocorr 4 fast 0 (some 3) (1 : ℚ) 0 (fun _ s => s) exStep 3 ((), exTwo) =
      ((Ode.propagate 0 (some 3) (1 : ℚ) 0 (fun _ s => s) exStep 3 ((), exTwo)).1.map fun y =>
        (if fast then 2 * y.1 else y.1, some ⟨[], [overlap exTwo 0 exTwoForest (y.2.2.2.treeAmp 0 exTwoForest)
          (if fast then y.2.2.2.treeAmp 0 exTwoForest else fun x => star (exTwo.treeAmp 0 exTwoForest x))]⟩, y.2.2),
       (Ode.propagate 0 (some 3) (1 : ℚ) 0 (fun _ s => s) exStep 3 ((), exTwo)).2) := by
  cases fast with
  | false =>
    exact C68_autocorr (K := ℚ) (s0 := ((), exTwo)) (fuel := 4) (by decide) (fun s => Like exTwo 0 exTwoForest s.2) (fun _ h => h)
      exTwo_like _ _ _ _ _ (fun _ _ h => h) (fun s s' h e => exStep_like h e) 3
  | true =>
    exact C68_fast (K := ℚ) (s0 := ((), exTwo)) (fuel := 4) (by decide) (fun s => Like exTwo 0 exTwoForest s.2) (fun _ h => h)
      exTwo_like _ _ _ _ _ (fun _ _ h => h) (fun s s' h e => exStep_like h e) 3

/-- The values: the norm is 4762, and every step doubles the state. -/
example : ((autocorr 4 false 0 (some 3) (1 : ℚ) 0 (fun _ s => s) exStep 5 ((), exTwo)).1.map fun y => (y.1, y.2.1.map Nd.data)) =
      [(0, some [4762]), (1, some [2 * 4762]), (2, some [4 * 4762])] ∧
    ((autocorr 4 true 0 (some 3) (1 : ℚ) 0 (fun _ s => s) exStep 5 ((), exTwo)).1.map fun y => (y.1, y.2.1.map Nd.data)) =
      [(0, some [4762]), (2, some [4 * 4762]), (4, some [16 * 4762])] ∧
    (autocorr 4 true 0 (some 3) (1 : ℚ) 0 (fun _ s => s) exStep 5 ((), exTwo)).2 = .stopped := by
  decide +kernel

/-- States made by repeated application of a symmetric matrix. -/
def exSeq : ℕ → (ℕ → ℕ) → ℤ
  | 0, x => exTwo.treeAmp 0 exTwoForest x
  | n + 1, x => sumLeaves (exTwo.leafList 0 exTwoForest) (fun y => (x 2 * y 2 + x 3 + y 3 : ℕ) * exSeq n y) (fun _ => 0)

example (n : ℕ) : overlap exTwo 0 exTwoForest (exSeq n) (exSeq n) =
    overlap exTwo 0 exTwoForest (exSeq (2 * n)) (fun x => star (exSeq 0 x)) :=
  C68_fast_agrees exTwo_ttn (fun x y => (x 2 * y 2 + x 3 + y 3 : ℕ)) (fun x y => by congr 1; ring) exSeq
    (fun _ => star_trivial _) (fun _ _ _ => rfl) n

end Autocorr
