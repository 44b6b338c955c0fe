import Verif.Props.C28
import Verif.Props.C60
import Mathlib.Algebra.QuadraticAlgebra.Basic
import Mathlib.Tactic.NormNum

/-!
C63: real-time propagation obeys `i hbar dψ/dt = Hψ`, imaginary-time propagation `-hbar dψ/dt = Hψ`.

The propagators set `self.time` to the time of the step in real time, and to `None` in imaginary time (ml.py 779; 599 in `_split_prop`).
`coefficient()` (470-472) takes `self.time is None` for imaginary time and then returns `i hbar`, otherwise `hbar`.
-/

open Py

namespace SplitProp

open Heap ML Sweep

variable {K T R : Type} [Zero T] [Field R] [StarRing R]

/-- **C63, up to the coefficient.** In every call of the right-hand side, in any list of sweeps with any solver, the coefficient times the
derivative that the solver gets is `(H - init_energy) A`, where `H A` is the derivative of the energy (C28). But the coefficient is
`hbar` in real time and `i hbar` in imaginary time, where it should be `i hbar` and `-hbar`. -/
theorem C63_sweeps_partial [Field K] (c : Config K T R) {i hbar : R} (hco : c.coef = coefficient i hbar) (hi : i ≠ 0) (hh : hbar ≠ 0)
    (h1 : SvdShape c.svd) (h2 : SvdShape c.svdU) (h3 : SvdIso c.svd)
    (h4 : SvdIso c.svdU) {s : State K (Ext T R) R} {F : Forest} (ht : s.heap.IsTTN s.root F) (hr : s.heap.Rooted s.root F)
    (hp : s.heap.PlainNames (s.heap.tensors s.root F)) (st : Start s.ext s.heap) (hc : s.ext.calls = []) {fuel : ℕ}
    (hfu : F.ids.length < fuel) (cmds : List (Cmd K)) :
    ∃ s', cmds.foldlM (Cmd.exec (hooks c) fuel) s = .ok s' ∧ ∀ call ∈ s'.ext.calls, call.Right c ∧
      ∃ A, call.obj.heap.array call.tensor = some A ∧ ∀ k < A.data.length,
        (if c.imaginary then i * hbar else hbar) * call.deriv.getD k 0 =
          call.value.data.getD k 0 - c.initEnergy.getD 0 * A.data.getD k 0 := by
  obtain ⟨s', e1, -, e2⟩ := C28_sweeps_partial c h1 h2 h3 h4 ht hr hp st hc hfu cmds
  refine ⟨s', e1, fun call hcall => ⟨e2 call hcall, ?_⟩⟩
  obtain ⟨-, q1, ⟨F', -, -, A, G, q2, -, -, -, q3, -, q4⟩, -⟩ := e2 call hcall
  refine ⟨A, q2, fun k hk => ?_⟩
  have hcf : c.coef call.obj.time = if c.imaginary then i * hbar else hbar := by rw [hco, ← q1]; rfl
  rw [hcf] at q4
  have hne : (if c.imaginary then i * hbar else hbar) ≠ 0 := by
    split
    · exact mul_ne_zero hi hh
    · exact hh
  rw [q3]
  exact q4 hne k hk

/-- **C63 is violated in every sweep.** No call of the right-hand side, in real or in imaginary time, gives the solver the derivative of the
Schrödinger equation, unless that derivative is zero. -/
theorem C63_sweeps_violated [Field K] (c : Config K T R) {i hbar : R} (hco : c.coef = coefficient i hbar) (hi : i * i = -1)
    (htwo : (2 : R) ≠ 0) (hh : hbar ≠ 0)
    (h1 : SvdShape c.svd) (h2 : SvdShape c.svdU) (h3 : SvdIso c.svd)
    (h4 : SvdIso c.svdU) {s : State K (Ext T R) R} {F : Forest} (ht : s.heap.IsTTN s.root F) (hr : s.heap.Rooted s.root F)
    (hp : s.heap.PlainNames (s.heap.tensors s.root F)) (st : Start s.ext s.heap) (hc : s.ext.calls = []) {fuel : ℕ}
    (hfu : F.ids.length < fuel) (cmds : List (Cmd K)) :
    ∃ s', cmds.foldlM (Cmd.exec (hooks c) fuel) s = .ok s' ∧ ∀ call ∈ s'.ext.calls,
      call.Schroedinger i hbar (c.initEnergy.getD 0) c.imaginary → call.AtRest (c.initEnergy.getD 0) := by
  have hi0 : i ≠ 0 := by rintro rfl; simp at hi
  have two : ∀ z : R, z = -z → z = 0 := fun z hz => by
    have : 2 * z = 0 := by linear_combination hz
    exact (mul_eq_zero.1 this).resolve_left htwo
  have one : ∀ z : R, i * z = z → z = 0 := fun z hz => two z (by
    have : i * (i * z) = i * z := congrArg (i * ·) hz
    linear_combination z * hi - this - hz)
  have neg : ∀ z : R, i * z = -z → z = 0 := fun z hz => two z (by
    have : i * (i * z) = i * -z := congrArg (i * ·) hz
    linear_combination z * hi - this + hz)
  obtain ⟨s', e1, e2⟩ := C63_sweeps_partial c hco hi0 hh h1 h2 h3 h4 ht hr hp st hc hfu cmds
  refine ⟨s', e1, fun call hcall hs A hA k hk => ?_⟩
  obtain ⟨-, A1, a1, a2⟩ := e2 call hcall
  obtain ⟨A2, b1, b2⟩ := hs
  obtain rfl : A1 = A := Option.some.inj (a1.symm.trans hA)
  obtain rfl : A2 = A1 := Option.some.inj (b1.symm.trans hA)
  have p1 := a2 k hk
  have p2 := b2 k hk
  set d := call.deriv.getD k 0
  rw [← p1]
  cases hm : c.imaginary with
  | true =>
    rw [hm] at p1 p2
    simp only [if_true] at p1 p2 ⊢
    have : hbar * d = 0 := neg _ (by linear_combination p1 - p2)
    rw [mul_assoc, this, mul_zero]
  | false =>
    rw [hm] at p1 p2
    simp only [Bool.false_eq_true, if_false] at p1 p2 ⊢
    exact one _ (by linear_combination p2 - p1)

/-- **C63, direct propagation.** In real time (`self.time` is set) `direct_step` integrates `hbar dψ/dt = Hψ`: for every variation `φ`,
`hbar <φ|dψ/dt> = <φ|H|ψ>`, so that `i hbar <φ|dψ/dt> = <φ|H|ψ>` is wrong unless `<φ|H|ψ> = 0`. -/
theorem C63_direct_violated {s : Obj T R} {F : Forest} (hr : DirectReady s F) {lin : Linalg R} (hlin : lin.Exact)
    (hreg : ∀ e ∈ s.heap.bonds s.root F, ∀ d, IsDensity s e.2.2.1 e.2.2.2 d → ∃ N, LeftInv (s.heap.hdim (e.2.2.1, e.2.2.2)) N d)
    {i hbar : R} (hi : i * i = -1) (h2 : (2 : R) ≠ 0) (hh : hbar ≠ 0) (htime : s.time.isSome) {fuel : ℕ} (hf : F.ids.length < fuel) :
    ∃ s', derivative fuel lin (coefficient i hbar s.time) none s = .ok s' ∧
      ∀ t ∈ s.heap.tensors s.root F, ∀ A B : Nd R, s.heap.array t = some A → B.Wf → B.shape = A.shape →
        hbar * dot s F (velocity s s' F) (variation s F t (some B)) = element s F (s.heap.treeAmp s.root F) (variation s F t (some B)) ∧
        (i * hbar * dot s F (velocity s s' F) (variation s F t (some B)) = element s F (s.heap.treeAmp s.root F) (variation s F t (some B)) →
          element s F (s.heap.treeAmp s.root F) (variation s F t (some B)) = 0) := by
  have hco : coefficient i hbar s.time = hbar := by
    unfold coefficient
    rw [if_neg]
    cases e : s.time <;> simp_all
  rw [hco]
  obtain ⟨s', e1, -, e2⟩ := C60_variational hr hlin hreg hh none hf
  refine ⟨s', e1, fun t hm A B hA hB hBs => ?_⟩
  have key := e2 t hm A B hA hB hBs
  simp only [Option.getD_none, mul_zero, zero_mul, sub_zero] at key
  refine ⟨key, fun hw => ?_⟩
  rw [← key] at hw ⊢
  set z := hbar * dot s F (velocity s s' F) (variation s F t (some B)) with hz
  have h3 : i * z = z := by rw [hz, ← mul_assoc]; exact hw
  have h4 : i * (i * z) = i * z := congrArg (i * ·) h3
  have h5 : 2 * z = 0 := by linear_combination z * hi - h4 - h3
  exact (mul_eq_zero.1 h5).resolve_left h2

/-! Instance: one two-level system, `H = σ_x`, `ψ = (1, 0)`, over the Gaussian rationals. -/

/-- The Gaussian rationals. -/
abbrev Gq : Type := QuadraticAlgebra ℚ (-1) 0

instance : Fact (∀ r : ℚ, r ^ 2 ≠ -1 + 0 * r) := ⟨fun r hr => by nlinarith [sq_nonneg r]⟩

/-- The network. -/
def exQ : Heap Gq :=
  let h := (empty.alloc (Node.tensor (some ['a']) (some ⟨[2], [1, 0]⟩) none)).1
  let h := (h.alloc (Node.leaf (some ['x']))).1
  h.link 0 0 1 0

/-- The forest. -/
def exQForest : Forest := .cons 0 0 1 .nil .nil

theorem exQ_reachable : Reachable exQ := by
  unfold exQ
  refine .link (.new _ (.new _ .empty rfl) rfl) ?_ ?_ ?_ ?_ <;> decide +kernel

theorem exQ_acc (k : ℕ) : exQ.acc 0 (k + 1) = none := by
  simp [exQ, Heap.acc_def, Heap.access, Heap.link, Heap.alloc, Heap.upd, Heap.empty, Node.tensor, Node.leaf,
    Dict.get?, Dict.set]

theorem exQ_full : exQ.Full 0 ⟨[2], [1, 0]⟩ := by
  refine ⟨rfl, rfl, by simp [Nd.Wf], by decide, fun k => ?_⟩
  rcases k with _ | k
  · simp [Nd.ndim]; decide +kernel
  · exact ⟨fun q => absurd (exQ_acc k) q, fun q => absurd q (by simp [Nd.ndim])⟩

theorem exQ_tensors : exQ.tensors 0 exQForest = [0] := by decide +kernel

theorem exQ_ttn : exQ.IsTTN 0 exQForest where
  links := linkInv_of_reachable exQ_reachable
  tree := ⟨by decide +kernel, ⟨by decide +kernel, trivial, trivial⟩, by decide +kernel, ⟨fun _ => rfl, trivial, trivial⟩⟩
  leaf := rfl
  lt := by decide +kernel
  full := by
    rw [exQ_tensors]
    intro t ht
    simp only [List.mem_cons, List.not_mem_nil, or_false] at ht
    subst ht
    exact ⟨_, exQ_full⟩
  dims := by decide +kernel
  names := by
    rw [exQ_tensors]
    intro t ht
    simp only [List.mem_cons, List.not_mem_nil, or_false] at ht
    subst ht
    exact ⟨['a'], rfl⟩

theorem exQ_rooted : exQ.Rooted 0 exQForest := ⟨rfl, by decide +kernel⟩

theorem exQ_plain : exQ.PlainNames (exQ.tensors 0 exQForest) := by
  rw [exQ_tensors]
  intro t ht n hn
  simp only [List.mem_cons, List.not_mem_nil, or_false] at ht
  subst ht
  have : n = ['a'] := (Option.some.inj hn).symm
  subst this; decide

/-- The fields of the object. -/
def exQExt : Ext ℚ Gq := ⟨[[(1, .mat ⟨[2, 2], [0, 1, 1, 0]⟩)]], none, none, [], []⟩

theorem exQ_links {t k l j : ℕ} (h : exQ.acc t k = some (l, j)) : (t, k, l, j) ∈ [(0, 0, 1, 0), (1, 0, 0, 0)] := by
  have hlt : t < 2 := (exQ_ttn.links.lt h).1
  have hm := (mem_linkages exQ_ttn.links.wf).2 h
  have key : ∀ t < 2, ∀ p ∈ exQ.linkages t, (t, p) ∈ [(0, 0, 1, 0), (1, 0, 0, 0)] := by decide +kernel
  exact key t hlt _ hm

theorem exQ_start : Start exQExt exQ where
  fList := rfl
  const := by
    intro term ht p hp t t'
    simp only [exQExt, List.mem_cons, List.not_mem_nil, or_false] at ht
    subst ht
    simp only [List.mem_cons, List.not_mem_nil, or_false] at hp
    subst hp; rfl
  leaf := by
    intro term ht p hp
    simp only [exQExt, List.mem_cons, List.not_mem_nil, or_false] at ht
    subst ht
    simp only [List.mem_cons, List.not_mem_nil, or_false] at hp
    subst hp; exact ⟨rfl, by decide +kernel⟩
  fits := by
    intro term ht t k l j hl hlf
    have hm := exQ_links hl
    simp only [exQExt, List.mem_cons, List.not_mem_nil, or_false, Prod.mk.injEq] at ht hm
    subst ht
    rcases hm with ⟨rfl, rfl, rfl, rfl⟩ | ⟨rfl, rfl, rfl, rfl⟩
    · exact ⟨by simp [Nd.Wf, TermOp.at], rfl⟩
    · cases hlf
  empty := by
    intro l hl
    rcases l with _ | _ | l
    · cases hl
    · rfl
    · rfl
  marks := by
    intro t k hk hx
    obtain ⟨⟨l, j⟩, h⟩ := Option.ne_none_iff_exists'.1 hk
    have hm := exQ_links h
    simp only [List.mem_cons, List.not_mem_nil, or_false, Prod.mk.injEq] at hm
    rcases hm with ⟨rfl, rfl, rfl, rfl⟩ | ⟨rfl, rfl, rfl, rfl⟩
    · exact absurd rfl hx
    · exact absurd rfl hx

/-- One explicit Euler step of size `tau`, in real or imaginary time, with `hbar = 1`. -/
def exQCfg (imaginary : Bool) : Config ℚ ℚ Gq where
  imaginary := imaginary
  sqrt := id
  coef := coefficient ⟨0, 1⟩ 1
  initEnergy := none
  solver t0 y0 tau := .eval t0 y0 fun d => .update (List.zipWith (fun y d => y + ⟨tau, 0⟩ * d) y0 d) .stop
  svd := trivialSvd
  svdU := trivialSvd

/-- The claims for the example: any sweeps. -/
example (im : Bool) (cmds : List (Cmd ℚ)) : ∃ s', cmds.foldlM (Cmd.exec (hooks (exQCfg im)) 5) ⟨exQ, 0, exQExt, []⟩ = .ok s' ∧
    ∀ call ∈ s'.ext.calls, call.Schroedinger ⟨0, 1⟩ 1 0 im → call.AtRest 0 :=
  C63_sweeps_violated (exQCfg im) rfl (by decide +kernel) (by decide +kernel) one_ne_zero trivialSvd_shape trivialSvd_shape trivialSvd_iso
    trivialSvd_iso exQ_ttn exQ_rooted exQ_plain exQ_start rfl (by decide) cmds

/-- In real time the derivative of `(1, 0)` should be `(0, -i)`; the solver gets `(0, 1)`. -/
example : (([Cmd.split (1/2) false].foldlM (Cmd.exec (hooks (exQCfg false)) 5)
    ⟨exQ, 0, exQExt, []⟩).toOption.map fun s => s.ext.calls.map fun c => c.deriv) = some [([0, 1] : List Gq)] := by
  decide +kernel

/-- In imaginary time it should be `(0, -1)`; the solver gets `(0, -i)`. -/
example : (([Cmd.split (1/2) false].foldlM (Cmd.exec (hooks (exQCfg true)) 5)
    ⟨exQ, 0, exQExt, []⟩).toOption.map fun s => s.ext.calls.map fun c => c.deriv) = some [([0, ⟨0, -1⟩] : List Gq)] := by
  decide +kernel

/-- The example is ready for `direct_step` at time 0. -/
theorem exQ_ready : DirectReady (R := Gq) ⟨exQ, 0, exQExt.hList, none, some (0 : ℚ), []⟩ exQForest where
  ttn := exQ_ttn
  rooted := exQ_rooted
  can := by
    intro e he
    have : exQ.bonds 0 exQForest = [] := by decide +kernel
    change e ∈ exQ.bonds 0 exQForest at he
    rw [this] at he; cases he
  norm := by
    intro t ht _
    change t ∈ exQ.tensors 0 exQForest at ht
    rw [exQ_tensors] at ht
    simp only [List.mem_cons, List.not_mem_nil, or_false] at ht
    subst ht
    intro A q; cases q
  axes := (by decide +kernel : ∀ l ∈ exQForest.ids, exQ.isLeaf l = true → (exQ.node l).axis = none)
  leaf := by
    intro term ht p hp
    exact (exQ_start.leaf term (by simpa [Obj.allTerms] using ht) p hp).1
  fits := by
    intro term ht p hp
    have hl : exQ.leafList 0 exQForest = [(1, 2)] := by decide +kernel
    change p ∈ exQ.leafList 0 exQForest at hp
    rw [hl] at hp
    simp only [List.mem_cons, List.not_mem_nil, or_false] at hp
    subst hp
    have ht' : term ∈ exQExt.hList := by simpa [Obj.allTerms] using ht
    simp only [exQExt, List.mem_cons, List.not_mem_nil, or_false] at ht'
    subst ht'
    exact ⟨by simp [Nd.Wf, TermOp.at], rfl⟩
  terms := by simp [exQExt, Obj.allTerms]

/-- The claim for the example. -/
example : ∃ s', derivative 5 (exactLinalg Gq) (coefficient ⟨0, 1⟩ 1 (some (0 : ℚ))) none
    (⟨exQ, 0, exQExt.hList, none, some (0 : ℚ), []⟩ : Obj ℚ Gq) = .ok s' := by
  obtain ⟨s', h, -⟩ := C63_direct_violated (fuel := 5) (i := ⟨0, 1⟩) (R := Gq) exQ_ready exactLinalg_exact (fun e he => by
    have : exQ.bonds 0 exQForest = [] := by decide +kernel
    change e ∈ exQ.bonds 0 exQForest at he
    rw [this] at he; cases he) (by decide +kernel) (by decide +kernel) one_ne_zero rfl (by decide)
  exact ⟨s', h⟩

/-- With `φ = (0, 1)`, `<φ|H|ψ>` is 1. -/
example : element (⟨exQ, 0, exQExt.hList, none, some (0 : ℚ), []⟩ : Obj ℚ Gq) exQForest (exQ.treeAmp 0 exQForest)
    (variation (⟨exQ, 0, exQExt.hList, none, some (0 : ℚ), []⟩ : Obj ℚ Gq) exQForest 0 (some ⟨[2], [0, 1]⟩)) = 1 := by
  decide +kernel

end SplitProp
