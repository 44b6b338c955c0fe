import Verif.Props.C63
import Verif.Model.Partition

/-!
C63 when `h_list` holds the generator `-i H` rather than `H`, and C110: the equation of motion that the `MultiLayer` of
`minitn/heom/propagate.py` integrates. Its `_split_prop`, `eom` and sweeps are those of `ml.py`; only `coefficient()` differs.
-/

open Py

namespace SplitProp

open Heap ML Sweep

variable {K T R : Type} [Zero T] [Field R] [StarRing R]

/-- **C63, direct propagation, with `-i H` in `h_list`** (as the examples of `minitn/models/sbm.py` do). `s0` is the same object with `H` in
`h_list`. Then `coefficient()` is right: `i hbar <φ|dψ/dt> = <φ|H|ψ>` in real time, `-hbar <φ|dψ/dτ> = <φ|H|ψ>` in imaginary time, for every
variation `φ`. -/
theorem C63_generator_partial {s s0 : Obj T R} {F : Forest} (hr : DirectReady s F) {lin : Linalg R} (hlin : lin.Exact)
    (hreg : ∀ e ∈ s.heap.bonds s.root F, ∀ d, IsDensity s e.2.2.1 e.2.2.2 d → ∃ N, LeftInv (s.heap.hdim (e.2.2.1, e.2.2.2)) N d)
    {i hbar : R} (hi : i * i = -1) (hh : hbar ≠ 0) (hheap : s0.heap = s.heap) (hroot : s0.root = s.root)
    (hgen : ∀ x y, hEntry s F x y = -i * hEntry s0 F x y) {fuel : ℕ} (hf : F.ids.length < fuel) :
    ∃ s', derivative fuel lin (coefficient i hbar s.time) none s = .ok s' ∧
      ∀ t ∈ s.heap.tensors s.root F, ∀ A B : Nd R, s.heap.array t = some A → B.Wf → B.shape = A.shape →
        (if s.time.isNone then -hbar else i * hbar) * dot s F (velocity s s' F) (variation s F t (some B)) =
          element s0 F (s.heap.treeAmp s.root F) (variation s F t (some B)) := by
  have hi0 : i ≠ 0 := by rintro rfl; simp at hi
  have hcoef : coefficient i hbar s.time ≠ 0 := by
    unfold coefficient
    split
    · exact mul_ne_zero hi0 hh
    · exact hh
  obtain ⟨s', e1, -, e2⟩ := C60_variational hr hlin hreg hcoef none hf
  refine ⟨s', e1, fun t hm A B hA hB hBs => ?_⟩
  have key := e2 t hm A B hA hB hBs
  simp only [Option.getD_none, mul_zero, zero_mul, sub_zero] at key
  have hel : element s F (s.heap.treeAmp s.root F) (variation s F t (some B)) =
      -i * element s0 F (s.heap.treeAmp s.root F) (variation s F t (some B)) := by
    unfold element
    rw [hheap, hroot, ← TreeSum.sumLeaves_mul_left]
    refine TreeSum.sumLeaves_congr fun x => ?_
    rw [← TreeSum.sumLeaves_mul_left]
    refine TreeSum.sumLeaves_congr fun y => ?_
    rw [hgen]
    ring
  rw [hel] at key
  set z := dot s F (velocity s s' F) (variation s F t (some B))
  set w := element s0 F (s.heap.treeAmp s.root F) (variation s F t (some B))
  unfold coefficient at key
  split
  · rename_i h
    rw [if_pos h] at key
    linear_combination i * key - (hbar * z + w) * hi
  · rename_i h
    rw [if_neg h] at key
    linear_combination i * key - w * hi

/-- **C63, the sweeps, with `-i H` in `h_list`.** `call.value` is the sum over the terms, here `-i H A`; so `i * call.value` is `H A`, and the
derivative that the solver gets is that of the Schrödinger equation, in real and in imaginary time. -/
theorem C63_generator_sweeps_partial [Field K] (c : Config K T R) {i hbar : R} (hco : c.coef = coefficient i hbar) (hi : i * i = -1)
    (hh : hbar ≠ 0) (hie : c.initEnergy = none) (h1 : SvdShape c.svd) (h2 : SvdShape c.svdU) (h3 : SvdIso c.svd)
    (h4 : SvdIso c.svdU) {s : State K (Ext T R) R} {F : Forest} (ht : s.heap.IsTTN s.root F) (hr : s.heap.Rooted s.root F)
    (hp : s.heap.PlainNames (s.heap.tensors s.root F)) (st : Start s.ext s.heap) (hc : s.ext.calls = []) {fuel : ℕ}
    (hfu : F.ids.length < fuel) (cmds : List (Cmd K)) :
    ∃ s', cmds.foldlM (Cmd.exec (hooks c) fuel) s = .ok s' ∧ ∀ call ∈ s'.ext.calls, call.Right c ∧
      ∃ A, call.obj.heap.array call.tensor = some A ∧ ∀ k < A.data.length,
        (if c.imaginary then -hbar else i * hbar) * call.deriv.getD k 0 = i * call.value.data.getD k 0 := by
  have hi0 : i ≠ 0 := by rintro rfl; simp at hi
  obtain ⟨s', e1, e2⟩ := C63_sweeps_partial c hco hi0 hh h1 h2 h3 h4 ht hr hp st hc hfu cmds
  refine ⟨s', e1, fun call hcall => ?_⟩
  obtain ⟨q0, A, q1, q2⟩ := e2 call hcall
  refine ⟨q0, A, q1, fun k hk => ?_⟩
  have key := q2 k hk
  rw [hie, Option.getD_none, zero_mul, sub_zero] at key
  rw [← key]
  split
  · linear_combination -(hbar * call.deriv.getD k 0) * hi
  · ring

/-- **C110, the sweeps.** With the coefficient of `minitn/heom/propagate.py`: in every call of the right-hand side, in any list of sweeps with
any solver, the derivative `dA/dt` that the solver gets obeys `hbar dA/dt = (L - init_energy) A` in real time and
`-hbar dA/dτ = (L - init_energy) A` in imaginary time, where `L A` is the sum over the terms: the gradient of `<B|L|A>` (`Call.Right`). -/
theorem C110_sweeps [Field K] (c : Config K T R) {hbar : R} (hco : c.coef = heomCoefficient hbar) (hh : hbar ≠ 0)
    (h1 : SvdShape c.svd) (h2 : SvdShape c.svdU) (h3 : SvdIso c.svd)
    (h4 : SvdIso c.svdU) {s : State K (Ext T R) R} {F : Forest} (ht : s.heap.IsTTN s.root F) (hr : s.heap.Rooted s.root F)
    (hp : s.heap.PlainNames (s.heap.tensors s.root F)) (st : Start s.ext s.heap) (hc : s.ext.calls = []) {fuel : ℕ}
    (hfu : F.ids.length < fuel) (cmds : List (Cmd K)) :
    ∃ s', cmds.foldlM (Cmd.exec (hooks c) fuel) s = .ok s' ∧ ∀ call ∈ s'.ext.calls, call.Right c ∧
      ∃ A, call.obj.heap.array call.tensor = some A ∧ ∀ k < A.data.length,
        (if c.imaginary then -hbar else hbar) * call.deriv.getD k 0 =
          call.value.data.getD k 0 - c.initEnergy.getD 0 * A.data.getD k 0 := by
  obtain ⟨s', e1, -, e2⟩ := C28_sweeps_partial c h1 h2 h3 h4 ht hr hp st hc hfu cmds
  refine ⟨s', e1, fun call hcall => ⟨e2 call hcall, ?_⟩⟩
  obtain ⟨-, q1, ⟨F', -, -, A, G, q2, -, -, -, q3, -, q4⟩, -⟩ := e2 call hcall
  refine ⟨A, q2, fun k hk => ?_⟩
  have hcf : c.coef call.obj.time = if c.imaginary then -hbar else hbar := by rw [hco, ← q1]; rfl
  rw [hcf] at q4
  have hne : (if c.imaginary then -hbar else hbar) ≠ 0 := by
    split
    · exact neg_ne_zero.2 hh
    · exact hh
  rw [q3]
  exact q4 hne k hk

/-- **C110, direct propagation.** For every variation `φ`, `hbar <φ|dψ/dt> = <φ|L - hbar init_energy|ψ>` in real time, and
`-hbar <φ|dψ/dτ> = <φ|L + hbar init_energy|ψ>` in imaginary time. -/
theorem C110_direct {s : Obj T R} {F : Forest} (hr : DirectReady s F) {lin : Linalg R} (hlin : lin.Exact)
    (hreg : ∀ e ∈ s.heap.bonds s.root F, ∀ d, IsDensity s e.2.2.1 e.2.2.2 d → ∃ N, LeftInv (s.heap.hdim (e.2.2.1, e.2.2.2)) N d)
    {hbar : R} (hh : hbar ≠ 0) (ie : Option R) {fuel : ℕ} (hf : F.ids.length < fuel) :
    ∃ s', derivative fuel lin (heomCoefficient hbar s.time) ie s = .ok s' ∧
      ∀ t ∈ s.heap.tensors s.root F, ∀ A B : Nd R, s.heap.array t = some A → B.Wf → B.shape = A.shape →
        (if s.time.isNone then -hbar else hbar) * dot s F (velocity s s' F) (variation s F t (some B)) =
          element s F (s.heap.treeAmp s.root F) (variation s F t (some B)) -
            (if s.time.isNone then -hbar else hbar) * ie.getD 0 * dot s F (s.heap.treeAmp s.root F) (variation s F t (some B)) := by
  have hcoef : heomCoefficient hbar s.time ≠ 0 := by
    unfold heomCoefficient
    split
    · exact neg_ne_zero.2 hh
    · exact hh
  obtain ⟨s', e1, -, e2⟩ := C60_variational hr hlin hreg hcoef ie hf
  exact ⟨s', e1, e2⟩

/-- The claims for the network of C63, any sweeps. -/
example (im : Bool) (cmds : List (Cmd ℚ)) : ∃ s', cmds.foldlM (Cmd.exec (hooks { exQCfg im with coef := heomCoefficient 1 }) 5) ⟨exQ, 0, exQExt, []⟩ = .ok s' ∧
    ∀ call ∈ s'.ext.calls, ∃ A, call.obj.heap.array call.tensor = some A ∧ ∀ k < A.data.length,
        (if im then -1 else 1) * call.deriv.getD k 0 = call.value.data.getD k 0 := by
  obtain ⟨s', h1, h2⟩ := C110_sweeps (s := ⟨exQ, 0, exQExt, []⟩) (F := exQForest) (fuel := 5)
    { exQCfg im with coef := heomCoefficient 1 } rfl one_ne_zero trivialSvd_shape trivialSvd_shape trivialSvd_iso
    trivialSvd_iso exQ_ttn exQ_rooted exQ_plain exQ_start rfl (by decide) cmds
  refine ⟨s', h1, fun call hc => ?_⟩
  obtain ⟨-, A, a1, a2⟩ := h2 call hc
  refine ⟨A, a1, fun k hk => ?_⟩
  have := a2 k hk
  simp only [exQCfg, Option.getD_none, zero_mul, sub_zero] at this
  exact this

/-- In imaginary time the derivative of `(1, 0)` is `(0, -1)`. -/
example : (([Cmd.split (1/2) false].foldlM (Cmd.exec (hooks { exQCfg true with coef := heomCoefficient 1 }) 5)
    ⟨exQ, 0, exQExt, []⟩).toOption.map fun s => s.ext.calls.map fun c => c.deriv) = some [([0, -1] : List Gq)] := by
  decide +kernel

/-- `-i σ_x` in `h_list`: the derivative of `(1, 0)` in real time is `(0, -i)`, with the `coefficient()` of `ml.py`. -/
example : (([Cmd.split (1/2) false].foldlM (Cmd.exec (hooks (exQCfg false)) 5)
    ⟨exQ, 0, { exQExt with hList := [[(1, .mat ⟨[2, 2], [0, ⟨0, -1⟩, ⟨0, -1⟩, 0]⟩)]] }, []⟩).toOption.map fun s => s.ext.calls.map fun c => c.deriv) =
      some [([0, ⟨0, -1⟩] : List Gq)] := by
  decide +kernel

/-- The object of C63 with `-i σ_x` in `h_list`. -/
def exGen (time : Option ℚ) : Obj ℚ Gq := ⟨exQ, 0, [[(1, .mat ⟨[2, 2], [0, ⟨0, -1⟩, ⟨0, -1⟩, 0]⟩)]], none, time, []⟩

theorem exGen_ready (time : Option ℚ) : DirectReady (exGen time) exQForest where
  ttn := exQ_ttn
  rooted := exQ_rooted
  can := exQ_ready.can
  norm := exQ_ready.norm
  axes := exQ_ready.axes
  leaf := by
    intro term ht p hp
    have ht' : term ∈ (exGen time).hList := ht
    simp only [exGen, List.mem_cons, List.not_mem_nil, or_false] at ht'
    subst ht'
    simp only [List.mem_cons, List.not_mem_nil, or_false] at hp
    subst hp; rfl
  fits := by
    intro term ht p hp
    have hl : exQ.leafList 0 exQForest = [(1, 2)] := by decide +kernel
    change p ∈ exQ.leafList 0 exQForest at hp
    rw [hl] at hp
    simp only [List.mem_cons, List.not_mem_nil, or_false] at hp
    subst hp
    have ht' : term ∈ (exGen time).hList := ht
    simp only [exGen, List.mem_cons, List.not_mem_nil, or_false] at ht'
    subst ht'
    exact ⟨by simp [Nd.Wf, TermOp.at], rfl⟩
  terms := by simp [exGen, Obj.allTerms]

/-- The hypotheses of `C63_generator_partial` for this object. -/
example (time : Option ℚ) : ∃ s', derivative 5 (exactLinalg Gq) (coefficient ⟨0, 1⟩ 1 time) none (exGen time) = .ok s' := by
  obtain ⟨s', h, -⟩ := C63_generator_partial (fuel := 5) (i := ⟨0, 1⟩) (R := Gq) (exGen_ready time) exactLinalg_exact (fun e he => by
    have : exQ.bonds 0 exQForest = [] := by decide +kernel
    change e ∈ exQ.bonds 0 exQForest at he
    rw [this] at he; cases he) (by decide +kernel) one_ne_zero (s0 := ⟨exQ, 0, exQExt.hList, none, time, []⟩) rfl rfl (fun x y => by
      have e1 : ∀ s : Obj ℚ Gq, s.heap = exQ → s.root = 0 → s.fList = none → ∀ M : Nd Gq, s.hList = [[(1, .mat M)]] →
          hEntry s exQForest x y = M.get [x 1, y 1] := by
        rintro ⟨h, r, hl, fl, t, e⟩ rfl rfl rfl M rfl
        have hL : exQ.leafList 0 exQForest = [(1, 2)] := by decide +kernel
        simp [hEntry, termEntry, Obj.allTerms, hL, opOn, opEntry, TermOp.at]
      rw [e1 (exGen time) rfl rfl rfl _ rfl, e1 ⟨exQ, 0, exQExt.hList, none, time, []⟩ rfl rfl rfl _ rfl]
      unfold Nd.get
      simp only [ravel]
      generalize x 1 * _ + _ = k
      rcases k with _ | _ | _ | _ | k
      · decide +kernel
      · decide +kernel
      · decide +kernel
      · decide +kernel
      · simp) (by decide)
  exact ⟨s', h⟩

end SplitProp
