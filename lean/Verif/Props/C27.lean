import Verif.Lemmas.Sweep3
import Verif.Props.C26

/-!
C27: the two-site projector-splitting sweep, `minitn/algorithms/ml.py:678-710` (and `minitn/heom/propagate2.py:190-222`).
-/

open Py

namespace Sweep

variable {K E R : Type} [CommRing R]

def Site.isPair : Site → Bool
  | .pair .. => true
  | _ => false

/-- The number of links between `t` and other tensors that are not leaves. -/
def degree (h : Heap R) (r : ℕ) (F : Forest) (t : ℕ) : ℕ :=
  ((h.bonds r F).filter fun e => decide (e.1 = t ∨ e.2.2.1 = t)).length

/-- What one two-site sweep propagates: the two tensors at every link together, once for `tau`; besides only single
tensors for `-tau`; every tensor is among these one time less than it has links. (If there is only one tensor, nothing
is propagated at all.) -/
structure TwoSite [Neg K] (h : Heap R) (r : ℕ) (F : Forest) (tau : K) (sites : List (Site × K)) : Prop where
  pairs : (sites.filter fun x => x.1.isPair).Perm
    ((h.bonds r F).map fun e : ℕ × ℕ × ℕ × ℕ => (Site.pair e.2.2.1 e.2.2.2 e.1 e.2.1, tau))
  others : ∀ x ∈ sites, x.1.isPair = false → ∃ t ∈ h.tensors r F, x = (.tensor t, -tau)
  back : h.bonds r F ≠ [] → ∀ t ∈ h.tensors r F, (sites.countP fun x => decide (x.1 = .tensor t)) + 1 = degree h r F t
  single : h.bonds r F = [] → sites = []

theorem siteU_twoSite [Neg K] {h : Heap R} {r : ℕ} {F : Forest} (ht : h.IsTTN r F) (tau : K) :
    TwoSite h r F tau (siteU (fun t => !(h.isLeaf t)) tau r F r) := by
  have hr : r ∉ F.ids := (List.nodup_cons.1 ht.tree.nodup).1
  have hp := siteU_perm tau r F r ht.tree.leafEnd hr
  have hb : ((F.edges r).filter fun e => !(h.isLeaf e.2.2.1)) = h.bonds r F := rfl
  rw [hb] at hp
  simp only [true_and] at hp
  generalize hS : siteU (fun t => !(h.isLeaf t)) tau r F r = S at hp ⊢
  have hcount : 0 < count (fun t => !(h.isLeaf t)) F ↔ h.bonds r F ≠ [] := by
    constructor
    · intro q e
      rw [e, if_pos q] at hp
      have := hp.length_eq
      simp at this
    · intro q
      by_contra hc
      have h0 : count (fun t => !(h.isLeaf t)) F = 0 := by omega
      obtain ⟨-, z, -⟩ := count_zero ht.tree.leafEnd h0 tau r r
      rw [hS] at z
      rw [z, if_neg hc] at hp
      have := hp.length_eq
      simp at this
      exact q (List.eq_nil_of_length_eq_zero (by omega))
  refine ⟨?_, ?_, ?_, ?_⟩
  · have := hp.filter (fun x => x.1.isPair)
    rw [List.filter_append, List.filter_append] at this
    have z : (if 0 < count (fun t => !(h.isLeaf t)) F then [(Site.tensor r, -tau)] else []).filter (fun x => x.1.isPair) = [] := by
      split <;> simp [Site.isPair]
    rw [z, List.append_nil] at this
    refine this.trans (List.Perm.of_eq ?_)
    rw [List.filter_map, List.filter_map]
    have f1 : ((fun x : Site × K => x.1.isPair) ∘ fun e : ℕ × ℕ × ℕ × ℕ => (Site.pair e.2.2.1 e.2.2.2 e.1 e.2.1, tau)) =
        fun _ => true := rfl
    have f2 : ((fun x : Site × K => x.1.isPair) ∘ fun e : ℕ × ℕ × ℕ × ℕ => (Site.tensor e.1, -tau)) = fun _ => false := rfl
    rw [f1, f2]
    simp
  · intro x hx hxp
    have := hp.mem_iff.1 (List.mem_append_left _ hx)
    rcases List.mem_append.1 this with q | q
    · obtain ⟨e, -, rfl⟩ := List.mem_map.1 q
      cases hxp
    · obtain ⟨e, he, rfl⟩ := List.mem_map.1 q
      exact ⟨_, (ht.isNet.isLink e he).2.1, rfl⟩
  · intro hne t hT
    have hc := hcount.2 hne
    have q := hp.countP_eq (fun x => decide (x.1 = .tensor t))
    rw [if_pos hc, List.countP_append, List.countP_append, List.countP_map, List.countP_map] at q
    have f1 : ((fun x : Site × K => decide (x.1 = .tensor t)) ∘ fun e : ℕ × ℕ × ℕ × ℕ =>
        (Site.pair e.2.2.1 e.2.2.2 e.1 e.2.1, tau)) = fun _ => false := by
      funext e; simp
    have f2 : ((fun x : Site × K => decide (x.1 = .tensor t)) ∘ fun e : ℕ × ℕ × ℕ × ℕ => (Site.tensor e.1, -tau)) =
        fun e => decide (e.1 = t) := by funext e; simp
    rw [f1, f2] at q
    simp only [List.countP_false, Nat.zero_add] at q
    -- the links with `t` at the end away from the root
    have hup : ((h.bonds r F).countP fun e => decide (e.2.2.1 = t)) = if t = r then 0 else 1 := by
      have e1 : ((h.bonds r F).countP fun e => decide (e.2.2.1 = t)) =
          ((h.bonds r F).map fun e : ℕ × ℕ × ℕ × ℕ => e.2.2.1).count t := by
        rw [List.count, List.countP_map]
        rfl
      have e2 : ((h.bonds r F).map fun e : ℕ × ℕ × ℕ × ℕ => e.2.2.1) = F.ids.filter fun c => !(h.isLeaf c) := by
        rw [← Heap.edges_targets F r, List.filter_map]
        rfl
      rw [e1, e2]
      obtain ⟨t1, t2⟩ := Heap.mem_tensors.1 hT
      by_cases htr : t = r
      · rw [if_pos htr]
        exact List.count_eq_zero_of_not_mem (fun q => hr (htr ▸ (List.mem_filter.1 q).1))
      · rw [if_neg htr]
        refine List.count_eq_one_of_mem (((List.nodup_cons.1 ht.tree.nodup).2).filter _) ?_
        rcases t1 with q | q
        · exact absurd q htr
        · exact List.mem_filter.2 ⟨q, by simp [t2]⟩
    have hdeg : degree h r F t = ((h.bonds r F).countP fun e => decide (e.1 = t)) +
        ((h.bonds r F).countP fun e => decide (e.2.2.1 = t)) := by
      unfold degree
      rw [← List.countP_eq_length_filter]
      have key : ∀ l : List (ℕ × ℕ × ℕ × ℕ), (∀ e ∈ l, e.1 ≠ e.2.2.1) →
          (l.countP fun e => decide (e.1 = t ∨ e.2.2.1 = t)) =
            (l.countP fun e => decide (e.1 = t)) + l.countP fun e => decide (e.2.2.1 = t) := by
        intro l
        induction l with
        | nil => intro _; rfl
        | cons e l ih =>
          intro hd
          have h1 := ih fun e he => hd e (by simp [he])
          have h2 := hd e (by simp)
          simp only [List.countP_cons]
          by_cases c1 : e.1 = t
          · have c2 : ¬ e.2.2.1 = t := fun q => h2 (c1.trans q.symm)
            simp only [c1, c2, decide_true, decide_false, if_true, true_or, Bool.false_eq_true, if_false]
            omega
          · by_cases c2 : e.2.2.1 = t
            · simp only [c1, c2, decide_true, decide_false, if_true, or_true, Bool.false_eq_true, if_false]
              omega
            · simp only [c1, c2, decide_false, or_self, Bool.false_eq_true, if_false]
              omega
      refine key _ fun e he q => ?_
      obtain ⟨i1, i2, i3⟩ := ht.isNet.isLink e he
      exact (ht.isNet.simple _ i2 _ _ _ i1.1 i3).1 q.symm
    have q' : List.countP (fun x => decide (x.1 = .tensor t)) S + List.countP (fun x => decide (x.1 = .tensor t)) [(Site.tensor r, -tau)] =
        List.countP (fun e => decide (e.1 = t)) (h.bonds r F) := by rw [q]; simp
    rw [hdeg, hup, ← q']
    by_cases htr : t = r
    · subst htr
      simp
    · have : ¬ r = t := fun q => htr q.symm
      simp [htr, this]
  · intro e
    have h0 : count (fun t => !(h.isLeaf t)) F = 0 := by
      by_contra hc
      exact hcount.1 (by omega) e
    obtain ⟨-, z, -⟩ := count_zero ht.tree.leafEnd h0 tau r r
    exact hS ▸ z

theorem counted_start {h : Heap R} (ts : List ℕ) (F : Forest) (a : ℕ) (hrep : F.RepIn h)
    (hts : ∀ x ∈ F.ids, h.isLeaf x = false → x ∈ ts)
    (hax : ∀ e ∈ F.edges a, h.isLeaf e.2.2.1 = false → (h.node e.2.2.1).axis = some e.2.2.2) :
    Counted h (counters h ts) F := by
  induction F generalizing a with
  | nil => trivial
  | cons i j id sub rest ih1 ih2 =>
    obtain ⟨p1, p2, p3⟩ := hrep
    refine ⟨fun hl => ?_, ih1 id p2 (fun x q => hts x (by simp [Forest.ids, q])) (fun e q => hax e (by simp [Forest.edges, q])),
      ih2 a p3 (fun x q => hts x (by simp [Forest.ids, q])) (fun e q => hax e (by simp [Forest.edges, q]))⟩
    have hx : (h.node id).axis = some j := hax (a, i, id, j) (by simp [Forest.edges]) hl
    rw [counters_get, if_pos (hts id (by simp [Forest.ids]) hl)]
    unfold Heap.childrenDflt count
    rw [hx, Heap.children_false, p1]

theorem uniteStep_ok [Neg K] {I J : E → Heap R → ℕ → Prop} {H : Hooks K E R} (hH : H.GoodI I J) {s : State K E R} {F : Forest}
    (ht : s.heap.IsTTN s.root F) (hr : s.heap.Rooted s.root F) (hp : s.heap.PlainNames (s.heap.tensors s.root F))
    (hJ : J s.ext s.heap s.root) {fuel : ℕ} (hfu : F.ids.length < fuel) (tau : K) :
    ∃ s', uniteStep H fuel tau false s = .ok s' ∧ s'.root = s.root ∧
      Ran I s.heap s.root s s' (siteU (fun t => !(s.heap.isLeaf t)) tau s.root F s.root) := by
  obtain ⟨x, h, ex, iv, ht', hr', hl', hch⟩ := formEnv_ok hH.toGoodS ht hr hp hJ
  have hh := fun i id j (q : (i, id, j) ∈ F.heads) => ht.tree.acc_of_mem_heads ht.links.wf q
  have hdep : F.depth < fuel := by have := F.depth_le; omega
  have hd := Heap.decorated_tree ht'.tree false hdep
  have hv := Heap.visitor_tree ht'.tree false hdep
  simp only [Bool.false_or, hl'] at hd hv
  have hts : ((if (!s.heap.isLeaf s.root) = true then [s.root] else []) ++ F.ids.filter fun t => !(s.heap.isLeaf t)) =
      s.heap.tensors s.root F := by
    unfold Heap.tensors
    rw [List.filter_cons]
    split <;> rfl
  rw [hts] at hv
  have hcn : counters h (s.heap.tensors s.root F) = counters s.heap (s.heap.tensors s.root F) := by
    unfold counters
    simp only [hch]
  have hc := counted_start (s.heap.tensors s.root F) F s.root ht.tree.rep
    (fun y hy hl => Heap.mem_tensors.2 ⟨.inr hy, hl⟩) (fun e he hl => hr.2 e (Heap.mem_bonds.2 ⟨he, hl⟩))
  have hcr : (counters s.heap (s.heap.tensors s.root F)).get? s.root = some (count (fun t => !(s.heap.isLeaf t)) F : ℤ) := by
    rw [counters_get, if_pos (Heap.mem_tensors.2 ⟨.inl rfl, ht.leaf⟩)]
    unfold Heap.childrenDflt count
    rw [hr.1, Heap.children_false, ht.tree.heads]
  obtain ⟨s', c', e1, e2, e3, e4, e5, e6, e7⟩ := uni_ok hH ht tau hfu s.root F s.root ht.tree.rep ht.tree.leafEnd
    ht.tree.nodup hh ht.leaf iv rfl hc hcr
  refine ⟨s', ?_, e2, e3⟩
  unfold uniteStep
  rw [ex]
  simp only [ok_bind]
  rw [hr'.1, hd]
  simp only [ok_bind]
  rw [hv]
  simp only [ok_bind, Bool.false_eq_true, if_false, hcn]
  rw [e1]
  simp only [ok_bind]
  rw [if_neg]
  · rfl
  · intro hany
    rw [List.any_eq_true] at hany
    obtain ⟨⟨k, v⟩, hm, hv⟩ := hany
    have hwf : c'.Wf := by unfold Dict.Wf; rw [e7]; exact counters_wf _ _
    have hg := (Dict.get?_some_iff_mem hwf k v).2 hm
    have hk : k ∈ Dict.keys c' := (Dict.mem_keys_iff _ _).2 (by rw [hg]; rfl)
    rw [e7, Dict.mem_keys_iff, counters_get] at hk
    have hkT : k ∈ s.heap.tensors s.root F := by
      by_contra q
      rw [if_neg q] at hk; cases hk
    obtain ⟨q1, q2⟩ := Heap.mem_tensors.1 hkT
    have hz : c'.get? k = some 0 := by
      rcases q1 with rfl | q1
      · exact e4
      · exact e5 k q1 q2
    rw [hz] at hg
    have : v = 0 := (Option.some.inj hg).symm
    simp [this] at hv

/-- **C27, forward.** On the root of a tree tensor network, `unite_step()` returns normally (so its assertion holds and
only roots were propagated). It has propagated the two tensors at every link as one, exactly once for `tau`, every tensor
that is not a leaf one time less than it has links to others, for `-tau`, and nothing else. The root is where it was, all links
are as they were, and the network is again a tree tensor network whose only root is that one. -/
theorem C27_forward_partial [Neg K] {H : Hooks K E R} (hH : H.Good) {s : State K E R} {F : Forest}
    (ht : s.heap.IsTTN s.root F) (hr : s.heap.Rooted s.root F) (hp : s.heap.PlainNames (s.heap.tensors s.root F)) {fuel : ℕ} (hfu : F.ids.length < fuel) (tau : K) :
    ∃ s' es sites, uniteStep H fuel tau false s = .ok s' ∧ s'.root = s.root ∧
      s'.log = s.log ++ es ∧ Recorded s.heap es sites ∧ TwoSite s.heap s.root F tau sites ∧
      (∀ t k, s'.heap.acc t k = s.heap.acc t k) ∧ s'.heap.IsTTN s.root F ∧ s'.heap.Rooted s.root F := by
  obtain ⟨s', e1, e2, iv, es, e3, e4⟩ := uniteStep_ok hH.goodI ht hr hp trivial hfu tau
  obtain ⟨f1, f2, -⟩ := iv.final ht e2
  exact ⟨s', es, _, e1, e2, e3, e4, siteU_twoSite ht tau, iv.acc, f1, f2⟩

theorem mem_edges_of_heads {F : Forest} {i id j : ℕ} (a : ℕ) (h : (i, id, j) ∈ F.heads) : (a, i, id, j) ∈ F.edges a := by
  induction F with
  | nil => simp [Forest.heads] at h
  | cons i' j' id' sub rest _ ih =>
    simp only [Forest.heads, List.mem_cons, Prod.mk.injEq] at h
    simp only [Forest.edges, List.mem_cons, List.mem_append, List.cons_append]
    rcases h with ⟨rfl, rfl, rfl⟩ | h
    · exact .inl rfl
    · exact .inr (.inr (ih h))

/-- The walk ends with the way back from a branch of the root. -/
theorem euler_last {h : Heap R} {F : Forest} (a : ℕ) (hle : F.LeafEnd h) (hc : 0 < count (fun t => !(h.isLeaf t)) F) :
    ∃ l i id j, F.euler (fun t => !(h.isLeaf t)) a = l ++ [(true, id, j, a, i)] ∧ (i, id, j) ∈ F.heads ∧ h.isLeaf id = false := by
  induction F with
  | nil => simp [count, Forest.heads] at hc
  | cons i j id sub rest ih1 ih2 =>
    obtain ⟨l1, l2, l3⟩ := hle
    rw [count_cons] at hc
    by_cases hr : 0 < count (fun t => !(h.isLeaf t)) rest
    · obtain ⟨l, i', id', j', e, q1, q2⟩ := ih2 l3 hr
      refine ⟨(if !(h.isLeaf id) then (false, a, i, id, j) :: sub.euler (fun t => !(h.isLeaf t)) id ++ [(true, id, j, a, i)]
        else []) ++ l, i', id', j', ?_, by simp [Forest.heads, q1], q2⟩
      rw [Forest.euler, e, ← List.append_assoc]
    · have hz : count (fun t => !(h.isLeaf t)) rest = 0 := by omega
      have e0 := (count_zero (K := ℤ) l3 hz 0 0 a).1
      have hl : h.isLeaf id = false := by
        by_contra q
        simp [q, hz] at hc
      refine ⟨(false, a, i, id, j) :: sub.euler (fun t => !(h.isLeaf t)) id, i, id, j, ?_, by simp [Forest.heads], hl⟩
      rw [Forest.euler, e0]
      simp [hl]

/-- **C27, `backward=True` violates the property.** On every tree tensor network with a link between two tensors that are not
leaves, `unite_step(backward=True)` raises `RuntimeError`: it starts by propagating the last branch of the root,
which is not a root. -/
theorem C27_backward_violated [Neg K] {H : Hooks K E R} (hH : H.Good) {s : State K E R} {F : Forest}
    (ht : s.heap.IsTTN s.root F) (hr : s.heap.Rooted s.root F) {fuel : ℕ} (hfu : F.depth < fuel) (tau : K)
    (hb : s.heap.bonds s.root F ≠ []) : uniteStep H fuel tau true s = .error .runtimeError := by
  obtain ⟨x, h, ex, g⟩ := hH.formEnv s.ext s.heap s.root F ht hr
  have hl' : ∀ c, h.isLeaf c = s.heap.isLeaf c := fun c => (g.node c).1
  have hch : ∀ c, h.childrenDflt c false = s.heap.childrenDflt c false := fun c => by
    unfold Heap.childrenDflt Heap.children Heap.linkages
    rw [g.access, (g.node c).2.2.1, hl']
    simp only [hl']
  have hcn : counters h (s.heap.tensors s.root F) = counters s.heap (s.heap.tensors s.root F) := by
    unfold counters
    simp only [hch]
  have htr : IsTree h s.root none F := ht.tree.congr ht.links.wf (fun c => by rw [g.access]; exact ht.links.wf c)
    (fun c k => by rw [Heap.acc_def, g.access, ← Heap.acc_def]) fun c _ => hl' c
  have hd := Heap.decorated_tree htr false hfu
  have hv := Heap.visitor_tree htr false hfu
  simp only [Bool.false_or, hl'] at hd hv
  have hts : ((if (!s.heap.isLeaf s.root) = true then [s.root] else []) ++ F.ids.filter fun t => !(s.heap.isLeaf t)) =
      s.heap.tensors s.root F := by
    unfold Heap.tensors
    rw [List.filter_cons]
    split <;> rfl
  rw [hts] at hv
  have hc : 0 < count (fun t => !(s.heap.isLeaf t)) F := by
    by_contra q
    have h0 : count (fun t => !(s.heap.isLeaf t)) F = 0 := by omega
    obtain ⟨-, -, z⟩ := count_zero ht.tree.leafEnd h0 tau s.root s.root
    refine hb (List.eq_nil_iff_forall_not_mem.2 fun e he => ?_)
    obtain ⟨q1, q2⟩ := Heap.mem_bonds.1 he
    have : e.2.2.1 ∈ F.ids := by
      rw [← Heap.edges_targets F s.root]
      exact List.mem_map.2 ⟨e, q1, rfl⟩
    rw [z _ this] at q2
    cases q2
  obtain ⟨l, i, id, j, e, q1, q2⟩ := euler_last s.root ht.tree.leafEnd hc
  have hgr : (counters s.heap (s.heap.tensors s.root F)).get? s.root = _ :=
    (counters_get _ _ _).trans (if_pos (Heap.mem_tensors.2 ⟨.inl rfl, ht.leaf⟩))
  have hgi : (counters s.heap (s.heap.tensors s.root F)).get? id = _ :=
    (counters_get _ _ _).trans (if_pos (Heap.mem_tensors.2 ⟨.inr (Forest.mem_heads_ids q1), q2⟩))
  have hne : id ≠ s.root := by
    rintro rfl
    exact (List.nodup_cons.1 ht.tree.nodup).1 (Forest.mem_heads_ids q1)
  have hax : (s.heap.node id).axis = some j := by
    have hacc := ht.tree.acc_of_mem_heads ht.links.wf q1
    have hbond : (s.root, i, id, j) ∈ s.heap.bonds s.root F :=
      Heap.mem_bonds.2 ⟨mem_edges_of_heads _ q1, q2⟩
    exact hr.2 _ hbond
  unfold uniteStep
  have ex' : formEnv H s = .ok { s with ext := x, heap := h } := by
    unfold formEnv
    rw [ex]; rfl
  rw [ex']
  simp only [ok_bind]
  rw [(g.node _).2.2.1, hr.1, hd]
  simp only [ok_bind]
  rw [hv]
  simp only [ok_bind, if_true, Dict.get!, hcn, hgr]
  rw [e, List.reverse_append]
  simp only [List.reverse_cons, List.reverse_nil, List.nil_append, List.cons_append, List.foldlM_cons]
  have hp : ∀ n, unitePassB H fuel tau s.root n ({ s with ext := x, heap := h }, counters s.heap (s.heap.tensors s.root F))
      (true, id, j, s.root, i) = .error .runtimeError := by
    intro n
    have herr := splitProp_error (H := H) (s := { s with ext := x, heap := h }) (t := id) (tau := -tau) (c := true)
      (by show (h.node id).axis ≠ none; rw [(g.node _).2.2.1, hax]; simp)
    unfold unitePassB
    simp only [if_true, Dict.get!, hgi, ok_bind]
    rw [if_pos (Or.inl hne), herr]
    rfl
  rw [hp]
  rfl

/-! Instances: the network `exTwo` of C02. -/

example : ∃ s' es sites, uniteStep (exHooks ℤ) 5 (3 : ℤ) false (exState ℤ) = .ok s' ∧ s'.root = 0 ∧
    s'.log = [] ++ es ∧ Recorded Heap.exTwo es sites ∧ TwoSite Heap.exTwo 0 Heap.exTwoForest 3 sites ∧
    (∀ t k, s'.heap.acc t k = Heap.exTwo.acc t k) ∧ s'.heap.IsTTN 0 Heap.exTwoForest ∧
    s'.heap.Rooted 0 Heap.exTwoForest :=
  C27_forward_partial (exHooks_good ℤ) (s := exState ℤ) Heap.exTwo_ttn Heap.exTwo_rooted Heap.exTwo_plain (by decide) 3

example : uniteStep (exHooks ℤ) 5 (3 : ℤ) true (exState ℤ) = .error .runtimeError :=
  C27_backward_violated (exHooks_good ℤ) (s := exState ℤ) Heap.exTwo_ttn Heap.exTwo_rooted (by decide) 3 (by decide)

end Sweep
