import Verif.Model.States
import Verif.Lemmas.Tree
import Verif.Props.C02
import Verif.Props.C04

/-!
C111: `Network` finds the root of a network and keeps one array per tensor. C112: `Network.vectorize` and `Network.tensorize`. C113: `deepcopy` and
`partial_env`.
-/

open Py Heap

namespace Network

variable {R : Type}

/-- Specification: a network of tensors that is a tree seen from `r`, and `r` is the only object in it whose `axis` is `None`. -/
structure HasRoot (h : Heap R) (r : ℕ) (F : Forest) : Prop where
  wf : h.Wf
  sym : h.Mutual
  tree : IsTree h r none F
  leaf : h.isLeaf r = false
  axis : (h.node r).axis = none
  only : ∀ x, Linked h r x → (h.node x).axis = none → x = r

theorem filter_unique {α : Type} {p : α → Bool} {l : List α} {r : α} (hn : l.Nodup) (hr : r ∈ l) (hp : p r = true)
    (ho : ∀ x ∈ l, p x = true → x = r) : l.filter p = [r] := by
  induction l with
  | nil => cases hr
  | cons a l ih =>
    obtain ⟨h1, h2⟩ := List.nodup_cons.1 hn
    by_cases e : a = r
    · subst e
      rw [List.filter_cons_of_pos hp, List.filter_eq_nil_iff.2]
      intro x hx hpx
      exact h1 (ho x (List.mem_cons_of_mem _ hx) hpx ▸ hx)
    · rw [List.filter_cons_of_neg (fun q => e (ho a (by simp) q))]
      exact ih h2 ((List.mem_cons.1 hr).resolve_left (fun q => e q.symm)) (fun x hx => ho x (List.mem_cons_of_mem _ hx))

theorem init_of {h : Heap R} {fuel t r : ℕ} {ts : List ℕ} (hv : h.visitor fuel t none true = .ok ts)
    (hf : (ts.filter fun t => (h.node t).axis.isNone) = [r]) (wfn : Option (Dict ℕ (Cell R))) : init h fuel t wfn = .ok ⟨r, wfn.getD []⟩ := by
  unfold init
  rw [hv, ok_bind]
  simp only [hf]
  rfl

/-- Whatever tensor of the network is given, the root is found. -/
theorem C111_root_partial {h : Heap R} {r : ℕ} {F : Forest} (hr : HasRoot h r F) {t : ℕ} (ht : Linked h r t) (hl : h.isLeaf t = false)
    (wfn : Option (Dict ℕ (Cell R))) : ∃ fuel₀, ∀ fuel, fuel₀ ≤ fuel → init h fuel t wfn = .ok ⟨r, wfn.getD []⟩ := by
  obtain ⟨F', ht', hp⟩ := hr.tree.reroot_any hr.wf hr.sym ((hr.tree.mem_iff_linked hr.wf hr.sym hr.leaf t).2 ht) hl
  refine ⟨F'.depth + 1, fun fuel hf => ?_⟩
  refine init_of (ts := t :: F'.ids) (by rw [visitor_tree ht' true (by omega)]; simp) ?_ wfn
  refine filter_unique ht'.nodup (hp.mem_iff.2 (by simp)) (by simp [hr.axis]) fun x hx hn => ?_
  exact hr.only x ((hr.tree.mem_iff_linked hr.wf hr.sym hr.leaf x).1 (hp.mem_iff.1 hx)) (by simpa using hn)

/-- With a network that has two objects without `axis`, nothing is made, whatever tensor is given. -/
theorem C111_ambiguous {h : Heap R} {r : ℕ} {F : Forest} (hw : h.Wf) (hm : h.Mutual) (ht : IsTree h r none F) (hl : h.isLeaf r = false) {x y : ℕ}
    (hx : Linked h r x) (hy : Linked h r y) (hne : x ≠ y) (ax : (h.node x).axis = none) (ay : (h.node y).axis = none) {t : ℕ} (htl : Linked h r t)
    (htt : h.isLeaf t = false) (wfn : Option (Dict ℕ (Cell R))) : ∃ fuel₀, ∀ fuel, fuel₀ ≤ fuel → init h fuel t wfn = .error .notImplementedError := by
  obtain ⟨F', ht', hp⟩ := ht.reroot_any hw hm ((ht.mem_iff_linked hw hm hl t).2 htl) htt
  refine ⟨F'.depth + 1, fun fuel hf => ?_⟩
  have hv : h.visitor fuel t none true = .ok (t :: F'.ids) := by rw [visitor_tree ht' true (by omega)]; simp
  have mem : ∀ z, Linked h r z → (h.node z).axis = none → z ∈ (t :: F'.ids).filter fun t => (h.node t).axis.isNone := fun z hz az =>
    List.mem_filter.2 ⟨hp.mem_iff.2 ((ht.mem_iff_linked hw hm hl z).2 hz), by simp [az]⟩
  have h1 := mem x hx ax
  have h2 := mem y hy ay
  unfold init
  rw [hv, ok_bind]
  generalize (t :: F'.ids).filter (fun t => (h.node t).axis.isNone) = l at h1 h2
  match l, h1, h2 with
  | [], h1, _ => cases h1
  | [z], h1, h2 =>
    simp only [List.mem_cons, List.not_mem_nil, or_false] at h1 h2
    exact absurd (h1.trans h2.symm) hne
  | _ :: _ :: _, _, _ => rfl

/-- **The property is violated** for networks with leaves, because a `Leaf` has no `axis`: from every tensor the constructor raises `NotImplementedError`, and
from a leaf it takes the leaf itself for the root, a network of one vertex. -/
theorem C111_violated {h : Heap R} {r : ℕ} {F : Forest} (hw : h.Wf) (hm : h.Mutual) (ht : IsTree h r none F) (hl : h.isLeaf r = false)
    (hr : (h.node r).axis = none) {l : ℕ} (hx : Linked h r l) (hll : h.isLeaf l = true) (hax : (h.node l).axis = none) (wfn : Option (Dict ℕ (Cell R))) :
    (∀ t, Linked h r t → h.isLeaf t = false → ∃ fuel₀, ∀ fuel, fuel₀ ≤ fuel → init h fuel t wfn = .error .notImplementedError) ∧
    ∀ fuel, init h (fuel + 1) l wfn = .ok ⟨l, wfn.getD []⟩ ∧ vertices h (fuel + 1) ⟨l, wfn.getD []⟩ = .ok [l] := by
  refine ⟨fun t h1 h2 => C111_ambiguous hw hm ht hl (x := r) (y := l) .refl hx (fun e => ?_) hr hax h1 h2 wfn, fun fuel => ?_⟩
  · rw [← e, hl] at hll; cases hll
  · have hv := (C04_from_leaf h l hll fuel).1
    refine ⟨init_of hv (by simp [hax]) wfn, ?_⟩
    unfold vertices
    dsimp only
    rw [hax]
    exact hv

/-- Objects that do not belong to the network are refused. -/
theorem C111_foreign {h : Heap R} {fuel : ℕ} {net : Network R} {ts : List ℕ} (hv : net.vertices h fuel = .ok ts) {key : ℕ} (hk : key ∉ ts) (value : Cell R) :
    net.getItem h fuel key = .error .keyError ∧ net.setItem h fuel key value = .error .keyError := by
  unfold getItem setItem
  rw [hv, ok_bind, ok_bind, if_neg hk, if_neg hk]
  exact ⟨rfl, rfl⟩

/-- A tensor without array: the array is set, and it is the one read afterwards; nothing else changes. -/
theorem C111_set {h : Heap R} {fuel : ℕ} {net : Network R} {ts : List ℕ} (hv : net.vertices h fuel = .ok ts) {key : ℕ} (hk : key ∈ ts)
    (hfree : net.getItem h fuel key = .ok .void ∨ net.getItem h fuel key = .error .keyError) (value : Cell R) :
    ∃ net', net.setItem h fuel key value = .ok net' ∧ net'.root = net.root ∧ net'.getItem h fuel key = .ok value ∧
      ∀ k, k ≠ key → net'.getItem h fuel k = net.getItem h fuel k := by
  have hv' : ({ net with wfn := net.wfn.set key value } : Network R).vertices h fuel = .ok ts := hv
  have hg : isVoid ((Dict.get? net.wfn key).getD .void) = true := by
    unfold getItem at hfree
    rw [hv, ok_bind, if_pos hk] at hfree
    cases e : Dict.get? net.wfn key with
    | none => rfl
    | some v =>
      rw [e] at hfree
      rcases hfree with q | q
      · cases q; rfl
      · cases q
  refine ⟨{ net with wfn := net.wfn.set key value }, ?_, rfl, ?_, fun k hne => ?_⟩
  · unfold setItem
    rw [hv, ok_bind, if_pos hk, if_pos hg]
    rfl
  · unfold getItem
    rw [hv', ok_bind, if_pos hk]
    simp only [Dict.get?_set, if_true]
    rfl
  · unfold getItem
    rw [hv', hv, ok_bind, ok_bind]
    simp only [Dict.get?_set, if_neg (Ne.symm hne)]

/-- A tensor that has an array: it is not overwritten. -/
theorem C111_overwrite {h : Heap R} {fuel : ℕ} {net : Network R} {ts : List ℕ} (hv : net.vertices h fuel = .ok ts) {key : ℕ} {v : Cell R}
    (hg : net.getItem h fuel key = .ok v) (hne : v ≠ .void) (value : Cell R) : net.setItem h fuel key value = .error .runtimeError := by
  unfold getItem at hg
  rw [hv, ok_bind] at hg
  by_cases hk : key ∈ ts
  · rw [if_pos hk] at hg
    unfold setItem
    rw [hv, ok_bind, if_pos hk]
    cases e : Dict.get? net.wfn key with
    | none => rw [e] at hg; cases hg
    | some w =>
      rw [e] at hg
      cases hg
      cases v with
      | void => exact absurd rfl hne
      | array x => rfl
      | objNone => rfl
  · rw [if_neg hk] at hg; cases hg

theorem HasRoot.visits {h : Heap R} {r : ℕ} {F : Forest} (hr : HasRoot h r F) {fuel : ℕ} (hf : F.depth < fuel) :
    h.visitor fuel r none true = .ok (r :: F.ids) := by
  rw [visitor_tree hr.tree true hf]; simp

theorem HasRoot.init {h : Heap R} {r : ℕ} {F : Forest} (hr : HasRoot h r F) {fuel : ℕ} (hf : F.depth < fuel) (wfn : Option (Dict ℕ (Cell R))) :
    Network.init h fuel r wfn = .ok ⟨r, wfn.getD []⟩ :=
  init_of (hr.visits hf) (filter_unique hr.tree.nodup (by simp) (by simp [hr.axis]) fun x hx hn =>
    hr.only x ((hr.tree.mem_iff_linked hr.wf hr.sym hr.leaf x).1 hx) (by simpa using hn)) wfn

theorem HasRoot.vertices {h : Heap R} {r : ℕ} {F : Forest} (hr : HasRoot h r F) {fuel : ℕ} (hf : F.depth < fuel) (wfn : Dict ℕ (Cell R)) :
    (⟨r, wfn⟩ : Network R).vertices h fuel = .ok (r :: F.ids) := by
  unfold Network.vertices
  dsimp only
  rw [hr.axis]
  exact hr.visits hf

theorem HasRoot.mem_iff {h : Heap R} {r : ℕ} {F : Forest} (hr : HasRoot h r F) (x : ℕ) : x ∈ r :: F.ids ↔ Linked h r x :=
  hr.tree.mem_iff_linked hr.wf hr.sym hr.leaf x

theorem HasRoot.getItem {h : Heap R} {r : ℕ} {F : Forest} (hr : HasRoot h r F) {fuel : ℕ} (hf : F.depth < fuel) (wfn : Dict ℕ (Cell R)) {t : ℕ}
    (ht : Linked h r t) (v : Cell R) : (⟨r, wfn⟩ : Network R).getItem h fuel t = .ok v ↔ Dict.get? wfn t = some v := by
  unfold Network.getItem
  rw [hr.vertices hf, ok_bind, if_pos ((hr.mem_iff t).2 ht)]
  dsimp only
  cases Dict.get? wfn t with
  | none => constructor <;> intro q <;> cases q
  | some w => constructor <;> intro q <;> cases q <;> rfl

theorem get?_const (ts : List ℕ) (d : Dict ℕ (Cell R)) (v : Cell R) (t : ℕ) :
    Dict.get? (ts.foldl (fun d t => Dict.set d t v) d) t = if t ∈ ts then some v else Dict.get? d t := by
  induction ts generalizing d with
  | nil => simp
  | cons x xs ih =>
    simp only [List.foldl_cons, ih, List.mem_cons, Dict.get?_set]
    by_cases h1 : t ∈ xs
    · simp [h1]
    · by_cases h2 : t = x
      · subst h2; simp [h1]
      · have : ¬ x = t := fun e => h2 e.symm
        simp [h1, h2, this]

/-- `as_template` gives a network with the same root in which no tensor has an array. -/
theorem C111_template {h : Heap R} {r : ℕ} {F : Forest} (hr : HasRoot h r F) {fuel : ℕ} (hf : F.depth < fuel) (wfn : Dict ℕ (Cell R)) :
    ∃ net, (⟨r, wfn⟩ : Network R).asTemplate h fuel = .ok net ∧ net.root = r ∧ ∀ t, Linked h r t → net.getItem h fuel t = .ok .void := by
  refine ⟨⟨r, (r :: F.ids).foldl (fun (d : Dict ℕ (Cell R)) t => d.set t .void) []⟩, ?_, rfl, fun t ht => ?_⟩
  · unfold asTemplate
    rw [hr.vertices hf, ok_bind]
    exact hr.init hf _
  · rw [hr.getItem hf _ ht, get?_const, if_pos ((hr.mem_iff t).2 ht)]

theorem get?_map (f : Cell R → Cell R) (d : Dict ℕ (Cell R)) (t : ℕ) :
    Dict.get? (d.map fun p => (p.1, f p.2)) t = (Dict.get? d t).map f := by
  induction d with
  | nil => rfl
  | cons p d ih =>
    obtain ⟨k, v⟩ := p
    simp only [List.map_cons, Dict.get?]
    split
    · rfl
    · exact ih

/-- `copy` gives a network with the same root and the same arrays. -/
theorem C111_copy_partial {h : Heap R} {r : ℕ} {F : Forest} (hr : HasRoot h r F) {fuel : ℕ} (hf : F.depth < fuel) (wfn : Dict ℕ (Cell R)) :
    ∃ net, (⟨r, wfn⟩ : Network R).copy h fuel = .ok net ∧ net.root = r ∧
      ∀ t x, Linked h r t → (⟨r, wfn⟩ : Network R).getItem h fuel t = .ok (.array x) → net.getItem h fuel t = .ok (.array x) := by
  refine ⟨⟨r, wfn.map fun (p : ℕ × Cell R) => (p.1, copyCell p.2)⟩, hr.init hf (some _), rfl, fun t x ht hx => ?_⟩
  rw [hr.getItem hf _ ht] at hx ⊢
  rw [get?_map, hx]
  rfl

/-- **Violated** where a tensor has no array yet: the copy of a template cannot be filled, every assignment raises `RuntimeError`. -/
theorem C111_copy_violated {h : Heap R} {r : ℕ} {F : Forest} (hr : HasRoot h r F) {fuel : ℕ} (hf : F.depth < fuel) (wfn : Dict ℕ (Cell R)) :
    ∃ net net', (⟨r, wfn⟩ : Network R).asTemplate h fuel = .ok net ∧ net.copy h fuel = .ok net' ∧
      (∀ t x, Linked h r t → ∃ filled, net.setItem h fuel t (.array x) = .ok filled) ∧
      ∀ t x, Linked h r t → net'.setItem h fuel t (.array x) = .error .runtimeError := by
  obtain ⟨⟨r', w⟩, h1, rfl, h3⟩ := C111_template hr hf wfn
  refine ⟨_, ⟨r', w.map fun (p : ℕ × Cell R) => (p.1, copyCell p.2)⟩, h1, hr.init hf (some _), fun t x ht => ?_, fun t x ht => ?_⟩
  · obtain ⟨net', e, -⟩ := C111_set (hr.vertices hf w) ((hr.mem_iff t).2 ht) (.inl (h3 t ht)) (.array x)
    exact ⟨net', e⟩
  · refine C111_overwrite (hr.vertices hf _) (v := .objNone) ?_ (fun q => by cases q) _
    have := (hr.getItem hf _ ht _).1 (h3 t ht)
    rw [hr.getItem hf _ ht, get?_map, this]
    rfl

/-! ### C112 -/

/-- Specification: the vector that holds, one after the other, the entries of the arrays `x t` for the listed tensors. -/
def entries (ts : List ℕ) (x : ℕ → Nd R) : List R := (ts.map fun t => (x t).data).flatten

theorem loop_fill {h : Heap R} {r : ℕ} {F : Forest} (hr : HasRoot h r F) {fuel : ℕ} (hf : F.depth < fuel) (x : ℕ → Nd R) :
    ∀ (ts : List ℕ), ts.Nodup → (∀ t ∈ ts, Linked h r t) → (∀ t ∈ ts, (x t).Wf ∧ (h.array t).map Nd.shape = some (x t).shape) →
    ∀ (wfn : Dict ℕ (Cell R)), (∀ t ∈ ts, Dict.get? wfn t = some .void) → ∀ (pre post : List R),
    ∃ wfn', tensorizeLoop h fuel (pre ++ entries ts x ++ post) ts pre.length ⟨r, wfn⟩ = .ok ⟨r, wfn'⟩ ∧
      (∀ t ∈ ts, Dict.get? wfn' t = some (.array (x t))) ∧ ∀ t, t ∉ ts → Dict.get? wfn' t = Dict.get? wfn t := by
  intro ts
  induction ts with
  | nil => intro _ _ _ wfn _ pre post; exact ⟨wfn, rfl, fun _ q => (List.not_mem_nil q).elim, fun _ _ => rfl⟩
  | cons t ts ih =>
    intro hn hl hx wfn hv pre post
    obtain ⟨n1, n2⟩ := List.nodup_cons.1 hn
    obtain ⟨x1, x2⟩ := hx t (by simp)
    obtain ⟨y, y1, y2⟩ : ∃ y, h.array t = some y ∧ y.shape = (x t).shape := by
      cases e : h.array t with
      | none => rw [e] at x2; cases x2
      | some y => rw [e] at x2; exact ⟨y, rfl, by simpa using x2⟩
    have hlen : (x t).data.length = (x t).shape.prod := x1
    have hslice : ((pre ++ entries (t :: ts) x ++ post).drop pre.length).take (pre.length + (x t).shape.prod - pre.length) = (x t).data := by
      rw [Nat.add_sub_cancel_left, ← hlen]
      simp [entries]
    have hre : (⟨[(x t).data.length], (x t).data⟩ : Nd R).reshape (x t).shape = .ok (x t) := by
      unfold Nd.reshape
      rw [if_pos (by simp [hlen])]
    have hset : (⟨r, wfn⟩ : Network R).setItem h fuel t (.array (x t)) = .ok ⟨r, wfn.set t (.array (x t))⟩ := by
      unfold setItem
      rw [hr.vertices hf, ok_bind, if_pos ((hr.mem_iff t).2 (hl t (by simp))), if_pos (by rw [hv t (by simp)]; rfl)]
      rfl
    obtain ⟨wfn', w1, w2, w3⟩ := ih n2 (fun u hu => hl u (by simp [hu])) (fun u hu => hx u (by simp [hu])) (wfn.set t (.array (x t)))
      (fun u hu => by
        rw [Dict.get?_set, if_neg (fun e : t = u => n1 (e ▸ hu))]
        exact hv u (by simp [hu]))
      (pre ++ (x t).data) post
    refine ⟨wfn', ?_, fun u hu => ?_, fun u hu => ?_⟩
    · rw [tensorizeLoop, y1]
      dsimp only
      rw [ok_bind]
      rw [y2, hslice, hre, ok_bind, hset, ok_bind]
      rw [List.length_append, hlen] at w1
      rw [← w1]
      congr 1
      simp [entries]
    · rcases List.mem_cons.1 hu with rfl | hu
      · rw [w3 u n1, Dict.get?_set, if_pos rfl]
      · exact w2 u hu
    · rw [w3 u (fun q => hu (by simp [q])), Dict.get?_set, if_neg (fun e => hu (by simp [e]))]

theorem vectorize_eq {h : Heap R} {r : ℕ} {F : Forest} (hr : HasRoot h r F) {fuel : ℕ} (hf : F.depth < fuel) {wfn : Dict ℕ (Cell R)} {x : ℕ → Nd R}
    (hx : ∀ t, Linked h r t → Dict.get? wfn t = some (.array (x t))) :
    (⟨r, wfn⟩ : Network R).vectorize h fuel = .ok ((entries (r :: F.ids) x).map some) := by
  unfold vectorize
  rw [hr.vertices hf, ok_bind]
  have : ((r :: F.ids).mapM fun t => do
      let value ← Dict.get! wfn t
      pure (flat value)) = (.ok ((r :: F.ids).map fun t => (x t).data.map some) : Res _) := by
    have hall : ∀ t ∈ r :: F.ids, Dict.get? wfn t = some (.array (x t)) := fun t ht => hx t ((hr.mem_iff t).1 ht)
    generalize r :: F.ids = l at hall
    induction l with
    | nil => rfl
    | cons t l ih =>
      rw [List.mapM_cons, ih (fun u hu => hall u (by simp [hu]))]
      have : (Dict.get! wfn t : Res _) = .ok (.array (x t)) := by unfold Dict.get!; rw [hall t (by simp)]
      rw [this]
      rfl
  dsimp only
  rw [this, ok_bind]
  simp [entries, List.map_flatten, List.map_map, Function.comp_def, pure, Except.pure]

theorem tensorize_eq {h : Heap R} {r : ℕ} {F : Forest} (hr : HasRoot h r F) {fuel : ℕ} (hf : F.depth < fuel) (wfn : Dict ℕ (Cell R)) {x : ℕ → Nd R}
    (hx : ∀ t, Linked h r t → (x t).Wf ∧ (h.array t).map Nd.shape = some (x t).shape) (post : List R) :
    ∃ net, (⟨r, wfn⟩ : Network R).tensorize h fuel (entries (r :: F.ids) x ++ post) = .ok net ∧ net.root = r ∧
      ∀ t, Linked h r t → Dict.get? net.wfn t = some (.array (x t)) := by
  obtain ⟨⟨r', w⟩, h1, rfl, h3⟩ := C111_template hr hf wfn
  obtain ⟨wfn', w1, w2, -⟩ := loop_fill hr hf x (r' :: F.ids) hr.tree.nodup (fun t ht => (hr.mem_iff t).1 ht)
    (fun t ht => hx t ((hr.mem_iff t).1 ht)) w (fun t ht => (hr.getItem hf _ ((hr.mem_iff t).1 ht) _).1 (h3 t ((hr.mem_iff t).1 ht))) [] post
  refine ⟨⟨r', wfn'⟩, ?_, rfl, fun t ht => w2 t ((hr.mem_iff t).2 ht)⟩
  unfold tensorize
  rw [h1, ok_bind, hr.vertices hf, ok_bind]
  exact w1

/-- If every tensor has an array, of the shape of the array in the template, then `vectorize` gives their entries, and `tensorize` makes a network with
the same arrays from them. -/
theorem C112_vectorize_partial {h : Heap R} {r : ℕ} {F : Forest} (hr : HasRoot h r F) {fuel : ℕ} (hf : F.depth < fuel) (wfn : Dict ℕ (Cell R)) {x : ℕ → Nd R}
    (hx : ∀ t, Linked h r t → (⟨r, wfn⟩ : Network R).getItem h fuel t = .ok (.array (x t)) ∧ (x t).Wf ∧
      (h.array t).map Nd.shape = some (x t).shape) :
    ∃ vec net, (⟨r, wfn⟩ : Network R).vectorize h fuel = .ok (vec.map some) ∧ (⟨r, wfn⟩ : Network R).tensorize h fuel vec = .ok net ∧ net.root = r ∧
      ∀ t, Linked h r t → net.getItem h fuel t = .ok (.array (x t)) := by
  obtain ⟨⟨r', w⟩, n1, rfl, n3⟩ := tensorize_eq hr hf wfn (x := x) (fun t ht => (hx t ht).2) []
  refine ⟨entries (r' :: F.ids) x, _, vectorize_eq hr hf fun t ht => (hr.getItem hf _ ht _).1 (hx t ht).1, by rwa [List.append_nil] at n1, rfl,
    fun t ht => (hr.getItem hf _ ht _).2 (n3 t ht)⟩

theorem split_entries {shape : ℕ → List ℕ} : ∀ (ts : List ℕ), ts.Nodup → ∀ (vec : List R), vec.length = (ts.map fun t => (shape t).prod).sum →
    ∃ x : ℕ → Nd R, (∀ t, t ∈ ts → (x t).Wf ∧ (x t).shape = shape t) ∧ entries ts x = vec := by
  intro ts
  induction ts with
  | nil => intro _ vec hv; exact ⟨fun _ => ⟨[], []⟩, fun _ q => (List.not_mem_nil q).elim, (List.eq_nil_of_length_eq_zero hv).symm⟩
  | cons t ts ih =>
    intro hn vec hv
    obtain ⟨n1, n2⟩ := List.nodup_cons.1 hn
    rw [List.map_cons, List.sum_cons] at hv
    obtain ⟨x, x1, x2⟩ := ih n2 (vec.drop (shape t).prod) (by rw [List.length_drop, hv]; omega)
    refine ⟨fun u => if u = t then ⟨shape t, vec.take (shape t).prod⟩ else x u, fun u hu => ?_, ?_⟩
    · by_cases e : u = t
      · subst e
        simp only [if_true]
        refine ⟨?_, trivial⟩
        show List.length _ = _
        rw [List.length_take, hv]
        simp
      · simp only [if_neg e]
        exact x1 u ((List.mem_cons.1 hu).resolve_left e)
    · have : entries ts (fun u => if u = t then ⟨shape t, vec.take (shape t).prod⟩ else x u) = entries ts x := by
        unfold entries
        congr 1
        refine List.map_congr_left fun u hu => ?_
        dsimp only
        rw [if_neg (fun e : u = t => n1 (e ▸ hu))]
      unfold entries at this ⊢
      rw [List.map_cons, List.flatten_cons, this]
      show _ ++ entries ts x = _
      rw [x2]
      dsimp only
      rw [if_pos rfl]
      exact List.take_append_drop _ _

/-- For every vector of the length that the shapes of the tensors ask for, `tensorize` makes a network whose `vectorize` gives it back. -/
theorem C112_tensorize_partial {h : Heap R} {r : ℕ} {F : Forest} (hr : HasRoot h r F) {fuel : ℕ} (hf : F.depth < fuel) (wfn : Dict ℕ (Cell R))
    {shape : ℕ → List ℕ} (hs : ∀ t, Linked h r t → (h.array t).map Nd.shape = some (shape t)) {vec : List R}
    (hvec : ∃ ts, (⟨r, wfn⟩ : Network R).vertices h fuel = .ok ts ∧ vec.length = (ts.map fun t => (shape t).prod).sum) :
    ∃ net, (⟨r, wfn⟩ : Network R).tensorize h fuel vec = .ok net ∧ net.root = r ∧ net.vectorize h fuel = .ok (vec.map some) ∧
      ∀ t, Linked h r t → ∃ x : Nd R, x.Wf ∧ x.shape = shape t ∧ net.getItem h fuel t = .ok (.array x) := by
  obtain ⟨ts, t1, t2⟩ := hvec
  rw [hr.vertices hf] at t1
  cases t1
  obtain ⟨x, x1, x2⟩ := split_entries (shape := shape) (r :: F.ids) hr.tree.nodup vec t2
  have x1' : ∀ t, Linked h r t → (x t).Wf ∧ (x t).shape = shape t := fun t ht => x1 t ((hr.mem_iff t).2 ht)
  obtain ⟨⟨r', w⟩, n1, rfl, n3⟩ := tensorize_eq hr hf wfn (x := x) (fun t ht => ⟨(x1' t ht).1, by rw [hs t ht, (x1' t ht).2]⟩) []
  rw [List.append_nil, x2] at n1
  refine ⟨_, n1, rfl, ?_, fun t ht => ⟨x t, (x1' t ht).1, (x1' t ht).2, (hr.getItem hf _ ht _).2 (n3 t ht)⟩⟩
  rw [vectorize_eq hr hf n3, x2]

/-- **Violated** when an object of the network, such as a leaf, has no array in the template: `tensorize` never returns; and `vectorize` raises `KeyError`
if `wfn` has no entry for it (according to the documentation it has entries for the objects that are no leaves). -/
theorem C112_violated {h : Heap R} {r : ℕ} {F : Forest} (hr : HasRoot h r F) {fuel : ℕ} (hf : F.depth < fuel) (wfn : Dict ℕ (Cell R)) {l : ℕ}
    (hl : Linked h r l) (ha : h.array l = none) :
    (∀ vec net, (⟨r, wfn⟩ : Network R).tensorize h fuel vec ≠ .ok net) ∧
    ((⟨r, wfn⟩ : Network R).getItem h fuel l = .error .keyError → (⟨r, wfn⟩ : Network R).vectorize h fuel = .error .keyError) := by
  have hmem := (hr.mem_iff l).2 hl
  constructor
  · intro vec net q
    unfold tensorize at q
    obtain ⟨new, -, q⟩ := bind_eq_ok.1 q
    rw [hr.vertices hf, ok_bind] at q
    have key : ∀ (ts : List ℕ), l ∈ ts → ∀ start (new : Network R), tensorizeLoop h fuel vec ts start new ≠ .ok net := by
      intro ts
      induction ts with
      | nil => intro q; cases q
      | cons t ts ih =>
        intro hm start new q
        rw [tensorizeLoop] at q
        by_cases e : l = t
        · subst e
          rw [ha] at q
          cases q
        · cases hy : h.array t with
          | none => rw [hy] at q; cases q
          | some y =>
          rw [hy] at q
          dsimp only at q
          rw [ok_bind] at q
          obtain ⟨array, -, q⟩ := bind_eq_ok.1 q
          obtain ⟨n, -, q⟩ := bind_eq_ok.1 q
          exact ih ((List.mem_cons.1 hm).resolve_left e) _ _ q
    exact key _ hmem _ _ q
  · intro q
    have hk : Dict.get? wfn l = none := by
      cases e : Dict.get? wfn l with
      | none => rfl
      | some v => rw [(hr.getItem hf wfn hl v).2 e] at q; cases q
    unfold vectorize
    rw [hr.vertices hf, ok_bind]
    have : ∀ ts : List ℕ, l ∈ ts → (ts.mapM fun t => do
        let value ← Dict.get! wfn t
        pure (flat value)) = (.error .keyError : Res (List (List (Option R)))) := by
      intro ts
      induction ts with
      | nil => intro q; cases q
      | cons t ts ih =>
        intro hm
        rw [List.mapM_cons]
        unfold Dict.get!
        cases e : Dict.get? wfn t with
        | none => rfl
        | some v =>
          have hne : l ≠ t := fun q => by rw [q, e] at hk; cases hk
          have := ih ((List.mem_cons.1 hm).resolve_left hne)
          unfold Dict.get! at this
          dsimp only
          rw [ok_bind, this]
          rfl
    dsimp only
    rw [this _ hmem, error_bind]

/-! ### C113 -/

/-- **Violated**: `deepcopy` raises for every network. -/
theorem C113_deepcopy_violated (h : Heap R) (net : Network R) : net.deepcopy h = .error .unboundLocalError := rfl

/-- No entry for "no axis". -/
def NoNone (env : EnvDict R) : Prop := ∀ t, Dict.get? env (t, none) = none

theorem foldlM_inv {α β : Type} {f : β → α → Res β} {P : β → Prop} (hf : ∀ b a b', P b → f b a = .ok b' → P b') :
    ∀ (l : List α) (b b' : β), P b → l.foldlM f b = .ok b' → P b' := by
  intro l
  induction l with
  | nil => intro b b' hb q; cases q; exact hb
  | cons a l ih =>
    intro b b' hb q
    rw [List.foldlM_cons] at q
    obtain ⟨c, c1, q⟩ := bind_eq_ok.1 q
    exact ih c b' (hf b a c hb c1) q

theorem noNone_set {env : EnvDict R} (he : NoNone env) (t i : ℕ) (v : Option (EnvVal R)) : NoNone (env.set (t, some i) v) := by
  intro u
  rw [Dict.get?_set, if_neg (by simp)]
  exact he u

theorem singleEnv_noNone [CommRing R] (h : Heap R) (wfn : Dict ℕ (Cell R)) (operator : Option (ℕ → Res (Option (Nd R)))) (conjWfn : Option (ℕ → Res (Nd R))) :
    ∀ (fuel : ℕ) (env : EnvDict R) (t i : ℕ) (env' : EnvDict R) (v : Option (EnvVal R)), NoNone env →
      singleEnv h wfn operator conjWfn fuel env t (some i) = .ok (env', v) → NoNone env' := by
  intro fuel
  induction fuel with
  | zero => intro env t i env' v _ q; rw [singleEnv] at q; cases q
  | succ fuel ih =>
    intro env t i env' v he q
    rw [singleEnv] at q
    cases hc : Dict.get? env (t, some i) with
    | some w =>
      rw [hc] at q
      cases q
      exact he
    | none =>
      rw [hc] at q
      dsimp only at q
      obtain ⟨⟨child, j⟩, -, q⟩ := bind_eq_ok.1 q
      dsimp only at q
      by_cases hl : h.isLeaf child = true
      · rw [if_pos hl] at q
        cases operator with
        | none => cases q; exact noNone_set he t i _
        | some op =>
          dsimp only at q
          obtain ⟨m, -, q⟩ := bind_eq_ok.1 q
          cases q
          exact noNone_set he t i _
      · rw [if_neg hl] at q
        obtain ⟨⟨env2, ce⟩, e2, q⟩ := bind_eq_ok.1 q
        have h2 : NoNone env2 := by
          refine foldlM_inv (P := fun x : EnvDict R × List (ℕ × Option (EnvVal R)) => NoNone x.1) ?_ _ _ _ he e2
          rintro ⟨b, bl⟩ a ⟨b', bl'⟩ hb e3
          obtain ⟨⟨env3, w⟩, e4, e3⟩ := bind_eq_ok.1 e3
          cases e3
          exact ih _ _ _ _ _ hb e4
        dsimp only at q
        split at q
        · cases q
          exact noNone_set h2 t i _
        · obtain ⟨temp, -, q⟩ := bind_eq_ok.1 q
          obtain ⟨temp2, -, q⟩ := bind_eq_ok.1 q
          cases conjWfn with
          | none =>
            dsimp only at q
            obtain ⟨cj, -, q⟩ := bind_eq_ok.1 q
            obtain ⟨m, -, q⟩ := bind_eq_ok.1 q
            cases q
            exact noNone_set h2 t i _
          | some f =>
            dsimp only at q
            obtain ⟨cj, -, q⟩ := bind_eq_ok.1 q
            obtain ⟨m, -, q⟩ := bind_eq_ok.1 q
            cases q
            exact noNone_set h2 t i _

/-- **Violated**: `partial_env` never returns, whatever the network, the arrays, the operator and the other state are. -/
theorem C113_partial_env_violated [CommRing R] (h : Heap R) (fuel : ℕ) (net : Network R) (operator : Option (ℕ → Res (Option (Nd R))))
    (conjWfn : Option (ℕ → Res (Nd R))) (env : EnvDict R) : net.partialEnv h fuel operator conjWfn ≠ .ok env := by
  intro q
  unfold partialEnv at q
  obtain ⟨ts, -, q⟩ := bind_eq_ok.1 q
  obtain ⟨env1, e1, q⟩ := bind_eq_ok.1 q
  have h1 : NoNone env1 := by
    refine foldlM_inv (P := NoNone) ?_ _ _ _ (fun _ => rfl) e1
    intro b t b' hb e2
    refine foldlM_inv (P := NoNone) ?_ _ _ _ hb e2
    intro c i c' hc e3
    obtain ⟨⟨env3, w⟩, e4, e3⟩ := bind_eq_ok.1 e3
    cases e3
    exact singleEnv_noNone h net.wfn operator conjWfn fuel c t i _ w hc e4
  obtain ⟨x, e2, -⟩ := bind_eq_ok.1 q
  cases fuel with
  | zero => rw [singleEnv] at e2; cases e2
  | succ fuel =>
    rw [singleEnv, h1 net.root] at e2
    cases e2

/-! ### Examples -/

/-- Three tensors in a chain, the first of which is the root, without leaves. -/
def exChain : Heap ℤ :=
  let h := (Heap.empty.alloc (Node.tensor (some ['a']) (some ⟨[2], [1, 2]⟩) none)).1
  let h := (h.alloc (Node.tensor (some ['b']) (some ⟨[2, 3], [0, 0, 0, 0, 0, 0]⟩) (some 0))).1
  let h := (h.alloc (Node.tensor (some ['c']) (some ⟨[3], [0, 0, 0]⟩) (some 0))).1
  (h.link 0 0 1 0).link 1 1 2 0

/-- Its tree. -/
def exChainForest : Forest := .cons 0 0 1 (.cons 1 0 2 .nil .nil) .nil

theorem exChain_reachable : Reachable exChain := by
  unfold exChain
  refine .link (.link (.new _ (.new _ (.new _ .empty rfl) rfl) rfl) ?_ ?_ ?_ ?_) ?_ ?_ ?_ ?_ <;> decide

theorem exChain_tree : IsTree exChain 0 none exChainForest :=
  ⟨by decide, ⟨by decide, ⟨by decide, trivial, trivial⟩, trivial⟩, by decide, ⟨(fun q => by cases q), ⟨fun _ => rfl, trivial, trivial⟩, trivial⟩⟩

theorem exChain_mem (x : ℕ) : Linked exChain 0 x ↔ x ∈ [0, 1, 2] :=
  (exChain_tree.mem_iff_linked (linkInv_of_reachable exChain_reachable).wf (linkInv_of_reachable exChain_reachable).sym rfl x).symm

theorem exChain_root : HasRoot exChain 0 exChainForest where
  wf := (linkInv_of_reachable exChain_reachable).wf
  sym := (linkInv_of_reachable exChain_reachable).sym
  tree := exChain_tree
  leaf := rfl
  axis := rfl
  only := by
    intro x hx
    have := (exChain_mem x).1 hx
    simp only [List.mem_cons, List.not_mem_nil, or_false] at this
    rcases this with rfl | rfl | rfl
    · intro _; rfl
    · intro q; cases q
    · intro q; cases q

/-- From the last tensor of the chain the first one is found. -/
example : ∃ fuel₀, ∀ fuel, fuel₀ ≤ fuel → init exChain fuel 2 none = .ok ⟨0, []⟩ :=
  C111_root_partial exChain_root ((exChain_mem 2).2 (by decide)) rfl none

/-- Eleven numbers make arrays of shapes 2, 2 x 3 and 3. -/
example : ∃ net, (⟨0, []⟩ : Network ℤ).tensorize exChain 4 [1, 2, 3, 4, 5, 6, 7, 8, 9, 10, 11] = .ok net ∧ net.root = 0 ∧
    net.vectorize exChain 4 = .ok ([1, 2, 3, 4, 5, 6, 7, 8, 9, 10, 11].map some) ∧
    ∀ t, Linked exChain 0 t → ∃ x : Nd ℤ, x.Wf ∧ x.shape = (if t = 0 then [2] else if t = 1 then [2, 3] else [3]) ∧ net.getItem exChain 4 t = .ok (.array x) :=
  C112_tensorize_partial exChain_root (by decide) [] (shape := fun t => if t = 0 then [2] else if t = 1 then [2, 3] else [3])
    (by
      intro t ht
      have := (exChain_mem t).1 ht
      simp only [List.mem_cons, List.not_mem_nil, or_false] at this
      rcases this with rfl | rfl | rfl <;> rfl)
    ⟨[0, 1, 2], by decide +kernel, rfl⟩

/-- The arrays of the template itself. -/
example : ∃ vec net, (⟨0, [(0, .array ⟨[2], [1, 2]⟩), (1, .array ⟨[2, 3], [0, 0, 0, 0, 0, 0]⟩), (2, .array ⟨[3], [0, 0, 0]⟩)]⟩ : Network ℤ).vectorize exChain 4 =
      .ok (vec.map some) ∧
    (⟨0, [(0, .array ⟨[2], [1, 2]⟩), (1, .array ⟨[2, 3], [0, 0, 0, 0, 0, 0]⟩), (2, .array ⟨[3], [0, 0, 0]⟩)]⟩ : Network ℤ).tensorize exChain 4 vec = .ok net ∧
    net.root = 0 ∧ ∀ t, Linked exChain 0 t → net.getItem exChain 4 t = .ok (.array ((exChain.array t).getD ⟨[], []⟩)) :=
  C112_vectorize_partial exChain_root (by decide) _ (x := fun t => (exChain.array t).getD ⟨[], []⟩)
    (by
      intro t ht
      refine ⟨(exChain_root.getItem (by decide) _ ht _).2 ?_, ?_⟩ <;>
      · have := (exChain_mem t).1 ht
        simp only [List.mem_cons, List.not_mem_nil, or_false] at this
        rcases this with rfl | rfl | rfl <;> first | rfl | exact ⟨rfl, rfl⟩)

/-- Two tensors with a leaf each (C02): no `Network` can be made. -/
example : ∃ fuel₀, ∀ fuel, fuel₀ ≤ fuel → init Heap.exTwo fuel 1 none = .error .notImplementedError := by
  have ht : IsTree Heap.exTwo 0 none (.cons 0 1 1 (.cons 0 0 3 .nil .nil) (.cons 1 0 2 .nil .nil)) :=
    ⟨by decide, ⟨by decide, ⟨by decide, trivial, trivial⟩, ⟨by decide, trivial, trivial⟩⟩, by decide,
      ⟨(fun q => by cases q), ⟨fun _ => rfl, trivial, trivial⟩, ⟨fun _ => rfl, trivial, trivial⟩⟩⟩
  have hi := linkInv_of_reachable Heap.exTwo_reachable
  have hm := fun x => ht.mem_iff_linked hi.wf hi.sym rfl x
  exact (C111_violated hi.wf hi.sym ht rfl rfl ((hm 2).1 (by decide)) rfl rfl none).1 1 ((hm 1).1 (by decide)) rfl

end Network
