import Verif.Model.Vector
import Verif.Lemmas.Tree
import Verif.Props.C04

/-!
C08: `vectorize` and `tensorize` are inverse.
-/

open Py

namespace Heap

variable {R : Type}

/-- Specification: total number of entries of the arrays of the listed tensors. -/
def totalSize (h : Heap R) (ts : List ℕ) : ℕ :=
  (ts.map fun t => match h.array t with | none => 0 | some x => x.shape.prod).sum

private theorem visitor_congr {h h' : Heap R} (e : ∀ a, h'.access a = h.access a)
    (l : ∀ a, h'.isLeaf a = h.isLeaf a) (fuel a : ℕ) (axis : Option ℕ) (leaf : Bool) :
    h'.visitor fuel a axis leaf = h.visitor fuel a axis leaf := by
  have hc : ∀ a axis, h'.children a axis leaf = h.children a axis leaf := by
    intro a axis; unfold children linkages; simp only [e, l]
  induction fuel generalizing a axis with
  | zero => rfl
  | succ f ih =>
    rw [visitor, visitor, hc]
    simp only [ih, l]

private theorem mapM_ok_inv {α β : Type} {f : α → Res β} {l : List α} {r : List β}
    (h : l.mapM f = .ok r) : List.Forall₂ (fun x y => f x = .ok y) l r := by
  induction l generalizing r with
  | nil => simp at h; cases h; exact List.Forall₂.nil
  | cons x xs ih =>
    rw [List.mapM_cons] at h
    cases hx : f x with
    | error e => rw [hx] at h; simp at h
    | ok y =>
      rw [hx, ok_bind] at h
      cases hxs : xs.mapM f with
      | error e => rw [hxs] at h; simp at h
      | ok ys =>
        rw [hxs, ok_bind] at h
        cases h
        exact List.Forall₂.cons hx (ih hxs)

private theorem forall₂_left {α β : Type} {r : α → β → Prop} {l : List α} {l' : List β}
    (h : List.Forall₂ r l l') {x : α} (hx : x ∈ l) : ∃ y, y ∈ l' ∧ r x y := by
  induction h with
  | nil => simp at hx
  | cons h1 _ ih =>
    rcases List.mem_cons.1 hx with rfl | hx
    · exact ⟨_, by simp, h1⟩
    · obtain ⟨y, h2, h3⟩ := ih hx
      exact ⟨y, by simp [h2], h3⟩

private theorem get?_shapes (g : ℕ → Option (List ℕ)) (ts : List ℕ)
    (d : Dict ℕ (Option (List ℕ))) (t : ℕ) :
    Dict.get? (ts.foldl (fun d t => Dict.set d t (g t)) d) t =
      if t ∈ ts then some (g t) else Dict.get? d t := by
  induction ts generalizing d with
  | nil => simp
  | cons x xs ih =>
    simp only [List.foldl_cons, ih, List.mem_cons, Dict.get?_set]
    by_cases h1 : t ∈ xs
    · simp [h1]
    · by_cases h2 : t = x
      · subst h2; simp [h1]
      · have : ¬ x = t := fun e => h2 e.symm
        simp [h1, h2, this]

private theorem set_same (h : Heap R) (useAux : Bool) (t : ℕ) (x : Nd R)
    (hx : h.arrayOrAux useAux t = some x) : h.setArrayOrAux useAux t x = h := by
  unfold setArrayOrAux arrayOrAux at *
  cases h with | mk node next =>
  cases useAux <;> simp [setAux, setArray, upd, array] at hx ⊢ <;>
    (funext b; split <;> [(rename_i e; subst e; cases hb : node b; simp_all); rfl])

private theorem loop_vectorize (h : Heap R) (useAux : Bool)
    (shapes : Option (Dict ℕ (Option (List ℕ)))) (ts : List ℕ)
    (hsh : ∀ t ∈ ts, ∃ x y, h.arrayOrAux useAux t = some x ∧ h.array t = some y ∧ x.Wf ∧
      x.shape = y.shape)
    (hd : ∀ d, shapes = some d → ∀ t ∈ ts, Dict.get? d t = some ((h.array t).map Nd.shape))
    (vecs : List (List R))
    (hv : List.Forall₂ (fun t v => h.dataOf useAux t = .ok v) ts vecs) (pre post : List R) :
    tensorizeLoop (pre ++ vecs.flatten ++ post) useAux shapes ts pre.length h = .ok h := by
  induction ts generalizing pre vecs with
  | nil => rfl
  | cons t ts ih =>
    obtain ⟨v, vecs', h1, h2, rfl⟩ := List.forall₂_cons_left_iff.1 hv
    obtain ⟨x, y, e1, e2, e3, e4⟩ := hsh t (by simp)
    unfold dataOf at h1
    rw [e1] at h1
    simp only [Except.ok.injEq] at h1
    subst h1
    rw [tensorizeLoop]
    have hshape : h.shapeFor shapes t = .ok y.shape := by
      unfold shapeFor
      cases shapes with
      | none => simp [e2]
      | some d =>
        have := hd d rfl t (by simp)
        simp [Dict.get!, this, e2]
    rw [hshape]
    simp only [ok_bind]
    have hlen : x.data.length = y.shape.prod := by rw [e3, e4]
    have hslice : ((pre ++ (x.data :: vecs').flatten ++ post).drop pre.length).take
        (pre.length + y.shape.prod - pre.length) = x.data := by
      rw [Nat.add_sub_cancel_left, ← hlen]
      simp
    rw [hslice]
    have hre : (⟨[x.data.length], x.data⟩ : Nd R).reshape y.shape = .ok x := by
      unfold Nd.reshape
      rw [if_pos (by simp [hlen])]
      cases x; simp at e4 ⊢; exact e4.symm
    rw [hre]
    simp only [ok_bind]
    rw [set_same h useAux t x e1]
    have := ih (fun t ht => hsh t (by simp [ht])) (fun d hd' t ht => hd d hd' t (by simp [ht]))
      vecs' h2 (pre ++ x.data)
    simp only [List.length_append, hlen] at this
    simpa using this

/-- `tensorize(vectorize())` changes nothing at all. -/
theorem C08_tensorize_vectorize (h : Heap R) (fuel a : ℕ) (vec : List R)
    (d : Dict ℕ (Option (List ℕ)))
    (hw : ∀ t x, h.array t = some x → x.Wf)
    (hv : h.vectorize fuel a = .ok (vec, d)) :
    h.tensorize fuel a vec = .ok h ∧ h.tensorize fuel a vec false (some d) = .ok h := by
  unfold vectorize at hv
  obtain ⟨ts, e1, hv⟩ := bind_eq_ok.1 hv
  obtain ⟨vecs, e2, hv⟩ := bind_eq_ok.1 hv
  have e3 : vec = vecs.flatten ∧ d = ts.foldl (fun (d : Dict ℕ (Option (List ℕ))) t =>
      d.set t ((h.array t).map Nd.shape)) [] := by
    simp only [] at hv
    split at hv
    · simp at hv
    · simp at hv; exact ⟨hv.1.symm, hv.2.symm⟩
  have hf := mapM_ok_inv e2
  have hsh : ∀ t ∈ ts, ∃ x y, h.arrayOrAux false t = some x ∧ h.array t = some y ∧ x.Wf ∧
      x.shape = y.shape := by
    intro t ht
    obtain ⟨v, -, hv⟩ := forall₂_left hf ht
    unfold dataOf arrayOrAux at hv
    unfold arrayOrAux
    simp only [Bool.false_eq_true, if_false] at hv ⊢
    cases hx : h.array t with
    | none => rw [hx] at hv; simp at hv
    | some x => exact ⟨x, x, rfl, rfl, hw t x hx, rfl⟩
  constructor
  · unfold tensorize
    rw [e1, ok_bind, e3.1]
    have := loop_vectorize h false none ts hsh (by simp) vecs hf [] []
    simpa using this
  · unfold tensorize
    rw [e1, ok_bind, e3.1]
    have := loop_vectorize h false (some d) ts hsh (by
      intro d' e t ht
      cases e
      rw [e3.2, get?_shapes]; simp [ht]) vecs hf [] []
    simpa using this

/-- The same for aux arrays, with the shape dictionary recorded by `vectorize`, when every aux
array has the shape of the array beside it (the recorded shape is that of the array). -/
theorem C08_tensorize_vectorize_aux (h : Heap R) (fuel a : ℕ) (vec : List R)
    (d : Dict ℕ (Option (List ℕ)))
    (hw : ∀ t x, (h.node t).aux = some x → ∃ y, h.array t = some y ∧ x.Wf ∧ x.shape = y.shape)
    (hv : h.vectorize fuel a true = .ok (vec, d)) :
    h.tensorize fuel a vec true (some d) = .ok h := by
  unfold vectorize at hv
  obtain ⟨ts, e1, hv⟩ := bind_eq_ok.1 hv
  obtain ⟨vecs, e2, hv⟩ := bind_eq_ok.1 hv
  have e3 : vec = vecs.flatten ∧ d = ts.foldl (fun (d : Dict ℕ (Option (List ℕ))) t =>
      d.set t ((h.array t).map Nd.shape)) [] := by
    simp only [] at hv
    split at hv
    · simp at hv
    · simp at hv; exact ⟨hv.1.symm, hv.2.symm⟩
  have hf := mapM_ok_inv e2
  have hsh : ∀ t ∈ ts, ∃ x y, h.arrayOrAux true t = some x ∧ h.array t = some y ∧ x.Wf ∧
      x.shape = y.shape := by
    intro t ht
    obtain ⟨v, -, hv⟩ := forall₂_left hf ht
    unfold dataOf arrayOrAux at hv
    unfold arrayOrAux
    simp only [if_true] at hv ⊢
    cases hx : (h.node t).aux with
    | none => rw [hx] at hv; simp at hv
    | some x =>
      obtain ⟨y, h1, h2, h3⟩ := hw t x hx
      exact ⟨x, y, rfl, h1, h2, h3⟩
  unfold tensorize
  rw [e1, ok_bind, e3.1]
  have := loop_vectorize h true (some d) ts hsh (by
    intro d' e t ht
    cases e
    rw [e3.2, get?_shapes]; simp [ht]) vecs hf [] []
  simpa using this

private theorem loop_set (ts : List ℕ) (hn : ts.Nodup) (h : Heap R)
    (hsh : ∀ t ∈ ts, ∃ x, h.array t = some x) (vec pre : List R)
    (hlen : vec.length = h.totalSize ts) :
    ∃ h' vecs, tensorizeLoop (pre ++ vec) false none ts pre.length h = .ok h' ∧
      (∀ b, h'.access b = h.access b) ∧ (∀ b, h'.isLeaf b = h.isLeaf b) ∧
      (∀ b, (h'.node b).axis = (h.node b).axis) ∧
      (∀ b, (h'.array b).map Nd.shape = (h.array b).map Nd.shape) ∧
      (∀ b, b ∉ ts → h'.node b = h.node b) ∧
      List.Forall₂ (fun t v => ∃ x, h'.array t = some x ∧ x.data = v ∧ x.Wf) ts vecs ∧
      vecs.flatten = vec := by
  induction ts generalizing h vec pre with
  | nil =>
    simp [totalSize] at hlen
    exact ⟨h, [], rfl, fun _ => rfl, fun _ => rfl, fun _ => rfl, fun _ => rfl, fun _ _ => rfl,
      List.Forall₂.nil, by simp [hlen]⟩
  | cons t ts ih =>
    obtain ⟨hn1, hn2⟩ := List.nodup_cons.1 hn
    obtain ⟨x, hx⟩ := hsh t (by simp)
    have hsz : vec.length = x.shape.prod + h.totalSize ts := by
      rw [hlen]; simp [totalSize, hx]
    set v := vec.take x.shape.prod with hv
    have hvl : v.length = x.shape.prod := by rw [hv, List.length_take]; omega
    set h1 := h.setArrayOrAux false t ⟨x.shape, v⟩ with hh1
    have hts : ∀ b, b ≠ t → h1.node b = h.node b := by
      intro b hb; simp [hh1, setArrayOrAux, setArray, upd, hb]
    have hta : h1.array t = some ⟨x.shape, v⟩ := by
      simp [hh1, setArrayOrAux, setArray, upd, array]
    have hother : ∀ b, { h1.node b with array := none } = { h.node b with array := none } := by
      intro b
      simp only [hh1, setArrayOrAux, setArray, upd, Bool.false_eq_true, if_false]
      split <;> rfl
    have hne : ∀ b ∈ ts, b ≠ t := fun b hb e => hn1 (e ▸ hb)
    have hsz1 : h1.totalSize ts = h.totalSize ts := by
      unfold totalSize
      congr 1
      refine List.map_congr_left fun b hb => ?_
      unfold array
      rw [hts b (hne b hb)]
    obtain ⟨h', vecs, f1, f2, f3, f4, f5, f6, f7, f8⟩ := ih hn2 h1
      (fun b hb => by
        obtain ⟨y, hy⟩ := hsh b (by simp [hb])
        exact ⟨y, by unfold array; rw [hts b (hne b hb)]; exact hy⟩)
      (vec.drop x.shape.prod) (pre ++ v) (by rw [List.length_drop, hsz1]; omega)
    refine ⟨h', v :: vecs, ?_, ?_, ?_, ?_, ?_, ?_, ?_, ?_⟩
    · rw [tensorizeLoop]
      have hshape : h.shapeFor none t = .ok x.shape := by simp [shapeFor, hx]
      rw [hshape]
      simp only [ok_bind]
      have hslice : ((pre ++ vec).drop pre.length).take (pre.length + x.shape.prod - pre.length)
          = v := by
        rw [Nat.add_sub_cancel_left, hv]; simp
      rw [hslice]
      have hre : (⟨[v.length], v⟩ : Nd R).reshape x.shape = .ok ⟨x.shape, v⟩ := by
        unfold Nd.reshape; rw [if_pos (by simp [hvl])]
      rw [hre]
      simp only [ok_bind]
      have e : pre ++ v ++ vec.drop x.shape.prod = pre ++ vec := by
        rw [List.append_assoc, hv, List.take_append_drop]
      rw [e] at f1
      rw [List.length_append, hvl] at f1
      exact f1
    · intro b; rw [f2]; have := congrArg Node.access (hother b); exact this
    · intro b; rw [f3]; have := congrArg Node.isLeaf (hother b); exact this
    · intro b; rw [f4]; have := congrArg Node.axis (hother b); exact this
    · intro b; rw [f5]
      by_cases hb : b = t
      · subst hb; rw [hta, hx]; rfl
      · unfold array; rw [hts b hb]
    · intro b hb
      simp only [List.mem_cons, not_or] at hb
      rw [f6 b hb.2, hts b hb.1]
    · refine List.Forall₂.cons ?_ f7
      have : h'.array t = h1.array t := by unfold array; rw [f6 t hn1]
      exact ⟨_, this.trans hta, rfl, hvl⟩
    · simp [f8, hv]

/-- For a vector of the right length, `vectorize` after `tensorize(vec)` returns `vec`, on every
tree-shaped network whose tensors have arrays; shapes, links and every tensor outside the network
are unchanged. -/
theorem C08_vectorize_tensorize (h : Heap R) (a : ℕ) (F : Forest) (fuel : ℕ)
    (ht : IsTree h a none F) (hl : h.isLeaf a = false) (hax : (h.node a).axis = none)
    (hf : F.depth < fuel)
    (harr : ∀ t ∈ a :: F.ids, h.isLeaf t = false → ∃ x, h.array t = some x)
    (vec : List R) (hlen : vec.length =
      h.totalSize ((a :: F.ids).filter fun t => !(h.isLeaf t))) :
    ∃ h' d, h.tensorize fuel a vec = .ok h' ∧ h'.vectorize fuel a = .ok (vec, d) ∧
      (∀ b, h'.access b = h.access b) ∧
      (∀ b, (h'.array b).map Nd.shape = (h.array b).map Nd.shape) ∧
      (∀ b, b ∉ a :: F.ids → h'.node b = h.node b) := by
  set ts := (a :: F.ids).filter fun t => !(h.isLeaf t) with hts
  have hvis : h.visitor fuel a none false = .ok ts := by
    rw [visitor_tree ht false hf, hts]; simp [hl]
  obtain ⟨h', vecs, f1, f2, f3, f4, f5, f6, f7, f8⟩ := loop_set ts (ht.nodup.filter _) h
    (fun t ht' => by
      rw [hts, List.mem_filter] at ht'
      exact harr t ht'.1 (by simpa using ht'.2)) vec [] hlen
  refine ⟨h', ts.foldl (fun (d : Dict ℕ (Option (List ℕ))) t => d.set t ((h'.array t).map Nd.shape)) [],
    ?_, ?_, f2, f5, ?_⟩
  · unfold tensorize; rw [hax, hvis, ok_bind]; exact f1
  · unfold vectorize
    rw [f4, hax, visitor_congr f2 f3, hvis, ok_bind]
    have hm : (ts.mapM fun t => h'.dataOf false t) = .ok vecs := by
      clear f8 f1 hlen hvis hts f6
      clear_value ts
      induction f7 with
      | nil => rfl
      | @cons t _ _ _ hx _ ih =>
        obtain ⟨x, e1, e2, -⟩ := hx
        rw [List.mapM_cons]
        have : h'.dataOf false t = .ok x.data := by unfold dataOf arrayOrAux; simp [e1]
        rw [this, ok_bind, ih, ok_bind, e2]
        rfl
    rw [hm, ok_bind]
    have hne : vecs.isEmpty = false := by
      have : a ∈ ts := by rw [hts, List.mem_filter]; simp [hl]
      clear_value ts
      cases f7 with
      | nil => simp at this
      | cons => rfl
    simp [hne, f8]
  · intro b hb
    refine f6 b fun e => hb ?_
    rw [hts, List.mem_filter] at e
    exact e.1

/-! Instance: `exTree` with a 2x2 array at the root and a 2x3x2 array below. -/

/-- `exTree` with arrays. -/
def exTreeArr : Heap ℤ :=
  (exTree.setArray 0 (some ⟨[2, 2], [1, 2, 3, 4]⟩)).setArray 2
    (some ⟨[2, 3, 2], [1, 2, 3, 4, 5, 6, 7, 8, 9, 10, 11, 12]⟩)

example : (exTreeArr.vectorize 3 0).toOption.map (fun x => x.1) =
    some [1, 2, 3, 4, 1, 2, 3, 4, 5, 6, 7, 8, 9, 10, 11, 12] := by decide

example : exTreeArr.totalSize [0, 2] = 16 := by decide

end Heap
