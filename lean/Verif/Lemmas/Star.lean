import Verif.Model.HeomNetwork
import Verif.Spec.Network
import Verif.Lemmas.Heap
import Verif.Props.C03

/-! A network of one tensor, with a leaf on every axis. -/

open Py

namespace Heom

variable {R : Type}

/-- The branches `k`, `k + 1`, ... to the leaves `c`, `c + 1`, ... -/
def starForest : ℕ → ℕ → ℕ → Forest
  | 0, _, _ => .nil
  | m + 1, k, c => .cons k 0 c .nil (starForest m (k + 1) (c + 1))

theorem star_heads (m k c : ℕ) : (starForest m k c).heads = (List.range m).map fun t => (k + t, c + t, 0) := by
  induction m generalizing k c with
  | zero => rfl
  | succ m ih =>
    rw [starForest, Forest.heads, ih, List.range_succ_eq_map, List.map_cons, List.map_map]
    congr 1
    refine List.map_congr_left fun t _ => ?_
    simp [Nat.add_assoc, Nat.add_comm 1 t]

theorem star_ids (m k c : ℕ) : (starForest m k c).ids = (List.range m).map fun t => c + t := by
  induction m generalizing k c with
  | zero => rfl
  | succ m ih =>
    rw [starForest, Forest.ids, ih, List.range_succ_eq_map, List.map_cons, List.map_map]
    simp only [Forest.ids, List.nil_append, List.cons_append, Nat.add_zero]
    congr 1
    refine List.map_congr_left fun t _ => ?_
    simp [Nat.add_assoc, Nat.add_comm 1 t]

theorem star_edges (r m k c : ℕ) : (starForest m k c).edges r = (List.range m).map fun t => (r, k + t, c + t, 0) := by
  induction m generalizing k c with
  | zero => rfl
  | succ m ih =>
    rw [starForest, Forest.edges, ih, List.range_succ_eq_map, List.map_cons, List.map_map]
    simp only [Forest.edges, List.nil_append, List.cons_append, Nat.add_zero]
    congr 1
    refine List.map_congr_left fun t _ => ?_
    simp [Nat.add_assoc, Nat.add_comm 1 t]

theorem star_repIn {h : Heap R} (m k c : ℕ) (hc : ∀ t < m, h.children (c + t) (some 0) true = []) : (starForest m k c).RepIn h := by
  induction m generalizing k c with
  | zero => trivial
  | succ m ih =>
    refine ⟨hc 0 (by omega), trivial, ih _ _ fun t ht => ?_⟩
    have := hc (t + 1) (by omega)
    rwa [show c + (t + 1) = c + 1 + t by omega] at this

theorem star_leafEnd {h : Heap R} (m k c : ℕ) : (starForest m k c).LeafEnd h := by
  induction m generalizing k c with
  | zero => trivial
  | succ m ih => exact ⟨fun _ => rfl, trivial, ih _ _⟩

theorem set_append {κ ν : Type} [DecidableEq κ] (d : Dict κ ν) (k : κ) (v : ν) (hk : k ∉ Dict.keys d) : Dict.set d k v = d ++ [(k, v)] := by
  induction d with
  | nil => rfl
  | cons x d ih =>
    simp only [Dict.keys, List.map_cons, List.mem_cons, not_or] at hk
    obtain ⟨k', v'⟩ := x
    rw [Dict.set, if_neg (Ne.symm hk.1), ih hk.2]
    rfl

/-- The effect of linking leaves. -/
theorem attach_spec (r : ℕ) (names : List (List Char)) (k : ℕ) (h : Heap R) (hr : r < h.next)
    (hk : ∀ i ∈ Dict.keys (h.access r), i < k) :
    (attachLeaves r k names h).next = h.next + names.length ∧
    (attachLeaves r k names h).node r = { h.node r with
      access := h.access r ++ (List.range names.length).map fun t => (k + t, (h.next + t, 0)) } ∧
    (∀ t (ht : t < names.length), (attachLeaves r k names h).node (h.next + t) =
      { (Node.leaf (some names[t]) : Node R) with access := [(0, (r, k + t))] }) ∧
    (∀ b, b ≠ r → (b < h.next ∨ h.next + names.length ≤ b) → (attachLeaves r k names h).node b = h.node b) := by
  induction names generalizing k h with
  | nil => refine ⟨rfl, ?_, fun t ht => absurd ht (by simp), fun _ _ _ => rfl⟩; simp [attachLeaves, Heap.access]
  | cons nm rest ih =>
    set h1 : Heap R := (h.alloc (Node.leaf (some nm))).1.link r k h.next 0 with hh1
    have hne : r ≠ h.next := by omega
    have n1 : h1.next = h.next + 1 := rfl
    have nr : h1.node r = { h.node r with access := h.access r ++ [(k, (h.next, 0))] } := by
      rw [← set_append _ _ _ fun hm => absurd (hk k hm) (by omega)]
      simp [hh1, Heap.link, Heap.upd, Heap.alloc, hne, Heap.access]
    have nc : h1.node h.next = { (Node.leaf (some nm) : Node R) with access := [(0, (r, k))] } := by
      simp [hh1, Heap.link, Heap.upd, Heap.alloc, hne.symm, Node.leaf, Dict.set]
    have nb : ∀ b, b ≠ r → b ≠ h.next → h1.node b = h.node b := by
      intro b b1 b2
      simp [hh1, Heap.link, Heap.upd, Heap.alloc, b1, b2]
    have ha : h1.access r = h.access r ++ [(k, (h.next, 0))] := by unfold Heap.access; rw [nr]; rfl
    obtain ⟨i1, i2, i3, i4⟩ := ih (k + 1) h1 (by omega) (by
      intro i hi
      rw [ha] at hi
      simp only [Dict.keys, List.map_append, List.map_cons, List.map_nil, List.mem_append, List.mem_singleton] at hi
      rcases hi with hi | rfl
      · have := hk i hi; omega
      · omega)
    have e : attachLeaves r k (nm :: rest) h = attachLeaves r (k + 1) rest h1 := rfl
    rw [e]
    refine ⟨by rw [i1, n1, List.length_cons]; omega, ?_, ?_, ?_⟩
    · rw [i2, ha, nr, n1, List.length_cons, List.range_succ_eq_map, List.map_cons, List.map_map, List.append_assoc]
      have e : (List.range rest.length).map (fun t => (k + 1 + t, (h.next + 1 + t, 0))) =
          (List.range rest.length).map ((fun t => (k + t, (h.next + t, 0))) ∘ Nat.succ) := by
        refine List.map_congr_left fun t _ => ?_
        simp [Nat.add_assoc, Nat.add_comm 1 t]
      rw [e]
      rfl
    · intro t ht
      cases t with
      | zero =>
        exact (i4 h.next hne.symm (.inl (by omega))).trans nc
      | succ t =>
        have := i3 t (by simpa using ht)
        rw [n1] at this
        rw [show h.next + (t + 1) = h.next + 1 + t by omega, this, show k + 1 + t = k + (t + 1) by omega]
        rfl
    · intro b b1 b2
      rw [List.length_cons] at b2
      rw [i4 b b1 (by omega), nb b b1 (by omega)]

variable [CommRing R]

/-- A tensor with a leaf on every axis is a network, and its amplitudes are the entries of its array. -/
theorem star_ttn (h : Heap R) (hi : h.LinkInv) (nm : List Char) (A : Nd R) (hw : A.Wf) (hp : ∀ d ∈ A.shape, 0 < d)
    (names : List (List Char)) (hl : names.length = A.ndim) :
    let h0 := (h.alloc (Node.tensor (some nm) (some A) none)).1
    let h' := attachLeaves h.next 0 names h0
    let F := starForest names.length 0 (h.next + 1)
    h'.IsTTN h.next F ∧ h'.Rooted h.next F ∧ h'.array h.next = some A ∧
      h'.leafList h.next F = (List.range names.length).map (fun t => (h.next + 1 + t, A.shape.getD t 1)) ∧
      (∀ t (ht : t < names.length), (h'.node (h.next + 1 + t)).name = some names[t]) ∧
      (∀ x, h'.treeAmp h.next F x = A.get ((List.range A.ndim).map fun t => x (h.next + 1 + t))) ∧
      (∀ b ∈ h.next :: F.ids, h'.checkCompletness b true = .ok ()) := by
  intro h0 h' F
  have h0n : h0.next = h.next + 1 := rfl
  have h0r : h0.node h.next = Node.tensor (some nm) (some A) none := by simp [h0, Heap.alloc]
  have h0b : ∀ b, b ≠ h.next → h0.node b = h.node b := fun b hb => by simp [h0, Heap.alloc, hb]
  have ha0 : h0.access h.next = [] := by unfold Heap.access; rw [h0r]; rfl
  obtain ⟨s1, s2, s3, s4⟩ := attach_spec h.next names 0 h0 (by omega) (by rw [ha0]; intro i hi'; cases hi')
  rw [ha0, List.nil_append, h0r] at s2
  rw [h0n] at s1 s2 s3 s4
  simp only [Nat.zero_add] at s2 s3
  change h'.next = _ at s1
  have accr : h'.access h.next = (List.range names.length).map fun t => (t, (h.next + 1 + t, 0)) := by
    unfold Heap.access; rw [s2]
  have accl : ∀ t, t < names.length → h'.access (h.next + 1 + t) = [(0, (h.next, t))] := by
    intro t ht; unfold Heap.access; rw [s3 t ht]
  have accb : ∀ b, b ≠ h.next → (b < h.next + 1 ∨ h.next + 1 + names.length ≤ b) → h'.access b = h.access b := by
    intro b b1 b2; unfold Heap.access; rw [s4 b b1 b2, h0b b b1]
  have getr : ∀ k, h'.acc h.next k = if k < names.length then some (h.next + 1 + k, 0) else none := by
    intro k
    rw [Heap.acc_def, accr]
    have key : ∀ (l : List ℕ), Dict.get? (l.map fun t => (t, (h.next + 1 + t, 0))) k = if k ∈ l then some (h.next + 1 + k, 0) else none := by
      intro l
      induction l with
      | nil => rfl
      | cons x l ih =>
        rw [List.map_cons, Dict.get?]
        by_cases hx : x = k
        · subst hx; simp
        · rw [if_neg hx, ih]
          simp [Ne.symm hx]
    rw [key]
    simp
  have getl : ∀ t, t < names.length → ∀ k, h'.acc (h.next + 1 + t) k = if k = 0 then some (h.next, t) else none := by
    intro t ht k
    rw [Heap.acc_def, accl t ht]
    by_cases hk : k = 0
    · subst hk; rfl
    · rw [if_neg hk, Dict.get?, if_neg (Ne.symm hk)]; rfl
  have cases' : ∀ b, b = h.next ∨ (∃ t, t < names.length ∧ b = h.next + 1 + t) ∨
      (b ≠ h.next ∧ (b < h.next + 1 ∨ h.next + 1 + names.length ≤ b)) := by
    intro b
    rcases Nat.lt_trichotomy b h.next with hb | hb | hb
    · exact .inr (.inr ⟨by omega, .inl (by omega)⟩)
    · exact .inl hb
    · by_cases hc : b < h.next + 1 + names.length
      · exact .inr (.inl ⟨b - (h.next + 1), by omega, by omega⟩)
      · exact .inr (.inr ⟨by omega, .inr (by omega)⟩)
  have links : h'.LinkInv := by
    refine ⟨?_, ?_, ?_⟩
    · intro b
      rcases cases' b with rfl | ⟨t, ht, rfl⟩ | ⟨b1, b2⟩
      · rw [accr]
        unfold Dict.Wf Dict.keys
        rw [List.map_map]
        have : ((Prod.fst : ℕ × ℕ × ℕ → ℕ) ∘ fun t => (t, h.next + 1 + t, 0)) = id := rfl
        rw [this, List.map_id]
        exact List.nodup_range
      · rw [accl t ht]; simp [Dict.Wf, Dict.keys]
      · rw [accb b b1 b2]; exact hi.wf b
    · intro a i b j e
      rcases cases' a with rfl | ⟨t, ht, rfl⟩ | ⟨a1, a2⟩
      · rw [getr] at e
        split at e
        · rename_i hlt
          cases e
          rw [getl _ hlt, if_pos rfl]
        · cases e
      · rw [getl t ht] at e
        split at e
        · rename_i hz
          subst hz
          cases e
          rw [getr, if_pos ht]
        · cases e
      · rw [Heap.acc_def, accb a a1 a2, ← Heap.acc_def] at e
        have hlt := (hi.lt e).2
        rw [Heap.acc_def, accb b (by omega) (.inl (by omega)), ← Heap.acc_def]
        exact hi.sym _ _ _ _ e
    · intro a hge
      rw [s1] at hge
      rw [accb a (by omega) (.inr hge)]
      exact hi.fresh a (by omega)
  have leafr : h'.isLeaf h.next = false := by unfold Heap.isLeaf; rw [s2]; rfl
  have leafl : ∀ t, t < names.length → h'.isLeaf (h.next + 1 + t) = true := by
    intro t ht; unfold Heap.isLeaf; rw [s3 t ht]; rfl
  have arr : h'.array h.next = some A := by unfold Heap.array; rw [s2]; rfl
  have arrl : ∀ t, t < names.length → h'.array (h.next + 1 + t) = none := by
    intro t ht; unfold Heap.array; rw [s3 t ht]; rfl
  have lnk : h'.linkages h.next = (List.range names.length).map fun t => (t, h.next + 1 + t, 0) := by
    unfold Heap.linkages
    rw [accr, List.map_map]
    refine List.Pairwise.insertionSort_eq ?_
    rw [List.pairwise_map]
    exact List.pairwise_lt_range.imp fun h => le_of_lt h
  have tens : h'.tensors h.next F = [h.next] := by
    unfold Heap.tensors
    rw [star_ids, List.filter_cons, if_pos (by rw [leafr]; rfl)]
    congr 1
    rw [List.filter_eq_nil_iff]
    intro b hb
    obtain ⟨t, ht, rfl⟩ := List.mem_map.1 hb
    rw [leafl t (List.mem_range.1 ht)]
    simp
  have bnd : h'.bonds h.next F = [] := by
    unfold Heap.bonds
    rw [star_edges, List.filter_eq_nil_iff]
    intro b hb
    obtain ⟨t, ht, rfl⟩ := List.mem_map.1 hb
    simp only
    rw [leafl t (List.mem_range.1 ht)]
    simp
  have tree : IsTree h' h.next none F := by
    refine ⟨?_, star_repIn _ _ _ ?_, ?_, star_leafEnd _ _ _⟩
    · unfold Heap.children
      rw [if_neg (by rw [leafr]; simp), lnk, star_heads]
      simp
    · intro t ht
      unfold Heap.children
      rw [if_neg (by simp)]
      unfold Heap.linkages
      rw [accl t ht]
      simp
    · rw [star_ids, List.nodup_cons]
      refine ⟨?_, ?_⟩
      · intro hm
        obtain ⟨t, _, e⟩ := List.mem_map.1 hm
        omega
      · exact List.Nodup.map (fun a b e => by simpa using e) List.nodup_range
  have full : h'.Full h.next A := by
    refine ⟨leafr, arr, hw, hp, fun k => ?_⟩
    rw [getr, ← hl]
    split <;> simp_all
  refine ⟨⟨links, tree, leafr, by rw [s1]; omega, ?_, ?_, ?_⟩, ?_, arr, ?_, ?_, ?_, ?_⟩
  · intro t ht
    rw [tens] at ht
    obtain rfl := List.mem_singleton.1 ht
    exact ⟨A, full⟩
  · intro e he
    rw [bnd] at he
    cases he
  · intro t ht
    rw [tens] at ht
    obtain rfl := List.mem_singleton.1 ht
    exact ⟨nm, by rw [s2]; rfl⟩
  · refine ⟨by rw [s2]; rfl, fun e he => ?_⟩
    rw [bnd] at he
    cases he
  · unfold Heap.leafList
    rw [star_edges, List.filter_eq_self.2, List.map_map]
    · refine List.map_congr_left fun t _ => ?_
      simp only [Function.comp_apply, Nat.zero_add]
      rw [full.hdim_eq]
    · intro e he
      obtain ⟨t, ht, rfl⟩ := List.mem_map.1 he
      exact leafl t (List.mem_range.1 ht)
  · intro t ht
    rw [s3 t ht]
    rfl
  · intro x
    unfold Heap.treeAmp Heap.amp
    rw [tens, bnd]
    simp only [Heap.sumBonds, List.map_cons, List.map_nil, List.prod_cons, List.prod_nil, mul_one]
    unfold Heap.entry
    rw [arr]
    dsimp only
    congr 1
    refine List.map_congr_left fun k hk => ?_
    unfold Heap.leafAssign
    rw [getr, if_pos (by rw [hl]; exact List.mem_range.1 hk)]
  · intro b hb
    have sub : b = h.next ∨ ∃ t, t < names.length ∧ b = h.next + 1 + t := by
      rcases List.mem_cons.1 hb with hb | hb
      · exact .inl hb
      · rw [star_ids] at hb
        obtain ⟨t, ht, e⟩ := List.mem_map.1 hb
        exact .inr ⟨t, List.mem_range.1 ht, e.symm⟩
    rw [Heap.C03_check_completness]
    rcases sub with rfl | ⟨t, ht, rfl⟩
    · refine ⟨fun i => ?_, fun i b j e => ⟨links.sym _ _ _ _ e, fun _ => .inr (.inl ?_)⟩⟩
      · rw [getr]
        unfold Heap.order
        rw [leafr, accr]
        simp
      · rw [getr] at e
        split at e
        · rename_i hlt
          cases e
          exact ⟨leafl i hlt, arrl i hlt⟩
        · cases e
    · refine ⟨fun i => ?_, fun i b j e => ⟨links.sym _ _ _ _ e, fun _ => .inl ⟨leafl t ht, arrl t ht⟩⟩⟩
      rw [getl t ht]
      unfold Heap.order
      rw [leafl t ht]
      by_cases hz : i = 0
      · simp [hz]
      · simp [hz]

end Heom
