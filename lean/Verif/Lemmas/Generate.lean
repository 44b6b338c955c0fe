import Verif.Spec.Generate
import Verif.Lemmas.Tree

open Py

namespace Heap

variable {R κ : Type} [DecidableEq κ] (nm : κ → List Char) (graph : Dict κ (List κ))

/-- The object created for a name. -/
def genNode (n : κ) : Node R :=
  if graph.contains n then Node.tensor (some (nm n)) none (some 0) else Node.leaf (some (nm n))

theorem access_genNode (n : κ) : (genNode nm graph n : Node R).access = [] := by
  unfold genNode; split <;> rfl

/-- The links of consecutive axes from `k` on to axis 0 of consecutive objects from `c` on. -/
def consec : ℕ → ℕ → ℕ → List (ℕ × ℕ × ℕ)
  | _, _, 0 => []
  | k, c, n + 1 => (k, c, 0) :: consec (k + 1) (c + 1) n

/-- The stack entries for consecutive objects. -/
def pend : List κ → ℕ → List (κ × ℕ)
  | [], _ => []
  | n :: ns, c => (if graph.contains n then [(n, c)] else []) ++ pend ns (c + 1)

theorem genChildren_spec (sr : κ) (r : ℕ) (cs : List κ) (h : Heap R) (order : Dict κ ℕ)
    (stack : List (κ × ℕ)) (k : ℕ) (ho : Dict.get? order sr = some k) (hsr : sr ∉ cs)
    (hr : r < h.next) (hk : ∀ x ∈ Dict.keys (h.node r).access, x < k) :
    ∃ h' order', genChildren nm graph sr r cs (h, order, stack) =
        .ok (h', order', stack ++ pend graph cs h.next) ∧
      h'.next = h.next + cs.length ∧
      h'.node r = { h.node r with access := (h.node r).access ++ consec k h.next cs.length } ∧
      (∀ b, b < h.next → b ≠ r → h'.node b = h.node b) ∧
      (∀ m n, cs[m]? = some n → h'.node (h.next + m) =
        { (genNode nm graph n : Node R) with access := [(0, r, k + m)] }) ∧
      (∀ m, m ∈ cs → Dict.get? order' m = some 1) ∧
      (∀ m, m ∉ cs → m ≠ sr → Dict.get? order' m = Dict.get? order m) := by
  induction cs generalizing h order stack k with
  | nil =>
    refine ⟨h, order, by simp [genChildren, pend], by simp, by simp [consec], by simp, by simp,
      by simp, by simp⟩
  | cons n ns ih =>
    simp only [List.mem_cons, not_or] at hsr
    have hget : Dict.get! order sr = .ok k := by simp [Dict.get!, ho]
    set h1 : Heap R := (h.alloc (genNode nm graph n)).1.link r k h.next 0 with hh1
    set order1 := (order.set sr (k + 1)).set n 1 with ho1
    set stack1 := if graph.contains n then stack ++ [(n, h.next)] else stack with hs1
    have hne : r ≠ h.next := by omega
    have hn1 : h1.next = h.next + 1 := rfl
    have hkn : k ∉ Dict.keys (h.node r).access := fun e => absurd (hk k e) (by omega)
    have hnr : h1.node r = { h.node r with access := (h.node r).access ++ [(k, h.next, 0)] } := by
      simp [hh1, link, upd, alloc, hne, Dict.set_of_notMem hkn]
    have hnb : ∀ b, b < h.next → b ≠ r → h1.node b = h.node b := by
      intro b hb hbr
      have : b ≠ h.next := by omega
      simp [hh1, link, upd, alloc, this, hbr]
    have hnn : h1.node h.next = { (genNode nm graph n : Node R) with access := [(0, r, k)] } := by
      have : ¬ h.next = r := by omega
      simp [hh1, link, upd, alloc, this, access_genNode, Dict.set]
    have hoo : Dict.get? order1 sr = some (k + 1) := by
      rw [ho1, Dict.get?_set, Dict.get?_set]
      have : n ≠ sr := fun e => hsr.1 e.symm
      simp [this]
    obtain ⟨h', order', e1, e2, e3, e4, e5, e6, e7⟩ := ih h1 order1 stack1 (k + 1) hoo hsr.2
      (by omega) (by
        intro x hx
        rw [hnr] at hx
        simp only [Dict.keys, List.map_append, List.mem_append, List.map_cons, List.map_nil,
          List.mem_singleton] at hx
        rcases hx with hx | hx
        · exact (hk x hx).trans (by omega)
        · omega)
    refine ⟨h', order', ?_, ?_, ?_, ?_, ?_, ?_, ?_⟩
    · rw [genChildren]
      simp only [hget, ok_bind]
      refine Eq.trans ?_ (e1.trans ?_)
      · rfl
      · congr 1
        simp only [Prod.mk.injEq, true_and]
        rw [hs1, pend, hn1]
        split <;> simp
    · rw [e2, hn1]; simp; omega
    · rw [e3, hnr]; simp [consec, hn1]
    · intro b hb hbr
      rw [e4 b (by omega) hbr, hnb b hb hbr]
    · intro m x hm
      cases m with
      | zero =>
        simp at hm; subst hm
        have := e4 h.next (by omega) (by omega)
        rw [Nat.add_zero, this, hnn]; simp
      | succ m =>
        simp at hm
        have := e5 m x hm
        rw [hn1] at this
        rw [show h.next + (m + 1) = h.next + 1 + m by omega, this]
        simp; omega
    · intro m hm
      by_cases hmn : m ∈ ns
      · exact e6 m hmn
      · have hmn' : m = n := by simpa [hmn] using hm
        subst hmn'
        rw [e7 m hmn (fun e => hsr.1 e.symm), ho1, Dict.get?_set]; simp
    · intro m hm hms
      simp only [List.mem_cons, not_or] at hm
      have h1 : ¬ n = m := fun e => hm.1 e.symm
      have h2 : ¬ sr = m := fun e => hms e.symm
      rw [e7 m hm.2 hms, ho1, Dict.get?_set, Dict.get?_set]
      simp [h1, h2]

/-- The objects built for a forest of names: exact contents. -/
def Built (h : Heap R) : NForest κ → (p k c : ℕ) → Forest → Prop
  | .nil, _, _, _, F => F = .nil
  | .cons n sub rest, p, k, c, F => ∃ c' F₁ F₂, F = .cons k 0 c F₁ F₂ ∧
      h.node c = { (genNode nm graph n : Node R) with access := (0, p, k) :: F₁.heads } ∧
      Built h sub c 1 c' F₁ ∧ Built h rest p (k + 1) (c + 1) F₂

variable {nm graph}

theorem Built.heads {h : Heap R} {N : NForest κ} {p k c : ℕ} {F : Forest}
    (hb : Built nm graph h N p k c F) : F.heads = consec k c N.heads.length := by
  induction N generalizing p k c F with
  | nil => cases hb; rfl
  | cons n sub rest _ ih =>
    obtain ⟨c', F₁, F₂, rfl, -, -, h4⟩ := hb
    simp [Forest.heads, NForest.heads, consec, ih h4]

theorem Built.frame {h h' : Heap R} {N : NForest κ} {p k c : ℕ} {F : Forest}
    (hb : Built nm graph h N p k c F) (he : ∀ x ∈ F.ids, h'.node x = h.node x) :
    Built nm graph h' N p k c F := by
  induction N generalizing p k c F with
  | nil => exact hb
  | cons n sub rest ih1 ih2 =>
    obtain ⟨c', F₁, F₂, rfl, h2, h3, h4⟩ := hb
    refine ⟨c', F₁, F₂, rfl, ?_, ih1 h3 ?_, ih2 h4 ?_⟩
    · rw [he c (by simp [Forest.ids]), h2]
    · intro x hx; exact he x (by simp [Forest.ids, hx])
    · intro x hx; exact he x (by simp [Forest.ids, hx])

/-- Number of names that are keys. -/
def keyCount (graph : Dict κ (List κ)) (N : NForest κ) : ℕ :=
  (N.names.filter fun n => graph.contains n).length

theorem contains_iff {n : κ} : graph.contains n = true ↔ Dict.get? graph n ≠ none := by
  unfold Dict.contains
  cases Dict.get? graph n <;> simp

theorem genLoop_forest (N : NForest κ) (hd : N.Describes graph) (hn : N.names.Nodup)
    (h : Heap R) (order : Dict κ ℕ) (stack : List (κ × ℕ)) (p k c : ℕ)
    (hc : c + N.heads.length ≤ h.next)
    (hnode : ∀ m n, N.heads[m]? = some n →
      h.node (c + m) = { (genNode nm graph n : Node R) with access := [(0, p, k + m)] })
    (hord : ∀ n ∈ N.heads, Dict.get? order n = some 1) :
    ∃ h' order' F,
      (∀ fuel, genLoop nm graph (fuel + keyCount graph N) (h, order, stack ++ pend graph N.heads c)
        = genLoop nm graph fuel (h', order', stack)) ∧
      Built nm graph h' N p k c F ∧
      (∀ b, b < h.next → (b < c ∨ c + N.heads.length ≤ b) → h'.node b = h.node b) ∧
      h.next ≤ h'.next ∧
      (∀ m, m ∉ N.names → Dict.get? order' m = Dict.get? order m) ∧
      F.ids.Nodup ∧
      (∀ x ∈ F.ids, (c ≤ x ∧ x < c + N.heads.length) ∨ (h.next ≤ x ∧ x < h'.next)) := by
  induction N generalizing h order stack p k c with
  | nil =>
    refine ⟨h, order, .nil, ?_, rfl, fun _ _ _ => rfl, le_refl _, fun _ _ => rfl, ?_, ?_⟩
    · intro fuel; simp [keyCount, NForest.names, NForest.heads, pend]
    · simp [Forest.ids]
    · simp [Forest.ids]
  | cons n sub rest ih1 ih2 =>
    obtain ⟨d1, d2, d3⟩ := hd
    simp only [NForest.names, List.cons_append, List.nodup_cons, List.mem_append, not_or,
      List.nodup_append] at hn
    obtain ⟨⟨n1, n2⟩, n3, n4, n5⟩ := hn
    simp only [NForest.heads, List.length_cons] at hc hnode hord ⊢
    have heads_names : ∀ (M : NForest κ) x, x ∈ M.heads → x ∈ M.names := by
      intro M
      induction M with
      | nil => intro x hx; simp [NForest.heads] at hx
      | cons a b c _ ih =>
        intro x hx
        simp only [NForest.heads, List.mem_cons] at hx
        simp only [NForest.names, List.cons_append, List.mem_cons, List.mem_append]
        rcases hx with rfl | hx
        · exact .inl rfl
        · exact .inr (.inr (ih x hx))
    obtain ⟨h1, order1, F2, a1, a2, a3, a4, a5, a6, a7⟩ := ih2 d3 n4 h order
      (stack ++ if graph.contains n then [(n, c)] else []) p (k + 1) (c + 1) (by omega)
      (by
        intro m x hm
        have := hnode (m + 1) x (by simpa using hm)
        rw [show c + 1 + m = c + (m + 1) by omega, this, show k + 1 + m = k + (m + 1) by omega])
      (fun x hx => hord x (by simp [hx]))
    have hc1 : h1.node c = { (genNode nm graph n : Node R) with access := [(0, p, k)] } := by
      rw [a3 c (by omega) (.inl (by omega))]
      simpa using hnode 0 n rfl
    by_cases hkey : graph.contains n = true
    · have hg : Dict.get? graph n = some sub.heads := by
        rcases d1 with ⟨e, -⟩ | e
        · exact absurd e (contains_iff.1 hkey)
        · exact e
      have hnsub : n ∉ sub.heads := fun e => n1 (heads_names _ _ e)
      obtain ⟨h2, order2, b1, b2, b3, b4, b5, b6, b7⟩ := genChildren_spec nm graph n c sub.heads h1
        order1 stack 1 (by rw [a5 n n2]; exact hord n (by simp)) hnsub (by omega)
        (by rw [hc1]; simp [Dict.keys])
      obtain ⟨h3, order3, F1, c1, c2, c3, c4, c5, c6, c7⟩ := ih1 d2 n3 h2 order2 stack c 1 h1.next
        (by omega) b5 b6
      have hF2lt : ∀ x ∈ F2.ids, x < h1.next ∧ x ≠ c := by
        intro x hx
        rcases a7 x hx with e | e <;> omega
      refine ⟨h3, order3, .cons k 0 c F1 F2, ?_, ?_, ?_, by omega, ?_, ?_, ?_⟩
      · intro fuel
        have hkc : keyCount graph (NForest.cons n sub rest) =
            (1 + keyCount graph sub) + keyCount graph rest := by
          simp [keyCount, NForest.names, hkey]; omega
        rw [hkc, show fuel + (1 + keyCount graph sub + keyCount graph rest) =
          (fuel + keyCount graph sub + 1) + keyCount graph rest by omega]
        have e1 := a1 (fuel + keyCount graph sub + 1)
        rw [pend, ← List.append_assoc, e1]
        simp only [hkey, if_true]
        rw [genLoop]
        simp only [List.getLast?_append, List.getLast?_singleton, Option.some_or,
          List.dropLast_concat]
        rw [show Dict.get! graph n = .ok sub.heads by simp [Dict.get!, hg], ok_bind, b1, ok_bind]
        exact c1 fuel
      · refine ⟨h1.next, F1, F2, rfl, ?_, c2, ?_⟩
        · rw [c3 c (by omega) (.inl (by omega)), b3, hc1, c2.heads]
          simp
        · refine a2.frame ?_
          intro x hx
          have := hF2lt x hx
          rw [c3 x (by omega) (.inl (by omega)), b4 x (by omega) this.2]
      · intro b hb hbc
        rw [c3 b (by omega) (.inl (by omega)), b4 b (by omega) (by omega), a3 b hb (by omega)]
      · intro m hm
        simp only [NForest.names, List.cons_append, List.mem_cons, List.mem_append, not_or] at hm
        rw [c5 m hm.2.1, b7 m (fun e => hm.2.1 (heads_names _ _ e)) hm.1, a5 m hm.2.2]
      · simp only [Forest.ids, List.cons_append, List.nodup_cons, List.mem_append, not_or,
          List.nodup_append]
        refine ⟨⟨?_, fun e => (hF2lt c e).2 rfl⟩, c6, a6, ?_⟩
        · intro e; rcases c7 c e with e | e <;> omega
        · intro x hx y hy e
          have := (hF2lt y hy).1
          rcases c7 x hx with e | e <;> omega
      · intro x hx
        simp only [Forest.ids, List.cons_append, List.mem_cons, List.mem_append] at hx
        rcases hx with rfl | hx | hx
        · exact .inl (by omega)
        · rcases c7 x hx with e | e <;> exact .inr (by omega)
        · rcases a7 x hx with e | e
          · exact .inl (by omega)
          · exact .inr (by omega)
    · have hsub : sub = .nil := by
        rcases d1 with ⟨-, e⟩ | e
        · exact e
        · exact absurd (contains_iff.2 (by rw [e]; simp)) hkey
      subst hsub
      refine ⟨h1, order1, .cons k 0 c .nil F2, ?_, ⟨0, .nil, F2, rfl, ?_, rfl, a2⟩, ?_, a4, ?_, ?_, ?_⟩
      · intro fuel
        have hkc : keyCount graph (NForest.cons n .nil rest) = keyCount graph rest := by
          simp [keyCount, NForest.names, hkey]
        rw [hkc, pend, ← List.append_assoc, a1 fuel]
        simp [hkey]
      · rw [hc1]; rfl
      · intro b hb hbc
        exact a3 b hb (by omega)
      · intro m hm
        simp only [NForest.names, List.cons_append, List.mem_cons, List.mem_append, not_or] at hm
        exact a5 m hm.2.2
      · simp only [Forest.ids, List.cons_append, List.nil_append, List.nodup_cons]
        refine ⟨?_, a6⟩
        intro e; rcases a7 c e with e | e <;> omega
      · intro x hx
        simp only [Forest.ids, List.cons_append, List.mem_cons, List.nil_append] at hx
        rcases hx with rfl | hx
        · exact .inl (by omega)
        · rcases a7 x hx with e | e
          · exact .inl (by omega)
          · exact .inr (by omega)

/-! ### What was built is a complete tree -/

theorem mem_consec {k c n i id j : ℕ} :
    (i, id, j) ∈ consec k c n ↔ ∃ m, m < n ∧ i = k + m ∧ id = c + m ∧ j = 0 := by
  induction n generalizing k c with
  | zero => simp [consec]
  | succ n ih =>
    simp only [consec, List.mem_cons, Prod.mk.injEq, ih]
    constructor
    · rintro (⟨rfl, rfl, rfl⟩ | ⟨m, h1, rfl, rfl, rfl⟩)
      · exact ⟨0, by omega, by omega, by omega, rfl⟩
      · exact ⟨m + 1, by omega, by omega, by omega, rfl⟩
    · rintro ⟨m, h1, rfl, rfl, rfl⟩
      cases m with
      | zero => left; simp
      | succ m => right; exact ⟨m, by omega, by omega, by omega, rfl⟩

theorem pairwise_consec (k c n : ℕ) : (consec k c n).Pairwise fun x y => x.1 < y.1 := by
  induction n generalizing k c with
  | zero => simp [consec]
  | succ n ih =>
    simp only [consec, List.pairwise_cons]
    refine ⟨?_, ih _ _⟩
    rintro ⟨i, id, j⟩ hx
    obtain ⟨m, h1, rfl, -, -⟩ := mem_consec.1 hx
    simp only; omega

theorem linkages_of_pairwise {h : Heap R} {a : ℕ}
    (hp : (h.access a).Pairwise fun x y => x.1 < y.1) : h.linkages a = h.access a := by
  unfold linkages
  have : (h.access a).map (fun p => (p.1, p.2.1, p.2.2)) = h.access a := by simp
  rw [this]
  exact List.Pairwise.insertionSort_eq (hp.imp (fun h => le_of_lt h))

theorem wf_of_pairwise {h : Heap R} {a : ℕ}
    (hp : (h.access a).Pairwise fun x y => x.1 < y.1) : Dict.Wf (h.access a) := by
  unfold Dict.Wf Dict.keys List.Nodup
  rw [List.pairwise_map]
  exact hp.imp (fun h => by omega)

theorem pairwise_cons_consec (p k c n : ℕ) :
    ((0, p, k) :: consec 1 c n).Pairwise fun x y => x.1 < y.1 := by
  refine List.pairwise_cons.2 ⟨?_, pairwise_consec _ _ _⟩
  rintro ⟨i, id, j⟩ hx
  obtain ⟨m, h1, rfl, -, -⟩ := mem_consec.1 hx
  simp only; omega

theorem Built.rep {h : Heap R} {N : NForest κ} (hd : N.Describes graph) {p k c : ℕ} {F : Forest}
    (hb : Built nm graph h N p k c F) : F.RepIn h ∧ F.LeafEnd h := by
  induction N generalizing p k c F with
  | nil => cases hb; exact ⟨trivial, trivial⟩
  | cons n sub rest ih1 ih2 =>
    obtain ⟨c', F₁, F₂, rfl, h2, h3, h4⟩ := hb
    obtain ⟨d1, d2, d3⟩ := hd
    have hacc : h.access c = (0, p, k) :: consec 1 c' sub.heads.length := by
      unfold access; rw [h2, h3.heads]
    refine ⟨⟨?_, (ih1 d2 h3).1, (ih2 d3 h4).1⟩, ⟨?_, (ih1 d2 h3).2, (ih2 d3 h4).2⟩⟩
    · unfold children
      rw [if_neg (by simp), linkages_of_pairwise (by rw [hacc]; exact pairwise_cons_consec _ _ _ _),
        hacc, h3.heads]
      simp only [List.filter_cons]
      rw [List.filter_eq_self.2]
      · simp
      · rintro ⟨i, id, j⟩ hx
        obtain ⟨m, -, rfl, -⟩ := mem_consec.1 hx
        simp
    · intro hl
      unfold isLeaf at hl
      rw [h2] at hl
      have hk : graph.contains n = false := by
        unfold genNode at hl
        by_contra hc
        have : graph.contains n = true := by simpa using hc
        rw [if_pos this] at hl
        simp [Node.tensor] at hl
      have hsub : sub = .nil := by
        rcases d1 with ⟨-, e⟩ | e
        · exact e
        · have := contains_iff.2 (by rw [e]; simp : Dict.get? graph n ≠ none)
          rw [hk] at this; cases this
      subst hsub
      exact h3

theorem Built.shape {h : Heap R} {N : NForest κ} {p k c : ℕ} {F : Forest}
    (hb : Built nm graph h N p k c F) : N.Shape nm graph h k F := by
  induction N generalizing p k c F with
  | nil => exact hb
  | cons n sub rest ih1 ih2 =>
    obtain ⟨c', F₁, F₂, rfl, h2, h3, h4⟩ := hb
    refine ⟨c, F₁, F₂, rfl, ?_, ?_, ?_, ?_, ih1 h3, ih2 h4⟩
    · rw [h2]; unfold genNode; split <;> rfl
    · unfold isLeaf; rw [h2]
      have := contains_iff (graph := graph) (n := n)
      unfold genNode
      split
      · rename_i e; simp [Node.tensor]; exact this.1 e
      · rename_i e; simp [Node.leaf]; by_contra hc; exact e (this.2 hc)
    · unfold isLeaf; rw [h2]; unfold genNode
      split
      · intro _; rfl
      · intro e; simp [Node.leaf] at e
    · unfold array; rw [h2]; unfold genNode; split <;> rfl

theorem get?_zero_consec (p k c n : ℕ) :
    Dict.get? ((0, p, k) :: consec 1 c n) 0 = some (p, k) := by simp [Dict.get?]

/-- The links of the objects built. -/
theorem Built.complete {h : Heap R} {N : NForest κ} (hd : N.Describes graph) {p k c : ℕ} {F : Forest}
    (hb : Built nm graph h N p k c F)
    (hp : ∀ m, m < N.heads.length → h.acc p (k + m) = some (c + m, 0)) :
    ∀ x ∈ F.ids, (∀ i, h.acc x i ≠ none ↔ i < h.order x) ∧
      ∀ i b j, h.acc x i = some (b, j) → h.acc b j = some (x, i) := by
  induction N generalizing p k c F with
  | nil => cases hb; simp [Forest.ids]
  | cons n sub rest ih1 ih2 =>
    have hb0 := hb
    obtain ⟨c', F₁, F₂, rfl, h2, h3, h4⟩ := hb
    have hle := (hb0.rep hd).2.1
    obtain ⟨d1, d2, d3⟩ := hd
    have hacc : h.access c = (0, p, k) :: consec 1 c' sub.heads.length := by
      unfold access; rw [h2, h3.heads]
    have hpw : (h.access c).Pairwise fun x y => x.1 < y.1 := by
      rw [hacc]; exact pairwise_cons_consec _ _ _ _
    have hmem : ∀ i b j, h.acc c i = some (b, j) ↔ (i, b, j) ∈ h.access c := by
      intro i b j
      rw [acc_def, Dict.get?_some_iff_mem (wf_of_pairwise hpw)]
    have hcl : ∀ m, m < sub.heads.length → h.acc c (1 + m) = some (c' + m, 0) := by
      intro m hm
      rw [hmem, hacc]
      exact List.mem_cons_of_mem _ (mem_consec.2 ⟨m, hm, rfl, rfl, rfl⟩)
    have back : ∀ (M : NForest κ) (p k c : ℕ) (F : Forest), Built nm graph h M p k c F →
        ∀ m, m < M.heads.length → h.acc (c + m) 0 = some (p, k + m) := by
      intro M
      induction M with
      | nil => intro p k c F _ m hm; simp [NForest.heads] at hm
      | cons n' sub' rest' _ ih =>
        rintro p k c F ⟨c'', G₁, G₂, rfl, g2, g3, g4⟩ m hm
        cases m with
        | zero =>
          unfold acc
          rw [Nat.add_zero, g2]; simp [Dict.get?]
        | succ m =>
          have := ih p (k + 1) (c + 1) G₂ g4 m (by simpa [NForest.heads] using hm)
          rw [show c + (m + 1) = c + 1 + m by omega, this, show k + 1 + m = k + (m + 1) by omega]
    have hord : h.order c = sub.heads.length + 1 := by
      unfold order
      split
      · rename_i hl
        have := hle hl
        have hh := h3.heads
        rw [this] at hh
        have hlen := congrArg List.length hh
        have hcl : ∀ k c n, (consec k c n).length = n := by
          intro k c n
          induction n generalizing k c with
          | zero => rfl
          | succ n ih => simp [consec, ih]
        rw [hcl] at hlen
        simp [Forest.heads] at hlen
        omega
      · rw [hacc]
        have hcl : ∀ k c n, (consec k c n).length = n := by
          intro k c n
          induction n generalizing k c with
          | zero => rfl
          | succ n ih => simp [consec, ih]
        simp [hcl]
    intro x hx
    simp only [Forest.ids, List.cons_append, List.mem_cons, List.mem_append] at hx
    rcases hx with rfl | hx | hx
    · refine ⟨?_, ?_⟩
      · intro i
        rw [Option.ne_none_iff_exists']
        constructor
        · rintro ⟨⟨b, j⟩, e⟩
          rw [hmem, hacc, List.mem_cons, mem_consec] at e
          rcases e with e | ⟨m, e1, e2, -⟩
          · cases e; omega
          · omega
        · intro hi
          cases i with
          | zero => exact ⟨(p, k), by rw [hmem, hacc]; simp⟩
          | succ i =>
            refine ⟨(c' + i, 0), ?_⟩
            rw [Nat.add_comm]
            exact hcl i (by omega)
      · intro i b j e
        rw [hmem, hacc, List.mem_cons, mem_consec] at e
        rcases e with e | ⟨m, e1, rfl, rfl, rfl⟩
        · cases e
          have := hp 0 (by simp [NForest.heads])
          simpa using this
        · exact back sub x 1 c' F₁ h3 m e1
    · exact ih1 d2 h3 hcl x hx
    · refine ih2 d3 h4 ?_ x hx
      intro m hm
      have := hp (m + 1) (by simpa [NForest.heads] using hm)
      rw [show k + 1 + m = k + (m + 1) by omega, this, show c + 1 + m = c + (m + 1) by omega]

end Heap
