import Verif.Lemmas.Generate
import Verif.Props.C03

/-!
C07: `Tensor.generate` builds the described tree.
-/

open Py

namespace Heap

variable {R κ : Type} [DecidableEq κ]

/-- For a dictionary that describes a tree with distinct names, `generate(graph, root)`
terminates; the network it returns is a tree of the described shape (see
`NForest.Shape`: one tensor per name, in the listed order on consecutive axes, hanging by axis 0,
Leaf iff not a key); the root has no axis and carries the root name; every tensor passes
`check_completness`; no tensor that existed before is touched. -/
theorem C07_generate (nm : κ → List Char) (graph : Dict κ (List κ)) (root : κ) (N : NForest κ)
    (hroot : Dict.get? graph root = some N.heads) (hd : N.Describes graph)
    (hn : (root :: N.names).Nodup) (h : Heap R) :
    ∃ h' r F, (∀ fuel, N.names.length + 2 ≤ fuel → generate nm graph root fuel h = .ok (h', r)) ∧
      IsTree h' r none F ∧ N.Shape nm graph h' 0 F ∧
      (h'.node r).name = some (nm root) ∧ (h'.node r).axis = none ∧ h'.isLeaf r = false ∧
      (∀ x ∈ r :: F.ids, h'.checkCompletness x = .ok ()) ∧
      (∀ b, b < h.next → h'.node b = h.node b) ∧ (∀ x ∈ r :: F.ids, h.next ≤ x) := by
  obtain ⟨n1, n2⟩ := List.nodup_cons.1 hn
  have heads_names : ∀ (M : NForest κ) x, x ∈ M.heads → x ∈ M.names := by
    intro M
    induction M with
    | nil => intro x hx; simp [NForest.heads] at hx
    | cons a b c _ ih =>
      intro x hx
      simp only [NForest.heads, List.mem_cons] at hx
      simp only [NForest.names, List.cons_append, List.mem_cons, List.mem_append]
      rcases hx with rfl | hx
      · exact .inl rfl
      · exact .inr (.inr (ih x hx))
  set h0 : Heap R := (h.alloc (Node.tensor (some (nm root)) none none)).1 with hh0
  have h0n : h0.next = h.next + 1 := rfl
  have h0r : h0.node h.next = Node.tensor (some (nm root)) none none := by simp [hh0, alloc]
  have h0b : ∀ b, b < h.next → h0.node b = h.node b := by
    intro b hb
    have : b ≠ h.next := by omega
    simp [hh0, alloc, this]
  obtain ⟨h1, order1, b1, b2, b3, b4, b5, b6, b7⟩ := genChildren_spec nm graph root h.next N.heads h0
    [(root, 0)] [] 0 (by simp [Dict.get?]) (fun e => n1 (heads_names _ _ e)) (by omega)
    (by rw [h0r]; simp [Node.tensor, Dict.keys])
  obtain ⟨h2, order2, F, c1, c2, c3, c4, c5, c6, c7⟩ := genLoop_forest N hd n2 h1 order1 [] h.next 0
    h0.next (by omega) b5 b6
  have hr2 : h2.node h.next =
      { (Node.tensor (some (nm root)) none none : Node R) with access := F.heads } := by
    rw [c3 h.next (by omega) (.inl (by omega)), b3, h0r, c2.heads]
    simp [Node.tensor]
  have hacc : h2.access h.next = consec 0 h0.next N.heads.length := by
    unfold access; rw [hr2, c2.heads]
  have hpw : (h2.access h.next).Pairwise fun x y => x.1 < y.1 := by
    rw [hacc]; exact pairwise_consec _ _ _
  have hleaf : h2.isLeaf h.next = false := by unfold isLeaf; rw [hr2]; rfl
  have hge : ∀ x ∈ F.ids, h.next < x := by
    intro x hx; rcases c7 x hx with e | e <;> omega
  have hmem : ∀ i b j, h2.acc h.next i = some (b, j) ↔ (i, b, j) ∈ h2.access h.next := by
    intro i b j
    rw [acc_def, Dict.get?_some_iff_mem (wf_of_pairwise hpw)]
  have hp : ∀ m, m < N.heads.length → h2.acc h.next (0 + m) = some (h0.next + m, 0) := by
    intro m hm
    rw [hmem, hacc]
    exact mem_consec.2 ⟨m, hm, rfl, rfl, rfl⟩
  have hcomp := c2.complete hd hp
  refine ⟨h2, h.next, F, ?_, ⟨?_, (c2.rep hd).1, ?_, (c2.rep hd).2⟩, c2.shape, ?_, ?_, hleaf, ?_, ?_,
    ?_⟩
  · intro fuel hf
    have hk : keyCount graph N ≤ N.names.length := List.length_filter_le _ _
    obtain ⟨f, rfl⟩ : ∃ f, fuel = (f + 1 + keyCount graph N) + 1 :=
      ⟨fuel - keyCount graph N - 2, by omega⟩
    unfold generate
    simp only
    have e1 : genLoop nm graph ((f + 1 + keyCount graph N) + 1)
        (h0, [(root, 0)], [(root, h.next)]) = .ok h2 := by
      rw [genLoop]
      simp only [List.getLast?_singleton, List.dropLast_singleton]
      rw [show Dict.get! graph root = .ok N.heads by simp [Dict.get!, hroot], ok_bind, b1, ok_bind,
        c1 (f + 1), genLoop]
      rfl
    change (do let h ← genLoop nm graph _ (h0, [(root, 0)], [(root, h.next)]); _) = _
    rw [e1]; rfl
  · unfold children
    rw [if_neg (by simp [hleaf]), linkages_of_pairwise hpw, hacc, c2.heads]
    simp
  · exact List.nodup_cons.2 ⟨fun e => absurd (hge _ e) (by omega), c6⟩
  · rw [hr2]; rfl
  · rw [hr2]; rfl
  · intro x hx
    rw [C03_check_completness]
    rcases List.mem_cons.1 hx with rfl | hx
    · have hlen : ∀ k c n, (consec k c n).length = n := by
        intro k c n
        induction n generalizing k c with
        | zero => rfl
        | succ n ih => simp [consec, ih]
      refine ⟨?_, ?_⟩
      · intro i
        unfold order
        rw [hleaf, hacc, hlen, Option.ne_none_iff_exists']
        simp only [Bool.false_eq_true, if_false]
        constructor
        · rintro ⟨⟨b, j⟩, e⟩
          rw [hmem, hacc, mem_consec] at e
          obtain ⟨m, e1, e2, -⟩ := e
          omega
        · intro hi
          refine ⟨(h0.next + i, 0), ?_⟩
          have := hp i hi
          rwa [Nat.zero_add] at this
      · intro i b j e
        refine ⟨?_, by simp⟩
        rw [hmem, hacc, mem_consec] at e
        obtain ⟨m, e1, rfl, rfl, rfl⟩ := e
        have hin : h0.next + m ∈ F.ids := by
          refine Forest.mem_heads_ids (x := (0 + m, h0.next + m, 0)) ?_
          rw [c2.heads]
          exact mem_consec.2 ⟨m, e1, rfl, rfl, rfl⟩
        -- the child links back
        have back : ∀ (M : NForest κ) (p k c : ℕ) (G : Forest), Built nm graph h2 M p k c G →
            ∀ m, m < M.heads.length → h2.acc (c + m) 0 = some (p, k + m) := by
          intro M
          induction M with
          | nil => intro p k c G _ m hm; simp [NForest.heads] at hm
          | cons n' sub' rest' _ ih =>
            rintro p k c G ⟨c'', G₁, G₂, rfl, g2, g3, g4⟩ m hm
            cases m with
            | zero =>
              unfold acc
              rw [Nat.add_zero, g2]; simp [Dict.get?]
            | succ m =>
              have := ih p (k + 1) (c + 1) G₂ g4 m (by simpa [NForest.heads] using hm)
              rw [show c + (m + 1) = c + 1 + m by omega, this,
                show k + 1 + m = k + (m + 1) by omega]
        exact back N h.next 0 h0.next F c2 m e1
    · obtain ⟨e1, e2⟩ := hcomp x hx
      exact ⟨e1, fun i b j e => ⟨e2 i b j e, by simp⟩⟩
  · intro b hb
    rw [c3 b (by omega) (.inl (by omega)), b4 b (by omega) (by omega), h0b b hb]
  · intro x hx
    rcases List.mem_cons.1 hx with rfl | hx
    · exact le_refl _
    · exact le_of_lt (hge x hx)

/-- A root that is not a key raises `KeyError`. -/
theorem C07_generate_no_root (nm : κ → List Char) (graph : Dict κ (List κ)) (root : κ)
    (hroot : Dict.get? graph root = none) (h : Heap R) (fuel : ℕ) :
    generate nm graph root (fuel + 1) h = .error .keyError := by
  unfold generate
  simp only
  rw [genLoop]
  simp [Dict.get!, hroot]

/-! Instance: `{0: [1, 2], 2: [3, 4, 5]}` from root 0. -/

/-- The description. -/
def exGraph : Dict ℕ (List ℕ) := [(0, [1, 2]), (2, [3, 4, 5])]

/-- What it describes. -/
def exN : NForest ℕ :=
  .cons 1 .nil (.cons 2 (.cons 3 .nil (.cons 4 .nil (.cons 5 .nil .nil))) .nil)

example : Dict.get? exGraph 0 = some exN.heads ∧ exN.Describes exGraph ∧ (0 :: exN.names).Nodup :=
  ⟨rfl, ⟨.inl ⟨rfl, rfl⟩, trivial, .inr rfl, ⟨.inl ⟨rfl, rfl⟩, trivial, .inl ⟨rfl, rfl⟩, trivial,
    .inl ⟨rfl, rfl⟩, trivial, trivial⟩, trivial⟩, by decide⟩

end Heap
