import Verif.Lemmas.TreeNet
import Verif.Lemmas.Moves2
import Verif.Lemmas.Env4

/-!
`unite` of the root with one of its children, as an operation on trees; the amplitudes it leaves alone.
-/

open scoped BigOperators
open Py

namespace Forest

/-- The branches of the first forest, then those of the second. -/
def app : Forest → Forest → Forest
  | nil, G => G
  | cons i j id sub rest, G => cons i j id sub (rest.app G)

/-- The same branches on the axes `n`, `n + 1`, ... -/
def renum : ℕ → Forest → Forest
  | _, nil => nil
  | n, cons _ j id sub rest => cons n j id sub (rest.renum (n + 1))

theorem heads_app (F G : Forest) : (F.app G).heads = F.heads ++ G.heads := by
  induction F with
  | nil => rfl
  | cons i j id sub rest _ ih => simp [app, heads, ih]

theorem ids_app (F G : Forest) : (F.app G).ids = F.ids ++ G.ids := by
  induction F with
  | nil => rfl
  | cons i j id sub rest _ ih => simp [app, ids, ih]

theorem edges_app (F G : Forest) (a : ℕ) : (F.app G).edges a = F.edges a ++ G.edges a := by
  induction F with
  | nil => rfl
  | cons i j id sub rest _ ih => simp [app, edges, ih]

theorem repIn_app {R : Type} {h : Heap R} {F G : Forest} : (F.app G).RepIn h ↔ F.RepIn h ∧ G.RepIn h := by
  induction F with
  | nil => simp [app, RepIn]
  | cons i j id sub rest _ ih => simp only [app, RepIn, ih]; tauto

theorem leafEnd_app {R : Type} {h : Heap R} {F G : Forest} : (F.app G).LeafEnd h ↔ F.LeafEnd h ∧ G.LeafEnd h := by
  induction F with
  | nil => simp [app, LeafEnd]
  | cons i j id sub rest _ ih => simp only [app, LeafEnd, ih]; tauto

theorem ids_renum (n : ℕ) (F : Forest) : (F.renum n).ids = F.ids := by
  induction F generalizing n with
  | nil => rfl
  | cons i j id sub rest _ ih => simp [renum, ids, ih]

theorem repIn_renum {R : Type} {h : Heap R} (n : ℕ) {F : Forest} : (F.renum n).RepIn h ↔ F.RepIn h := by
  induction F generalizing n with
  | nil => simp [renum]
  | cons i j id sub rest _ ih => simp [renum, RepIn, ih]

theorem leafEnd_renum {R : Type} {h : Heap R} (n : ℕ) {F : Forest} : (F.renum n).LeafEnd h ↔ F.LeafEnd h := by
  induction F generalizing n with
  | nil => simp [renum]
  | cons i j id sub rest _ ih => simp [renum, LeafEnd, ih]

theorem heads_renum (n : ℕ) (F : Forest) : (F.renum n).heads = (F.heads.zipIdx n).map fun x => (x.2, x.1.2) := by
  induction F generalizing n with
  | nil => rfl
  | cons i j id sub rest _ ih => simp [renum, heads, ih]

theorem renum_app (n : ℕ) (F G : Forest) : (F.app G).renum n = (F.renum n).app (G.renum (n + F.heads.length)) := by
  induction F generalizing n with
  | nil => simp [app, renum, heads]
  | cons i j id sub rest _ ih =>
    simp only [app, renum, heads, ih, List.length_cons]
    rw [show n + 1 + rest.heads.length = n + (rest.heads.length + 1) by omega]

/-- A top-level branch splits the forest. -/
theorem Has.split {F : Forest} {i j id : ℕ} {sub : Forest} (h : F.Has i j id sub) :
    ∃ pre post : Forest, F = pre.app (cons i j id sub post) := by
  induction F with
  | nil => exact h.elim
  | cons i' j' id' sub' rest _ ih =>
    rcases h with ⟨rfl, rfl, rfl, rfl⟩ | h
    · exact ⟨nil, rest, rfl⟩
    · obtain ⟨pre, post, rfl⟩ := ih h
      exact ⟨cons i' j' id' sub' pre, post, rfl⟩

/-- Rename the half-edges of an edge. -/
def mapE (φ : ℕ × ℕ → ℕ × ℕ) (e : ℕ × ℕ × ℕ × ℕ) : ℕ × ℕ × ℕ × ℕ :=
  ((φ (e.1, e.2.1)).1, (φ (e.1, e.2.1)).2, (φ (e.2.2.1, e.2.2.2)).1, (φ (e.2.2.1, e.2.2.2)).2)

theorem edges_same {φ : ℕ × ℕ → ℕ × ℕ} {F : Forest} {a : ℕ} (ha : ∀ k, φ (a, k) = (a, k))
    (hF : ∀ u ∈ F.ids, ∀ k, φ (u, k) = (u, k)) : (F.edges a).map (mapE φ) = F.edges a := by
  induction F generalizing a with
  | nil => rfl
  | cons i j id sub rest ih1 ih2 =>
    have hid := hF id (by simp [ids])
    simp only [edges, List.cons_append, List.map_cons, List.map_append]
    rw [ih1 hid fun u hu => hF u (by simp [ids, hu]), ih2 ha fun u hu => hF u (by simp [ids, hu])]
    simp [mapE, ha, hid]

theorem edges_renum {φ : ℕ × ℕ → ℕ × ℕ} {F : Forest} {a r n : ℕ}
    (hh : ∀ m x, F.heads[m]? = some x → φ (a, x.1) = (r, n + m))
    (hF : ∀ u ∈ F.ids, ∀ k, φ (u, k) = (u, k)) : (F.renum n).edges r = (F.edges a).map (mapE φ) := by
  induction F generalizing n with
  | nil => rfl
  | cons i j id sub rest ih1 ih2 =>
    have hid := hF id (by simp [ids])
    simp only [renum, edges, List.cons_append, List.map_cons, List.map_append]
    rw [edges_same hid fun u hu => hF u (by simp [ids, hu]),
      ih2 (n := n + 1) (fun m x hx => by
        have := hh (m + 1) x (by simpa [heads] using hx)
        rw [this]; congr 1; omega) fun u hu => hF u (by simp [ids, hu])]
    have h0 := hh 0 (i, id, j) (by simp [heads])
    simp [mapE, h0, hid]

end Forest

namespace Heap

variable {R : Type} [CommRing R]

/-- The half-edges of a bond, renamed. -/
theorem halves_map (φ : ℕ × ℕ → ℕ × ℕ) (E : List (ℕ × ℕ × ℕ × ℕ)) : halves (E.map (Forest.mapE φ)) = (halves E).map φ := by
  induction E with
  | nil => rfl
  | cons e E ih => simp [Forest.mapE, ih]

/-- The sum over all bonds does not depend on the names of the half-edges. -/
theorem sumBonds_rename {h h' : Heap R} {φ : ℕ × ℕ → ℕ × ℕ} {dom Q : ℕ × ℕ → Prop} {g g' : Assign → R}
    (hinj : ∀ p q, dom p → dom q → φ p = φ q → p = q)
    (hg : ∀ τ τ', (∀ p, dom p → τ' (φ p) = τ p ∧ (Q p → τ p < h.hdim p)) → g' τ' = g τ)
    (E : List (ℕ × ℕ × ℕ × ℕ)) (hE : ∀ p ∈ halves E, dom p)
    (hd : ∀ e ∈ E, h'.hdim (φ (e.1, e.2.1)) = h.hdim (e.1, e.2.1) ∧ h.hdim (e.1, e.2.1) = h.hdim (e.2.2.1, e.2.2.2)) :
    ∀ σ σ' : Assign, (∀ p, dom p → p ∉ halves E → σ' (φ p) = σ p ∧ (Q p → σ p < h.hdim p)) →
      sumBonds h' (E.map (Forest.mapE φ)) g' σ' = sumBonds h E g σ := by
  induction E with
  | nil => intro σ σ' hσ; exact hg σ σ' fun p hp => hσ p hp (by simp)
  | cons e E ih =>
    intro σ σ' hσ
    simp only [List.map_cons, sumBonds]
    have hd0 := hd e (by simp)
    have e1 : ((Forest.mapE φ e).1, (Forest.mapE φ e).2.1) = φ (e.1, e.2.1) := rfl
    rw [e1, hd0.1]
    refine Finset.sum_congr rfl fun v hv => ?_
    rw [Finset.mem_range] at hv
    have d1 := hE (e.1, e.2.1) (by simp)
    have d2 := hE (e.2.2.1, e.2.2.2) (by simp)
    refine ih (fun p hp => hE p (by simp [hp])) (fun f hf => hd f (by simp [hf])) _ _ fun p hp hpE => ?_
    rw [setBond_apply, setBond_apply]
    by_cases q1 : p = (e.1, e.2.1)
    · subst q1
      simp only [true_or, if_true]
      exact ⟨if_pos (.inl rfl), fun _ => hv⟩
    by_cases q2 : p = (e.2.2.1, e.2.2.2)
    · subst q2
      simp only [or_true, if_true]
      exact ⟨if_pos (.inr rfl), fun _ => hd0.2 ▸ hv⟩
    have n1 : ¬ (p = (e.1, e.2.1) ∨ p = (e.2.2.1, e.2.2.2)) := by tauto
    have n2 : ¬ (φ p = ((Forest.mapE φ e).1, (Forest.mapE φ e).2.1) ∨
        φ p = ((Forest.mapE φ e).2.2.1, (Forest.mapE φ e).2.2.2)) := by
      rintro (q | q)
      · exact q1 (hinj _ _ hp d1 q)
      · exact q2 (hinj _ _ hp d2 q)
    rw [if_neg n1, if_neg n2]
    exact hσ p hp (by simp [q1, q2, hpE])

/-- The links of a tensor, but for the axis `j`, only depend on the lookups. -/
theorem children_some_congr {h h' : Heap R} (hw : h.Wf) (hw' : h'.Wf) {a j : ℕ}
    (e : ∀ k, k ≠ j → h'.acc a k = h.acc a k) :
    h'.children a (some j) true = h.children a (some j) true := by
  refine sorted_ext (pairwise_children hw' a _ true) (pairwise_children hw a _ true) ?_
  rintro ⟨k, u, l⟩
  rw [mem_children hw' (by simp), mem_children hw (by simp)]
  by_cases hk : k = j
  · subst hk; simp
  · rw [e k hk]; simp

/-- What `unite` of the root with a child does to a tree tensor network. -/
theorem IsTTN.uniteEnd {h : Heap R} {r : ℕ} {F : Forest} (ht : h.IsTTN r F)
    {i t j : ℕ} (hax : (h.node r).axis = none ∨ (h.node t).axis = none) (hb : h.acc r i = some (t, j)) (hl : h.isLeaf t = false)
    (nrm : Bool) :
    ∃ h' F', h.unite r i (some r) nrm = .ok (h', r) ∧ h'.IsTTN r F' ∧ (h'.node r).axis = none ∧
      F'.ids.length < F.ids.length ∧ h'.leafList r F' = h.leafList r F ∧ (∀ c, h'.isLeaf c = h.isLeaf c) ∧
      (∀ c, c ≠ r → (h'.node c).core = (h.node c).core ∧ ∀ k, h.acc c k = none → h'.acc c k = none) ∧ (∀ k, h'.acc t k = none) ∧
      (∀ u l, u ≠ t → (∃ k, h.acc u l = some (r, k)) → ∃ k, h'.acc u l = some (r, k)) ∧
      ∀ x, h.InRange (h.tensors r F) x → h'.InRange (h'.tensors r F') x ∧ h'.treeAmp r F' x = h.treeAmp r F x := by
  have hwf := ht.links.wf
  have hmem : (i, t, j) ∈ F.heads := by
    rw [← ht.tree.heads, mem_children hwf (by simp [ht.leaf])]
    exact ⟨hb, by simp, .inl rfl⟩
  obtain ⟨sub, hf⟩ := Forest.exists_has hmem
  obtain ⟨pre, post, rfl⟩ := hf.split
  have hnd := ht.tree.nodup
  rw [Forest.ids_app] at hnd
  simp only [Forest.ids, List.cons_append] at hnd
  have hrT : r ∈ h.tensors r (pre.app (.cons i j t sub post)) := mem_tensors.2 ⟨.inl rfl, ht.leaf⟩
  have htT : t ∈ h.tensors r (pre.app (.cons i j t sub post)) :=
    mem_tensors.2 ⟨.inr (by simp [Forest.ids_app, Forest.ids]), hl⟩
  obtain ⟨A, hA⟩ := ht.full r hrT
  obtain ⟨B, hB⟩ := ht.full t htT
  have hnet := ht.isNet
  have hbs := ht.links.sym _ _ _ _ hb
  obtain ⟨hne, hone⟩ := hnet.simple r hrT i t j hb htT
  have hself : ∀ s ∈ h.tensors r (pre.app (.cons i j t sub post)), ∀ k l, h.acc s k ≠ some (s, l) :=
    fun s hs k l e => (hnet.simple s hs k s l e hs).1 rfl
  obtain ⟨n1, hn1⟩ := ht.names r hrT
  obtain ⟨n2, hn2⟩ := ht.names t htT
  have hname : ∃ nm, uniteName (h.node r).name (h.node t).name = .ok nm := by
    rw [hn1, hn2]; unfold uniteName; dsimp only
    split
    · exact ⟨_, rfl⟩
    · split <;> exact ⟨_, rfl⟩
  obtain ⟨nm, hname⟩ := hname
  have hdim0 : h.hdim (r, i) = h.hdim (t, j) := by
    rcases hnet.mem_bond hrT htT hb with q | q
    · exact hnet.dims _ q
    · exact (hnet.dims _ q).symm
  obtain ⟨h', r', C, hun, hinv, hC, hlab, hacc, hfar, hold, hcore, haxis, -, hroot⟩ :=
    unite_full (nrm := nrm) (root := some r) ht.links hA hB hb hne.symm (hself r hrT) (hself t htT)
      (fun k l e => hone k l e) hax hdim0 hname
      (fun x hx => by cases hx; exact ⟨ht.lt, .inl (by simp)⟩) (fun x hx => by cases hx; exact ht.leaf)
  obtain ⟨rfl, hnext, hleafr, hnamer, -, -⟩ := hroot r rfl
  have hin : i < A.ndim := (hA.acc i).1 (by rw [hb]; simp)
  have hjn : j < B.ndim := (hB.acc j).1 (by rw [hbs]; simp)
  set Lh := uniteLabels r' i A.ndim t j B.ndim with hLh
  have hLnd : Lh.Nodup := nodup_uniteLabels hne.symm
  have hCn : C.ndim = Lh.length := hlab.ndim
  have hleaf : ∀ c, h'.isLeaf c = h.isLeaf c := by
    intro c
    by_cases hc : c = r'
    · subst hc; exact hleafr
    · exact (core_eq (hcore c hc)).2.2.2.2.2.2
  -- the renaming of half-edges
  obtain ⟨φ, hφ⟩ : ∃ φ : ℕ × ℕ → ℕ × ℕ, ∀ p, φ p = if p ∈ Lh then (r', Lh.idxOf p) else p := ⟨_, fun _ => rfl⟩
  have hmemL : ∀ x k, (x, k) ∈ Lh ↔ (x = r' ∧ k < A.ndim ∧ k ≠ i) ∨ (x = t ∧ k < B.ndim ∧ k ≠ j) :=
    fun x k => mem_uniteLabels hin hjn
  have hφL : ∀ n p, Lh[n]? = some p → φ p = (r', n) := by
    intro n p hp
    rw [hφ, if_pos (List.mem_of_getElem? hp)]
    obtain ⟨hn, rfl⟩ := List.getElem?_eq_some_iff.1 hp
    rw [hLnd.idxOf_getElem]
  have hφo : ∀ x k, x ≠ r' → x ≠ t → φ (x, k) = (x, k) := by
    intro x k h1 h2
    rw [hφ, if_neg]
    rw [hmemL]; tauto
  have hinj : ∀ p q, (p ∈ Lh ∨ (p.1 ≠ r' ∧ p.1 ≠ t)) → (q ∈ Lh ∨ (q.1 ≠ r' ∧ q.1 ≠ t)) → φ p = φ q → p = q := by
    intro p q hp hq e
    rcases hp with hp | hp <;> rcases hq with hq | hq
    · obtain ⟨n, hn⟩ := List.mem_iff_getElem?.1 hp
      obtain ⟨m, hm⟩ := List.mem_iff_getElem?.1 hq
      rw [hφL _ _ hn, hφL _ _ hm] at e
      cases e
      rw [hn] at hm; exact Option.some.inj hm
    · obtain ⟨n, hn⟩ := List.mem_iff_getElem?.1 hp
      rw [hφL _ _ hn, hφo q.1 q.2 hq.1 hq.2] at e
      exact absurd (congrArg Prod.fst e).symm hq.1
    · obtain ⟨n, hn⟩ := List.mem_iff_getElem?.1 hq
      rw [hφL _ _ hn, hφo p.1 p.2 hp.1 hp.2] at e
      exact absurd (congrArg Prod.fst e) hp.1
    · rwa [hφo p.1 p.2 hp.1 hp.2, hφo q.1 q.2 hq.1 hq.2] at e
  -- the links afterwards
  have hacc' : ∀ x k, x ≠ r' → x ≠ t → h'.acc x k = (h.acc x k).map φ := by
    intro x k h1 h2
    by_cases hx : ∀ l, h.acc x k ≠ some (r', l) ∧ h.acc x k ≠ some (t, l)
    · rw [hfar x k h1 h2 h1 hx]
      cases e : h.acc x k with
      | none => rfl
      | some y =>
        obtain ⟨y, l⟩ := y
        rw [Option.map_some, hφo y l (fun q => (hx l).1 (by rw [e, q])) (fun q => (hx l).2 (by rw [e, q]))]
    · push Not at hx
      obtain ⟨l, hx⟩ := hx
      have : ∃ y, h.acc x k = some (y, l) ∧ (y, l) ∈ Lh := by
        by_cases q : h.acc x k = some (r', l)
        · refine ⟨r', q, (hmemL _ _).2 (.inl ⟨rfl, ?_, ?_⟩)⟩
          · exact (hA.acc l).1 (by rw [ht.links.sym _ _ _ _ q]; simp)
          · rintro rfl
            have := ht.links.sym _ _ _ _ q
            rw [hb] at this; cases this; exact h2 rfl
        · have q := hx q
          refine ⟨t, q, (hmemL _ _).2 (.inr ⟨rfl, ?_, ?_⟩)⟩
          · exact (hB.acc l).1 (by rw [ht.links.sym _ _ _ _ q]; simp)
          · rintro rfl
            have := ht.links.sym _ _ _ _ q
            rw [hbs] at this; cases this; exact h1 rfl
      obtain ⟨y, e, hy⟩ := this
      obtain ⟨n, hn⟩ := List.mem_iff_getElem?.1 hy
      rw [e, Option.map_some, hφL _ _ hn]
      have := hacc n _ hn
      simp only at this
      rw [ht.links.sym _ _ _ _ e] at this
      exact hinv.sym _ _ _ _ this
  have haccφ : ∀ p ∈ Lh, h'.acc (φ p).1 (φ p).2 = h.acc p.1 p.2 := by
    intro p hp
    obtain ⟨n, hn⟩ := List.mem_iff_getElem?.1 hp
    rw [hφL _ _ hn]; exact hacc n p hn
  have hdimφ : ∀ p, (p ∈ Lh ∨ (p.1 ≠ r' ∧ p.1 ≠ t)) → h'.hdim (φ p) = h.hdim p := by
    intro p hp
    rcases hp with hp | hp
    · obtain ⟨n, hn⟩ := List.mem_iff_getElem?.1 hp
      rw [hφL _ _ hn, hC.hdim_eq, hlab.shape, List.getD_eq_getElem?_getD, List.getElem?_map, hn]; rfl
    · rw [hφo p.1 p.2 hp.1 hp.2]
      unfold hdim
      have : h'.array p.1 = h.array p.1 := (core_eq (hcore p.1 hp.1)).2.2.1
      simp only [this]
  -- the branches
  have hheads : pre.heads ++ (i, t, j) :: post.heads = (List.range A.ndim).map fun k => (k, (h.acc r' k).getD (0, 0)) := by
    have := ht.tree.heads
    rw [children_eq hwf ht.leaf List.pairwise_lt_range (fun k => by rw [hA.acc, List.mem_range]), Forest.heads_app] at this
    exact this.symm
  have hprel : pre.heads.length = i := by
    have e := congrArg (fun l => l[pre.heads.length]?) hheads
    simp only [List.getElem?_append_right (Nat.le_refl _), Nat.sub_self, List.getElem?_cons_zero, List.getElem?_map] at e
    cases e2 : (List.range A.ndim)[pre.heads.length]? with
    | none => rw [e2] at e; cases e
    | some m =>
      obtain ⟨q1, q2⟩ := List.getElem?_eq_some_iff.1 e2
      rw [List.getElem_range] at q2
      rw [e2] at e
      simp only [Option.map_some, Option.some.injEq, Prod.mk.injEq] at e
      omega
  rw [range_split hin, List.map_append, List.map_cons] at hheads
  obtain ⟨hpre, hpost⟩ := List.append_inj hheads (by simp [hprel])
  have hpost := (List.cons.inj hpost).2
  have hrep := ht.tree.rep
  rw [Forest.repIn_app] at hrep
  obtain ⟨rp1, ⟨rp2, rp3, rp4⟩⟩ := hrep
  have hle := ht.tree.leafEnd
  rw [Forest.leafEnd_app] at hle
  obtain ⟨le1, ⟨-, le3, le4⟩⟩ := hle
  have hsub : sub.heads = (List.range j ++ List.range' (j + 1) (B.ndim - j - 1)).map fun k => (k, (h.acc t k).getD (0, 0)) := by
    rw [← rp2]
    refine sorted_ext (pairwise_children hwf t _ true) ?_ ?_
    · rw [List.pairwise_map]; exact hole_pairwise j B.ndim
    · rintro ⟨k, u, l⟩
      rw [mem_children hwf (by simp)]
      simp only [List.mem_map, Prod.mk.injEq, mem_hole hjn]
      constructor
      · rintro ⟨q1, q2, -⟩
        exact ⟨k, ⟨(hB.acc k).1 (by rw [q1]; simp), fun q => q2 (by rw [q])⟩, rfl, by rw [q1]; simp⟩
      · rintro ⟨k, ⟨q1, q2⟩, rfl, q3⟩
        have := (hB.acc k).2 q1
        cases hx : h.acc t k with
        | none => exact absurd hx this
        | some y =>
          rw [hx] at q3; simp only [Option.getD_some] at q3; subst q3
          exact ⟨rfl, by simpa [eq_comm] using q2, .inl trivial⟩
  set G := pre.app (sub.app post) with hG
  have hGheads : G.heads = Lh.map fun p => (p.2, (h.acc p.1 p.2).getD (0, 0)) := by
    rw [hG, Forest.heads_app, Forest.heads_app, hpre, hsub, hpost, hLh]
    unfold uniteLabels
    simp [Function.comp_def]
  have hGids : G.ids = pre.ids ++ (sub.ids ++ post.ids) := by rw [hG, Forest.ids_app, Forest.ids_app]
  have hnd2 : (r' :: t :: G.ids).Nodup := by
    rw [hGids]
    refine List.Perm.nodup ?_ hnd
    refine List.Perm.cons _ ?_
    exact List.perm_middle
  have hGr : ∀ u ∈ G.ids, u ≠ r' ∧ u ≠ t := by
    intro u hu
    simp only [List.nodup_cons, List.mem_cons, not_or] at hnd2
    exact ⟨fun q => hnd2.1.2 (q ▸ hu), fun q => hnd2.2.1 (q ▸ hu)⟩
  have hGφ : ∀ u ∈ G.ids, ∀ k, φ (u, k) = (u, k) := fun u hu k => hφo u k (hGr u hu).1 (hGr u hu).2
  -- the tree
  have key : ∀ P : Forest, (∀ u ∈ P.ids, u ≠ r' ∧ u ≠ t) → P.RepIn h → P.LeafEnd h → P.RepIn h' ∧ P.LeafEnd h' := by
    intro P
    induction P with
    | nil => intros; exact ⟨trivial, trivial⟩
    | cons i j id sub rest ih1 ih2 =>
      intro hP a b
      obtain ⟨a1, a2, a3⟩ := a
      obtain ⟨b1, b2, b3⟩ := b
      obtain ⟨c1, c2⟩ := ih1 (fun u hu => hP u (by simp [Forest.ids, hu])) a2 b2
      obtain ⟨d1, d2⟩ := ih2 (fun u hu => hP u (by simp [Forest.ids, hu])) a3 b3
      obtain ⟨o1, o2⟩ := hP id (by simp [Forest.ids])
      refine ⟨⟨?_, c1, d1⟩, ?_, c2, d2⟩
      · rw [← a1]
        refine children_some_congr hwf hinv.wf fun k hk => ?_
        rw [hacc' id k o1 o2]
        cases e : h.acc id k with
        | none => rfl
        | some y =>
          obtain ⟨y, l⟩ := y
          have : (k, y, l) ∈ sub.heads := by
            rw [← a1, mem_children hwf (by simp)]
            exact ⟨e, by simpa [eq_comm] using hk, .inl rfl⟩
          have := hP y (by simp [Forest.ids, Forest.mem_heads_ids this])
          rw [Option.map_some, hφo y l this.1 this.2]
      · rw [hleaf]; exact b1
  have hGrep : G.RepIn h ∧ G.LeafEnd h := by
    rw [hG, Forest.repIn_app, Forest.repIn_app, Forest.leafEnd_app, Forest.leafEnd_app]
    exact ⟨⟨rp1, rp3, rp4⟩, ⟨le1, le3, le4⟩⟩
  obtain ⟨kr1, kr2⟩ := key G hGr hGrep.1 hGrep.2
  have htree : IsTree h' r' none (G.renum 0) := by
    refine ⟨?_, (Forest.repIn_renum 0).2 kr1, ?_, (Forest.leafEnd_renum 0).2 kr2⟩
    · rw [children_eq hinv.wf hC.leaf List.pairwise_lt_range (fun k => by rw [hC.acc, List.mem_range]),
        Forest.heads_renum, hGheads, hCn]
      refine List.ext_getElem? fun n => ?_
      simp only [List.getElem?_map, List.getElem?_zipIdx]
      cases e : Lh[n]? with
      | none =>
        have : Lh.length ≤ n := by simpa using e
        rw [List.getElem?_eq_none (by simpa using this)]; rfl
      | some p =>
        have : n < Lh.length := (List.getElem?_eq_some_iff.1 e).1
        rw [List.getElem?_eq_getElem (by simpa using this), List.getElem_range]
        simp [hacc n p e]
    · rw [Forest.ids_renum]
      simp only [List.nodup_cons, List.mem_cons, not_or] at hnd2 ⊢
      exact ⟨hnd2.1.2, hnd2.2.2⟩
  -- the edges
  have hedges : (G.renum 0).edges r' = (pre.edges r' ++ (sub.edges t ++ post.edges r')).map (Forest.mapE φ) := by
    have hφh : ∀ n x, G.heads[n]? = some x → ∃ p, Lh[n]? = some p ∧ x.1 = p.2 ∧ φ p = (r', n) := by
      intro n x hx
      rw [hGheads, List.getElem?_map] at hx
      cases e : Lh[n]? with
      | none => rw [e] at hx; cases hx
      | some p => rw [e] at hx; cases hx; exact ⟨p, rfl, rfl, hφL _ _ e⟩
    have hlsub : sub.heads.length = B.ndim - 1 := by rw [hsub]; simp; omega
    obtain ⟨g1, g2, g3, g4, g5⟩ := getElem?_uniteLabels (s := r') (i := i) (n := A.ndim) (t := t) (j := j)
      (m := B.ndim) hin hjn
    rw [hG, Forest.renum_app, Forest.renum_app, Forest.edges_app, Forest.edges_app, List.map_append, List.map_append]
    have hGh : G.heads = pre.heads ++ (sub.heads ++ post.heads) := by rw [hG, Forest.heads_app, Forest.heads_app]
    congr 1
    · refine Forest.edges_renum (fun m x hx => ?_) fun u hu => hGφ u (by rw [hGids]; simp [hu])
      have hm := (List.getElem?_eq_some_iff.1 hx).1
      obtain ⟨p, q1, q2, q3⟩ := hφh m x (by rw [hGh, List.getElem?_append_left hm]; exact hx)
      have hp := (g1 m (by omega)).symm.trans q1
      cases hp
      rw [q2, q3, Nat.zero_add]
    congr 1
    · refine Forest.edges_renum (fun m x hx => ?_) fun u hu => hGφ u (by rw [hGids]; simp [hu])
      have hm := (List.getElem?_eq_some_iff.1 hx).1
      obtain ⟨p, q1, q2, q3⟩ := hφh (pre.heads.length + m) x (by
        rw [hGh, List.getElem?_append_right (by omega), List.getElem?_append_left (by omega)]
        rw [← hx]; congr 1; omega)
      have hp : p.1 = t := by
        by_cases hmj : m < j
        · have := (g2 m hmj).symm.trans ((congrArg (fun n => Lh[n]?) (by omega)).trans q1)
          exact (congrArg Prod.fst (Option.some.inj this)).symm
        · have := (g3 (m + 1) (by omega) (by omega)).symm.trans
            ((congrArg (fun n => Lh[n]?) (by omega)).trans q1)
          exact (congrArg Prod.fst (Option.some.inj this)).symm
      rw [q2, ← hp, q3, Nat.zero_add]
    · refine Forest.edges_renum (fun m x hx => ?_) fun u hu => hGφ u (by rw [hGids]; simp [hu])
      have hm := (List.getElem?_eq_some_iff.1 hx).1
      obtain ⟨p, q1, q2, q3⟩ := hφh (pre.heads.length + (sub.heads.length + m)) x (by
        rw [hGh, List.getElem?_append_right (by omega), List.getElem?_append_right (by omega)]
        rw [← hx]; congr 1; omega)
      have hp : p.1 = r' := by
        have hlp : post.heads.length = A.ndim - i - 1 := by rw [hpost]; simp
        have := (g4 (i + 1 + m) (by omega) (by omega)).symm.trans
            ((congrArg (fun n => Lh[n]?) (by omega)).trans q1)
        exact (congrArg Prod.fst (Option.some.inj this)).symm
      rw [q2, ← hp, q3, hp, Nat.zero_add]
      congr 1; omega
  have hE0 : (pre.app (.cons i j t sub post)).edges r' =
      pre.edges r' ++ (r', i, t, j) :: (sub.edges t ++ post.edges r') := by
    rw [Forest.edges_app]; rfl
  set E0 := pre.edges r' ++ (sub.edges t ++ post.edges r') with hE0d
  have hmemE : ∀ e ∈ E0, e ∈ (pre.app (.cons i j t sub post)).edges r' := by
    intro e he
    rw [hE0]
    simp only [hE0d, List.mem_append, List.mem_cons] at he ⊢
    tauto
  have htgt : ∀ e ∈ E0, e.2.2.1 ∈ G.ids := by
    intro e he
    rw [hGids]
    simp only [hE0d, List.mem_append] at he ⊢
    rcases he with he | he | he
    · exact .inl (TreeSum.edges_mem he).2
    · exact .inr (.inl (TreeSum.edges_mem he).2)
    · exact .inr (.inr (TreeSum.edges_mem he).2)
  have hsrc : ∀ e ∈ E0, (e.1, e.2.1) ∈ Lh ∨ (e.1 ≠ r' ∧ e.1 ≠ t) := by
    intro e he
    have hlk := ht.isLink_edge (hmemE e he)
    obtain ⟨o1, o2⟩ := hGr _ (htgt e he)
    by_cases c1 : e.1 = r'
    · refine .inl ((hmemL _ _).2 (.inl ⟨c1, ?_, ?_⟩))
      · have := hlk.1; rw [c1] at this
        exact (hA.acc _).1 (by rw [this]; simp)
      · intro q
        have := hlk.1; rw [c1, q, hb] at this
        cases this; exact o2 rfl
    · by_cases c2 : e.1 = t
      · refine .inl ((hmemL _ _).2 (.inr ⟨c2, ?_, ?_⟩))
        · have := hlk.1; rw [c2] at this
          exact (hB.acc _).1 (by rw [this]; simp)
        · intro q
          have := hlk.1; rw [c2, q, hbs] at this
          cases this; exact o1 rfl
      · exact .inr ⟨c1, c2⟩
  have hmapt : ∀ e ∈ E0, (Forest.mapE φ e).2.2.1 = e.2.2.1 ∧ (Forest.mapE φ e).2.2.2 = e.2.2.2 := by
    intro e he
    have := hGφ _ (htgt e he) e.2.2.2
    simp only [Forest.mapE, this, and_self]
  have hfilt : ∀ b : Bool, ((G.renum 0).edges r').filter (fun e => h'.isLeaf e.2.2.1 == b) =
      (E0.filter fun e => h.isLeaf e.2.2.1 == b).map (Forest.mapE φ) := by
    intro b
    rw [hedges, List.filter_map]
    congr 1
    refine List.filter_congr fun e he => ?_
    simp only [Function.comp, hleaf, (hmapt e he).1]
  have hbonds : h'.bonds r' (G.renum 0) = (E0.filter fun e => !(h.isLeaf e.2.2.1)).map (Forest.mapE φ) := by
    have := hfilt false
    unfold bonds
    simpa using this
  have htens : h'.tensors r' (G.renum 0) = r' :: G.ids.filter (fun c => !(h.isLeaf c)) := by
    unfold tensors
    simp only [Forest.ids_renum, hleaf]
    rw [List.filter_cons_of_pos (by simp [ht.leaf])]
  have htens0 : (h.tensors r' (pre.app (.cons i j t sub post))).Perm (r' :: t :: G.ids.filter (fun c => !(h.isLeaf c))) := by
    unfold tensors
    rw [List.filter_cons_of_pos (by simp [ht.leaf]), Forest.ids_app, hGids]
    refine List.Perm.cons _ ?_
    simp only [Forest.ids, List.cons_append, List.filter_append]
    rw [List.filter_cons_of_pos (by simp [hl])]
    simp only [List.filter_append]
    exact List.perm_middle
  have hGT : ∀ u ∈ G.ids, h.isLeaf u = false → u ∈ h.tensors r' (pre.app (.cons i j t sub post)) := by
    intro u hu hlu
    rw [htens0.mem_iff]
    simp [hu, hlu]
  have harr : ∀ u, u ≠ r' → h'.array u = h.array u := fun u hu => (core_eq (hcore u hu)).2.2.1
  have httn : h'.IsTTN r' (G.renum 0) := by
    refine ⟨hinv, htree, hC.leaf, by rw [hnext]; exact ht.lt, ?_, ?_, ?_⟩
    · intro u hu
      rw [htens] at hu
      rcases List.mem_cons.1 hu with rfl | hu
      · exact ⟨C, hC⟩
      · simp only [List.mem_filter, Bool.not_eq_true'] at hu
        obtain ⟨o1, o2⟩ := hGr u hu.1
        obtain ⟨D, hD⟩ := ht.full u (hGT u hu.1 hu.2)
        refine ⟨D, by rw [hleaf]; exact hu.2, by rw [harr u o1]; exact hD.array, hD.wf, hD.pos, fun k => ?_⟩
        rw [hacc' u k o1 o2, ← hD.acc k]
        simp
    · intro e he
      rw [hbonds] at he
      obtain ⟨f, hf, rfl⟩ := List.mem_map.1 he
      simp only [List.mem_filter, Bool.not_eq_true'] at hf
      have hft := htgt f hf.1
      rw [(hmapt f hf.1).1, (hmapt f hf.1).2]
      have q1 := hdimφ _ (hsrc f hf.1)
      have q2 := hdimφ (f.2.2.1, f.2.2.2) (.inr (hGr _ hft))
      rw [hGφ _ hft] at q2
      rw [q2]
      refine Eq.trans q1 ?_
      exact ht.dims f (mem_bonds.2 ⟨hmemE f hf.1, hf.2⟩)
    · intro u hu
      rw [htens] at hu
      rcases List.mem_cons.1 hu with rfl | hu
      · rw [hnamer]; exact ht.names _ hrT
      · simp only [List.mem_filter, Bool.not_eq_true'] at hu
        obtain ⟨o1, o2⟩ := hGr u hu.1
        rw [(core_eq (hcore u o1)).1]
        exact ht.names u (hGT u hu.1 hu.2)
  have hgone : ∀ k, h'.acc t k = none := fun k => hold t (by simp) hne k
  refine ⟨h', G.renum 0, hun, httn, haxis, ?_, ?_, hleaf, fun c hc => ⟨hcore c hc, fun k hk => ?_⟩, hgone, ?_, ?_⟩
  · rw [Forest.ids_renum, hGids, Forest.ids_app]
    simp [Forest.ids]
  · unfold leafList
    have := hfilt true
    simp only [beq_true] at this
    rw [this, hE0, List.map_map]
    have e1 : (pre.edges r' ++ (r', i, t, j) :: (sub.edges t ++ post.edges r')).filter (fun e => h.isLeaf e.2.2.1) =
        E0.filter fun e => h.isLeaf e.2.2.1 := by
      rw [List.filter_append, List.filter_cons_of_neg (by simp [hl]), ← List.filter_append]
    rw [e1]
    refine List.map_congr_left fun e he => ?_
    have he0 := List.mem_of_mem_filter he
    simp only [Function.comp, (hmapt e he0).1, Prod.mk.injEq, true_and]
    exact hdimφ _ (hsrc e he0)
  · by_cases hct : c = t
    · rw [hct]; exact hgone k
    · rw [hacc' c k hc hct, hk]; rfl
  · rintro u l hu ⟨k, e⟩
    have hur : u ≠ r' := fun q => hself r' hrT l k (by rw [q] at e; exact e)
    refine ⟨Lh.idxOf (r', k), ?_⟩
    rw [hacc' u l hur hu, e, Option.map_some, hφ, if_pos]
    refine (hmemL _ _).2 (.inl ⟨rfl, ?_, ?_⟩)
    · exact (hA.acc k).1 (by rw [ht.links.sym _ _ _ _ e]; simp)
    · rintro rfl
      have := ht.links.sym _ _ _ _ e
      rw [hb] at this; cases this; exact hu rfl
  intro x hx
  constructor
  · intro u hu k l m e hlT
    have hlG : l ∈ G.ids := by
      have : l = r' ∨ l ∈ (G.renum 0).ids := by
        rw [httn.mem_linked]
        have := (httn.mem_linked u).1 (mem_tensors.1 hu).1
        exact this.tail ⟨k, m, e⟩
      rcases this with rfl | q
      · exact absurd (mem_tensors.2 ⟨.inl rfl, hC.leaf⟩) hlT
      · rwa [Forest.ids_renum] at q
    have hll : h.isLeaf l = true := by
      by_contra q
      apply hlT
      rw [htens]
      exact List.mem_cons_of_mem _ (List.mem_filter.2 ⟨hlG, by simpa using q⟩)
    have hlT0 : l ∉ h.tensors r' (pre.app (.cons i j t sub post)) := by
      intro q
      have := (mem_tensors.1 q).2
      rw [hll] at this; cases this
    rw [htens] at hu
    rcases List.mem_cons.1 hu with rfl | hu
    · have hk : k < Lh.length := by rw [← hCn]; exact (hC.acc k).1 (by rw [e]; simp)
      have hp : Lh[k]? = some Lh[k] := List.getElem?_eq_getElem hk
      have q1 := hacc k _ hp
      rw [e] at q1
      have q2 := hdimφ _ (.inl (List.mem_of_getElem? hp))
      rw [hφL _ _ hp] at q2
      rw [q2]
      have hpT : (Lh[k]).1 ∈ h.tensors u (pre.app (.cons i j t sub post)) := by
        have := (hmemL (Lh[k]).1 (Lh[k]).2).1 (List.mem_of_getElem? hp)
        rcases this with q | q
        · rw [q.1]; exact hrT
        · rw [q.1]; exact htT
      exact hx _ hpT _ _ _ q1.symm hlT0
    · simp only [List.mem_filter, Bool.not_eq_true'] at hu
      obtain ⟨o1, o2⟩ := hGr u hu.1
      have q2 := hdimφ (u, k) (.inr ⟨o1, o2⟩)
      rw [hφo u k o1 o2] at q2
      rw [q2]
      rw [hacc' u k o1 o2] at e
      obtain ⟨p, e1, e2⟩ := Option.map_eq_some_iff.1 e
      have hp : p ∉ Lh := by
        intro q
        rw [hφ, if_pos q] at e2
        exact (hGr l hlG).1 (congrArg Prod.fst e2).symm
      rw [hφ, if_neg hp] at e2
      subst e2
      exact hx u (hGT u hu.1 hu.2) k l m e1 hlT0
  · unfold treeAmp amp
    rw [hbonds]
    obtain ⟨E1, hE1⟩ : ∃ E1, E1 = (pre.edges r').filter fun e => !(h.isLeaf e.2.2.1) := ⟨_, rfl⟩
    obtain ⟨E2, hE2⟩ : ∃ E2, E2 = (sub.edges t ++ post.edges r').filter fun e => !(h.isLeaf e.2.2.1) := ⟨_, rfl⟩
    have b1 : h.bonds r' (pre.app (.cons i j t sub post)) = E1 ++ (r', i, t, j) :: E2 := by
      unfold bonds
      rw [hE0, List.filter_append, List.filter_cons_of_pos (by simp [hl]), hE1, hE2]
    have b2 : (E0.filter fun e => !(h.isLeaf e.2.2.1)) = E1 ++ E2 := by
      rw [hE0d, List.filter_append, hE1, hE2]
    have honce := hnet.once
    have hall := hnet.all
    rw [b1] at honce hall
    rw [b1, b2, sumBonds_middle h _ E1 E2 honce]
    have hmem12 : ∀ e ∈ E1 ++ E2, e ∈ E0 ∧ h.isLeaf e.2.2.1 = false := by
      intro e he
      rw [← b2] at he
      simpa [List.mem_filter] using he
    have hsl : ∀ e ∈ E0, h.isLeaf e.1 = false := fun e he =>
      Forest.edges_src_leaf ht.leaf ht.tree.leafEnd (k := e.2.1) (y := e.2.2.1) (l := e.2.2.2) (hmemE e he)
    refine sumBonds_rename (h := h) (h' := h') (φ := φ)
      (dom := fun p => p ∈ Lh ∨ (p.1 ≠ r' ∧ p.1 ≠ t ∧ h.isLeaf p.1 = false)) (Q := fun p => p ∈ Lh)
      ?_ ?_ (E1 ++ E2) ?_ ?_ _ _ ?_
    · intro p q hp hq
      exact hinj p q (hp.imp_right fun a => ⟨a.1, a.2.1⟩) (hq.imp_right fun a => ⟨a.1, a.2.1⟩)
    · intro τ τ' hτ
      rw [htens, List.map_cons, List.prod_cons]
      have hv : ∀ v, ((h.tensors r' (pre.app (.cons i j t sub post))).map (h.entry (setBond (r', i, t, j) v τ))).prod =
          A.get ((List.range A.ndim).map fun k => Nd.upd τ (r', i) v (r', k)) *
          B.get ((List.range B.ndim).map fun k => Nd.upd τ (t, j) v (t, k)) *
          ((G.ids.filter fun c => !(h.isLeaf c)).map (h'.entry τ')).prod := by
        intro v
        rw [(htens0.map _).prod_eq, List.map_cons, List.map_cons, List.prod_cons, List.prod_cons, ← mul_assoc]
        congr 1
        · congr 1
          · rw [entry_eq hA.array]
            congr 1
            refine List.map_congr_left fun k _ => ?_
            simp [setBond_apply, Nd.upd, hne.symm]
          · rw [entry_eq hB.array]
            congr 1
            refine List.map_congr_left fun k _ => ?_
            simp [setBond_apply, Nd.upd, hne]
        · congr 1
          refine List.map_congr_left fun u hu => ?_
          simp only [List.mem_filter, Bool.not_eq_true'] at hu
          obtain ⟨o1, o2⟩ := hGr u hu.1
          obtain ⟨D, hD⟩ := ht.full u (hGT u hu.1 hu.2)
          rw [entry_eq hD.array, entry_eq (by rw [harr u o1]; exact hD.array)]
          congr 1
          refine List.map_congr_left fun k _ => ?_
          have := (hτ (u, k) (.inr ⟨o1, o2, hu.2⟩)).1
          rw [hφo u k o1 o2] at this
          rw [this, setBond_apply, if_neg]
          simp [o1, o2]
      simp only [hv]
      rw [← Finset.sum_mul]
      congr 1
      rw [entry_eq hC.array]
      have e1 : (List.range C.ndim).map (fun k => τ' (r', k)) = Lh.map τ := by
        rw [hCn]
        refine List.ext_getElem? fun n => ?_
        simp only [List.getElem?_map]
        cases e : Lh[n]? with
        | none =>
          have : Lh.length ≤ n := by simpa using e
          rw [List.getElem?_eq_none (by simpa using this)]; rfl
        | some p =>
          have hn : n < Lh.length := (List.getElem?_eq_some_iff.1 e).1
          rw [List.getElem?_eq_getElem (by simpa using hn), List.getElem_range]
          have := (hτ p (.inl (List.mem_of_getElem? e))).1
          rw [hφL _ _ e] at this
          simp [this]
      rw [e1, hlab.get τ fun p hp => (hτ p (.inl hp)).2 hp]
    · intro p hp
      obtain ⟨e, he, q⟩ := mem_halves.1 hp
      obtain ⟨m1, m2⟩ := hmem12 e he
      rcases q with rfl | rfl
      · exact (hsrc e m1).imp_right fun a => ⟨a.1, a.2, hsl e m1⟩
      · exact .inr ⟨(hGr _ (htgt e m1)).1, (hGr _ (htgt e m1)).2, m2⟩
    · intro e he
      obtain ⟨m1, m2⟩ := hmem12 e he
      exact ⟨hdimφ _ (hsrc e m1), ht.dims e (mem_bonds.2 ⟨hmemE e m1, m2⟩)⟩
    · intro p hp hpE
      have hinE : p ∈ halves (E1 ++ (r', i, t, j) :: E2) → p = (r', i) ∨ p = (t, j) := by
        intro q
        obtain ⟨e, he, q⟩ := mem_halves.1 q
        simp only [List.mem_append, List.mem_cons] at he
        by_cases he0 : e = (r', i, t, j)
        · subst he0
          rcases q with q | q
          · exact .inl q
          · exact .inr q
        · exact absurd (mem_halves.2 ⟨e, by simp only [List.mem_append]; tauto, q⟩) hpE
      rcases hp with hp | ⟨o1, o2, o3⟩
      · refine ⟨by unfold leafAssign; rw [haccφ p hp], fun _ => ?_⟩
        have hpT : p.1 ∈ h.tensors r' (pre.app (.cons i j t sub post)) := by
          rcases (hmemL p.1 p.2).1 hp with q | q
          · rw [q.1]; exact hrT
          · rw [q.1]; exact htT
        have hnn : h.acc p.1 p.2 ≠ none := by
          rcases (hmemL p.1 p.2).1 hp with q | q
          · rw [q.1]; exact (hA.acc _).2 q.2.1
          · rw [q.1]; exact (hB.acc _).2 q.2.1
        cases e : h.acc p.1 p.2 with
        | none => exact absurd e hnn
        | some y =>
          obtain ⟨y, l⟩ := y
          have hy : y ∉ h.tensors r' (pre.app (.cons i j t sub post)) := by
            intro hy
            have := hinE (hall p.1 hpT p.2 y l e hy)
            rcases (hmemL p.1 p.2).1 hp with q | q <;> rcases this with w | w
            · exact q.2.2 (congrArg Prod.snd w)
            · exact hne.symm (q.1.symm.trans (congrArg Prod.fst w))
            · exact hne (q.1.symm.trans (congrArg Prod.fst w))
            · exact q.2.2 (congrArg Prod.snd w)
          unfold leafAssign
          rw [e]
          exact hx p.1 hpT p.2 y l e hy
      · refine ⟨?_, fun q => ?_⟩
        · rw [hφo p.1 p.2 o1 o2]
          unfold leafAssign
          rw [hacc' p.1 p.2 o1 o2]
          cases e : h.acc p.1 p.2 with
          | none => rfl
          | some y =>
            obtain ⟨y, l⟩ := y
            rw [Option.map_some]
            have hno : y ≠ r' ∧ y ≠ t := by
              by_contra q
              have hyT : y ∈ h.tensors r' (pre.app (.cons i j t sub post)) := by
                by_cases q1 : y = r'
                · rw [q1]; exact hrT
                · have : y = t := by tauto
                  rw [this]; exact htT
              have hpT : p.1 ∈ h.tensors r' (pre.app (.cons i j t sub post)) := by
                refine mem_tensors.2 ⟨(ht.mem_linked _).2 ?_, o3⟩
                exact ((ht.mem_linked y).1 (mem_tensors.1 hyT).1).tail ⟨l, p.2, ht.links.sym _ _ _ _ e⟩
              rcases hinE (hall p.1 hpT p.2 y l e hyT) with w | w
              · exact o1 (congrArg Prod.fst w)
              · exact o2 (congrArg Prod.fst w)
            rw [hφo y l hno.1 hno.2]
        · exfalso
          rcases (hmemL p.1 p.2).1 q with w | w
          · exact o1 w.1
          · exact o2 w.1

end Heap

namespace Heap

variable {R : Type} [CommRing R]

/-- What has been kept after some of the tensors were united with the root. -/
structure Kept (h h' : Heap R) (r : ℕ) (F F' : Forest) : Prop where
  ttn : h'.IsTTN r F'
  axis : (h'.node r).axis = none
  leaves : h'.leafList r F' = h.leafList r F
  amp : ∀ x, h.InRange (h.tensors r F) x → h'.InRange (h'.tensors r F') x ∧ h'.treeAmp r F' x = h.treeAmp r F x

theorem Kept.trans {h h' h'' : Heap R} {r : ℕ} {F F' F'' : Forest} (a : Kept h h' r F F') (b : Kept h' h'' r F' F'') :
    Kept h h'' r F F'' :=
  ⟨b.ttn, b.axis, b.leaves.trans a.leaves, fun x hx =>
    ⟨(b.amp x (a.amp x hx).1).1, (b.amp x (a.amp x hx).1).2.trans (a.amp x hx).2⟩⟩

theorem contractFor_ok {r : ℕ} (L : List (ℕ × ℕ × ℕ)) : ∀ (h : Heap R) (F : Forest), h.IsTTN r F →
    (h.node r).axis = none → (∀ x ∈ L, h.isLeaf x.2.1 = false ∧ ∃ k, h.acc x.2.1 x.2.2 = some (r, k)) →
    (L.map fun x => x.2.1).Nodup →
    ∃ h' F', contractFor r L h = .ok h' ∧ Kept h h' r F F' ∧ F'.ids.length + L.length ≤ F.ids.length := by
  induction L with
  | nil =>
    intro h F ht hax _ _
    exact ⟨h, F, rfl, ⟨ht, hax, rfl, fun x hx => ⟨hx, rfl⟩⟩, by simp⟩
  | cons y L ih =>
    obtain ⟨m, t, j⟩ := y
    intro h F ht hax hL hnd
    obtain ⟨hl, i, hb⟩ := hL (m, t, j) (by simp)
    rw [List.map_cons, List.nodup_cons] at hnd
    obtain ⟨h1, F1, e1, t1, a1, l1, v1, f1, -, -, k1, x1⟩ := ht.uniteEnd (.inl hax) (ht.links.sym _ _ _ _ hb) hl false
    obtain ⟨h2, F2, e2, q2, l2⟩ := ih h1 F1 t1 a1 (fun x hx => by
      obtain ⟨u1, u2⟩ := hL x (by simp [hx])
      refine ⟨by rw [f1]; exact u1, k1 _ _ (fun q => hnd.1 ?_) u2⟩
      simp only at q
      rw [← q]; exact List.mem_map.2 ⟨x, hx, rfl⟩) hnd.2
    refine ⟨h2, F2, ?_, Kept.trans ⟨t1, a1, v1, x1⟩ q2, by simp only [List.length_cons]; omega⟩
    unfold contractFor
    have : (h.access t).get! j = .ok (r, i) := by
      unfold Dict.get!
      rw [acc_def] at hb
      simp only at hb
      rw [hb]
    rw [this, ok_bind]
    simp only
    rw [e1, ok_bind]
    exact e2

theorem contractWhile_ok {r : ℕ} (fuel : ℕ) : ∀ (h : Heap R) (F : Forest), h.IsTTN r F →
    (h.node r).axis = none → F.ids.length < fuel →
    ∃ h' F', contractWhile r fuel h = .ok h' ∧ Kept h h' r F F' ∧ ∀ x ∈ F'.heads, h'.isLeaf x.2.1 = true := by
  induction fuel with
  | zero => intro h F _ _ hf; omega
  | succ fuel ih =>
    intro h F ht hax hf
    have hwf := ht.links.wf
    have hmem : ∀ x, x ∈ h.childrenDflt r false ↔ h.acc r x.1 = some (x.2.1, x.2.2) ∧ h.isLeaf x.2.1 = false := by
      rintro ⟨i, t, j⟩
      unfold childrenDflt
      rw [hax, mem_children hwf (by simp [ht.leaf])]
      simp
    unfold contractWhile
    simp only
    split
    · rename_i hemp
      refine ⟨h, F, rfl, ⟨ht, hax, rfl, fun x hx => ⟨hx, rfl⟩⟩, ?_⟩
      rintro ⟨i, t, j⟩ hx
      by_contra q
      have : (i, t, j) ∈ h.childrenDflt r false := by
        rw [hmem]
        rw [← ht.tree.heads, mem_children hwf (by simp [ht.leaf])] at hx
        exact ⟨hx.1, by simpa using q⟩
      rw [List.isEmpty_iff.1 hemp] at this
      cases this
    · rename_i hemp
      have hnd : ((h.childrenDflt r false).map fun x => x.2.1).Nodup := by
        refine nodup_map_of ?_ ?_
        · unfold childrenDflt
          exact (pairwise_children hwf r _ false).imp (fun {x y} hxy e => by subst e; omega)
        · rintro ⟨i, t, j⟩ hx ⟨i', t', j'⟩ hy e
          simp only at e
          subst e
          obtain ⟨a1, a2⟩ := (hmem _).1 hx
          obtain ⟨b1, b2⟩ := (hmem _).1 hy
          simp only at a1 a2 b1 b2
          have hrT : r ∈ h.tensors r F := mem_tensors.2 ⟨.inl rfl, ht.leaf⟩
          have htT : t ∈ h.tensors r F := mem_tensors.2
            ⟨(ht.mem_linked t).2 (Relation.ReflTransGen.single ⟨i, j, a1⟩), a2⟩
          have := (ht.isNet.simple r hrT i t j a1 htT).2 i' j' b1
          subst this
          rw [a1] at b1; cases b1; rfl
      obtain ⟨h1, F1, e1, k1, l1⟩ := contractFor_ok (h.childrenDflt r false) h F ht hax
        (fun x hx => by
          obtain ⟨a1, a2⟩ := (hmem x).1 hx
          exact ⟨a2, x.1, ht.links.sym _ _ _ _ a1⟩) hnd
      have hpos : 0 < (h.childrenDflt r false).length := by
        rw [List.length_pos_iff]; simpa using hemp
      obtain ⟨h2, F2, e2, k2, l2⟩ := ih h1 F1 k1.ttn k1.axis (by omega)
      exact ⟨h2, F2, by rw [e1, ok_bind]; exact e2, k1.trans k2, l2⟩

/-- A network with a single tensor: its array is the state. -/
theorem single_state {h : Heap R} {r : ℕ} {F : Forest} (ht : h.IsTTN r F)
    (hl : ∀ x ∈ F.heads, h.isLeaf x.2.1 = true) :
    ∃ A, h.array r = some A ∧ A.Wf ∧ A.shape = (h.leafList r F).map Prod.snd ∧
      ∀ x, A.get (((h.leafList r F).map Prod.fst).map x) = h.treeAmp r F x := by
  have key : ∀ G : Forest, G.LeafEnd h → (∀ x ∈ G.heads, h.isLeaf x.2.1 = true) →
      G.edges r = G.heads.map (fun x => (r, x.1, x.2.1, x.2.2)) ∧ ∀ c ∈ G.ids, h.isLeaf c = true := by
    intro G
    induction G with
    | nil => intros; exact ⟨rfl, by simp [Forest.ids]⟩
    | cons i j id sub rest _ ih =>
      intro hle hh
      obtain ⟨a1, a2, a3⟩ := hle
      have hid := hh (i, id, j) (by simp [Forest.heads])
      obtain ⟨b1, b2⟩ := ih a3 fun x hx => hh x (by simp [Forest.heads, hx])
      have hs := a1 hid
      subst hs
      refine ⟨by simp [Forest.edges, Forest.heads, b1], ?_⟩
      intro c hc
      simp only [Forest.ids, List.append_nil, List.cons_append, List.nil_append, List.mem_cons] at hc
      rcases hc with rfl | hc
      · exact hid
      · exact b2 c hc
  obtain ⟨k1, k2⟩ := key F ht.tree.leafEnd hl
  have hT : h.tensors r F = [r] := by
    unfold tensors
    rw [List.filter_cons_of_pos (by simp [ht.leaf]), List.filter_eq_nil_iff.2]
    intro c hc
    simp [k2 c hc]
  have hB : h.bonds r F = [] := by
    unfold bonds
    rw [List.filter_eq_nil_iff]
    intro e he
    simp [k2 _ (TreeSum.edges_mem he).2]
  obtain ⟨A, hA⟩ := ht.full r (by rw [hT]; simp)
  have hheads : F.heads = (List.range A.ndim).map fun k => (k, (h.acc r k).getD (0, 0)) := by
    rw [← ht.tree.heads]
    exact children_eq ht.links.wf ht.leaf List.pairwise_lt_range (fun k => by rw [hA.acc, List.mem_range])
  have hL : h.leafList r F = (List.range A.ndim).map fun k => (((h.acc r k).getD (0, 0)).1, h.hdim (r, k)) := by
    unfold leafList
    rw [List.filter_eq_self.2 (fun e he => k2 _ (TreeSum.edges_mem he).2), k1, hheads]
    simp [Function.comp_def]
  refine ⟨A, hA.array, hA.wf, ?_, ?_⟩
  · rw [hL, List.map_map]
    refine List.ext_getElem (by simp [Nd.ndim]) fun n q1 q2 => ?_
    simp only [List.getElem_map, List.getElem_range, Function.comp]
    rw [hA.hdim_eq, List.getD_eq_getElem _ _ q1]
  · intro x
    unfold treeAmp amp
    rw [hT, hB]
    simp only [sumBonds, List.map_cons, List.map_nil, List.prod_singleton]
    rw [entry_eq hA.array, hL, List.map_map, List.map_map]
    congr 1
    refine List.map_congr_left fun k hk => ?_
    have := (hA.acc k).2 (List.mem_range.1 hk)
    cases e : h.acc r k with
    | none => exact absurd e this
    | some y => obtain ⟨y, l⟩ := y; simp [leafAssign, e]

end Heap
