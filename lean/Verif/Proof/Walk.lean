import Verif.Spec.Walk
import Verif.Proof.EarleyTree
import Verif.Proof.Ambiguity
import Verif.Props.Earley
import Mathlib.Data.Set.Finite.List
import Mathlib.Data.Set.Finite.Lattice
import Mathlib.Data.Fintype.Order
import Mathlib.Order.WellFounded
/-! Walking down a forest. -/
set_option linter.unusedSectionVars false
namespace Bongo
open Std

namespace DTree
variable {L P Q : Type}
mutual
/-- The number of nodes. -/
def size : DTree L P → Nat
  | .leaf _ => 1
  | .node _ cs => sizes cs + 1
def sizes : List (DTree L P) → Nat
  | [] => 0
  | c :: cs => c.size + sizes cs
end

mutual
theorem size_mapNodes (f : P → Q) : (d : DTree L P) → (d.mapNodes f).size = d.size
  | .leaf l => by simp [mapNodes, size]
  | .node p cs => by rw [mapNodes, size, size, sizes_mapNodes f cs]
theorem sizes_mapNodes (f : P → Q) : (cs : List (DTree L P)) → sizes (mapNodesAll f cs) = sizes cs
  | [] => by simp [mapNodesAll, sizes]
  | c :: cs => by rw [mapNodesAll, sizes, sizes, size_mapNodes f c, sizes_mapNodes f cs]
end

theorem size_pos (d : DTree L P) : 0 < d.size := by cases d <;> simp [size]

theorem length_le_sizes : (cs : List (DTree L P)) → cs.length ≤ sizes cs
  | [] => by simp
  | c :: cs => by
    have := length_le_sizes cs
    have := size_pos c
    rw [sizes, List.length_cons]; omega

theorem size_le_sizes {c : DTree L P} : {cs : List (DTree L P)} → c ∈ cs → c.size ≤ sizes cs
  | [], h => by simp at h
  | d :: cs, h => by
    rw [sizes]
    rcases List.mem_cons.1 h with rfl | h
    · omega
    · have := size_le_sizes h; omega

theorem sizes_append : (cs ds : List (DTree L P)) → sizes (cs ++ ds) = sizes cs + sizes ds
  | [], ds => by simp [sizes]
  | c :: cs, ds => by rw [List.cons_append, sizes, sizes, sizes_append cs ds]; omega
end DTree

section
variable {T AK V : Type} [Ord T] [Ord AK] [Ord V] [TransOrd T] [TransOrd AK] [TransOrd V]
variable [LawfulEqOrd T] [LawfulEqOrd AK] [LawfulEqOrd V] {w : World T AK V}

theorem child_iff {m n : Node} : w.Child m n ↔ m.tree = n.tree ∧
    ∃ a ak ns, (w n.tree).Has n.index a ∧ (w n.tree).altAt a = some (.branch ak ns) ∧ m.index ∈ ns := by
  constructor
  · rintro ⟨alts, a, b, ns, h1, h2, h3, h5, h6⟩
    obtain ⟨e1, e2⟩ := mem_alts.1 ⟨alts, h1, h2⟩
    unfold World.content at h3
    cases hc : (w a.tree).getAlt a.index with
    | panic p => rw [hc] at h3; cases h3
    | oof => rw [hc] at h3; cases h3
    | ok c =>
      rw [hc] at h3
      cases c with
      | leaf _ _ => simp at h3
      | branch k v =>
        simp only [Res.ok.injEq, NodeView.branch.injEq] at h3
        subst h3
        simp only [World.branchNodes, World.withBranch, hc, NodeContent.asBranch,
          Res.expect_some, Res.ok.injEq] at h5
        subst h5
        obtain ⟨x, hx, rfl⟩ := List.mem_map.1 h6
        refine ⟨e1, a.index, k, v, e2, ?_, hx⟩
        rw [← e1, getAlt_iff.1 hc]
  · rintro ⟨ht, a, ak, ns, h1, h2, h3⟩
    obtain ⟨alts, k1, k2⟩ := (mem_alts (w := w) (n := n) (a := ⟨a, n.tree⟩)).2 ⟨rfl, h1⟩
    have hg := getAlt_of_altAt h2
    refine ⟨alts, ⟨a, n.tree⟩, ⟨a, n.tree⟩, ns.map (⟨·, n.tree⟩), k1, k2, ?_, ?_, ?_⟩
    · simp only [World.content, hg]
    · simp only [World.branchNodes, World.withBranch, hg, NodeContent.asBranch, Res.expect_some]
    · exact List.mem_map.2 ⟨m.index, h3, by rw [← ht]⟩

/-- Walks end exactly below accessible nodes. -/
theorem walkEnds_iff_acc {n : Node} : w.WalkEnds n ↔ Acc w.Child n := by
  unfold World.WalkEnds
  rw [← not_acc_iff_exists_descending_chain, Classical.not_not]

theorem readsAll_finite {ns : List Node} (h : ∀ m ∈ ns, {s | Reads w s m}.Finite) :
    {cs : List (DTree (Token T V) AK) | ReadsAll w cs ns}.Finite := by
  induction ns with
  | nil =>
    refine (Set.finite_singleton []).subset ?_
    intro cs hcs
    cases cs with
    | nil => rfl
    | cons c cs => simp [ReadsAll] at hcs
  | cons n ns ih =>
    refine (Set.Finite.image2 List.cons (h n (by simp)) (ih fun m hm => h m (by simp [hm]))).subset ?_
    intro cs hcs
    cases cs with
    | nil => simp [ReadsAll] at hcs
    | cons c cs =>
      simp only [Set.mem_setOf_eq, ReadsAll] at hcs
      exact ⟨c, hcs.1, cs, hcs.2, rfl⟩

/-- Below a node from which every walk ends there are finitely many trees. -/
theorem reads_finite_of_acc {n : Node} (h : Acc w.Child n) :
    {s : DTree (Token T V) AK | Reads w s n}.Finite := by
  induction h with
  | intro n _ ih =>
    have hc : ∀ a, {s : DTree (Token T V) AK | (w n.tree).Has n.index a ∧
        ((∃ tok, s = .leaf tok ∧ (w n.tree).altAt a = some (.leaf tok.kind tok.value)) ∨
        ∃ ak cs ns, s = .node ak cs ∧ (w n.tree).altAt a = some (.branch ak ns) ∧
          ReadsAll w cs (ns.map (⟨·, n.tree⟩)))}.Finite := by
      intro a
      by_cases hh : (w n.tree).Has n.index a
      swap
      · exact Set.finite_empty.subset fun s hs => hh hs.1
      cases hk : (w n.tree).altAt a with
      | none =>
        refine Set.finite_empty.subset ?_
        rintro s ⟨-, ⟨tok, -, h⟩ | ⟨ak, cs, ns, -, h, -⟩⟩ <;> cases h
      | some c =>
        cases c with
        | leaf k v =>
          refine (Set.finite_singleton (.leaf ⟨k, v⟩)).subset ?_
          rintro s ⟨-, ⟨tok, rfl, h⟩ | ⟨ak, cs, ns, -, h, -⟩⟩
          · simp only [Option.some.injEq, NodeContent.leaf.injEq] at h
            cases tok; simp only at h; rw [h.1, h.2]; rfl
          · cases h
        | branch ak ns =>
          have := readsAll_finite (w := w) (ns := ns.map (⟨·, n.tree⟩)) (by
            intro m hm
            obtain ⟨x, hx, rfl⟩ := List.mem_map.1 hm
            exact ih _ (child_iff.2 ⟨rfl, a, ak, ns, hh, hk, hx⟩))
          refine (this.image (DTree.node ak)).subset ?_
          rintro s ⟨-, ⟨tok, -, h⟩ | ⟨ak', cs, ns', rfl, h, h'⟩⟩
          · cases h
          · simp only [Option.some.injEq, NodeContent.branch.injEq] at h
            obtain ⟨rfl, rfl⟩ := h
            exact ⟨cs, h', rfl⟩
    cases hs : (w n.tree).nodes[n.index]? with
    | none =>
      refine Set.finite_empty.subset ?_
      intro s hr
      cases s with
      | leaf tok => obtain ⟨a, ⟨s, h, -⟩, -⟩ := reads_leaf.1 hr; rw [hs] at h; cases h
      | node ak cs => obtain ⟨a, ns, ⟨s, h, -⟩, -⟩ := reads_node.1 hr; rw [hs] at h; cases h
    | some S =>
      refine ((List.finite_toSet S).biUnion fun a _ => hc a).subset ?_
      intro s hr
      simp only [Set.mem_iUnion]
      cases s with
      | leaf tok =>
        obtain ⟨a, ⟨S', h, ha⟩, h2⟩ := reads_leaf.1 hr
        rw [hs] at h; cases h
        exact ⟨a, ha, ⟨_, hs, ha⟩, Or.inl ⟨tok, rfl, h2⟩⟩
      | node ak cs =>
        obtain ⟨a, ns, ⟨S', h, ha⟩, h2⟩ := reads_node.1 hr
        rw [hs] at h; cases h
        exact ⟨a, ha, ⟨_, hs, ha⟩, Or.inr ⟨ak, cs, ns, rfl, h2⟩⟩

/-- Where every node below has a tree, a walk that does not end shows infinitely many trees. -/
theorem acc_of_reads_finite {R : Node → Prop} (hR : ∀ n m, R n → w.Child m n → R m)
    (hp : ∀ n, R n → ∃ s : DTree (Token T V) AK, Reads w s n) {n : Node} (hn : R n)
    (h : {s : DTree (Token T V) AK | Reads w s n}.Finite) : Acc w.Child n := by
  apply Classical.byContradiction
  intro hac
  obtain ⟨f, f0, f1⟩ := not_acc_iff_exists_descending_chain.1 hac
  have hf : ∀ i, R (f i) := by
    intro i
    induction i with
    | zero => rw [f0]; exact hn
    | succ i ih => exact hR _ _ ih (f1 i)
  have big : ∀ k i, ∃ s : DTree (Token T V) AK, Reads w s (f i) ∧ k ≤ s.size := by
    intro k
    induction k with
    | zero => intro i; obtain ⟨s, hs⟩ := hp _ (hf i); exact ⟨s, hs, Nat.zero_le _⟩
    | succ k ih =>
      intro i
      obtain ⟨s, hs, hk⟩ := ih (i + 1)
      obtain ⟨ht, a, ak, ns, h1, h2, h3⟩ := child_iff.1 (f1 i)
      have hall : ∀ l : List Nat, (∀ m ∈ l, m ∈ ns) → (f (i + 1)).index ∈ l →
          ∃ cs : List (DTree (Token T V) AK), ReadsAll w cs (l.map (⟨·, (f i).tree⟩)) ∧ s ∈ cs := by
        intro l
        have one : ∀ l : List Nat, (∀ m ∈ l, m ∈ ns) →
            ∃ cs : List (DTree (Token T V) AK), ReadsAll w cs (l.map (⟨·, (f i).tree⟩)) := by
          intro l
          induction l with
          | nil => intro _; exact ⟨[], by simp [ReadsAll]⟩
          | cons m l ihl =>
            intro hl
            obtain ⟨cs, hcs⟩ := ihl fun m hm => hl m (by simp [hm])
            obtain ⟨c, hc⟩ := hp ⟨m, (f i).tree⟩
              (hR _ _ (hf i) (child_iff.2 ⟨rfl, a, ak, ns, h1, h2, hl m (by simp)⟩))
            exact ⟨c :: cs, by rw [List.map_cons, ReadsAll]; exact ⟨hc, hcs⟩⟩
        induction l with
        | nil => intro _ h; simp at h
        | cons m l ihl =>
          intro hl hm
          rcases List.mem_cons.1 hm with rfl | hm
          · obtain ⟨cs, hcs⟩ := one l fun m hm => hl m (by simp [hm])
            refine ⟨s :: cs, ?_, by simp⟩
            rw [List.map_cons, ReadsAll]
            refine ⟨?_, hcs⟩
            rw [← ht]; exact hs
          · obtain ⟨cs, hcs, hmem⟩ := ihl (fun m hm => hl m (by simp [hm])) hm
            obtain ⟨c, hc⟩ := hp ⟨m, (f i).tree⟩
              (hR _ _ (hf i) (child_iff.2 ⟨rfl, a, ak, ns, h1, h2, hl m (by simp)⟩))
            exact ⟨c :: cs, by rw [List.map_cons, ReadsAll]; exact ⟨hc, hcs⟩, by simp [hmem]⟩
      obtain ⟨cs, hcs, hmem⟩ := hall ns (fun _ h => h) h3
      refine ⟨.node ak cs, reads_node.2 ⟨a, ns, h1, h2, hcs⟩, ?_⟩
      have := DTree.size_le_sizes hmem
      rw [DTree.size]; omega
  obtain ⟨B, hB⟩ := (h.image DTree.size).bddAbove
  obtain ⟨s, hs, hk⟩ := big (B + 1) 0
  rw [f0] at hs
  have := hB ⟨s, hs, rfl⟩
  omega
end

/-! ### The forest of a parse -/
section
variable {T NT AK AV V Λ : Type} [Ord T] [Ord AK] [Ord V] [TransOrd T] [TransOrd AK] [TransOrd V]
variable [LawfulEqOrd T] [LawfulEqOrd AK] [LawfulEqOrd V] {w : World T AK V} {t : Nat}
variable {sg : StartGrammar T NT AK AV} {toks : List (Token T V)} {lb : Labelling sg toks Λ}
variable {N : Nat} {L : Nat → Λ → Prop}

theorem Typed.child (ht : Typed lb N (w t) L) {n m : Node} (hn : n.tree = t ∧ ∃ ℓ, L n.index ℓ)
    (h : w.Child m n) : m.tree = t ∧ ∃ ℓ, L m.index ℓ := by
  obtain ⟨rfl, ℓ, hL⟩ := hn
  obtain ⟨e, a, ak, ns, h1, h2, h3⟩ := child_iff.1 h
  refine ⟨e, ?_⟩
  obtain ⟨c, c1, c2⟩ := ht.ok _ _ hL a h1
  rw [h2] at c1; cases c1
  obtain ⟨j, q, k, -, -, -, -, h5⟩ := c2
  obtain ⟨x, hx⟩ := List.mem_iff_getElem?.1 h3
  exact ⟨_, h5 x _ hx⟩

theorem Typed.has_tree (ht : Typed lb N (w t) L) (n : Nat) : (∃ ℓ, L n ℓ) →
    ∃ s : DTree (Token T V) AK, Reads w s ⟨n, t⟩ := by
  induction n using Nat.strongRecOn with
  | ind n ih =>
    rintro ⟨ℓ, hL⟩
    obtain ⟨a, c, h1, h2, h3⟩ := ht.fed n ℓ hL
    cases c with
    | leaf k v => exact ⟨.leaf ⟨k, v⟩, reads_leaf.2 ⟨a, h1, h2⟩⟩
    | branch ak ns =>
      have hl : ∀ l : List Nat, (∀ m ∈ l, m ∈ ns) →
          ∃ cs : List (DTree (Token T V) AK), ReadsAll w cs (l.map (⟨·, t⟩)) := by
        intro l
        induction l with
        | nil => intro _; exact ⟨[], by simp [ReadsAll]⟩
        | cons m l ihl =>
          intro hl
          obtain ⟨cs, hcs⟩ := ihl fun m hm => hl m (by simp [hm])
          obtain ⟨c, hc⟩ := ih m (h3 ak ns rfl m (hl m (by simp)))
            (ht.child (n := ⟨n, t⟩) (m := ⟨m, t⟩) ⟨rfl, ℓ, hL⟩
              (child_iff.2 ⟨rfl, a, ak, ns, h1, h2, hl m (by simp)⟩)).2
          exact ⟨c :: cs, by rw [List.map_cons, ReadsAll]; exact ⟨hc, hcs⟩⟩
      obtain ⟨cs, hcs⟩ := hl ns fun _ h => h
      exact ⟨.node ak cs, reads_node.2 ⟨a, ns, h1, h2, hcs⟩⟩
end

/-! ### Finitely many trees -/
section
variable {L P : Type}

mutual
/-- The labels of inner nodes. -/
def DTree.inner : DTree L P → List P
  | .leaf _ => []
  | .node p cs => p :: DTree.inners cs
def DTree.inners : List (DTree L P) → List P
  | [] => []
  | c :: cs => c.inner ++ DTree.inners cs
end

theorem DTree.inner_sub {c : DTree L P} : {cs : List (DTree L P)} → c ∈ cs →
    (∀ p ∈ c.inner, p ∈ DTree.inners cs) ∧ ∀ l ∈ c.yield, l ∈ DTree.yields cs
  | [], h => by simp at h
  | d :: cs, h => by
    rw [DTree.inners, DTree.yields]
    rcases List.mem_cons.1 h with rfl | h
    · exact ⟨fun p hp => by simp [hp], fun p hp => by simp [hp]⟩
    · have := DTree.inner_sub h
      exact ⟨fun p hp => by simp [this.1 p hp], fun p hp => by simp [this.2 p hp]⟩

theorem lists_finite {α : Type} {S : Set α} (hS : S.Finite) (B : Nat) :
    {l : List α | l.length ≤ B ∧ ∀ x ∈ l, x ∈ S}.Finite := by
  induction B with
  | zero =>
    refine (Set.finite_singleton []).subset ?_
    rintro l ⟨h, -⟩
    exact List.length_eq_zero_iff.1 (Nat.le_zero.1 h)
  | succ B ih =>
    refine ((Set.finite_singleton []).union (Set.Finite.image2 List.cons hS ih)).subset ?_
    rintro l ⟨h1, h2⟩
    cases l with
    | nil => exact Or.inl rfl
    | cons a l =>
      exact Or.inr ⟨a, h2 a (by simp), l, ⟨by simpa using h1, fun x hx => h2 x (by simp [hx])⟩, rfl⟩

/-- There are finitely many trees of bounded size over finitely many labels. -/
theorem trees_finite {Sl : Set L} {Sp : Set P} (hl : Sl.Finite) (hp : Sp.Finite) (B : Nat) :
    {d : DTree L P | d.size ≤ B ∧ (∀ l ∈ d.yield, l ∈ Sl) ∧ ∀ p ∈ d.inner, p ∈ Sp}.Finite := by
  induction B with
  | zero =>
    refine Set.finite_empty.subset ?_
    rintro d ⟨h, -⟩
    have := d.size_pos
    omega
  | succ B ih =>
    refine ((hl.image DTree.leaf).union
      (Set.Finite.image2 DTree.node hp (lists_finite ih B))).subset ?_
    rintro d ⟨h1, h2, h3⟩
    cases d with
    | leaf l => exact Or.inl ⟨l, h2 l (by simp [DTree.yield]), rfl⟩
    | node p cs =>
      rw [DTree.size] at h1
      rw [DTree.yield] at h2
      rw [DTree.inner] at h3
      refine Or.inr ⟨p, h3 p (by simp), cs, ⟨?_, ?_⟩, rfl⟩
      · have := DTree.length_le_sizes cs; omega
      · intro c hc
        have := DTree.inner_sub hc
        have hs := DTree.size_le_sizes hc
        exact ⟨by omega, fun l hl => h2 l (this.2 l hl), fun q hq => h3 q (by simp [this.1 q hq])⟩
end

section
variable {T NT AK AV L : Type} {g : Grammar T NT AK AV} {kind : L → T}
mutual
theorem IsTree.inner {e : Elem T NT} : {d : DTree L (Prod T NT AK AV)} → IsTree g kind e d →
    ∀ p ∈ d.inner, p ∈ g.prods
  | _, .leaf l => by simp [DTree.inner]
  | _, .node p cs hp hc => by
    rw [DTree.inner]
    intro q hq
    rcases List.mem_cons.1 hq with rfl | hq
    · exact hp
    · exact IsForest.inner hc q hq
theorem IsForest.inner {es : List (Elem T NT)} : {cs : List (DTree L (Prod T NT AK AV))} →
    IsForest g kind es cs → ∀ p ∈ DTree.inners cs, p ∈ g.prods
  | _, .nil => by simp [DTree.inners]
  | _, .cons hc hcs => by
    rw [DTree.inners]
    intro q hq
    rcases List.mem_append.1 hq with hq | hq
    · exact IsTree.inner hc q hq
    · exact IsForest.inner hcs q hq
end

/-- The derivation trees of an input are finitely many if their sizes are bounded. -/
theorem treesOf_finite_iff {V : Type} {toks : List (Token T V)} :
    (g.treesOf toks).Finite ↔ ∃ B, ∀ d ∈ g.treesOf toks, d.size ≤ B := by
  constructor
  · intro h
    obtain ⟨B, hB⟩ := (h.image DTree.size).bddAbove
    exact ⟨B, fun d hd => hB ⟨d, hd, rfl⟩⟩
  · rintro ⟨B, hB⟩
    refine (trees_finite (List.finite_toSet toks) (List.finite_toSet g.prods) B).subset ?_
    intro d hd
    refine ⟨hB d hd, ?_, hd.1.inner⟩
    intro l hl
    rw [hd.2] at hl
    exact hl

variable [Ord NT] [TransOrd NT] [LawfulEqOrd NT]

theorem IsTree.derives (hw : g.WF) {e : Elem T NT} {d : DTree L (Prod T NT AK AV)}
    (h : IsTree g kind e d) : g.cfg.Derives [e] ((d.yield.map kind).map .term) :=
  Cfg.yields_iff.1 (h.yields hw)

/-- The trees of a list of elements over `v` are finitely many if those of each element over each
part of `v` it can have are. -/
theorem forests_finite (hw : g.WF) : ∀ (es : List (Elem T NT)) (v : List L),
    (∀ l e r v1 v2 v3, es = l ++ e :: r → v = v1 ++ v2 ++ v3 →
      g.cfg.Derives l ((v1.map kind).map .term) → g.cfg.Derives r ((v3.map kind).map .term) →
      {d | IsTree g kind e d ∧ d.yield = v2}.Finite) →
    {cs | IsForest g kind es cs ∧ DTree.yields cs = v}.Finite := by
  intro es
  induction es with
  | nil =>
    intro v _
    refine (Set.finite_singleton []).subset ?_
    rintro cs ⟨h, -⟩
    cases h; rfl
  | cons e es ih =>
    intro v h
    have hcut : ∀ k, {cs | ∃ c ds, cs = c :: ds ∧ IsTree g kind e c ∧ IsForest g kind es ds ∧
        c.yield = v.take k ∧ DTree.yields ds = v.drop k}.Finite := by
      intro k
      by_cases he : ∃ c ds, IsTree g kind e c ∧ c.yield = v.take k ∧ IsForest g kind es ds ∧
          DTree.yields ds = v.drop k
      swap
      · refine Set.finite_empty.subset ?_
        rintro cs ⟨c, ds, -, h1, h2, h3, h4⟩
        exact he ⟨c, ds, h1, h3, h2, h4⟩
      obtain ⟨c0, ds0, hc0, hy0, hd0, hy1⟩ := he
      have hd1 := Cfg.yields_iff.1 (hd0.yields hw)
      rw [hy1] at hd1
      have hc1 := hc0.derives hw
      rw [hy0] at hc1
      have f1 := h [] e es [] (v.take k) (v.drop k) rfl (by simp) (.refl _) hd1
      have f2 := ih (v.drop k) (by
        intro l e' r v1 v2 v3 e1 e2 d1 d2
        refine h (e :: l) e' r (v.take k ++ v1) v2 v3 (by rw [e1]; rfl) ?_ ?_ d2
        · rw [List.append_assoc, List.append_assoc, ← List.append_assoc v1, ← e2, List.take_append_drop]
        · rw [List.map_append, List.map_append]
          exact Cfg.Derives.append (a := [e]) hc1 d1)
      refine (Set.Finite.image2 List.cons f1 f2).subset ?_
      rintro cs ⟨c, ds, rfl, h1, h2, h3, h4⟩
      exact ⟨c, ⟨h1, h3⟩, ds, ⟨h2, h4⟩, rfl⟩
    refine ((Set.finite_le_nat v.length).biUnion fun k _ => hcut k).subset ?_
    rintro cs ⟨hf, hy⟩
    cases hf with
    | cons h1 h2 =>
      rename_i c cs
      rw [DTree.yields] at hy
      simp only [Set.mem_iUnion]
      refine ⟨c.yield.length, ?_, c, cs, rfl, h1, h2, ?_, ?_⟩
      · rw [← hy]; simp
      · rw [← hy]; simp
      · rw [← hy]; simp

/-- Without cycles, finitely many trees over any word. -/
theorem trees_finite_of_acyclic (hw : g.WF) (hac : g.Acyclic) (e : Elem T NT) (v : List L) :
    {d | IsTree g kind e d ∧ d.yield = v}.Finite := by
  -- the relation "derives as a whole"
  let U : {A : NT // A ∈ g.prods.map (·.head)} → {A : NT // A ∈ g.prods.map (·.head)} → Prop :=
    fun B A => ∃ β, g.cfg.prod A β ∧ g.cfg.Derives β [.nonterm B.1]
  have hfin : Finite {A : NT // A ∈ g.prods.map (·.head)} := List.finite_toSet _
  have hirr : Std.Irrefl U := ⟨fun A h => by
    obtain ⟨β, h1, h2⟩ := h
    exact hac _ _ h1 h2⟩
  have htr : IsTrans _ U := ⟨fun A B C h h' => by
    obtain ⟨β, h1, h2⟩ := h
    obtain ⟨β', h1', h2'⟩ := h'
    exact ⟨β', h1', (h2'.trans (Cfg.derives_prod h1)).trans h2⟩⟩
  have hwf : WellFounded U := Finite.wellFounded_of_trans_of_irrefl U
  suffices h : ∀ m (A : {A : NT // A ∈ g.prods.map (·.head)}) (v : List L), v.length = m →
      {d | IsTree g kind (.nonterm A.1) d ∧ d.yield = v}.Finite by
    cases e with
    | term a =>
      refine ((List.finite_toSet v).image DTree.leaf).subset ?_
      rintro d ⟨hd, hy⟩
      cases hd with
      | leaf l => exact ⟨l, by rw [← hy, DTree.yield]; simp, rfl⟩
    | nonterm A =>
      by_cases hA : A ∈ g.prods.map (·.head)
      · exact h _ ⟨A, hA⟩ v rfl
      · refine Set.finite_empty.subset ?_
        rintro d ⟨hd, -⟩
        cases hd with
        | node p cs hp hf => exact hA (List.mem_map.2 ⟨p, hp, rfl⟩)
  intro m
  induction m using Nat.strongRecOn with
  | ind m ihm =>
    intro A
    induction A using hwf.induction with
    | h A ihA =>
      intro v hv
      have hp : ∀ p : Prod T NT AK AV, {d : DTree L (Prod T NT AK AV) | p ∈ g.prods ∧ p.head = A.1 ∧
          ∃ cs, d = .node p cs ∧
          IsForest g kind p.elements cs ∧ DTree.yields cs = v}.Finite := by
        intro p
        by_cases hpp : p ∈ g.prods ∧ p.head = A.1
        swap
        · exact Set.finite_empty.subset fun d hd => hpp ⟨hd.1, hd.2.1⟩
        obtain ⟨hp, hh⟩ := hpp
        have hf := forests_finite (kind := kind) hw p.elements v (by
          intro l e r v1 v2 v3 e1 e2 d1 d2
          cases e with
          | term a =>
            refine ((List.finite_toSet v2).image DTree.leaf).subset ?_
            rintro d ⟨hd, hy⟩
            cases hd with
            | leaf l => exact ⟨l, by rw [← hy, DTree.yield]; simp, rfl⟩
          | nonterm B =>
            by_cases hB : B ∈ g.prods.map (·.head)
            swap
            · refine Set.finite_empty.subset ?_
              rintro d ⟨hd, -⟩
              cases hd with
              | node p cs hp hf => exact hB (List.mem_map.2 ⟨p, hp, rfl⟩)
            by_cases hlt : v2.length < m
            · exact ihm _ hlt ⟨B, hB⟩ v2 rfl
            · have hl := congrArg List.length e2
              simp only [List.length_append] at hl
              have h1 : v1 = [] := List.length_eq_zero_iff.1 (by omega)
              have h3 : v3 = [] := List.length_eq_zero_iff.1 (by omega)
              subst h1 h3
              simp only [List.nil_append, List.append_nil] at e2
              subst e2
              refine ihA ⟨B, hB⟩ ⟨p.elements, ?_, ?_⟩ v hv
              · rw [← hh]; exact (Grammar.cfg_prod_iff hw).2 ⟨p, hp, rfl, rfl⟩
              · rw [e1]
                have := Cfg.Derives.append d1 (Cfg.Derives.append (.refl [.nonterm B]) d2)
                simpa using this)
        refine (hf.image (DTree.node p)).subset ?_
        rintro d ⟨-, -, cs, rfl, h1, h2⟩
        exact ⟨cs, ⟨h1, h2⟩, rfl⟩
      refine ((List.finite_toSet g.prods).biUnion fun p _ => hp p).subset ?_
      rintro d ⟨hd, hy⟩
      generalize hE : (Elem.nonterm A.1 : Elem T NT) = E at hd
      cases hd with
      | leaf l => cases hE
      | node p cs hp' hf =>
        simp only [Elem.nonterm.injEq] at hE
        simp only [Set.mem_iUnion]
        rw [DTree.yield] at hy
        exact ⟨p, hp', hp', hE.symm, cs, rfl, hf, hy⟩

theorem IsForest.split {a b : List (Elem T NT)} {cs : List (DTree L (Prod T NT AK AV))}
    (h : IsForest g kind (a ++ b) cs) :
    ∃ c d, cs = c ++ d ∧ IsForest g kind a c ∧ IsForest g kind b d := by
  induction a generalizing cs with
  | nil => exact ⟨[], cs, rfl, .nil, h⟩
  | cons e a ih =>
    cases h with
    | cons h1 h2 =>
      obtain ⟨c, d, rfl, k1, k2⟩ := ih h2
      exact ⟨_ :: c, d, rfl, .cons h1 k1, k2⟩

/-- Trees can be put on top of trees. -/
theorem forest_above (hw : g.WF) {γ δ : List (Elem T NT)} (h : g.cfg.Derives γ δ) :
    ∀ cs : List (DTree L (Prod T NT AK AV)), IsForest g kind δ cs →
      ∃ cs', IsForest g kind γ cs' ∧ DTree.yields cs' = DTree.yields cs ∧
        DTree.sizes cs ≤ DTree.sizes cs' := by
  unfold Cfg.Derives at h
  induction h with
  | refl => exact fun cs h => ⟨cs, h, rfl, Nat.le_refl _⟩
  | tail _ hs ih =>
    cases hs with
    | mk u v A β hp =>
      intro cs hcs
      obtain ⟨cs1, c3, rfl, k1, k2⟩ := hcs.split
      obtain ⟨c1, c2, rfl, k3, k4⟩ := k1.split
      obtain ⟨q, hq, rfl, rfl⟩ := (Grammar.cfg_prod_iff hw).1 hp
      obtain ⟨cs', m1, m2, m3⟩ := ih (c1 ++ .node q c2 :: c3) (k3.append (.cons (.node q c2 hq k4) k2))
      refine ⟨cs', m1, ?_, ?_⟩
      · rw [m2]; simp only [DTree.yields_append, DTree.yields, DTree.yield, List.append_assoc]
      · refine Nat.le_trans ?_ m3
        simp only [DTree.sizes_append, DTree.sizes, DTree.size]; omega
end
end Bongo
