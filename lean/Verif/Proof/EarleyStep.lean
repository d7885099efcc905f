import Verif.Proof.EarleyComplete
import Verif.Proof.Forest
import Verif.Proof.State
/-! One step of the Earley parser. -/
set_option linter.unusedSectionVars false
namespace Bongo
open Std
variable {T NT AK AV V Λ : Type}

namespace Inner
variable [Ord T] [Ord AK] [Ord V]

/-- Make a node with one alternative. -/
def mkNode (i : Inner T AK V) (c : NodeContent T AK V) : Res (Inner T AK V × Nat) :=
  let r1 := i.makeNode
  let r2 := r1.1.makeAlt c
  match r2.1.addNodeAlt r1.2 r2.2 with
  | .ok (i', _) => .ok (i', r1.2)
  | .panic p => .panic p
  | .oof => .oof

theorem makeLeafNode_eq (i : Inner T AK V) (k : T) (v : V) :
    i.makeLeafNode k v = i.mkNode (.leaf k v) := rfl
theorem makeBranchNode_eq (i : Inner T AK V) (ak : AK) (ns : List Nat) :
    i.makeBranchNode ak ns = i.mkNode (.branch ak ns) := rfl

variable [TransOrd T] [TransOrd AK] [TransOrd V] [LawfulEqOrd T] [LawfulEqOrd AK] [LawfulEqOrd V]

theorem mkNode_ok {i : Inner T AK V} (hw : i.WF) (c : NodeContent T AK V)
    (hc : ∀ a ns, c = .branch a ns → ∀ n ∈ ns, n < i.nodes.length) :
    ∃ j a, i.mkNode c = .ok (j, i.nodes.length) ∧ j.WF ∧ j.nodes.length = i.nodes.length + 1 ∧
      (∀ m b, j.Has m b ↔ i.Has m b ∨ (m = i.nodes.length ∧ b = a)) ∧
      (∀ k c', j.altAt k = some c' ↔ i.altAt k = some c' ∨ (k = a ∧ c' = c)) ∧ i.Le j := by
  have hw1 := makeNode_wf hw
  have hw2 := makeAlt_wf hw1 c (by
    intro a ns h n hn
    have := hc a ns h n hn
    simp; omega)
  have hself := makeAlt_self hw1 c
  obtain ⟨j, ch, h1, h2, h3, h4, h5, h6, h7⟩ := addNodeAlt_ok (i := (i.makeNode.1.makeAlt c).1)
    (n := i.nodes.length) (by simp) (i.makeNode.1.makeAlt c).2
  have hj := h6 hw2 (altAt_lt hself)
  have hlen : j.nodes.length = i.nodes.length + 1 := by rw [h3]; simp
  have hhas : ∀ m b, j.Has m b ↔ i.Has m b ∨ (m = i.nodes.length ∧ b = (i.makeNode.1.makeAlt c).2) := by
    intro m b
    rw [h4 hw2, makeAlt_has, makeNode_has]
  have halt : ∀ k c', j.altAt k = some c' ↔
      i.altAt k = some c' ∨ (k = (i.makeNode.1.makeAlt c).2 ∧ c' = c) := by
    intro k c'
    have : j.altAt k = (i.makeNode.1.makeAlt c).1.altAt k := by unfold altAt; rw [h2]
    rw [this, makeAlt_altAt hw1]; rfl
  refine ⟨j, _, ?_, hj, hlen, hhas, halt, ?_⟩
  · unfold mkNode
    simp only [makeNode_snd, h1]
  · refine ⟨fun k c' h => (halt k c').2 (Or.inl h), ?_, by omega, fun n a h => (hhas n a).2 (Or.inl h)⟩
    rw [h2]
    have := makeAlt_len hw1 c
    simpa using this

/-- `j` is a later state of `i`; the alternatives of nodes below `N` are the same, and new contents
satisfy `P`. -/
structure Ext (N : Nat) (P : NodeContent T AK V → Prop) (i j : Inner T AK V) : Prop where
  le : i.Le j
  frame : ∀ n < N, ∀ a, j.Has n a → i.Has n a
  new : ∀ k c, j.altAt k = some c → i.altAt k = some c ∨ P c

theorem Ext.refl (N : Nat) (P) (i : Inner T AK V) : Ext N P i i :=
  ⟨.refl i, fun _ _ _ h => h, fun _ _ h => Or.inl h⟩

theorem Ext.trans {N : Nat} {P} {i j k : Inner T AK V} (h : Ext N P i j) (h' : Ext N P j k) :
    Ext N P i k :=
  ⟨h.le.trans h'.le, fun n hn a ha => h.frame n hn a (h'.frame n hn a ha), fun x c hc => by
    rcases h'.new x c hc with hc | hc
    · exact h.new x c hc
    · exact Or.inr hc⟩

theorem Ext.mono {N : Nat} {P Q : NodeContent T AK V → Prop} {i j : Inner T AK V} (h : Ext N P i j)
    (hpq : ∀ c, P c → Q c) : Ext N Q i j :=
  ⟨h.le, h.frame, fun x c hc => (h.new x c hc).imp id (hpq c)⟩
end Inner

/-! ### Keys -/
instance EarleyStateKey.cmp_trans (addr : StartNonTerminal NT → Nat → Nat) :
    TransCmp (EarleyStateKey.cmp (T := T) (AK := AK) (AV := AV) addr) := by
  have h : (EarleyStateKey.cmp (T := T) (AK := AK) (AV := AV) addr) =
      compareLex (fun a b => ProdState.cmp addr a.prodState b.prodState)
        (compareOn (·.originIndex)) := by
    funext a b; rfl
  rw [h]
  have : TransCmp (fun a b : EarleyStateKey T NT AK AV =>
      ProdState.cmp addr a.prodState b.prodState) :=
    { eq_swap := OrientedCmp.eq_swap (cmp := ProdState.cmp addr)
      isLE_trans := TransCmp.isLE_trans (cmp := ProdState.cmp addr) }
  infer_instance

section
variable [Ord NT] [TransOrd NT] [LawfulEqOrd NT]
variable {addr : StartNonTerminal NT → Nat → Nat} {sg : StartGrammar T NT AK AV}

theorem EarleyStateKey.cmp_eq_iff (hw : sg.WF) (ha : AddrInj sg addr)
    {k k' : EarleyStateKey T NT AK AV} (hk : k.prodState.prod ∈ sg.prods)
    (hk' : k'.prodState.prod ∈ sg.prods) : EarleyStateKey.cmp addr k k' = .eq ↔
      k.prodState.prod = k'.prodState.prod ∧ k.originIndex = k'.originIndex := by
  unfold EarleyStateKey.cmp ProdState.cmp
  rw [Ordering.then_eq_eq, prodCmp_eq hw ha hk hk', LawfulEqCmp.compare_eq_iff_eq]
end

/-! ### Labels -/
/-- Labels for nodes: `lab j p d i x` for the `x`-th node of the value of the item `p`, `d`, `i` of
state `j`; `leafOk ℓ k` if a leaf made from token `k` may be an alternative of a node labelled `ℓ`;
`nodeOk ℓ j q k` if a branch made when production `q` started at `k` is complete at `j` may. -/
structure Labelling (sg : StartGrammar T NT AK AV) (toks : List (Token T V)) (Λ : Type) where
  lab : Nat → SProd T NT AK AV → Nat → Nat → Nat → Λ
  leafOk : Λ → Nat → Prop
  nodeOk : Λ → Nat → SProd T NT AK AV → Nat → Prop
  scanOld : ∀ {k p d i tok x}, EItem sg toks k p d i →
    p.elements[d]? = some (.term (.term tok.kind)) → toks[k]? = some tok → x < d →
    lab (k + 1) p (d + 1) i x = lab k p d i x
  scanNew : ∀ {k p d i tok}, EItem sg toks k p d i →
    p.elements[d]? = some (.term (.term tok.kind)) → toks[k]? = some tok →
    leafOk (lab (k + 1) p (d + 1) i d) k
  compOld : ∀ {k j p d i q x}, EItem sg toks k p d i → p.elements[d]? = some (.nonterm q.head) →
    EItem sg toks j q q.numElements k → x < d → lab j p (d + 1) i x = lab k p d i x
  compNew : ∀ {k j p d i q}, EItem sg toks k p d i → p.elements[d]? = some (.nonterm q.head) →
    EItem sg toks j q q.numElements k → nodeOk (lab j p (d + 1) i d) j q k

section
variable {sg : StartGrammar T NT AK AV} {toks : List (Token T V)} (lb : Labelling sg toks Λ)

/-- The content fits the label. -/
def OkC (L : Nat → Λ → Prop) (ℓ : Λ) : NodeContent T AK V → Prop
  | .leaf kind value => ∃ k tok, toks[k]? = some tok ∧ tok.kind = kind ∧ tok.value = value ∧
      lb.leafOk ℓ k
  | .branch ak ns => ∃ j q k, EItem sg toks j q q.numElements k ∧ q.actionKey.asBase = some ak ∧
      ns.length = q.numElements ∧ lb.nodeOk ℓ j q k ∧
      ∀ x n, ns[x]? = some n → L n (lb.lab j q q.numElements k x)

theorem OkC.mono {L L' : Nat → Λ → Prop} (hL : ∀ n ℓ, L n ℓ → L' n ℓ) {ℓ : Λ}
    {c : NodeContent T AK V} (h : OkC lb L ℓ c) : OkC lb L' ℓ c := by
  cases c with
  | leaf k v => exact h
  | branch ak ns =>
    obtain ⟨j, q, k, h1, h2, h3, h4, h5⟩ := h
    exact ⟨j, q, k, h1, h2, h3, h4, fun x n hx => hL _ _ (h5 x n hx)⟩

variable [Ord T] [Ord AK] [Ord V]

/-- The nodes from `N` on are labelled, and their alternatives fit. -/
structure Typed (N : Nat) (I : Inner T AK V) (L : Nat → Λ → Prop) : Prop where
  wf : I.WF
  le : N ≤ I.nodes.length
  bound : ∀ n ℓ, L n ℓ → N ≤ n ∧ n < I.nodes.length
  func : ∀ n ℓ ℓ', L n ℓ → L n ℓ' → ℓ = ℓ'
  ok : ∀ n ℓ, L n ℓ → ∀ a, I.Has n a → ∃ c, I.altAt a = some c ∧ OkC lb L ℓ c
  fed : ∀ n ℓ, L n ℓ → ∃ a c, I.Has n a ∧ I.altAt a = some c ∧
    ∀ ak ns, c = .branch ak ns → ∀ m ∈ ns, m < n

variable [TransOrd T] [TransOrd AK] [TransOrd V] [LawfulEqOrd T] [LawfulEqOrd AK] [LawfulEqOrd V]
variable {lb} {N : Nat} {I : Inner T AK V} {L : Nat → Λ → Prop}

/-- A new labelled node. -/
theorem Typed.mk_node (ht : Typed lb N I L) {ℓ : Λ} {c : NodeContent T AK V} (hc : OkC lb L ℓ c) :
    ∃ I' L' n a, I.mkNode c = .ok (I', n) ∧ Typed lb N I' L' ∧ (∀ n ℓ, L n ℓ → L' n ℓ) ∧ L' n ℓ ∧
      I'.Has n a ∧ I'.altAt a = some c ∧ Inner.Ext N (· = c) I I' := by
  obtain ⟨I', a, h1, h2, h3, h4, h5, h6⟩ := Inner.mkNode_ok ht.wf c (by
    rintro ak ns rfl n hn
    obtain ⟨j, q, k, _, _, _, _, h⟩ := hc
    obtain ⟨x, hx⟩ := List.mem_iff_getElem?.1 hn
    exact (ht.bound _ _ (h x n hx)).2)
  let L' : Nat → Λ → Prop := fun n ℓ' => L n ℓ' ∨ (n = I.nodes.length ∧ ℓ' = ℓ)
  have hL : ∀ n ℓ, L n ℓ → L' n ℓ := fun n ℓ h => Or.inl h
  have hfresh : ∀ ℓ, ¬ L I.nodes.length ℓ := fun ℓ h => Nat.lt_irrefl _ (ht.bound _ _ h).2
  refine ⟨I', L', I.nodes.length, a, h1, ⟨h2, by have := ht.le; omega, ?_, ?_, ?_, ?_⟩, hL,
    Or.inr ⟨rfl, rfl⟩, (h4 _ _).2 (Or.inr ⟨rfl, rfl⟩), (h5 _ _).2 (Or.inr ⟨rfl, rfl⟩), h6, ?_, ?_⟩
  · rintro n ℓ' (h | ⟨rfl, -⟩)
    · have := ht.bound n ℓ' h; omega
    · have := ht.le; omega
  · rintro n ℓ₁ ℓ₂ (h | ⟨rfl, rfl⟩) (h' | ⟨h', rfl⟩)
    · exact ht.func n _ _ h h'
    · subst h'; exact absurd h (hfresh _)
    · exact absurd h' (hfresh _)
    · rfl
  · rintro n ℓ' h b hb
    rcases (h4 n b).1 hb with hb | ⟨rfl, rfl⟩
    · have hl : L n ℓ' := by
        rcases h with h | ⟨rfl, -⟩
        · exact h
        · exact absurd hb.lt (Nat.lt_irrefl _)
      obtain ⟨c', hc1, hc2⟩ := ht.ok n ℓ' hl b hb
      exact ⟨c', h6.alts _ _ hc1, hc2.mono lb hL⟩
    · rcases h with h | ⟨-, rfl⟩
      · exact absurd h (hfresh _)
      · exact ⟨c, (h5 _ _).2 (Or.inr ⟨rfl, rfl⟩), hc.mono lb hL⟩
  · rintro n ℓ' (h | ⟨rfl, rfl⟩)
    · obtain ⟨b, c', k1, k2, k3⟩ := ht.fed n ℓ' h
      exact ⟨b, c', (h4 _ _).2 (Or.inl k1), h6.alts _ _ k2, k3⟩
    · refine ⟨a, c, (h4 _ _).2 (Or.inr ⟨rfl, rfl⟩), (h5 _ _).2 (Or.inr ⟨rfl, rfl⟩), ?_⟩
      rintro ak ns rfl m hm
      obtain ⟨j, q, k, _, _, _, _, h⟩ := hc
      obtain ⟨x, hx⟩ := List.mem_iff_getElem?.1 hm
      exact (ht.bound _ _ (h x m hx)).2
  · intro n hn b hb
    rcases (h4 n b).1 hb with hb | ⟨rfl, -⟩
    · exact hb
    · have := ht.le; omega
  · intro k c' h
    rcases (h5 k c').1 h with h | ⟨-, h⟩
    · exact Or.inl h
    · exact Or.inr h

/-- Adding all alternatives of a node to one with the same label. -/
theorem Typed.add_all (ht : Typed lb N I L) {n m : Nat} {ℓ : Λ} (hn : L n ℓ) (hm : L m ℓ) :
    ∃ I' c, I.addAll n m = .ok (I', c) ∧ Typed lb N I' L ∧ Inner.Ext N (fun _ => False) I I' ∧
      (c = .changed → ∃ a, ¬ I.Has n a ∧ I'.Has n a) ∧
      (c = .unchanged → I' = I ∧ ∀ a, I.Has m a → I.Has n a) := by
  have bn := ht.bound _ _ hn
  obtain ⟨I', c, h1, h2, h3, h4, h5, h6, h7⟩ := Inner.addAll_ok ht.wf bn.2 (ht.bound _ _ hm).2
  have halt : ∀ k, I'.altAt k = I.altAt k := by intro k; unfold Inner.altAt; rw [h2]
  refine ⟨I', c, h1, ⟨h6, by have := ht.le; omega, ?_, ht.func, ?_, ?_⟩, ⟨⟨?_, ?_, ?_, ?_⟩, ?_, ?_⟩, ?_, ?_⟩
  · intro k ℓ' h; rw [h3]; exact ht.bound k ℓ' h
  · intro k ℓ' h b hb
    rw [halt]
    rcases (h4 k b).1 hb with hb | ⟨rfl, hb⟩
    · exact ht.ok k ℓ' h b hb
    · rw [ht.func _ _ _ h hn]; exact ht.ok m ℓ hm b hb
  · intro k ℓ' h
    obtain ⟨b, c', k1, k2, k3⟩ := ht.fed k ℓ' h
    exact ⟨b, c', (h4 k b).2 (Or.inl k1), by rw [halt]; exact k2, k3⟩
  · intro k c' h; rw [halt]; exact h
  · rw [h2]; exact Nat.le_refl _
  · rw [h3]; exact Nat.le_refl _
  · intro k b h; exact (h4 k b).2 (Or.inl h)
  · intro k hk b hb
    rcases (h4 k b).1 hb with hb | ⟨rfl, hb⟩
    · exact hb
    · omega
  · intro k c' h; rw [halt] at h; exact Or.inl h
  · intro hc
    obtain ⟨a, ha, hna⟩ := h5.1 hc
    exact ⟨a, hna, (h4 n a).2 (Or.inr ⟨rfl, ha⟩)⟩
  · intro hc
    refine ⟨h7 hc, ?_⟩
    intro a ha
    apply Classical.byContradiction
    intro hna
    rw [h5.2 ⟨a, ha, hna⟩] at hc; cases hc

/-- The merging loop of `insert`. -/
theorem Typed.add_alls (ht : Typed lb N I L) (l : List (Nat × Nat))
    (hl : ∀ pr ∈ l, ∃ ℓ, L pr.1 ℓ ∧ L pr.2 ℓ) (acc : WasChanged) :
    ∃ I' c, changeIterM l (fun (i : Inner T AK V) en => i.addAll en.1 en.2) I acc = .ok (I', c) ∧
      Typed lb N I' L ∧ Inner.Ext N (fun _ => False) I I' ∧
      (c = .changed → acc = .changed ∨ ∃ pr ∈ l, ∃ a, ¬ I.Has pr.1 a ∧ I'.Has pr.1 a) ∧
      (c = .unchanged → acc = .unchanged ∧ I' = I ∧ ∀ pr ∈ l, ∀ a, I.Has pr.2 a → I.Has pr.1 a) := by
  induction l generalizing I acc with
  | nil => exact ⟨I, acc, rfl, ht, .refl _ _ _, Or.inl, fun h => ⟨h, rfl, by simp⟩⟩
  | cons pr l ih =>
    obtain ⟨ℓ, hl1, hl2⟩ := hl pr (by simp)
    obtain ⟨I1, c1, h1, h2, h3, h4, h5⟩ := ht.add_all hl1 hl2
    obtain ⟨I2, c2, g1, g2, g3, g4, g5⟩ := ih h2 (fun pr hpr => hl pr (by simp [hpr])) (acc.join c1)
    refine ⟨I2, c2, ?_, g2, h3.trans g3, ?_, ?_⟩
    · rw [changeIterM, h1]; exact g1
    · intro hc
      rcases g4 hc with hc | ⟨pr', hpr', a, ha1, ha2⟩
      · rcases WasChanged.join_eq_changed.1 hc with hc | hc
        · exact Or.inl hc
        · obtain ⟨a, ha1, ha2⟩ := h4 hc
          exact Or.inr ⟨pr, by simp, a, ha1, g3.le.has _ _ ha2⟩
      · exact Or.inr ⟨pr', by simp [hpr'], a, fun h => ha1 (h3.le.has _ _ h), ha2⟩
    · intro hc
      obtain ⟨k1, k2, k3⟩ := g5 hc
      obtain ⟨k4, k5⟩ := WasChanged.join_eq_unchanged.1 k1
      obtain ⟨m1, m2⟩ := h5 k5
      refine ⟨k4, k2.trans m1, ?_⟩
      intro pr' hpr' a ha
      rcases List.mem_cons.1 hpr' with rfl | hpr'
      · exact m2 a ha
      · rw [m1] at k3; exact k3 pr' hpr' a ha

variable (lb) in
/-- An item with its value. -/
def StOk (j : Nat) (L : Nat → Λ → Prop) (k : EarleyStateKey T NT AK AV) (v : List Nat) : Prop :=
  EItem sg toks j k.prodState.prod k.prodState.index k.originIndex ∧ v.length = k.prodState.index ∧
  ∀ x n, v[x]? = some n → L n (lb.lab j k.prodState.prod k.prodState.index k.originIndex x)

theorem StOk.mono {j : Nat} {L L' : Nat → Λ → Prop} (hL : ∀ n ℓ, L n ℓ → L' n ℓ)
    {k : EarleyStateKey T NT AK AV} {v} (h : StOk lb j L k v) : StOk lb j L' k v :=
  ⟨h.1, h.2.1, fun x n hx => hL _ _ (h.2.2 x n hx)⟩

variable (lb) in
/-- A set of items with their values. -/
structure SetOk (addr : StartNonTerminal NT → Nat → Nat) (j : Nat) (L : Nat → Λ → Prop)
    (Z : EarleyStateSet T NT AK AV) : Prop where
  sorted : BMap.Sorted (EarleyStateKey.cmp addr) Z
  entry : ∀ e ∈ Z, StOk lb j L e.1 e.2

theorem SetOk.mono {addr : StartNonTerminal NT → Nat → Nat} {j : Nat} {L L' : Nat → Λ → Prop}
    (hL : ∀ n ℓ, L n ℓ → L' n ℓ) {Z : EarleyStateSet T NT AK AV} (h : SetOk lb addr j L Z) :
    SetOk lb addr j L' Z := ⟨h.sorted, fun e he => (h.entry e he).mono hL⟩

variable (sg toks) in
/-- Two items that `insert` cannot keep apart. -/
def Collides (j : Nat) : Prop := ∃ p d₁ d₂ i, d₁ < d₂ ∧ EItem sg toks j p d₁ i ∧ EItem sg toks j p d₂ i

/-- What the closing loop makes progress with: keys that are present, and alternatives of the nodes
of their values. -/
def EFact (st : Inner T AK V × EarleyStateSet T NT AK AV) :
    (SProd T NT AK AV × Nat) ⊕ (SProd T NT AK AV × Nat × Nat × Nat) → Prop
  | .inl (p, i) => ∃ e ∈ st.2, e.1.prodState.prod = p ∧ e.1.originIndex = i
  | .inr (p, i, x, a) => ∃ e ∈ st.2, e.1.prodState.prod = p ∧ e.1.originIndex = i ∧
      ∃ n, e.2[x]? = some n ∧ st.1.Has n a

theorem EFact.mono {st st' : Inner T AK V × EarleyStateSet T NT AK AV} (hle : st.1.Le st'.1)
    (hZ : ∀ e ∈ st.2, e ∈ st'.2) {x} (h : EFact st x) : EFact st' x := by
  cases x with
  | inl pi =>
    obtain ⟨p, i⟩ := pi
    obtain ⟨e, he, h1⟩ := h
    exact ⟨e, hZ e he, h1⟩
  | inr r =>
    obtain ⟨p, i, x, a⟩ := r
    obtain ⟨e, he, h1, h2, n, h3, h4⟩ := h
    exact ⟨e, hZ e he, h1, h2, n, h3, hle.has _ _ h4⟩

section insert
variable [Ord NT] [TransOrd NT] [LawfulEqOrd NT] {addr : StartNonTerminal NT → Nat → Nat}

theorem EItem.mem {j p d i} (h : EItem sg toks j p d i) : p ∈ sg.prods := h.elim fun _ h => h.mem

/-- Entries of a set with the same production and origin are the same. -/
theorem SetOk.unique (hw : sg.WF) (ha : AddrInj sg addr) {j : Nat} {Z : EarleyStateSet T NT AK AV}
    (hz : SetOk lb addr j L Z) {e e' : EarleyStateKey T NT AK AV × List Nat} (he : e ∈ Z)
    (he' : e' ∈ Z) (h1 : e.1.prodState.prod = e'.1.prodState.prod)
    (h2 : e.1.originIndex = e'.1.originIndex) : e = e' :=
  BMap.sorted_unique hz.sorted he he' ((EarleyStateKey.cmp_eq_iff hw ha (hz.entry e he).1.mem
    (hz.entry e' he').1.mem).2 ⟨h1, h2⟩)

theorem insert_spec (hw : sg.WF) (ha : AddrInj sg addr) (ht : Typed lb N I L) {j : Nat}
    {Z : EarleyStateSet T NT AK AV} (hz : SetOk lb addr j L Z) {s : EarleyState T NT AK AV}
    (hs : StOk lb j L s.key s.value) :
    (∃ I' Z' c, EarleyStateSet.insert addr (I, Z) s = .ok ((I', Z'), c) ∧ Typed lb N I' L ∧
      SetOk lb addr j L Z' ∧ Inner.Ext N (fun _ => False) I I' ∧ (∀ e ∈ Z, e ∈ Z') ∧
      (∀ e ∈ Z', e ∈ Z ∨ e = (s.key, s.value)) ∧ (∃ v, (s.key, v) ∈ Z') ∧
      (c = .changed → ∃ x, ¬ EFact (I, Z) x ∧ EFact (I', Z') x) ∧
      (c = .unchanged → I' = I ∧ Z' = Z ∧ ∃ v, (s.key, v) ∈ Z ∧
        ∀ (x n m a : Nat), v[x]? = some n → s.value[x]? = some m → I.Has m a → I.Has n a)) ∨
    (EarleyStateSet.insert addr (I, Z) s = .panic .lenMismatch ∧ Collides sg toks j) := by
  unfold EarleyStateSet.insert
  simp only
  cases hg : BMap.get? (EarleyStateKey.cmp addr) Z s.key with
  | none =>
    left
    have hmem := fun e => BMap.mem_insert_of_vacant (v := s.value) hg e
    refine ⟨I, _, _, rfl, ht, ⟨BMap.sorted_insert hz.sorted _ _, ?_⟩, .refl _ _ _,
      fun e he => (hmem e).2 (Or.inr he), fun e he => ((hmem e).1 he).symm,
      ⟨s.value, (hmem _).2 (Or.inl rfl)⟩, ?_, by intro h; cases h⟩
    · intro e he
      rcases (hmem e).1 he with rfl | he
      · exact hs
      · exact hz.entry e he
    · intro _
      refine ⟨.inl (s.key.prodState.prod, s.key.originIndex), ?_, (s.key, s.value),
        (hmem _).2 (Or.inl rfl), rfl, rfl⟩
      rintro ⟨e, he, h1, h2⟩
      rw [BMap.get?_of_mem hz.sorted he ((EarleyStateKey.cmp_eq_iff hw ha hs.1.mem
        (hz.entry e he).1.mem).2 ⟨h1.symm, h2.symm⟩)] at hg
      cases hg
  | some existing =>
    obtain ⟨k', hk', hcmp⟩ := BMap.get?_mem hg
    have hek := hz.entry _ hk'
    obtain ⟨hp, ho⟩ := (EarleyStateKey.cmp_eq_iff hw ha hs.1.mem hek.1.mem).1 hcmp
    simp only
    split
    · next hlen =>
      left
      have hkk : k' = s.key := by
        have h1 := hek.2.1
        have h2 := hs.2.1
        have h3 : k'.prodState.index = s.key.prodState.index := by
          rw [← h1, ← h2]; exact hlen
        obtain ⟨⟨p1, d1⟩, o1⟩ := k'
        obtain ⟨⟨⟨p2, d2⟩, o2⟩, v2⟩ := s
        simp only at hp ho h3
        subst hp ho h3
        rfl
      subst hkk
      obtain ⟨I', c, h1, h2, h3, h4, h5⟩ := ht.add_alls (existing.zip s.value) (by
        intro pr hpr
        obtain ⟨x, hx⟩ := List.mem_iff_getElem?.1 hpr
        obtain ⟨h1, h2⟩ := List.getElem?_zip_eq_some.1 hx
        exact ⟨_, hek.2.2 x _ h1, hs.2.2 x _ h2⟩) .unchanged
      refine ⟨I', Z, c, by rw [h1], h2, hz, h3, fun e he => he, fun e he => Or.inl he,
        ⟨existing, hk'⟩, ?_, ?_⟩
      · intro hc
        rcases h4 hc with h | ⟨pr, hpr, a, ha1, ha2⟩
        · cases h
        · obtain ⟨x, hx⟩ := List.mem_iff_getElem?.1 hpr
          obtain ⟨hx1, -⟩ := List.getElem?_zip_eq_some.1 hx
          refine ⟨.inr (s.key.prodState.prod, s.key.originIndex, x, a), ?_, (s.key, existing), hk', rfl,
            rfl, pr.1, hx1, ha2⟩
          rintro ⟨e, he, e1, e2, n, e3, e4⟩
          have := hz.unique hw ha he hk' e1 e2
          subst this
          simp only at e3
          rw [hx1] at e3
          cases e3
          exact ha1 e4
      · intro hc
        obtain ⟨-, k2, k3⟩ := h5 hc
        refine ⟨k2, rfl, existing, hk', ?_⟩
        intro x n m a hx hy
        exact k3 (n, m) (List.mem_iff_getElem?.2 ⟨x, List.getElem?_zip_eq_some.2 ⟨hx, hy⟩⟩) a
    · next hlen =>
      right
      refine ⟨rfl, ?_⟩
      have h1 := hek.2.1
      have h2 := hs.2.1
      have e1 := hs.1
      have e2 := hek.1
      rw [← hp, ← ho] at e2
      simp only at h1 e2
      rcases Nat.lt_or_gt_of_ne hlen with h | h
      · exact ⟨_, _, _, _, by omega, e2, e1⟩
      · exact ⟨_, _, _, _, by omega, e1, e2⟩
end insert
end
end Bongo
