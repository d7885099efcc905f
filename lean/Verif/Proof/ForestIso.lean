import Verif.Spec.SameForest
import Verif.Proof.CanonReads
import Verif.Proof.Dot
import Verif.Props.Earley
/-! Forests with the same names have the same shape. -/
set_option linter.unusedSectionVars false
namespace Bongo
open Std
variable {T NT AK AV V : Type}

/-- Lists whose members correspond one to one. -/
theorem exists_perm_forall₂ {α β : Type} {M : α → β → Prop} (l₁ : List α) :
    ∀ (l₂ : List β), l₁.Nodup → l₂.Nodup → (∀ a ∈ l₁, ∃ b ∈ l₂, M a b) → (∀ b ∈ l₂, ∃ a ∈ l₁, M a b) →
    (∀ a ∈ l₁, ∀ b ∈ l₂, ∀ b' ∈ l₂, M a b → M a b' → b = b') →
    (∀ a ∈ l₁, ∀ a' ∈ l₁, ∀ b ∈ l₂, M a b → M a' b → a = a') →
    ∃ l, l.Perm l₂ ∧ List.Forall₂ M l₁ l := by
  induction l₁ with
  | nil =>
    intro l₂ _ _ _ h _ _
    cases l₂ with
    | nil => exact ⟨[], .refl _, .nil⟩
    | cons b l => obtain ⟨a, ha, -⟩ := h b (by simp); cases ha
  | cons a l₁ ih =>
    intro l₂ h1 h2 hf hb hr hl
    obtain ⟨b, hbm, hM⟩ := hf a (by simp)
    obtain ⟨s, t, rfl⟩ := List.append_of_mem hbm
    have hp : (s ++ b :: t).Perm (b :: (s ++ t)) := List.perm_middle
    have h2' := hp.nodup_iff.1 h2
    rw [List.nodup_cons] at h1 h2'
    obtain ⟨l, l1, l2⟩ := ih (s ++ t) h1.2 h2'.2 (by
        intro a' ha'
        obtain ⟨b', hb', hM'⟩ := hf a' (by simp [ha'])
        refine ⟨b', ?_, hM'⟩
        rcases List.mem_cons.1 (hp.mem_iff.1 hb') with rfl | h
        · exact absurd (hl a (by simp) a' (by simp [ha']) _ hbm hM hM') (by
            rintro rfl; exact h1.1 ha')
        · exact h) (by
        intro b' hb'
        obtain ⟨a', ha', hM'⟩ := hb b' (hp.mem_iff.2 (by simp [hb']))
        rcases List.mem_cons.1 ha' with rfl | ha'
        · have := hr a' (by simp) b hbm b' (hp.mem_iff.2 (by simp [hb'])) hM hM'
          subst this
          exact absurd hb' h2'.1
        · exact ⟨a', ha', hM'⟩)
      (fun a ha b hb b' hb' => hr a (by simp [ha]) b (hp.mem_iff.2 (by simp [hb])) b' (hp.mem_iff.2 (by simp [hb'])))
      (fun a ha a' ha' b hb => hl a (by simp [ha]) a' (by simp [ha']) b (hp.mem_iff.2 (by simp [hb])))
    exact ⟨b :: l, (l1.cons b).trans hp.symm, .cons hM l2⟩

section
variable [Ord T] [Ord AK] [Ord V]

/-- The contents are the same up to the relation. -/
def MatchC (R : Nat → Nat → Prop) : NodeContent T AK V → NodeContent T AK V → Prop
  | .leaf k v, .leaf k' v' => k = k' ∧ v = v'
  | .branch a ns, .branch b ms => a = b ∧ List.Forall₂ R ns ms
  | _, _ => False

/-- The relation of nodes from one of indices. -/
def OnTrees (t₁ t₂ : Nat) (R : Nat → Nat → Prop) (n m : Node) : Prop :=
  n.tree = t₁ ∧ m.tree = t₂ ∧ R n.index m.index

theorem MatchC.right {R : Nat → Nat → Prop} (hR : ∀ n m m', R n m → R n m' → m = m')
    {c d d' : NodeContent T AK V} (h : MatchC R c d) (h' : MatchC R c d') : d = d' := by
  cases c <;> cases d <;> cases d' <;> simp only [MatchC] at h h'
  · obtain ⟨rfl, rfl⟩ := h; obtain ⟨rfl, rfl⟩ := h'; rfl
  · obtain ⟨rfl, h⟩ := h
    obtain ⟨rfl, h'⟩ := h'
    congr 1
    rename_i ns _ ms ms' 
    clear * - h h' hR
    induction h generalizing ms' with
    | nil => cases h'; rfl
    | cons h1 _ ih => cases h' with | cons k1 k2 => rw [hR _ _ _ h1 k1, ih _ k2]

theorem MatchC.flip {R : Nat → Nat → Prop} {c d : NodeContent T AK V} (h : MatchC R c d) :
    MatchC (fun a b => R b a) d c := by
  cases c <;> cases d <;> simp only [MatchC] at h ⊢
  · exact ⟨h.1.symm, h.2.symm⟩
  · exact ⟨h.1.symm, h.2.flip⟩

variable [TransOrd T] [TransOrd AK] [TransOrd V] [LawfulEqOrd T] [LawfulEqOrd AK] [LawfulEqOrd V]

theorem sameAlt_iff {R : Nat → Nat → Prop} {w₁ w₂ : World T AK V} {t₁ t₂ a b : Nat} :
    SameAlt (OnTrees t₁ t₂ R) w₁ ⟨a, t₁⟩ w₂ ⟨b, t₂⟩ ↔ ∃ c d, (w₁ t₁).altAt a = some c ∧
      (w₂ t₂).altAt b = some d ∧ MatchC R c d := by
  have hF : ∀ ns ms : List Nat, List.Forall₂ (OnTrees t₁ t₂ R) (ns.map (⟨·, t₁⟩)) (ms.map (⟨·, t₂⟩)) ↔
      List.Forall₂ R ns ms := by
    intro ns ms
    rw [List.forall₂_map_left_iff, List.forall₂_map_right_iff]
    simp [OnTrees]
  constructor
  · rintro (⟨l₁, l₂, k, v, h1, h2, h3, h4, h5, h6⟩ | ⟨b₁, b₂, ak, ns₁, ns₂, h1, h2, h3, h4, h5, h6, h7⟩)
    · cases hc : (w₁ t₁).getAlt a with
      | panic p => simp [World.content, hc] at h1
      | oof => simp [World.content, hc] at h1
      | ok c =>
        cases hd : (w₂ t₂).getAlt b with
        | panic p => simp [World.content, hd] at h2
        | oof => simp [World.content, hd] at h2
        | ok d =>
          refine ⟨c, d, getAlt_iff.1 hc, getAlt_iff.1 hd, ?_⟩
          cases c with
          | branch _ _ => simp [World.content, hc] at h1
          | leaf k1 v1 =>
            cases d with
            | branch _ _ => simp [World.content, hd] at h2
            | leaf k2 v2 =>
              simp only [World.content, hc, Res.ok.injEq, NodeView.leaf.injEq] at h1
              simp only [World.content, hd, Res.ok.injEq, NodeView.leaf.injEq] at h2
              subst h1 h2
              simp only [World.kind, World.value, World.withLeaf, hc, hd, NodeContent.asLeaf,
                Res.expect_some, Res.ok.injEq] at h3 h4 h5 h6
              exact ⟨by rw [h3, h4], by rw [h5, h6]⟩
    · cases hc : (w₁ t₁).getAlt a with
      | panic p => simp [World.content, hc] at h1
      | oof => simp [World.content, hc] at h1
      | ok c =>
        cases hd : (w₂ t₂).getAlt b with
        | panic p => simp [World.content, hd] at h2
        | oof => simp [World.content, hd] at h2
        | ok d =>
          refine ⟨c, d, getAlt_iff.1 hc, getAlt_iff.1 hd, ?_⟩
          cases c with
          | leaf _ _ => simp [World.content, hc] at h1
          | branch k1 v1 =>
            cases d with
            | leaf _ _ => simp [World.content, hd] at h2
            | branch k2 v2 =>
              simp only [World.content, hc, Res.ok.injEq, NodeView.branch.injEq] at h1
              simp only [World.content, hd, Res.ok.injEq, NodeView.branch.injEq] at h2
              subst h1 h2
              simp only [World.action, World.branchNodes, World.withBranch, hc, hd, NodeContent.asBranch,
                Res.expect_some, Res.ok.injEq] at h3 h4 h5 h6
              subst h5 h6
              exact ⟨by rw [h3, h4], (hF _ _).1 h7⟩
  · rintro ⟨c, d, hc, hd, hm⟩
    have hc := getAlt_iff.2 hc
    have hd := getAlt_iff.2 hd
    cases c with
    | leaf k1 v1 =>
      cases d with
      | branch _ _ => exact hm.elim
      | leaf k2 v2 =>
        obtain ⟨rfl, rfl⟩ := hm
        refine Or.inl ⟨⟨a, t₁⟩, ⟨b, t₂⟩, k1, v1, ?_⟩
        simp [World.content, World.kind, World.value, World.withLeaf, hc, hd, NodeContent.asLeaf]
    | branch k1 v1 =>
      cases d with
      | leaf _ _ => exact hm.elim
      | branch k2 v2 =>
        obtain ⟨rfl, hm⟩ := hm
        refine Or.inr ⟨⟨a, t₁⟩, ⟨b, t₂⟩, k1, v1.map (⟨·, t₁⟩), v2.map (⟨·, t₂⟩), ?_, ?_, ?_, ?_, ?_, ?_,
          (hF _ _).2 hm⟩ <;>
        simp [World.content, World.action, World.branchNodes, World.withBranch, hc, hd,
          NodeContent.asBranch]

/-- From the contents to the lists of alternatives. -/
theorem sameForest_of {R : Nat → Nat → Prop} {w₁ w₂ : World T AK V} {t₁ t₂ : Nat} (hw₁ : (w₁ t₁).WF)
    (hw₂ : (w₂ t₂).WF) (hr : ∀ n m m', R n m → R n m' → m = m') (hl : ∀ n n' m, R n m → R n' m → n = n')
    (hlt : ∀ n m, R n m → n < (w₁ t₁).nodes.length ∧ m < (w₂ t₂).nodes.length)
    (hf : ∀ n m, R n m → ∀ c, (w₁ t₁).Holds n c → ∃ d, (w₂ t₂).Holds m d ∧ MatchC R c d)
    (hb : ∀ n m, R n m → ∀ d, (w₂ t₂).Holds m d → ∃ c, (w₁ t₁).Holds n c ∧ MatchC R c d) :
    SameForest (OnTrees t₁ t₂ R) w₁ w₂ := by
  refine ⟨?_, ?_, ?_⟩
  · rintro ⟨n, _⟩ ⟨m, _⟩ ⟨m', _⟩ ⟨rfl, rfl, h⟩ ⟨-, rfl, h'⟩
    have := hr _ _ _ h h'
    simp only at this
    rw [this]
  · rintro ⟨n, _⟩ ⟨n', _⟩ ⟨m, _⟩ ⟨rfl, rfl, h⟩ ⟨rfl, -, h'⟩
    have := hl _ _ _ h h'
    simp only at this
    rw [this]
  · rintro ⟨n, _⟩ ⟨m, _⟩ ⟨rfl, rfl, h⟩
    simp only at h hf hb hlt ⊢
    rename_i t₁ t₂
    obtain ⟨l1, l2⟩ := hlt _ _ h
    have e1 : (w₁ t₁).nodes[n]? = some (w₁ t₁).nodes[n] := List.getElem?_eq_getElem l1
    have e2 : (w₂ t₂).nodes[m]? = some (w₂ t₂).nodes[m] := List.getElem?_eq_getElem l2
    have m1 : ∀ a, a ∈ (w₁ t₁).nodes[n] ↔ (w₁ t₁).Has n a := by
      intro a; unfold Inner.Has; rw [e1]; simp
    have m2 : ∀ a, a ∈ (w₂ t₂).nodes[m] ↔ (w₂ t₂).Has m a := by
      intro a; unfold Inner.Has; rw [e2]; simp
    have hnd : ∀ {I : Inner T AK V}, I.WF → ∀ s ∈ I.nodes, s.Nodup := by
      intro I hI s hs
      have := hI.nodeSorted s hs
      exact BSet.sorted_nodup this
    have hinj : ∀ {I : Inner T AK V}, I.WF → ∀ a b c, I.altAt a = some c → I.altAt b = some c → a = b := by
      intro I hI a b c h1 h2
      have h1 := (hI.ids c a).2 h1
      have h2 := (hI.ids c b).2 h2
      rw [h1] at h2; cases h2; rfl
    have hex : ∀ {I : Inner T AK V}, I.WF → ∀ {n a}, I.Has n a → ∃ c, I.altAt a = some c := by
      intro I hI n a ha
      exact ⟨_, List.getElem?_eq_getElem (ha.alt_lt hI)⟩
    obtain ⟨l, p1, p2⟩ := exists_perm_forall₂
      (M := fun a b => ∃ c d, (w₁ t₁).altAt a = some c ∧ (w₂ t₂).altAt b = some d ∧ MatchC R c d)
      (w₁ t₁).nodes[n] (w₂ t₂).nodes[m] (hnd hw₁ _ (List.getElem_mem _)) (hnd hw₂ _ (List.getElem_mem _))
      (by
        intro a ha
        rw [m1] at ha
        obtain ⟨c, hc⟩ := hex hw₁ ha
        obtain ⟨d, ⟨b, b1, b2⟩, hm⟩ := hf _ _ h c ⟨a, ha, hc⟩
        exact ⟨b, (m2 b).2 b1, c, d, hc, b2, hm⟩)
      (by
        intro b hb'
        rw [m2] at hb'
        obtain ⟨d, hd⟩ := hex hw₂ hb'
        obtain ⟨c, ⟨a, b1, b2⟩, hm⟩ := hb _ _ h d ⟨b, hb', hd⟩
        exact ⟨a, (m1 a).2 b1, c, d, b2, hd, hm⟩)
      (by
        rintro a - b - b' - ⟨c, d, h1, h2, h3⟩ ⟨c', d', h1', h2', h3'⟩
        rw [h1] at h1'; cases h1'
        have := h3.right hr h3'
        subst this
        exact hinj hw₂ _ _ _ h2 h2')
      (by
        rintro a - a' - b - ⟨c, d, h1, h2, h3⟩ ⟨c', d', h1', h2', h3'⟩
        rw [h2] at h2'; cases h2'
        have := MatchC.right (R := fun a b => R b a) (fun n m m' hm hm' => hl m m' n hm hm') h3.flip h3'.flip
        subst this
        exact hinj hw₁ _ _ _ h1 h1')
    refine ⟨(w₁ t₁).nodes[n].map (⟨·, t₁⟩), (w₂ t₂).nodes[m].map (⟨·, t₂⟩), l.map (⟨·, t₂⟩), ?_, ?_,
      p1.map _, ?_⟩
    · simp [World.alts, Inner.getNode_some.2 e1]
    · simp [World.alts, Inner.getNode_some.2 e2]
    · rw [List.forall₂_map_left_iff, List.forall₂_map_right_iff]
      refine p2.imp ?_
      intro a b hab
      exact sameAlt_iff.2 hab
end

section
variable [Ord T] [Ord NT] [Ord AK] [Ord V] [DecidableEq T] [DecidableEq NT]
variable [TransOrd T] [TransOrd NT] [TransOrd AK] [TransOrd V]
variable [LawfulEqOrd T] [LawfulEqOrd NT] [LawfulEqOrd AK] [LawfulEqOrd V]
variable {sg : StartGrammar T NT AK AV} {prev : List (EarleyStateSet T NT AK AV)}
  {Z : EarleyStateSet T NT AK AV} {tab : Nat → Option (NName T NT AK AV)}
variable {addr addr' : StartNonTerminal NT → Nat → Nat} {toks : List (Token T V)} {N N' : Nat}
  {L L' : Nat → Unit → Prop} {I I' : Inner T AK V}

theorem RunSim.occ_lab (h : RunSim addr sg toks N prev Z tab I L) {n : Nat} (ho : Occ (prev ++ [Z]) n) :
    L n () := by
  obtain ⟨k, Zk, K, v, h1, h2, h3⟩ := ho
  obtain ⟨x, hx⟩ := List.mem_iff_getElem?.1 h3
  exact (((h.sets k Zk h1).entry _ h2).2.2 x n hx)

/-- The nodes below a node that occurs occur. -/
theorem RunSim.kids_occ (h : RunSim addr sg toks N prev Z tab I L) {n : Nat} (ho : Occ (prev ++ [Z]) n)
    {a : AK} {ns : List Nat} (hc : I.Holds n (.branch a ns)) : ∀ m ∈ ns, Occ (prev ++ [Z]) m := by
  obtain ⟨b, h1, h2⟩ := hc
  rcases h.kids b a ns h2 with hk | hk
  · exact hk
  · intro m hm
    obtain ⟨c, c1, c2⟩ := h.typed.ok n () (h.occ_lab ho) b h1
    rw [h2] at c1; cases c1
    obtain ⟨j, q, k, -, -, -, -, c3⟩ := c2
    obtain ⟨x, hx⟩ := List.mem_iff_getElem?.1 hm
    have := (h.typed.bound _ _ (c3 x m hx)).1
    have := hk m hm
    omega

/-- The nodes have the same name. -/
def SameName (Zs Zs' : List (EarleyStateSet T NT AK AV)) (tab tab' : Nat → Option (NName T NT AK AV))
    (n m : Nat) : Prop :=
  Occ Zs n ∧ Occ Zs' m ∧ ∃ ν, tab n = some ν ∧ tab' m = some ν

theorem Nmd.sameName {Zs Zs' : List (EarleyStateSet T NT AK AV)} {tab' : Nat → Option (NName T NT AK AV)}
    {ns ms : List Nat} {νs : List (NName T NT AK AV)} (h : Nmd tab ns νs) (h' : Nmd tab' ms νs)
    (ho : ∀ n ∈ ns, Occ Zs n) (ho' : ∀ n ∈ ms, Occ Zs' n) :
    List.Forall₂ (SameName Zs Zs' tab tab') ns ms := by
  induction νs generalizing ns ms with
  | nil =>
    cases ns with
    | nil => cases ms with
      | nil => exact .nil
      | cons m ms => have := h'.len; simp at this
    | cons n ns => have := h.len; simp at this
  | cons ν νs ih =>
    cases ns with
    | nil => have := h.len; simp at this
    | cons n ns =>
      cases ms with
      | nil => have := h'.len; simp at this
      | cons m ms =>
        rw [Nmd.cons_iff] at h h'
        exact .cons ⟨ho n (by simp), ho' m (by simp), ν, h.1, h'.1⟩
          (ih h.2 h'.2 (fun x hx => ho x (by simp [hx])) (fun x hx => ho' x (by simp [hx])))

theorem SameName.match {prev' : List (EarleyStateSet T NT AK AV)} {Z' : EarleyStateSet T NT AK AV}
    {tab' : Nat → Option (NName T NT AK AV)} (h : RunSim addr sg toks N prev Z tab I L)
    (h' : RunSim addr' sg toks N' prev' Z' tab' I' L') (hlen : prev.length = prev'.length) {n m : Nat}
    (hn : SameName (prev ++ [Z]) (prev' ++ [Z']) tab tab' n m) {c : NodeContent T AK V}
    (hc : I.Holds n c) :
    ∃ d, I'.Holds m d ∧ MatchC (SameName (prev ++ [Z]) (prev' ++ [Z']) tab tab') c d := by
  obtain ⟨ho, ho', ν, e1, e2⟩ := hn
  obtain ⟨c', k1, k2⟩ := h.sim.cs.sound n ν e1 c hc
  rw [hlen] at k1
  obtain ⟨m', d, d1, d2, d3, d4, d5⟩ := h'.full ν c' k1
  have : m' = m := h'.sim.uniq m' m d1 ho' (by rw [d2, e2])
  subst this
  refine ⟨d, d3, ?_⟩
  cases c with
  | leaf k v =>
    cases c' with
    | branch _ _ => exact k2.elim
    | leaf k' v' =>
      cases d with
      | branch _ _ => exact d4.elim
      | leaf k'' v'' => exact ⟨k2.1.trans d4.1.symm, k2.2.trans d4.2.symm⟩
  | branch a ns =>
    cases c' with
    | leaf _ _ => exact k2.elim
    | branch a' νs =>
      cases d with
      | leaf _ _ => exact d4.elim
      | branch a'' ms =>
        exact ⟨k2.1.trans d4.1.symm, k2.2.sameName d4.2 (h.kids_occ ho hc) (d5 _ _ rfl)⟩

theorem SameName.swap {Zs Zs' : List (EarleyStateSet T NT AK AV)} {tab' : Nat → Option (NName T NT AK AV)}
    {n m : Nat} (h : SameName Zs Zs' tab tab' n m) : SameName Zs' Zs tab' tab m n := by
  obtain ⟨h1, h2, ν, h3, h4⟩ := h
  exact ⟨h2, h1, ν, h4, h3⟩

/-- The forests of two runs have the same shape. -/
theorem RunSim.sameForest {prev' : List (EarleyStateSet T NT AK AV)} {Z' : EarleyStateSet T NT AK AV}
    {tab' : Nat → Option (NName T NT AK AV)} {w w' : World T AK V} {t t' : Nat}
    (h : RunSim addr sg toks N prev Z tab (w t) L)
    (h' : RunSim addr' sg toks N' prev' Z' tab' (w' t') L') (hlen : prev.length = prev'.length) :
    SameForest (OnTrees t t' (SameName (prev ++ [Z]) (prev' ++ [Z']) tab tab')) w w' := by
  refine sameForest_of h.typed.wf h'.typed.wf ?_ ?_ ?_ ?_ ?_
  · rintro n m m' ⟨h1, h2, ν, h3, h4⟩ ⟨h1', h2', ν', h3', h4'⟩
    exact h'.sim.uniq _ _ h2 h2' (by rw [h4, h4', ← h3, ← h3'])
  · rintro n n' m ⟨h1, h2, ν, h3, h4⟩ ⟨h1', h2', ν', h3', h4'⟩
    exact h.sim.uniq _ _ h1 h1' (by rw [h3, h3', ← h4, ← h4'])
  · rintro n m ⟨h1, h2, ν, h3, h4⟩
    exact ⟨h.sim.cs.dom _ _ h3, h'.sim.cs.dom _ _ h4⟩
  · intro n m hn c hc
    exact SameName.match h h' hlen hn hc
  · intro n m hn d hd
    obtain ⟨c, c1, c2⟩ := SameName.match h' h hlen.symm hn.swap hd
    refine ⟨c, c1, ?_⟩
    have := c2.flip
    cases c <;> cases d <;> first | exact this | skip
    exact ⟨this.1, this.2.imp fun _ _ h => h.swap⟩
variable {g : Grammar T NT AK AV}

/-- The forests of two parses have the same shape. -/
theorem parse_sameForest (hg : g.Accepted) (ha : AddrInj g.wrapped addr) (ho : AddrOrdered g.wrapped addr)
    (ha' : AddrInj g.wrapped addr') (ho' : AddrOrdered g.wrapped addr')
    {log₁ log₂ : TreeLog T AK V} {w₁ w₂ w₁' w₂' : World T AK V}
    {held₁ held₂ : List Handle} (hist₁ : History log₁ w₁ held₁) (hist₂ : History log₂ w₂ held₂)
    {t₁ t₂ fuel₁ fuel₂ : Nat} {toks : List (Token T V)} {n₁ n₂ : Node}
    (h₁ : parse addr g.wrapped fuel₁ w₁ t₁ toks = .ok (w₁', some n₁))
    (h₂ : parse addr' g.wrapped fuel₂ w₂ t₂ toks = .ok (w₂', some n₂)) :
    ∃ R, SameForest R w₁' w₂' ∧ R n₁ n₂ ∧ (w₁' n₁.tree).WF ∧ (w₂' n₂.tree).WF ∧
      n₁.index < (w₁' n₁.tree).nodes.length ∧ n₂.index < (w₂' n₂.tree).nodes.length := by
  have hw := hg.valid.toWF
  obtain ⟨I₁, m₁, p₁, rfl, e₁⟩ := parse_ok_iff h₁
  obtain ⟨I₂, m₂, p₂, rfl, e₂⟩ := parse_ok_iff h₂
  cases m₁ with
  | none => cases e₁
  | some m₁ =>
    cases m₂ with
    | none => cases e₂
    | some m₂ =>
      cases e₁
      cases e₂
      obtain ⟨sets, last, tab, L, a1, a2, a3, a4⟩ :=
        parseInner_run hw ha ho (hist₁.inv.wf t₁) p₁
      obtain ⟨sets', last', tab', L', b1, b2, b3, b4⟩ :=
        parseInner_run hw ha' ho' (hist₂.inv.wf t₂) p₂
      exact ⟨_, RunSim.sameForest (w := w₁.set t₁ I₁) (w' := w₂.set t₂ I₂) (t := t₁) (t' := t₂)
        (by rw [World.set_self]; exact a1) (by rw [World.set_self]; exact b1) (a2.trans b2.symm),
        ⟨rfl, rfl, a3, b3, _, a4, b4⟩, by rw [World.set_self]; exact a1.typed.wf,
        by rw [World.set_self]; exact b1.typed.wf, by rw [World.set_self]; exact a1.sim.cs.dom _ _ a4,
        by rw [World.set_self]; exact b1.sim.cs.dom _ _ b4⟩

end

/-! ### What follows for any two forests of the same shape -/
section
variable [Ord T] [Ord AK] [Ord V]

theorem SameAlt.flip {R : Node → Node → Prop} {w₁ w₂ : World T AK V} {a b : Alternative}
    (h : SameAlt R w₁ a w₂ b) : SameAlt (fun n m => R m n) w₂ b w₁ a := by
  rcases h with ⟨l₁, l₂, k, v, h1, h2, h3, h4, h5, h6⟩ | ⟨b₁, b₂, ak, ns₁, ns₂, h1, h2, h3, h4, h5, h6, h7⟩
  · exact Or.inl ⟨l₂, l₁, k, v, h2, h1, h4, h3, h6, h5⟩
  · exact Or.inr ⟨b₂, b₁, ak, ns₂, ns₁, h2, h1, h4, h3, h6, h5, h7.flip⟩

theorem forall₂_perm {α β : Type} {M : α → β → Prop} {l₁ : List α} {l l₂ : List β}
    (hp : l.Perm l₂) (h : List.Forall₂ M l₁ l) : ∃ l', l'.Perm l₁ ∧ List.Forall₂ M l' l₂ := by
  induction hp generalizing l₁ with
  | nil => exact ⟨l₁, .refl _, h⟩
  | cons x _ ih =>
    cases h with
    | cons h1 h2 =>
      obtain ⟨l', p1, p2⟩ := ih h2
      exact ⟨_, p1.cons _, .cons h1 p2⟩
  | swap x y _ =>
    cases h with
    | cons h1 h2 =>
      cases h2 with
      | cons h2 h3 => exact ⟨_, .swap _ _ _, .cons h2 (.cons h1 h3)⟩
  | trans _ _ ih1 ih2 =>
    obtain ⟨l', p1, p2⟩ := ih1 h
    obtain ⟨l'', p3, p4⟩ := ih2 p2
    exact ⟨l'', p3.trans p1, p4⟩

theorem SameForest.flip {R : Node → Node → Prop} {w₁ w₂ : World T AK V} (h : SameForest R w₁ w₂) :
    SameForest (fun n m => R m n) w₂ w₁ := by
  refine ⟨fun n m m' h1 h2 => h.left _ _ _ h1 h2, fun n n' m h1 h2 => h.right _ _ _ h1 h2, ?_⟩
  intro n₁ n₂ hn
  obtain ⟨as₁, as₂, as, h1, h2, h3, h4⟩ := h.alts _ _ hn
  obtain ⟨l', p1, p2⟩ := forall₂_perm h3 h4
  exact ⟨as₂, as₁, l', h2, h1, p1, p2.flip.imp fun _ _ h => SameAlt.flip h⟩

theorem forall₂_mem {α β : Type} {M : α → β → Prop} {l₁ : List α} {l : List β}
    (h : List.Forall₂ M l₁ l) {a} (ha : a ∈ l₁) : ∃ b ∈ l, M a b := by
  induction h with
  | nil => cases ha
  | cons h1 _ ih =>
    rcases List.mem_cons.1 ha with rfl | ha
    · exact ⟨_, by simp, h1⟩
    · obtain ⟨b, h1, h2⟩ := ih ha
      exact ⟨b, by simp [h1], h2⟩

/-- An alternative of the one node is matched by one of the other. -/
theorem SameForest.alt {R : Node → Node → Prop} {w₁ w₂ : World T AK V} (h : SameForest R w₁ w₂)
    {n₁ n₂ : Node} (hn : R n₁ n₂) {as₁ : List Alternative} {a : Alternative} (h1 : w₁.alts n₁ = .ok as₁)
    (ha : a ∈ as₁) : ∃ as₂ b, w₂.alts n₂ = .ok as₂ ∧ b ∈ as₂ ∧ SameAlt R w₁ a w₂ b := by
  obtain ⟨as₁', as₂, as, e1, e2, e3, e4⟩ := h.alts _ _ hn
  rw [h1] at e1; cases e1
  obtain ⟨b, b1, b2⟩ := forall₂_mem e4 ha
  exact ⟨as₂, b, e2, e3.mem_iff.1 b1, b2⟩

theorem SameForest.under {R : Node → Node → Prop} {w₁ w₂ : World T AK V} (h : SameForest R w₁ w₂)
    {n₁ n₂ m₁ : Node} (hn : R n₁ n₂) (hm : Under w₁ n₁ m₁) : ∃ m₂, Under w₂ n₂ m₂ ∧ R m₁ m₂ := by
  induction hm generalizing n₂ with
  | self n => exact ⟨n₂, .self _, hn⟩
  | @step n m k as a b ns h1 h2 h3 h4 h5 _ ih =>
    obtain ⟨as₂, a₂, e1, e2, e3⟩ := h.alt hn h1 h2
    rcases e3 with ⟨l₁, l₂, k, v, c1, -⟩ | ⟨b₁, b₂, ak, ns₁, ns₂, c1, c2, -, -, c5, c6, c7⟩
    · rw [h3] at c1; cases c1
    · rw [h3] at c1; cases c1
      rw [h4] at c5; cases c5
      obtain ⟨m', d1, d2⟩ := forall₂_mem c7 h5
      obtain ⟨k', k1, k2⟩ := ih d2
      exact ⟨k', .step e1 e2 c2 c6 d1 k1, k2⟩

mutual
theorem SameForest.reads {R : Node → Node → Prop} {w₁ w₂ : World T AK V} (h : SameForest R w₁ w₂) :
    (s : DTree (Token T V) AK) → (n₁ n₂ : Node) → R n₁ n₂ → Reads w₁ s n₁ → Reads w₂ s n₂
  | .leaf tok, n₁, n₂, hn => by
    rw [Reads, Reads]
    rintro ⟨as, a, l, h1, h2, h3, h4, h5⟩
    obtain ⟨as₂, a₂, e1, e2, e3⟩ := h.alt hn h1 h2
    rcases e3 with ⟨l₁, l₂, k, v, c1, c2, c3, c4, c5, c6⟩ | ⟨b₁, b₂, ak, ns₁, ns₂, c1, c2, -, -, c5, c6, c7⟩
    · rw [h3] at c1; cases c1
      rw [h4] at c3; cases c3
      rw [h5] at c5; cases c5
      exact ⟨as₂, a₂, l₂, e1, e2, c2, c4, c6⟩
    · rw [h3] at c1; cases c1
  | .node ak cs, n₁, n₂, hn => by
    rw [Reads, Reads]
    rintro ⟨as, a, b, ns, h1, h2, h3, h4, h5, h6⟩
    obtain ⟨as₂, a₂, e1, e2, e3⟩ := h.alt hn h1 h2
    rcases e3 with ⟨l₁, l₂, k, v, c1, -⟩ | ⟨b₁, b₂, ak, ns₁, ns₂, c1, c2, c3, c4, c5, c6, c7⟩
    · rw [h3] at c1; cases c1
    · rw [h3] at c1; cases c1
      rw [h5] at c5; cases c5
      rw [h4] at c3; cases c3
      exact ⟨as₂, a₂, b₂, ns₂, e1, e2, c2, c4, c6, h.readsAll cs _ _ c7 h6⟩
theorem SameForest.readsAll {R : Node → Node → Prop} {w₁ w₂ : World T AK V} (h : SameForest R w₁ w₂) :
    (cs : List (DTree (Token T V) AK)) → (ns₁ ns₂ : List Node) → List.Forall₂ R ns₁ ns₂ →
    ReadsAll w₁ cs ns₁ → ReadsAll w₂ cs ns₂
  | [], ns₁, ns₂, hn => by
    cases hn with
    | nil => exact id
    | cons _ _ => simp [ReadsAll]
  | c :: cs, ns₁, ns₂, hn => by
    cases hn with
    | nil => simp [ReadsAll]
    | cons h1 h2 =>
      simp only [ReadsAll]
      rintro ⟨k1, k2⟩
      exact ⟨h.reads c _ _ h1 k1, h.readsAll cs _ _ h2 k2⟩
end

theorem SameDot.flip {R : Node → Node → Prop} {w₁ w₂ : World T AK V} {t₁ t₂ : Nat} {x y : DotNode}
    (h : SameDot R w₁ t₁ w₂ t₂ x y) : SameDot (fun n m => R m n) w₂ t₂ w₁ t₁ y x := by
  cases x <;> cases y <;> first | exact h | exact SameAlt.flip h

variable [TransOrd T] [TransOrd AK] [TransOrd V] [LawfulEqOrd T] [LawfulEqOrd AK] [LawfulEqOrd V]

theorem alts_tree {w : World T AK V} {n : Node} {as a} (h : w.alts n = .ok as) (ha : a ∈ as) :
    a.tree = n.tree := (mem_alts.1 ⟨as, h, ha⟩).1

theorem content_branch {w : World T AK V} {a : Alternative} {b : Branch}
    (h : w.content a = .ok (.branch b)) : b = ⟨a.index, a.tree⟩ := by
  unfold World.content at h
  cases hc : (w a.tree).getAlt a.index with
  | panic p => rw [hc] at h; cases h
  | oof => rw [hc] at h; cases h
  | ok c => rw [hc] at h; cases c <;> cases h; rfl

theorem branchNodes_tree {w : World T AK V} {b : Branch} {ns n} (h : w.branchNodes b = .ok ns)
    (hn : n ∈ ns) : n.tree = b.tree := by
  unfold World.branchNodes at h
  cases hc : w.withBranch b with
  | panic p => rw [hc] at h; cases h
  | oof => rw [hc] at h; cases h
  | ok d =>
    rw [hc] at h; cases h
    simp only [List.mem_map] at hn
    obtain ⟨x, -, rfl⟩ := hn
    rfl

/-- An arrow of the one forest is matched by one of the other. -/
theorem SameForest.arrow {R : Node → Node → Prop} {w₁ w₂ : World T AK V} (h : SameForest R w₁ w₂)
    {t₁ t₂ : Nat} {x x' y : DotNode} (hx : SameDot R w₁ t₁ w₂ t₂ x x') (ha : ForestArrow w₁ t₁ x y) :
    ∃ y', ForestArrow w₂ t₂ x' y' ∧ SameDot R w₁ t₁ w₂ t₂ y y' := by
  cases ha with
  | @alt n a l h1 h2 =>
    cases x' with
    | alt _ => exact hx.elim
    | node m =>
      obtain ⟨as₂, b, e1, e2, e3⟩ := h.alt hx h1 h2
      have := alts_tree e1 e2
      obtain ⟨b, tb⟩ := b
      simp only at this
      subst this
      exact ⟨.alt b, .alt e1 e2, e3⟩
  | @child a n b l h1 h2 h3 =>
    cases x' with
    | node _ => exact hx.elim
    | alt a' =>
      rcases hx with ⟨l₁, l₂, k, v, c1, -⟩ | ⟨b₁, b₂, ak, ns₁, ns₂, c1, c2, c3, c4, c5, c6, c7⟩
      · rw [h1] at c1; cases c1
      · rw [h1] at c1; cases c1
        rw [h2] at c5; cases c5
        obtain ⟨m, m1, m2⟩ := forall₂_mem c7 h3
        have := branchNodes_tree c6 m1
        rw [content_branch c2] at this
        obtain ⟨m, tm⟩ := m
        simp only at this
        subst this
        exact ⟨.node m, .child c2 c6 m1, m2⟩

theorem SameForest.reach {R : Node → Node → Prop} {w₁ w₂ : World T AK V} (h : SameForest R w₁ w₂)
    {t₁ t₂ : Nat} {x x' y : DotNode} (hx : SameDot R w₁ t₁ w₂ t₂ x x')
    (ha : Relation.TransGen (ForestArrow w₁ t₁) x y) :
    ∃ y', Relation.TransGen (ForestArrow w₂ t₂) x' y' ∧ SameDot R w₁ t₁ w₂ t₂ y y' := by
  induction ha with
  | single h1 =>
    obtain ⟨y', e1, e2⟩ := h.arrow hx h1
    exact ⟨y', .single e1, e2⟩
  | tail _ h1 ih =>
    obtain ⟨z', e1, e2⟩ := ih
    obtain ⟨y', f1, f2⟩ := h.arrow e2 h1
    exact ⟨y', e1.tail f1, f2⟩

/-- The alternative is there and says what another one says: then it is that other one. -/
theorem content_det {w : World T AK V} {t : Nat} (hw : (w t).WF) {R : Node → Node → Prop}
    (hr : ∀ n m m', R n m → R n m' → m = m') {w₁ : World T AK V} {a : Alternative} {b b' : Nat}
    (h : SameAlt R w₁ a w ⟨b, t⟩) (h' : SameAlt R w₁ a w ⟨b', t⟩) : b = b' := by
  have hinj : ∀ c, (w t).altAt b = some c → (w t).altAt b' = some c → b = b' := by
    intro c h1 h2
    have h1 := (hw.ids c b).2 h1
    have h2 := (hw.ids c b').2 h2
    rw [h1] at h2; cases h2; rfl
  have hleaf : ∀ {b : Nat} {l k v}, w.content ⟨b, t⟩ = .ok (.leaf l) → w.kind l = .ok k →
      w.value l = .ok v → (w t).altAt b = some (.leaf k v) := by
    intro b l k v h1 h2 h3
    cases hc : (w t).getAlt b with
    | panic p => simp [World.content, hc] at h1
    | oof => simp [World.content, hc] at h1
    | ok c =>
      cases c with
      | branch _ _ => simp [World.content, hc] at h1
      | leaf k1 v1 =>
        simp only [World.content, hc, Res.ok.injEq, NodeView.leaf.injEq] at h1
        subst h1
        simp only [World.kind, World.value, World.withLeaf, hc, NodeContent.asLeaf,
          Res.expect_some, Res.ok.injEq] at h2 h3
        rw [getAlt_iff.1 hc, h2, h3]
  have hbranch : ∀ {b : Nat} {l k ns}, w.content ⟨b, t⟩ = .ok (.branch l) → w.action l = .ok k →
      w.branchNodes l = .ok ns → (w t).altAt b = some (.branch k (ns.map (·.index))) := by
    intro b l k ns h1 h2 h3
    cases hc : (w t).getAlt b with
    | panic p => simp [World.content, hc] at h1
    | oof => simp [World.content, hc] at h1
    | ok c =>
      cases c with
      | leaf _ _ => simp [World.content, hc] at h1
      | branch k1 v1 =>
        simp only [World.content, hc, Res.ok.injEq, NodeView.branch.injEq] at h1
        subst h1
        simp only [World.action, World.branchNodes, World.withBranch, hc, NodeContent.asBranch,
          Res.expect_some, Res.ok.injEq] at h2 h3
        rw [getAlt_iff.1 hc, h2, ← h3]
        simp [Function.comp_def]
  rcases h with ⟨l₁, l₂, k, v, h1, h2, h3, h4, h5, h6⟩ | ⟨b₁, b₂, ak, ns₁, ns₂, h1, h2, h3, h4, h5, h6, h7⟩
  · rcases h' with ⟨l₁', l₂', k', v', c1, c2, c3, c4, c5, c6⟩ | ⟨b₁, b₂, ak, ns₁, ns₂, c1, -⟩
    · rw [h1] at c1; cases c1
      rw [h3] at c3; cases c3
      rw [h5] at c5; cases c5
      exact hinj _ (hleaf h2 h4 h6) (hleaf c2 c4 c6)
    · rw [h1] at c1; cases c1
  · rcases h' with ⟨l₁', l₂', k', v', c1, -⟩ | ⟨b₁', b₂', ak', ns₁', ns₂', c1, c2, c3, c4, c5, c6, c7⟩
    · rw [h1] at c1; cases c1
    · rw [h1] at c1; cases c1
      rw [h3] at c3; cases c3
      rw [h5] at c5; cases c5
      have : ns₂ = ns₂' := by
        clear * - h7 c7 hr
        induction h7 generalizing ns₂' with
        | nil => cases c7; rfl
        | cons h1 _ ih => cases c7 with | cons k1 k2 => rw [hr _ _ _ h1 k1, ih _ k2]
      subst this
      exact hinj _ (hbranch h2 h4 h6) (hbranch c2 c4 c6)

theorem SameDot.right {R : Node → Node → Prop} {w₁ w₂ : World T AK V} {t₁ t₂ : Nat}
    (hw : (w₂ t₂).WF) (hr : ∀ n m m', R n m → R n m' → m = m') {x y y' : DotNode}
    (h : SameDot R w₁ t₁ w₂ t₂ x y) (h' : SameDot R w₁ t₁ w₂ t₂ x y') : y = y' := by
  cases x with
  | node i =>
    cases y with
    | alt _ => exact h.elim
    | node j =>
      cases y' with
      | alt _ => exact h'.elim
      | node j' => have := hr _ _ _ h h'; cases this; rfl
  | alt a =>
    cases y with
    | node _ => exact h.elim
    | alt b =>
      cases y' with
      | node _ => exact h'.elim
      | alt b' => rw [content_det hw hr h h']

/-- The graphs that are drawn are the same. -/
theorem SameForest.dot {R : Node → Node → Prop} {w₁ w₂ : World T AK V} (h : SameForest R w₁ w₂)
    {n₁ n₂ : Node} (hn : R n₁ n₂) (hw₁ : (w₁ n₁.tree).WF) (hw₂ : (w₂ n₂.tree).WF)
    (hl₁ : n₁.index < (w₁ n₁.tree).nodes.length) (hl₂ : n₂.index < (w₂ n₂.tree).nodes.length) :
    ∃ N ns₁ es₁ ns₂ es₂ ns, (∀ fuel ≥ N, dotGraph fuel w₁ n₁ = .ok (ns₁, es₁)) ∧
      (∀ fuel ≥ N, dotGraph fuel w₂ n₂ = .ok (ns₂, es₂)) ∧ ns.Perm ns₂ ∧
      List.Forall₂ (SameDot R w₁ n₁.tree w₂ n₂.tree) ns₁ ns ∧
      (∀ x y y', SameDot R w₁ n₁.tree w₂ n₂.tree x y → SameDot R w₁ n₁.tree w₂ n₂.tree x y' → y = y') ∧
      (∀ x x' y, SameDot R w₁ n₁.tree w₂ n₂.tree x y → SameDot R w₁ n₁.tree w₂ n₂.tree x' y → x = x') ∧
      ∀ x y x' y', SameDot R w₁ n₁.tree w₂ n₂.tree x x' → SameDot R w₁ n₁.tree w₂ n₂.tree y y' →
        ((x, y) ∈ es₁ ↔ (x', y') ∈ es₂) := by
  obtain ⟨N₁, ns₁, es₁, a1, a2, a3, a4⟩ := dotGraph_ok hw₁ hl₁
  obtain ⟨N₂, ns₂, es₂, b1, b2, b3, b4⟩ := dotGraph_ok hw₂ hl₂
  have hR : ∀ x y y', SameDot R w₁ n₁.tree w₂ n₂.tree x y → SameDot R w₁ n₁.tree w₂ n₂.tree x y' → y = y' :=
    fun x y y' h1 h2 => SameDot.right hw₂ h.right h1 h2
  have hL : ∀ x x' y, SameDot R w₁ n₁.tree w₂ n₂.tree x y → SameDot R w₁ n₁.tree w₂ n₂.tree x' y → x = x' :=
    fun x x' y h1 h2 => SameDot.right hw₁ h.flip.right h1.flip h2.flip
  have hroot : SameDot R w₁ n₁.tree w₂ n₂.tree (.node n₁.index) (.node n₂.index) := hn
  have hf : ∀ x ∈ ns₁, ∃ y ∈ ns₂, SameDot R w₁ n₁.tree w₂ n₂.tree x y := by
    intro x hx
    obtain ⟨y, y1, y2⟩ := h.reach hroot ((a3 x).1 hx)
    exact ⟨y, (b3 y).2 y1, y2⟩
  have hb : ∀ y ∈ ns₂, ∃ x ∈ ns₁, SameDot R w₁ n₁.tree w₂ n₂.tree x y := by
    intro y hy
    obtain ⟨x, x1, x2⟩ := h.flip.reach hroot.flip ((b3 y).1 hy)
    exact ⟨x, (a3 x).2 x1, x2.flip⟩
  obtain ⟨ns, p1, p2⟩ := exists_perm_forall₂ (M := SameDot R w₁ n₁.tree w₂ n₂.tree) ns₁ ns₂ a2 b2 hf hb
    (fun a _ b _ b' _ => hR a b b') (fun a _ a' _ b _ => hL a a' b)
  refine ⟨max N₁ N₂, ns₁, es₁, ns₂, es₂, ns, fun fuel hf => a1 fuel (by omega),
    fun fuel hf => b1 fuel (by omega), p1, p2, hR, hL, ?_⟩
  intro x y x' y' hx hy
  rw [a4, b4]
  constructor
  · rintro ⟨h1, h2⟩
    obtain ⟨x'', c1, c2⟩ := hf x h1
    obtain ⟨y'', d1, d2⟩ := h.arrow hx h2
    rw [hR _ _ _ hx c2, hR _ _ _ hy d2]
    exact ⟨c1, by rw [← hR _ _ _ hx c2]; exact d1⟩
  · rintro ⟨h1, h2⟩
    obtain ⟨x'', c1, c2⟩ := hb x' h1
    obtain ⟨y'', d1, d2⟩ := h.flip.arrow hx.flip h2
    rw [hL _ _ _ hx c2, hL _ _ _ hy d2.flip]
    exact ⟨c1, by rw [← hL _ _ _ hx c2]; exact d1⟩
end
end Bongo
