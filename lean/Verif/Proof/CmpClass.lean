import Verif.Proof.Preorder
import Verif.Proof.Values
/-!
# Lemmas: the classes of values that compare equal
-/
set_option linter.unusedSectionVars false
namespace Bongo
open Std
variable {T NT AK AV V V' : Type}

section
variable [Ord V] [TransOrd V]

def cmpSetoid (V : Type) [Ord V] [TransOrd V] : Setoid V where
  r a b := compare a b = .eq
  iseqv := ⟨fun _ => ReflCmp.compare_self, fun h => OrientedCmp.eq_comm.1 h, fun h h' => TransCmp.eq_trans h h'⟩

/-- The values, those that compare equal being one. -/
def CmpClass (V : Type) [Ord V] [TransOrd V] : Type := Quotient (cmpSetoid V)

def CmpClass.mk (v : V) : CmpClass V := Quotient.mk (cmpSetoid V) v

instance : Ord (CmpClass V) where
  compare := Quotient.lift₂ compare (by
    intro a b a' b' h h'
    have h1 : compare a a' = .eq := h
    have h2 : compare b b' = .eq := h'
    rw [TransCmp.congr_left h1, TransCmp.congr_right h2])

theorem CmpClass.compare_mk (a b : V) : compare (CmpClass.mk a) (CmpClass.mk b) = compare a b := rfl

theorem CmpClass.mk_eq {a b : V} : CmpClass.mk a = CmpClass.mk b ↔ compare a b = .eq :=
  ⟨fun h => Quotient.exact (s := cmpSetoid V) h, fun h => Quotient.sound (s := cmpSetoid V) h⟩

instance : TransOrd (CmpClass V) where
  eq_swap := by
    intro a b
    induction a using Quotient.inductionOn
    induction b using Quotient.inductionOn
    exact OrientedCmp.eq_swap (cmp := (compare : V → V → Ordering))
  isLE_trans := by
    intro a b c
    induction a using Quotient.inductionOn
    induction b using Quotient.inductionOn
    induction c using Quotient.inductionOn
    exact TransCmp.isLE_trans (cmp := (compare : V → V → Ordering))

instance : LawfulEqOrd (CmpClass V) where
  compare_self := by
    intro a
    induction a using Quotient.inductionOn
    exact ReflCmp.compare_self (cmp := (compare : V → V → Ordering))
  eq_of_compare := by
    intro a b
    induction a using Quotient.inductionOn
    induction b using Quotient.inductionOn
    exact fun h => CmpClass.mk_eq.2 h
end

/-! ## Nothing renamed but the values -/

/-- The grammar is the same. -/
def Renaming.same (T NT AK AV : Type) : Renaming T NT AK AV T NT AK AV := ⟨id, id, id, id⟩

theorem Renaming.same_injective : (Renaming.same T NT AK AV).Injective :=
  ⟨⟨fun _ _ h => h, fun _ _ h => h⟩, fun _ _ h => h⟩

theorem Renaming.same_rule (r : RuleInner T NT AK AV) : (Renaming.same T NT AK AV).rule r = r := by
  have he : (Renaming.same T NT AK AV).prodElement = id := by
    funext ⟨n, e⟩; cases e <;> rfl
  have hp : (Renaming.same T NT AK AV).prodInner = id := by
    funext ⟨k, v, es⟩
    simp only [Renaming.prodInner, he, List.map_id]
    rfl
  obtain ⟨h, ps⟩ := r
  simp only [Renaming.rule, hp, List.map_id]
  rfl

theorem Grammar.renamedTo_same (g : Grammar T NT AK AV) : g.RenamedTo (Renaming.same T NT AK AV) g := by
  refine ⟨rfl, fun r => ⟨fun h => ⟨r, h, (Renaming.same_rule r).symm⟩, ?_⟩⟩
  rintro ⟨r', h, rfl⟩
  rw [Renaming.same_rule]; exact h

theorem Renaming.same_start_nonterm (A : StartNonTerminal NT) :
    (Renaming.same T NT AK AV).start.nonterm A = A := by cases A <;> rfl

theorem renInj_class [Ord T] [Ord AK] [Ord V] [TransOrd V] :
    RenInj (id : T → T) (id : AK → AK) (CmpClass.mk : V → CmpClass V) :=
  ⟨fun _ _ => Iff.rfl, fun _ _ => Iff.rfl, fun a b => by rw [CmpClass.compare_mk]⟩

section
variable [Ord T] [Ord NT] [Ord AK] [Ord V] [DecidableEq T] [DecidableEq NT] [TransOrd T] [TransOrd NT]
  [TransOrd AK] [TransOrd V] [LawfulEqOrd T] [LawfulEqOrd NT]
variable {g : Grammar T NT AK AV} {addr : StartNonTerminal NT → Nat → Nat}

theorem parse_class (hg : g.Accepted) {w : World T AK V} {w' : World T AK (CmpClass V)}
    (hw : WorldRen id id CmpClass.mk w w') (t fuel : Nat) (toks : List (Token T V)) :
    Res.Both (fun x y => WorldRen id id CmpClass.mk x.1 y.1 ∧ x.2 = y.2)
      (parse addr g.wrapped fuel w t toks)
      (parse addr g.wrapped fuel w' t (toks.map (Token.renamed id CmpClass.mk))) :=
  parse_worldRen (ρ := Renaming.same T NT AK AV) hg hg Renaming.same_injective.toSymInjective renInj_class
    g.renamedTo_same (fun A i => by rw [Renaming.same_start_nonterm]) hw t fuel toks

/-! ## The leaves that can be read -/

theorem reads_first {w : World T AK V} {t : Nat} {L : List (Token T V)} (h : Keeps L (w t).alternatives)
    (s : DTree (Token T V) AK) : ∀ n : Node, n.tree = t → Reads w s n →
      ∀ tok ∈ s.yield, L.find? (·.like tok) = some tok := by
  refine DTree.rec (motive_1 := fun s => ∀ n : Node, n.tree = t → Reads w s n →
      ∀ tok ∈ s.yield, L.find? (·.like tok) = some tok)
    (motive_2 := fun cs => ∀ ns : List Node, (∀ n ∈ ns, n.tree = t) → ReadsAll w cs ns →
      ∀ tok ∈ DTree.yields cs, L.find? (·.like tok) = some tok) ?_ ?_ ?_ ?_ s
  · intro tok n hn hr tok' ht
    rw [DTree.yield, List.mem_singleton] at ht
    subst ht
    obtain ⟨a, -, h2⟩ := reads_leaf.1 hr
    rw [hn] at h2
    exact h.first a _ _ h2
  · intro ak cs ih n hn hr tok ht
    rw [DTree.yield] at ht
    obtain ⟨a, ns, -, -, h3⟩ := reads_node.1 hr
    exact ih _ (by simp [hn]) h3 tok ht
  · intro ns _ _ tok ht
    simp [DTree.yields] at ht
  · intro c cs ih1 ih2 ns hns hr tok ht
    cases ns with
    | nil => simp [ReadsAll] at hr
    | cons n ns =>
      rw [ReadsAll] at hr
      rw [DTree.yields, List.mem_append] at ht
      rcases ht with ht | ht
      · exact ih1 n (hns n (by simp)) hr.1 tok ht
      · exact ih2 ns (fun m hm => hns m (by simp [hm])) hr.2 tok ht

theorem eq_first {L : List (Token T V)} (s : DTree (Token T V) AK) : ∀ s' : DTree (Token T V) AK,
    s.renamed id id CmpClass.mk = s'.renamed id id CmpClass.mk →
    (∀ tok ∈ s.yield, L.find? (·.like tok) = some tok) → s = s'.mapLeaves (firstLike L) := by
  refine DTree.rec (motive_1 := fun s => ∀ s' : DTree (Token T V) AK,
      s.renamed id id CmpClass.mk = s'.renamed id id CmpClass.mk →
      (∀ tok ∈ s.yield, L.find? (·.like tok) = some tok) → s = s'.mapLeaves (firstLike L))
    (motive_2 := fun cs => ∀ cs' : List (DTree (Token T V) AK),
      DTree.renameds id id CmpClass.mk cs = DTree.renameds id id CmpClass.mk cs' →
      (∀ tok ∈ DTree.yields cs, L.find? (·.like tok) = some tok) →
      cs = DTree.mapLeavesAll (firstLike L) cs') ?_ ?_ ?_ ?_ s
  · intro tok s' he hf
    cases s' with
    | node a cs => simp [DTree.renamed] at he
    | leaf tok' =>
      simp only [DTree.renamed, DTree.leaf.injEq, Token.renamed, Token.mk.injEq, id] at he
      have hl : tok.like tok' = true := Token.like_iff.2 ⟨he.1, CmpClass.mk_eq.1 he.2⟩
      have h1 := hf tok (by simp [DTree.yield])
      rw [DTree.mapLeaves]
      congr 1
      rw [← firstLike_congr hl ⟨tok, List.mem_of_find?_eq_some h1, Token.like_refl tok⟩]
      unfold firstLike
      rw [h1]; rfl
  · intro ak cs ih s' he hf
    cases s' with
    | leaf tok => simp [DTree.renamed] at he
    | node a cs' =>
      simp only [DTree.renamed, DTree.node.injEq, id] at he
      rw [DTree.mapLeaves, he.1, ← ih cs' he.2 (by rw [DTree.yield] at hf; exact hf)]
  · intro cs' he _
    cases cs' with
    | nil => rfl
    | cons c cs' => simp [DTree.renameds] at he
  · intro c cs ih1 ih2 cs' he hf
    cases cs' with
    | nil => simp [DTree.renameds] at he
    | cons c' cs' =>
      simp only [DTree.renameds, List.cons.injEq] at he
      rw [DTree.yields] at hf
      rw [DTree.mapLeavesAll, ← ih1 c' he.1 (fun tok h => hf tok (List.mem_append_left _ h)),
        ← ih2 cs' he.2 (fun tok h => hf tok (List.mem_append_right _ h))]
end

/-! ## Trees -/
section
variable {V₀ V₁ V₂ : Type}
theorem DTree.renamed_renamed (f : V₀ → V₁) (f' : V₁ → V₂) (s : DTree (Token T V₀) AK) :
    (s.renamed id id f).renamed id id f' = s.renamed id id (f' ∘ f) := by
  refine DTree.rec (motive_1 := fun s => (s.renamed id id f).renamed id id f' = s.renamed id id (f' ∘ f))
    (motive_2 := fun cs => DTree.renameds id id f' (DTree.renameds id id f cs) =
      DTree.renameds id id (f' ∘ f) cs) ?_ ?_ ?_ ?_ s
  · intro tok; rfl
  · intro a cs ih; simp only [DTree.renamed, ih, id]
  · rfl
  · intro c cs ih1 ih2; simp only [DTree.renameds, ih1, ih2]

variable {g : Grammar T NT AK AV} {f : V → V'}

mutual
theorem IsTree.renamedLeaves {e : Elem T NT} : {d : DTree (Token T V) (Prod T NT AK AV)} →
    IsTree g (·.kind) e d → IsTree g (·.kind) e (d.mapLeaves (Token.renamed id f))
  | _, .leaf l => by
    rw [DTree.mapLeaves]
    exact IsTree.leaf (kind := fun t : Token T V' => t.kind) (l.renamed id f)
  | _, .node p cs hp hc => by rw [DTree.mapLeaves]; exact .node p _ hp (IsForest.renamedLeaves hc)
theorem IsForest.renamedLeaves {es : List (Elem T NT)} : {cs : List (DTree (Token T V) (Prod T NT AK AV))} →
    IsForest g (·.kind) es cs → IsForest g (·.kind) es (DTree.mapLeavesAll (Token.renamed id f) cs)
  | _, .nil => by rw [DTree.mapLeavesAll]; exact .nil
  | _, .cons hc hcs => by rw [DTree.mapLeavesAll]; exact .cons hc.renamedLeaves hcs.renamedLeaves
end

theorem DTree.mapLeaves_mapNodes {P : Type} (k : P → AK) (d : DTree (Token T V) P) :
    (d.mapLeaves (Token.renamed id f)).mapNodes k = (d.mapNodes k).renamed id id f := by
  refine DTree.rec (motive_1 := fun d : DTree (Token T V) P =>
      (d.mapLeaves (Token.renamed id f)).mapNodes k = (d.mapNodes k).renamed id id f)
    (motive_2 := fun cs => DTree.mapNodesAll k (DTree.mapLeavesAll (Token.renamed id f) cs) =
      DTree.renameds id id f (DTree.mapNodesAll k cs)) ?_ ?_ ?_ ?_ d
  · intro tok; rfl
  · intro a cs ih; simp only [DTree.mapLeaves, DTree.mapNodes, DTree.renamed, ih, id]
  · rfl
  · intro c cs ih1 ih2; simp only [DTree.mapLeavesAll, DTree.mapNodesAll, DTree.renameds, ih1, ih2]

mutual
/-- The tree of productions over the renamed tokens is one over the original ones. -/
theorem IsTree.unrename {e : Elem T NT} : {d' : DTree (Token T V') (Prod T NT AK AV)} →
    IsTree g (·.kind) e d' → (s : DTree (Token T V) AK) →
    d'.mapNodes (·.actionKey) = s.renamed id id f →
    ∃ d, IsTree g (·.kind) e d ∧ d.mapNodes (·.actionKey) = s
  | _, .leaf tok', s, h => by
    cases s with
    | node a cs => simp [DTree.mapNodes, DTree.renamed] at h
    | leaf tok =>
      simp only [DTree.mapNodes, DTree.renamed, DTree.leaf.injEq] at h
      subst h
      exact ⟨.leaf tok, .leaf tok, rfl⟩
  | _, .node p cs' hp hc, s, h => by
    cases s with
    | leaf tok => simp [DTree.mapNodes, DTree.renamed] at h
    | node a ss =>
      simp only [DTree.mapNodes, DTree.renamed, DTree.node.injEq, id] at h
      obtain ⟨cs, h1, h2⟩ := IsForest.unrename hc ss h.2
      exact ⟨.node p cs, .node p cs hp h1, by rw [DTree.mapNodes, h.1, h2]⟩
theorem IsForest.unrename {es : List (Elem T NT)} : {cs' : List (DTree (Token T V') (Prod T NT AK AV))} →
    IsForest g (·.kind) es cs' → (ss : List (DTree (Token T V) AK)) →
    DTree.mapNodesAll (·.actionKey) cs' = DTree.renameds id id f ss →
    ∃ cs, IsForest g (·.kind) es cs ∧ DTree.mapNodesAll (·.actionKey) cs = ss
  | _, .nil, ss, h => by
    cases ss with
    | nil => exact ⟨[], .nil, rfl⟩
    | cons s ss => simp [DTree.mapNodesAll, DTree.renameds] at h
  | _, .cons hc hcs, ss, h => by
    cases ss with
    | nil => simp [DTree.mapNodesAll, DTree.renameds] at h
    | cons s ss =>
      simp only [DTree.mapNodesAll, DTree.renameds, List.cons.injEq] at h
      obtain ⟨c, h1, h2⟩ := IsTree.unrename hc s h.1
      obtain ⟨cs, h3, h4⟩ := IsForest.unrename hcs ss h.2
      exact ⟨c :: cs, .cons h1 h3, by rw [DTree.mapNodesAll, h2, h4]⟩
end
end
end Bongo
