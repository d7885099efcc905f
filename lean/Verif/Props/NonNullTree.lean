import Verif.Proof.NonNullTree
import Verif.Props.NonNull
import Verif.Props.OneTree
import Verif.Props.EarleyExamples
/-!
# C100: the trees of the non-null grammar
-/
set_option linter.unusedSectionVars false
namespace Bongo
open Std
variable {T NT AK AV L : Type} [Ord NT] [TransOrd NT] [LawfulEqOrd NT]

/-- C100.  The trees of the result stand for trees of the original: there is a map that keeps the leaves,
the head, the action key and the value of every node, and puts an empty tree in for exactly the
nonterminal occurrences that the node's action key says are null.  It turns trees into trees of the same
element with the same yield, different trees into different trees, and reaches exactly the trees with
a nonempty yield in which no production that could have derived the empty word derives something. -/
theorem nonnull_trees (g : Grammar T NT AK AV) (hg : g.Accepted) (addr : NT → Nat → Nat)
    (ha : AddrInj g addr) (fuel : Nat) (g' : NonNullGrammar T NT AK AV)
    (h : transformToNonnull fuel addr g = .ok (.ok g')) (kind : L → T) :
    ∃ restore : DTree L (NNProd T NT AK AV) → DTree L (Prod T NT AK AV),
      (∀ l, restore (.leaf l) = .leaf l) ∧
      (∀ e p' cs, IsTree g' kind e (.node p' cs) → ∃ p ds, restore (.node p' cs) = .node p ds ∧
        p.head = p'.head ∧ p'.actionKey.action = p.actionKey ∧
        p'.actionValue.parentValue = p.actionValue ∧
        Refilled g kind p.prodElements p'.actionKey.ntNullableStates (cs.map restore) ds) ∧
      (∀ e d', IsTree g' kind e d' → IsTree g kind e (restore d') ∧ (restore d').yield = d'.yield ∧
        d'.yield ≠ [] ∧ Solid g (restore d')) ∧
      (∀ e₁ e₂ d₁ d₂, IsTree g' kind e₁ d₁ → IsTree g' kind e₂ d₂ → restore d₁ = restore d₂ → d₁ = d₂) ∧
      ∀ e d, IsTree g kind e d → Solid g d → d.yield ≠ [] → ∃ d', IsTree g' kind e d' ∧ restore d' = d := by
  classical
  have hwf := hg.valid.toWF
  obtain ⟨info, hn, rfl, hv⟩ := transform_ok hwf h
  have hu : NullUnique g := by
    rcases calculateNullables_ok hwf ha hn with ⟨hu, -⟩ | ⟨-, he⟩
    · exact hu
    · cases he
  obtain ⟨origin, o1, o2, o3⟩ := nn_origin hwf ha hn
  have ho : IsOrigin g (nnGrammar info g) origin := ⟨o1, o2, o3⟩
  by_cases hx : Nonempty (DTree L (NNProd T NT AK AV))
  rotate_left
  · have hemp : DTree L (NNProd T NT AK AV) → False := fun d => absurd ⟨d⟩ hx
    refine ⟨fun d => (hemp d).elim, fun l => (hemp (.leaf l)).elim, fun e p' cs => (hemp (.node p' cs)).elim,
      fun e d' => (hemp d').elim, fun _ _ d => (hemp d).elim, fun e d hd hs hy => ?_⟩
    exfalso
    cases h : d.yield with
    | nil => exact hy h
    | cons l _ => exact hemp (.leaf l)
  · obtain ⟨x⟩ := hx
    have hex : ∃ nullTree : NT → DTree L (Prod T NT AK AV), ∀ A, g.cfg.Generates A [] →
        IsTree g kind (.nonterm A) (nullTree A) ∧ (nullTree A).yield = [] := by
      have : ∀ A, ∃ d : DTree L (Prod T NT AK AV), g.cfg.Generates A [] →
          IsTree g kind (.nonterm A) d ∧ d.yield = [] := by
        intro A
        by_cases hA : g.cfg.Generates A []
        · rw [← Cfg.yields_nonterm_iff] at hA
          obtain ⟨cs, h1, h2⟩ := forest_of_yields hwf hA ([] : List L) (kind := kind) rfl
          cases h1 with
          | cons h1 h3 =>
            rw [DTree.yields, List.append_eq_nil_iff] at h2
            exact ⟨_, fun _ => ⟨h1, h2.1⟩⟩
        · refine ⟨?_, fun h => absurd h hA⟩
          cases x with
          | leaf l => exact .leaf l
          | node p _ => exact .node (origin p) []
      exact ⟨fun A => (this A).choose, fun A => (this A).choose_spec⟩
    obtain ⟨nullTree, hnull⟩ := hex
    have hne : ∀ (e : Elem T NT) (d : DTree L (NNProd T NT AK AV)),
        IsTree (nnGrammar info g) kind e d → d.yield ≠ [] := by
      intro e d hd hy
      have := hd.yields hv.toWF
      rw [hy] at this
      exact absurd (nn_yields_nonempty hwf ha hn this rfl) (by simp)
    refine ⟨restore nullTree origin, fun l => by rw [restore], ?_, ?_, ?_, ?_⟩
    · intro e p' cs hd
      cases hd with
      | node _ _ hp hf =>
      obtain ⟨h1, h2, h3, h4, h5, d, hc⟩ := ho.ok p' hp
      refine ⟨_, _, by rw [restore], h2, h4, h5, ?_⟩
      rw [← restoreAll_eq]
      exact refill_spec hnull hc (by
        rw [(restore_forest ho hnull hf).1.length_eq]; exact List.length_map _)
    · intro e d' hd
      obtain ⟨a, b, c⟩ := restore_tree ho hnull hd
      exact ⟨a, b, hne e d' hd, c⟩
    · intro e₁ e₂ d₁ d₂ h1 h2
      exact restore_inj ho hnull hne d₁ d₂ h1 h2
    · intro e d hd hs hy
      exact restore_surj hwf hu ho hnull d hd hs hy

/-- When the only productions that derive the empty word are empty ones, every tree qualifies. -/
theorem solid_of_plain (g : Grammar T NT AK AV)
    (he : ∀ p ∈ g.prods, g.cfg.Derives p.elements [] → p.elements = []) (kind : L → T)
    (d : DTree L (Prod T NT AK AV)) : ∀ e, IsTree g kind e d → Solid g d := by
  refine DTree.rec (motive_1 := fun d => ∀ e, IsTree g kind e d → Solid g d)
    (motive_2 := fun ds => ∀ es, IsForest g kind es ds → ∀ c ∈ ds, Solid g c) ?_ ?_ ?_ ?_ d
  · intro l e _; exact .leaf l
  · intro p cs ih e hd
    cases hd with
    | node _ _ hp hf =>
      refine .node p cs (fun hy hn => hy ?_) (ih _ hf)
      rw [he p hp hn] at hf
      cases hf; rfl
  · intro es _ c hc; cases hc
  · intro c cs ih1 ih2 es hf x hx
    cases hf with
    | cons h1 h2 =>
      rcases List.mem_cons.1 hx with rfl | hx
      · exact ih1 _ h1
      · exact ih2 _ h2 x hx

/-- C100: the transform never makes an unambiguous grammar ambiguous. -/
theorem nonnull_unambiguous (g : Grammar T NT AK AV) (hg : g.Accepted) (addr : NT → Nat → Nat)
    (ha : AddrInj g addr) (fuel : Nat) (g' : NonNullGrammar T NT AK AV)
    (h : transformToNonnull fuel addr g = .ok (.ok g')) (hu : g.Unambiguous) : g'.Unambiguous := by
  obtain ⟨restore, -, -, h1, h2, -⟩ := nonnull_trees g hg addr ha fuel g' h (id : T → T)
  have hs : g'.startSymbol = g.startSymbol := by
    obtain ⟨info, hn, rfl, -⟩ := transform_ok hg.valid.toWF h; rfl
  intro t t' ht ht' hy
  refine h2 _ _ t t' ht ht' ?_
  obtain ⟨a, b, -⟩ := h1 _ _ ht
  obtain ⟨a', b', -⟩ := h1 _ _ ht'
  rw [hs] at a a'
  exact hu _ _ a a' (by rw [b, b', hy])

/-- C100: and, when the only productions that derive the empty word are empty ones, never hides an
ambiguity. -/
theorem nonnull_unambiguous_iff (g : Grammar T NT AK AV) (hg : g.Accepted) (addr : NT → Nat → Nat)
    (ha : AddrInj g addr) (fuel : Nat) (g' : NonNullGrammar T NT AK AV)
    (h : transformToNonnull fuel addr g = .ok (.ok g'))
    (he : ∀ p ∈ g.prods, g.cfg.Derives p.elements [] → p.elements = []) :
    g'.Unambiguous ↔ g.Unambiguous := by
  refine ⟨fun hu => ?_, nonnull_unambiguous g hg addr ha fuel g' h⟩
  have hwf := hg.valid.toWF
  obtain ⟨restore, -, -, h1, h2, h3⟩ := nonnull_trees g hg addr ha fuel g' h (id : T → T)
  have hs : g'.startSymbol = g.startSymbol := by
    obtain ⟨info, hn, rfl, -⟩ := transform_ok hwf h; rfl
  have hnu : NullUnique g := by
    obtain ⟨info, hn, rfl, -⟩ := transform_ok hwf h
    rcases calculateNullables_ok hwf ha hn with ⟨hu, -⟩ | ⟨-, he⟩
    · exact hu
    · cases he
  intro t t' ht ht' hy
  by_cases hy0 : t.yield = []
  · exact emptyTree_unique hwf hnu t t' ht ht' hy0 (hy ▸ hy0)
  · obtain ⟨d, a, rfl⟩ := h3 _ t ht (solid_of_plain g he id t _ ht) hy0
    obtain ⟨d', a', rfl⟩ := h3 _ t' ht' (solid_of_plain g he id t' _ ht') (hy ▸ hy0)
    rw [← hs] at a a'
    rw [hu d d' a a' (by rw [← (h1 _ _ a).2.1, ← (h1 _ _ a').2.1, hy])]

/-- A successful result is a grammar made by the builder. -/
theorem nonnull_accepted (g : Grammar T NT AK AV) (addr : NT → Nat → Nat) (fuel : Nat)
    (g' : NonNullGrammar T NT AK AV) (h : transformToNonnull fuel addr g = .ok (.ok g')) :
    g'.Accepted := by
  unfold transformToNonnull at h
  split at h
  · cases h
  · cases h
  · cases h
  · split at h
    · rename_i hb; cases h; exact ⟨_, _, _, hb⟩
    · cases h
    · cases h
    · cases h

/-- C100: the transform makes no dead ends. -/
theorem nonnull_no_dead_ends (g : Grammar T NT AK AV) (hg : g.Accepted) (addr : NT → Nat → Nat)
    (ha : AddrInj g addr) (fuel : Nat) (g' : NonNullGrammar T NT AK AV)
    (h : transformToNonnull fuel addr g = .ok (.ok g')) (hd : g.NoDeadEnds) : g'.NoDeadEnds := by
  obtain ⟨info, hn, rfl, hv⟩ := transform_ok hg.valid.toWF h
  exact nn_noDeadEnds hg.valid.toWF ha hn hv hd

section parse
instance [Ord AK] [TransOrd AK] : TransOrd (NNActionKey AK) :=
  inferInstanceAs (TransCmp (compareLex (compareOn (fun x : NNActionKey AK => x.action))
    (compareOn (fun x : NNActionKey AK => x.ntNullableStates))))

instance [Ord AK] [LawfulEqOrd AK] : LawfulEqOrd (NNActionKey AK) where
  compare_self := by
    intro a
    show (compare _ _).then (compare _ _) = _
    rw [ReflCmp.compare_self (cmp := compare), ReflCmp.compare_self (cmp := compare)]; rfl
  eq_of_compare := by
    intro a b h
    have h : ((compare a.action b.action).then (compare a.ntNullableStates b.ntNullableStates)) = .eq := h
    rw [Ordering.then_eq_eq] at h
    obtain ⟨a1, a2⟩ := a; obtain ⟨b1, b2⟩ := b
    have h1 : a1 = b1 := LawfulEqCmp.eq_of_compare h.1
    have h2 : a2 = b2 := LawfulEqCmp.eq_of_compare h.2
    rw [h1, h2]

variable {V : Type} [Ord T] [Ord AK] [Ord V] [DecidableEq T] [DecidableEq NT]
variable [TransOrd T] [TransOrd AK] [TransOrd V] [LawfulEqOrd T] [LawfulEqOrd AK] [LawfulEqOrd V]

/-- C100: parsing with the result.  If the original grammar is unambiguous and has no dead ends, exactly one tree can be read off the node that `parse` with the result returns, and it is a tree of the
result that stands for a derivation tree of the input in the original grammar. -/
theorem nonnull_parse (g : Grammar T NT AK AV) (hg : g.Accepted) (addr : NT → Nat → Nat)
    (ha : AddrInj g addr) (fuel : Nat) (g' : NonNullGrammar T NT AK AV)
    (h : transformToNonnull fuel addr g = .ok (.ok g')) (hu : g.Unambiguous) (hd : g.NoDeadEnds) :
    ∃ restore : DTree (Token T V) (NNProd T NT AK AV) → DTree (Token T V) (Prod T NT AK AV),
      (∀ l, restore (.leaf l) = .leaf l) ∧
      (∀ e p' cs, IsTree g' (·.kind) e (.node p' cs) → ∃ p ds, restore (.node p' cs) = .node p ds ∧
        p.head = p'.head ∧ p'.actionKey.action = p.actionKey ∧
        Refilled g (·.kind) p.prodElements p'.actionKey.ntNullableStates (cs.map restore) ds) ∧
      ∀ (saddr : StartNonTerminal NT → Nat → Nat), AddrInj g'.wrapped saddr →
      ∀ {log : TreeLog T (NNActionKey AK) V} {w w' : World T (NNActionKey AK) V} {held : List Handle},
        History log w held → ∀ {t fuel : Nat} {toks : List (Token T V)} {n : Node},
        parse saddr g'.wrapped fuel w t toks = .ok (w', some n) →
        ∃ d', IsTree g' (·.kind) (.nonterm g.startSymbol) d' ∧
          (∀ s, Reads w' s n ↔ s = d'.mapNodes (·.actionKey)) ∧
          IsTree g (·.kind) (.nonterm g.startSymbol) (restore d') ∧ (restore d').yield = toks ∧
          ∀ d, IsTree g (·.kind) (.nonterm g.startSymbol) d → d.yield = toks → d = restore d' := by
  obtain ⟨restore, h1, h2, h3, -⟩ := nonnull_trees g hg addr ha fuel g' h
    (fun x : Token T V => x.kind)
  refine ⟨restore, h1, fun e p' cs hd => ?_, ?_⟩
  · obtain ⟨p, ds, a, b, c, -, d⟩ := h2 e p' cs hd
    exact ⟨p, ds, a, b, c, d⟩
  intro saddr hsa log w w' held hist t fuel' toks n hp
  have hs : g'.startSymbol = g.startSymbol := by
    obtain ⟨info, hn, rfl, -⟩ := transform_ok hg.valid.toWF h; rfl
  obtain ⟨d', a1, a2, a3⟩ := parse_one_tree (nonnull_accepted g addr fuel g' h) hsa hist
    (nonnull_unambiguous g hg addr ha fuel g' h hu) (nonnull_no_dead_ends g hg addr ha fuel g' h hd) hp
  rw [hs] at a1
  obtain ⟨b1, b2, -⟩ := h3 _ _ a1
  refine ⟨d', a1, a3, b1, b2.trans a2, fun d hd hy => ?_⟩
  have he := hu _ _ hd.mapLeaves b1.mapLeaves
    (by rw [DTree.yield_mapLeaves, DTree.yield_mapLeaves, hy, b2, a2])
  exact (DTree.eq_of_mapLeaves _ d (restore d') [] [] he (by rw [hy, b2, a2])).1
end parse

/-! ## Witness: `S → A 2;  A → ε | 1` -/
def optExample : Grammar Nat Nat Nat Unit :=
  ⟨0, [exRule 0 [(10, [.nonterm 1, .term 2])], exRule 1 [(11, []), (12, [.term 1])]]⟩

theorem optExample_accepted : optExample.Accepted :=
  ⟨20, 0, [⟨0, [.addProd 10 () [.addNonterm 1, .addTerm 2]]⟩,
    ⟨1, [.addProd 11 () [], .addProd 12 () [.addTerm 1]]⟩], by decide⟩

def optP1 : Prod Nat Nat Nat Unit := ⟨0, 0, ⟨10, (), [⟨none, .nonterm 1⟩, ⟨none, .term 2⟩]⟩⟩
def optP2 : Prod Nat Nat Nat Unit := ⟨1, 0, ⟨11, (), []⟩⟩
def optP3 : Prod Nat Nat Nat Unit := ⟨1, 1, ⟨12, (), [⟨none, .term 1⟩]⟩⟩
theorem optExample_prods : optExample.prods = [optP1, optP2, optP3] := rfl

theorem optExample_tree {t : DTree Nat (Prod Nat Nat Nat Unit)}
    (h : IsTree optExample id (.nonterm 0) t) : t = .node optP1 [.node optP2 [], .leaf 2] ∨
      t = .node optP1 [.node optP3 [.leaf 1], .leaf 2] := by
  generalize he : Elem.nonterm 0 = e at h
  cases h with
  | leaf l => cases he
  | node p cs hp hf =>
    injection he with he
    rw [optExample_prods] at hp
    simp only [List.mem_cons, List.not_mem_nil, or_false] at hp
    rcases hp with rfl | rfl | rfl
    · cases hf with
      | cons h1 h2 =>
        cases h2 with
        | cons h2 h3 =>
          cases h3
          cases h2 with
          | leaf l =>
            generalize he : Elem.nonterm 1 = e at h1
            cases h1 with
            | leaf l => cases he
            | node p cs hp hf =>
              injection he with he
              rw [optExample_prods] at hp
              simp only [List.mem_cons, List.not_mem_nil, or_false] at hp
              rcases hp with rfl | rfl | rfl
              · cases he
              · cases hf; exact Or.inl rfl
              · cases hf with
                | cons h1 h2 =>
                  cases h2
                  cases h1 with
                  | leaf l => exact Or.inr rfl
    · cases he
    · cases he

theorem optExample_unambiguous : optExample.Unambiguous := by
  intro t t' h h' hy
  rcases optExample_tree h with rfl | rfl <;> rcases optExample_tree h' with rfl | rfl
  · rfl
  · simp [DTree.yield, DTree.yields] at hy
  · simp [DTree.yield, DTree.yields] at hy
  · rfl

theorem optExample_noDeadEnds : optExample.NoDeadEnds := by
  have h1 : optExample.cfg.Yields [.nonterm 1] [] :=
    .nonterm (β := []) (w₁ := []) (w₂ := [])
      ⟨_, ⟨11, (), []⟩, List.mem_cons_of_mem _ (List.mem_cons_self ..), by simp [exRule], rfl⟩ .nil .nil
  have h0 : optExample.cfg.Yields [.nonterm 0] [2] :=
    .nonterm (β := [.nonterm 1, .term 2]) (w₁ := [2]) (w₂ := [])
      ⟨_, ⟨10, (), [⟨none, .nonterm 1⟩, ⟨none, .term 2⟩]⟩, List.mem_cons_self .., by simp [exRule], rfl⟩
      (h1.append (.term 2 .nil)) .nil
  have hsym : ∀ γ : List (Elem Nat Nat), (∀ A, Elem.nonterm A ∈ γ → A = 0 ∨ A = 1) →
      ∃ w : List Nat, optExample.cfg.Yields γ w := by
    intro γ
    induction γ with
    | nil => intro _; exact ⟨[], .nil⟩
    | cons e γ ih =>
      intro h
      obtain ⟨w, hw⟩ := ih (fun e he => h e (by simp [he]))
      cases e with
      | term a => exact ⟨a :: w, .term a hw⟩
      | nonterm A =>
        rcases h A (by simp) with rfl | rfl
        · exact ⟨[2] ++ w, h0.append hw⟩
        · exact ⟨[] ++ w, h1.append hw⟩
  intro γ h
  have : ∃ w : List Nat, optExample.cfg.Yields γ w := by
    apply hsym
    unfold Cfg.Derives at h
    induction h with
    | refl => intro A h; simp at h; cases h; exact Or.inl rfl
    | tail _ hs ih =>
      cases hs with
      | mk u v A β hp =>
        obtain ⟨q, hq, rfl, rfl⟩ := (Grammar.cfg_prod_iff optExample_accepted.valid.toWF).1 hp
        rw [optExample_prods] at hq
        simp only [List.mem_cons, List.not_mem_nil, or_false] at hq
        intro B hB
        simp only [List.mem_append] at hB
        rcases hB with (hB | hB) | hB
        · exact ih B (by simp [hB])
        · rcases hq with rfl | rfl | rfl
          · simp [optP1, Prod.elements, ProdInner.elems] at hB; exact Or.inr hB
          · simp [optP2, Prod.elements, ProdInner.elems] at hB
          · simp [optP3, Prod.elements, ProdInner.elems] at hB
        · exact ih B (by simp [hB])
  obtain ⟨w, hw⟩ := this
  exact ⟨w, Cfg.yields_iff.1 hw⟩

/-- Hypotheses of C100 are met: the transform of an unambiguous grammar succeeds, and the result parses
both `1 2` and `2`. -/
example : ∃ g', transformToNonnull 9 exampleAddr optExample = .ok (.ok g') ∧ optExample.Accepted ∧
    AddrInj optExample exampleAddr ∧ optExample.Unambiguous ∧ optExample.NoDeadEnds ∧
    (∃ I n, parse exampleSAddr g'.wrapped 9 (World.new : World Nat (NNActionKey Nat) Nat) 7
      (exampleToks [1, 2]) = .ok (World.new.set 7 I, some n)) ∧
    (∃ I n, parse exampleSAddr g'.wrapped 9 (World.new : World Nat (NNActionKey Nat) Nat) 7
      (exampleToks [2]) = .ok (World.new.set 7 I, some n)) :=
  ⟨_, rfl, optExample_accepted, exampleAddr_addrInj _, optExample_unambiguous, optExample_noDeadEnds,
    ⟨_, _, rfl⟩, ⟨_, _, rfl⟩⟩

/-- The hypothesis of `nonnull_unambiguous_iff` is met, and so is `Solid` by a tree with an empty part. -/
example : ∀ p ∈ optExample.prods, optExample.cfg.Derives p.elements [] → p.elements = [] := by
  intro p hp hd
  rw [optExample_prods] at hp
  simp only [List.mem_cons, List.not_mem_nil, or_false] at hp
  rcases hp with rfl | rfl | rfl
  · have := (Cfg.yields_iff (w := [])).2 hd
    obtain ⟨u, v, h1, -, h3⟩ := Cfg.yields_cons_nonterm_iff.1 this
    obtain ⟨w', rfl, -⟩ := Cfg.yields_cons_term_iff.1 h3
    simp at h1
  · rfl
  · have := (Cfg.yields_iff (w := [])).2 hd
    obtain ⟨w', h, -⟩ := Cfg.yields_cons_term_iff.1 this
    cases h
end Bongo
