import Verif.Proof.RightCut
import Verif.Props.RightNull
/-!
# C147: exactly the grammars for which transforming and then parsing is right, in general
-/
set_option linter.unusedSectionVars false
namespace Bongo
open Std

section
variable {T NT AK AV V : Type}
variable [Ord T] [Ord NT] [Ord AK] [Ord V] [DecidableEq T] [DecidableEq NT]
variable [TransOrd T] [TransOrd NT] [TransOrd AK] [TransOrd V]
variable [LawfulEqOrd T] [LawfulEqOrd NT] [LawfulEqOrd AK] [LawfulEqOrd V]
variable (g : Grammar T NT AK AV) (hg : g.Accepted) (addr : NT → Nat → Nat) (ha : AddrInj g addr) (fuel : Nat)
  (g' : NonNullGrammar T NT AK AV) (h : transformToNonnull fuel addr g = .ok (.ok g'))
  (ht : g.CutTrim)

include hg ha h ht in
/-- C147.  The derivation trees of the transformed grammar correspond (`restore`) to those of the
original that spell something and in which no production that can derive the empty text derives something.  `parse`
with the transformed grammar is right – for every text of the original, with productions that derive the empty text
made empty, that is not empty it returns a node from which exactly these trees of the text can be read – if and only
if the original with those productions made empty has neither of two faults: a production whose first elements, and
some more, derive the same text; a production whose first elements and the next one divide a text in two ways.  In both,
the two ways must agree on which elements are empty, and the further elements in the first must not all be. -/
theorem cut_right_exact [Nonempty V] :
    ∃ restore : DTree (Token T V) (NNProd T NT AK AV) → DTree (Token T V) (Prod T NT AK AV),
      (∀ l, restore (.leaf l) = .leaf l) ∧
      (∀ e p' cs, IsTree g' (·.kind) e (.node p' cs) → ∃ p ds, restore (.node p' cs) = .node p ds ∧
        p.head = p'.head ∧ p'.actionKey.action = p.actionKey ∧
        Refilled g (·.kind) p.prodElements p'.actionKey.ntNullableStates (cs.map restore) ds) ∧
      (∀ e₁ e₂ d₁ d₂, IsTree g' (·.kind) e₁ d₁ → IsTree g' (·.kind) e₂ d₂ → restore d₁ = restore d₂ → d₁ = d₂) ∧
      (∀ e d, IsTree g (·.kind) e d ∧ Solid g d ∧ d.yield ≠ [] ↔ ∃ d', IsTree g' (·.kind) e d' ∧ restore d' = d) ∧
      ∀ (saddr : StartNonTerminal NT → Nat → Nat), AddrInj g'.wrapped saddr →
      ∀ {log : TreeLog T (NNActionKey AK) V} {w : World T (NNActionKey AK) V} {held : List Handle},
        History log w held → ∀ t : Nat,
      ((∀ toks : List (Token T V), toks ≠ [] → g.cutNull.InLanguage (kinds toks) → ∃ N w₁ n,
          (∀ fuel, N ≤ fuel → parse saddr g'.wrapped fuel w t toks = .ok (w₁, some n)) ∧
          ∀ s, Reads w₁ s n ↔ ∃ d', IsTree g' (·.kind) (.nonterm g.startSymbol) d' ∧
            (restore d').yield = toks ∧ s = d'.mapNodes (·.actionKey)) ↔
        ¬ g.cutNull.OverlapsFilled ∧ ¬ g.cutNull.DividesFilled) := by
  obtain ⟨restore, h1, h2, h3, h4, h5⟩ := nonnull_trees g hg addr ha fuel g' h (fun x : Token T V => x.kind)
  refine ⟨restore, h1, fun e p' cs hd => ?_, h4, fun e d => ⟨fun ⟨a, b, c⟩ => h5 e d a b c, ?_⟩, ?_⟩
  · obtain ⟨p, ds, a, b, c, -, d⟩ := h2 e p' cs hd
    exact ⟨p, ds, a, b, c, d⟩
  · rintro ⟨d', a, rfl⟩
    obtain ⟨b1, b2, b3, b4⟩ := h3 e d' a
    exact ⟨b1, b4, b2 ▸ b3⟩
  intro saddr hsa log w held hist t
  have hs : g'.startSymbol = g.startSymbol := by
    obtain ⟨info, hn, rfl, -⟩ := transform_ok hg.valid.toWF h; rfl
  have hlang : ∀ u, g'.cfg.InLanguage u ↔ u ≠ [] ∧ g.cutNull.InLanguage u := by
    intro u
    have := nonnull_language_exact g hg addr ha fuel g' h g.startSymbol u
    unfold Cfg.InLanguage
    rw [show g'.cfg.start = g.startSymbol from hs]
    exact this
  have key := right_exact (nonnull_accepted g addr fuel g' h) hsa (cut_trim hg ha h ht) hist t (V := V)
  rw [cut_overlaps hg ha h, cut_divides hg ha h, hs] at key
  rw [show ¬ g.cutNull.OverlapsFilled ∧ ¬ g.cutNull.DividesFilled ↔ ¬ g'.cfg.InLanguage [] ∧ ¬ g.cutNull.OverlapsFilled ∧ ¬ g.cutNull.DividesFilled from
    ⟨fun k => ⟨fun k' => ((hlang []).1 k').1 rfl, k⟩, fun k => k.2⟩, ← key]
  have hy : ∀ d', IsTree g' (·.kind) (.nonterm g.startSymbol) d' → (restore d').yield = d'.yield :=
    fun d' hd => (h3 _ d' hd).2.1
  constructor
  · intro k toks hl
    obtain ⟨k1, k2⟩ := (hlang _).1 hl
    obtain ⟨N, w₁, n, k3, k4⟩ := k toks (by rintro rfl; exact k1 rfl) k2
    refine ⟨N, w₁, n, k3, fun s => (k4 s).trans (exists_congr fun d' => and_congr_right fun hd => ?_)⟩
    rw [hy d' hd]
  · intro k toks hne hl
    obtain ⟨N, w₁, n, k3, k4⟩ := k toks ((hlang _).2 ⟨by simpa [kinds] using hne, hl⟩)
    refine ⟨N, w₁, n, k3, fun s => (k4 s).trans (exists_congr fun d' => and_congr_right fun hd => ?_)⟩
    rw [hy d' hd]

include hg ha h ht in
/-- C147.  What happens otherwise: with the first fault `parse` panics on some text that is not empty; with the second
only, it returns for some text a node from which something can be read that does not spell the text. -/
theorem cut_wrong_exact [Nonempty V] {saddr : StartNonTerminal NT → Nat → Nat} (hsa : AddrInj g'.wrapped saddr)
    {log : TreeLog T (NNActionKey AK) V} {w : World T (NNActionKey AK) V} {held : List Handle}
    (hist : History log w held) (t : Nat) :
    ((∃ toks : List (Token T V), toks ≠ [] ∧ g.cutNull.InLanguage (kinds toks) ∧
      ∃ N, ∀ fuel, N ≤ fuel → parse saddr g'.wrapped fuel w t toks = .panic .lenMismatch) ↔ g.cutNull.OverlapsFilled) ∧
    ((∃ toks : List (Token T V), toks ≠ [] ∧ g.cutNull.InLanguage (kinds toks) ∧
      ((∃ N, ∀ fuel, N ≤ fuel → parse saddr g'.wrapped fuel w t toks = .panic .lenMismatch) ∨
        ∃ fuel w' n s, parse saddr g'.wrapped fuel w t toks = .ok (w', some n) ∧ Reads w' s n ∧ s.yield ≠ toks)) ↔
      g.cutNull.OverlapsFilled ∨ g.cutNull.DividesFilled) := by
  have hs : g'.startSymbol = g.startSymbol := by
    obtain ⟨info, hn, rfl, -⟩ := transform_ok hg.valid.toWF h; rfl
  have hlang : ∀ u, g'.cfg.InLanguage u ↔ u ≠ [] ∧ g.cutNull.InLanguage u := by
    intro u
    have := nonnull_language_exact g hg addr ha fuel g' h g.startSymbol u
    unfold Cfg.InLanguage
    rw [show g'.cfg.start = g.startSymbol from hs]
    exact this
  have hne : ∀ toks : List (Token T V), g'.cfg.InLanguage (kinds toks) ↔ toks ≠ [] ∧ g.cutNull.InLanguage (kinds toks) :=
    fun toks => by rw [hlang]; simp [kinds]
  have h0 : ¬ g'.cfg.InLanguage [] := fun k' => ((hlang []).1 k').1 rfl
  have k1 := fails_exact (nonnull_accepted g addr fuel g' h) hsa (cut_trim hg ha h ht) hist t (V := V)
  have k2 := wrong_exact (nonnull_accepted g addr fuel g' h) hsa (cut_trim hg ha h ht) hist t (V := V)
  rw [cut_overlaps hg ha h] at k1 k2
  rw [cut_divides hg ha h] at k2
  simp only [h0, false_or, hne, and_assoc] at k1 k2
  exact ⟨k1, k2⟩

include hg ha h ht in
/-- C147.  What `parse` with the transformed grammar does with any text, when there are no faults. -/
theorem cut_right_outcome [Nonempty V] (h1 : ¬ g.cutNull.OverlapsFilled) (h2 : ¬ g.cutNull.DividesFilled)
    {saddr : StartNonTerminal NT → Nat → Nat} (hsa : AddrInj g'.wrapped saddr)
    {log : TreeLog T (NNActionKey AK) V} {w : World T (NNActionKey AK) V} {held : List Handle}
    (hist : History log w held) (t : Nat) (toks : List (Token T V)) :
    ∃ N, (toks ≠ [] → g.cutNull.InLanguage (kinds toks) → ∃ w' n,
        ∀ fuel, N ≤ fuel → parse saddr g'.wrapped fuel w t toks = .ok (w', some n)) ∧
      (toks = [] ∨ ¬ g.cutNull.InLanguage (kinds toks) → (∃ z ≠ [], kinds toks <+: z ∧ g.cutNull.InLanguage z) →
        ∃ w', ∀ fuel, N ≤ fuel → parse saddr g'.wrapped fuel w t toks = .ok (w', none)) ∧
      ((¬ ∃ z ≠ [], kinds toks <+: z ∧ g.cutNull.InLanguage z) →
        ∀ fuel, N ≤ fuel → parse saddr g'.wrapped fuel w t toks = .panic .emptyState) := by
  have hs : g'.startSymbol = g.startSymbol := by
    obtain ⟨info, hn, rfl, -⟩ := transform_ok hg.valid.toWF h; rfl
  have hlang : ∀ u, g'.cfg.InLanguage u ↔ u ≠ [] ∧ g.cutNull.InLanguage u := by
    intro u
    have := nonnull_language_exact g hg addr ha fuel g' h g.startSymbol u
    unfold Cfg.InLanguage
    rw [show g'.cfg.start = g.startSymbol from hs]
    exact this
  obtain ⟨N, k1, k2, k3⟩ := right_outcome (nonnull_accepted g addr fuel g' h) hsa (cut_trim hg ha h ht) hist t
    (V := V) (fun k => ((hlang _).1 k).1 rfl) (by rwa [cut_overlaps hg ha h]) (by rwa [cut_divides hg ha h]) toks
  have hk : kinds toks = [] ↔ toks = [] := by simp [kinds]
  have hpre : (∃ z, kinds toks <+: z ∧ g'.cfg.InLanguage z) ↔ ∃ z ≠ [], kinds toks <+: z ∧ g.cutNull.InLanguage z := by
    refine exists_congr fun z => ?_
    rw [hlang]
    exact ⟨fun ⟨a, b, c⟩ => ⟨b, a, c⟩, fun ⟨b, a, c⟩ => ⟨a, b, c⟩⟩
  rw [hpre, hlang] at k2
  rw [hpre] at k3
  refine ⟨N, fun a b => ?_, fun a b => k2 (fun c => a.elim (fun d => c.1 (hk.2 d)) (fun d => d c.2)) b, k3⟩
  obtain ⟨w', n, c, -⟩ := k1 ((hlang _).2 ⟨fun d => a (hk.1 d), b⟩)
  exact ⟨w', n, c⟩

include hg ha h ht in
/-- C147.  Unambiguous grammars do not have the second fault. -/
theorem cut_not_dividesFilled_of_unambiguous (hu : g.Unambiguous) : ¬ g.cutNull.DividesFilled := by
  rw [← cut_divides hg ha h]
  have ha' := nonnull_accepted g addr fuel g' h
  exact not_divides_of_unambiguous ha'.valid.toWF (cut_trim hg ha h ht)
    (nonnull_unambiguous g hg addr ha fuel g' h hu)

include hg ha h ht in
/-- C147.  So `parse` with the transformed grammar finds every text of the original that is not empty, and is right for
those that it keeps, exactly if there are no faults and every text of the original that is not empty can also be
derived with the productions that derive the empty text made empty. -/
theorem cut_right_all [Nonempty V] {saddr : StartNonTerminal NT → Nat → Nat} (hsa : AddrInj g'.wrapped saddr)
    {log : TreeLog T (NNActionKey AK) V} {w : World T (NNActionKey AK) V} {held : List Handle}
    (hist : History log w held) (t : Nat) :
    (∀ toks : List (Token T V), toks ≠ [] → g.cfg.InLanguage (kinds toks) → ∃ N w₁ n,
        (∀ fuel, N ≤ fuel → parse saddr g'.wrapped fuel w t toks = .ok (w₁, some n)) ∧
        ∀ s, Reads w₁ s n ↔ ∃ d', IsTree g' (·.kind) (.nonterm g.startSymbol) d' ∧
          d'.yield = toks ∧ s = d'.mapNodes (·.actionKey)) ↔
      (∀ u ≠ [], g.cfg.InLanguage u → g.cutNull.InLanguage u) ∧ ¬ g.cutNull.OverlapsFilled ∧ ¬ g.cutNull.DividesFilled := by
  have hs : g'.startSymbol = g.startSymbol := by
    obtain ⟨info, hn, rfl, -⟩ := transform_ok hg.valid.toWF h; rfl
  have hlang : ∀ u, g'.cfg.InLanguage u ↔ u ≠ [] ∧ g.cutNull.InLanguage u := by
    intro u
    have := nonnull_language_exact g hg addr ha fuel g' h g.startSymbol u
    unfold Cfg.InLanguage
    rw [show g'.cfg.start = g.startSymbol from hs]
    exact this
  have hk : ∀ toks : List (Token T V), kinds toks ≠ [] ↔ toks ≠ [] := fun toks => by simp [kinds]
  have key := right_exact (nonnull_accepted g addr fuel g' h) hsa (cut_trim hg ha h ht) hist t (V := V)
  rw [cut_overlaps hg ha h, cut_divides hg ha h, hs] at key
  have h0 : ¬ g'.cfg.InLanguage [] := fun k => ((hlang _).1 k).1 rfl
  have hsub : ∀ u, g.cutNull.InLanguage u → g.cfg.InLanguage u := fun u hu =>
    Cfg.yields_iff.1 (cut_yields_sub (Cfg.yields_iff.2 hu))
  constructor
  · intro k
    have nf := (key.1 fun toks h1 => k toks ((hk _).1 ((hlang _).1 h1).1) (hsub _ ((hlang _).1 h1).2)).2
    refine ⟨fun u hu hl => ?_, nf⟩
    obtain ⟨v⟩ := ‹Nonempty V›
    have hk : kinds (u.map fun t => (⟨t, v⟩ : Token T V)) = u := by simp [kinds, Function.comp_def]
    obtain ⟨N, w₁, n, k1, -⟩ := k (u.map fun t => (⟨t, v⟩ : Token T V)) (by simpa using hu) (by rwa [hk])
    by_contra hc
    obtain ⟨M, -, m1, m2⟩ := cut_right_outcome g hg addr ha fuel g' h ht nf.1 nf.2 hsa hist t
      (u.map fun t => (⟨t, v⟩ : Token T V))
    rw [hk] at m1 m2
    have e1 := k1 (max N M) (by omega)
    by_cases hv : ∃ z ≠ [], u <+: z ∧ g.cutNull.InLanguage z
    · obtain ⟨w', m1⟩ := m1 (.inr hc) hv
      rw [m1 (max N M) (by omega)] at e1
      cases e1
    · rw [m2 hv (max N M) (by omega)] at e1
      cases e1
  · rintro ⟨k1, k2⟩ toks h1 h2
    exact key.2 ⟨h0, k2⟩ toks ((hlang _).2 ⟨(hk _).2 h1, k1 _ ((hk _).2 h1) h2⟩)

include hg ha h ht in
/-- C147.  The grammars of C138 have neither. -/
theorem cut_ll1null_no_faults (hl : g.LL1Null) : ¬ g.cutNull.OverlapsFilled ∧ ¬ g.cutNull.DividesFilled := by
  rw [← cut_divides hg ha h, ← cut_overlaps hg ha h]
  exact (separated_no_faults (nonnull_accepted g addr fuel g' h) (cut_trim hg ha h ht)
    (factored_separated (nonnull_accepted g addr fuel g' h) (ll1null_factored g hg addr ha fuel g' h hl).1)).2

include hg in
/-- C147.  The grammars of C143 are among those of C147, and the faults are the same there. -/
theorem cutTrim_of_trim (he : ∀ p ∈ g.prods, g.cfg.Derives p.elements [] → p.elements = []) (ht : g.Trim) :
    g.CutTrim ∧ (g.cutNull.OverlapsFilled ↔ g.OverlapsFilled) ∧ (g.cutNull.DividesFilled ↔ g.DividesFilled) ∧
      ∀ u, g.cutNull.InLanguage u ↔ g.cfg.InLanguage u := by
  have hw := hg.valid.toWF
  have hd := cutNull_derives_iff g hg he
  have hd' : ∀ a b, g.cutNull.Derives a b = g.cfg.Derives a b := fun a b => propext (hd a b)
  have hp : ∀ A β, g.cutNull.prod A β ↔ g.cfg.prod A β := by
    intro A β
    constructor
    · rintro (⟨k, -⟩ | ⟨rfl, k⟩)
      · exact k
      · obtain ⟨β, k1, k2⟩ := Cfg.generates_iff.1 k
        obtain ⟨p, hp, rfl, rfl⟩ := (Grammar.cfg_prod_iff hw).1 k1
        have := he p hp ((Cfg.yields_iff (w := [])).1 k2)
        rwa [this] at k1
    · intro k
      by_cases hn : g.cfg.Derives β []
      · obtain ⟨p, hp, rfl, rfl⟩ := (Grammar.cfg_prod_iff hw).1 k
        have h0 := he p hp hn
        rw [h0] at k ⊢
        exact .inr ⟨rfl, Cfg.generates_iff.2 ⟨_, k, .nil⟩⟩
      · exact .inl ⟨k, hn⟩
  have hf : ∀ β us, g.cutNull.Fills β us ↔ g.cfg.Fills β us := by
    intro β us
    unfold Cfg.Fills
    simp only [hd']
  refine ⟨⟨fun p hp _ => ?_, ht.noDeadEnds⟩, ?_, ?_, fun u => hd _ _⟩
  · simp only [hd']
    exact ht.reached _ _ ((Grammar.cfg_prod_iff hw).2 ⟨p, hp, rfl, rfl⟩)
  · unfold Cfg.OverlapsFilled Grammar.OverlapsFilled
    simp only [hp, hf]
  · unfold Cfg.DividesFilled Grammar.DividesFilled
    simp only [hp, hf]

omit [Ord T] [Ord NT] [Ord AK] [Ord V] [DecidableEq T] [DecidableEq NT]
  [TransOrd T] [TransOrd NT] [TransOrd AK] [TransOrd V]
  [LawfulEqOrd T] [LawfulEqOrd NT] [LawfulEqOrd AK] [LawfulEqOrd V] in
/-- C147.  Neither fault occurs in grammars in which an element of a production derives at most one text that is not empty. -/
theorem Cfg.no_faults_of_fixed {G : Cfg T NT} (hf : ∀ A β, G.prod A β → ∀ e ∈ β, ∀ u u' : List T, u ≠ [] → u' ≠ [] →
    G.Derives [e] (u.map .term) → G.Derives [e] (u'.map .term) → u = u') :
    ¬ G.OverlapsFilled ∧ ¬ G.DividesFilled := by
  have key : ∀ {β : List (Elem T NT)}, (∀ e ∈ β, ∀ u u' : List T, u ≠ [] → u' ≠ [] →
      G.Derives [e] (u.map .term) → G.Derives [e] (u'.map .term) → u = u') →
      ∀ {us vs : List (List T)}, G.Fills β us → G.Fills β vs → us.map List.isEmpty <+: vs.map List.isEmpty →
      us <+: vs := by
    intro β
    induction β with
    | nil =>
      intro _ us vs h1 _ _
      unfold Cfg.Fills at h1
      cases us with
      | nil => simp
      | cons u us => simp at h1
    | cons e β ih =>
      intro hf us vs h1 h2 h3
      unfold Cfg.Fills at h1 h2
      cases us with
      | nil => simp
      | cons u us =>
        cases vs with
        | nil => simp at h3
        | cons v vs =>
          simp only [List.map_cons, List.cons_prefix_cons] at h3
          simp only [List.length_cons, List.take_succ_cons, List.forall₂_cons] at h1 h2
          rw [List.cons_prefix_cons]
          refine ⟨?_, ih (fun e he => hf e (List.mem_cons_of_mem _ he)) h1.2 h2.2 h3.2⟩
          by_cases hu : u = []
          · subst hu
            have : v = [] := by simpa using h3.1.symm
            rw [this]
          · exact hf e List.mem_cons_self u v hu (by rintro rfl; simp [hu] at h3) h1.1 h2.1
  constructor
  · rintro ⟨A, β, us, vs, hp, h1, h2, h3, h4, v, hv, hne⟩
    obtain ⟨t, rfl⟩ := key (hf A β hp) h1 h2 h3
    rw [List.drop_left' rfl] at hv
    rw [List.flatten_append, List.self_eq_append_right] at h4
    exact hne (List.flatten_eq_nil_iff.1 h4 v hv)
  · rintro ⟨A, β, us, u, vs, v, hp, h1, h2, h3, -, h5⟩
    have h6 := (key (hf A β hp) h1 h2 (by rw [h3])).eq_of_length (by simpa using congrArg List.length h3)
    exact h5 (by rw [(List.append_inj' h6 rfl).1])
end

/-! ## Witness: `S → A A B 2;  A → B | 1;  B → ε | 3` -/
def cutExample : Grammar Nat Nat Nat Unit :=
  ⟨0, [exRule 0 [(10, [.nonterm 1, .nonterm 1, .nonterm 2, .term 2])], exRule 1 [(11, [.nonterm 2]), (12, [.term 1])],
    exRule 2 [(13, []), (14, [.term 3])]]⟩

theorem cutExample_accepted : cutExample.Accepted :=
  ⟨20, 0, [⟨0, [.addProd 10 () [.addNonterm 1, .addNonterm 1, .addNonterm 2, .addTerm 2]]⟩,
    ⟨1, [.addProd 11 () [.addNonterm 2], .addProd 12 () [.addTerm 1]]⟩,
    ⟨2, [.addProd 13 () [], .addProd 14 () [.addTerm 3]]⟩], by decide⟩

theorem cutExample_prod {A : Nat} {β} : cutExample.cfg.prod A β ↔
    (A = 0 ∧ β = [.nonterm 1, .nonterm 1, .nonterm 2, .term 2]) ∨ (A = 1 ∧ β = [.nonterm 2]) ∨ (A = 1 ∧ β = [.term 1]) ∨
    (A = 2 ∧ β = []) ∨ (A = 2 ∧ β = [.term 3]) := by
  simp [cutExample, Grammar.cfg, exRule, or_and_right, exists_or, and_assoc]
  grind

theorem cutExample_nulls : cutExample.cfg.Derives [.nonterm 2] [] ∧ cutExample.cfg.Derives [.nonterm 1] [] := by
  have h2 : cutExample.cfg.Derives [.nonterm 2] [] := Cfg.derives_prod (cutExample_prod.2 (by simp))
  exact ⟨h2, (Cfg.derives_prod (cutExample_prod.2 (by simp))).trans h2⟩

theorem not_derives_nil_of_term {T NT : Type} {G : Cfg T NT} {s s' : List (Elem T NT)} {t : T} :
    ¬ G.Derives (s ++ .term t :: s') [] := by
  intro h
  obtain ⟨c₁, c₂, h1, -, h3⟩ := h.split
  have h3' : G.Derives ([.term t] ++ s') c₂ := h3
  obtain ⟨c₃, c₄, h4, h5, -⟩ := h3'.split
  have := Cfg.derives_terms (t := [t]) h5
  subst this
  subst h4
  simp at h1

theorem cutExample_cut {A : Nat} {β} : cutExample.cutNull.prod A β ↔
    (A = 0 ∧ β = [.nonterm 1, .nonterm 1, .nonterm 2, .term 2]) ∨ (A = 1 ∧ β = []) ∨ (A = 1 ∧ β = [.term 1]) ∨
    (A = 2 ∧ β = []) ∨ (A = 2 ∧ β = [.term 3]) := by
  have t0 : ¬ cutExample.cfg.Derives [.nonterm 1, .nonterm 1, .nonterm 2, .term 2] [] :=
    not_derives_nil_of_term (s := [.nonterm 1, .nonterm 1, .nonterm 2]) (s' := [])
  have t1 : ∀ a : Nat, ¬ cutExample.cfg.Derives [.term a] [] := fun a => not_derives_nil_of_term (s := []) (s' := [])
  constructor
  · rintro (⟨h, hn⟩ | ⟨rfl, h⟩)
    · rcases cutExample_prod.1 h with ⟨rfl, rfl⟩ | ⟨rfl, rfl⟩ | ⟨rfl, rfl⟩ | ⟨rfl, rfl⟩ | ⟨rfl, rfl⟩
      · simp
      · exact absurd cutExample_nulls.1 hn
      · simp
      · exact absurd (.refl _) hn
      · simp
    · obtain ⟨β, h1, h2⟩ := Cfg.generates_iff.1 h
      have h2 := (Cfg.yields_iff (w := [])).1 h2
      rcases cutExample_prod.1 h1 with ⟨rfl, rfl⟩ | ⟨rfl, rfl⟩ | ⟨rfl, rfl⟩ | ⟨rfl, rfl⟩ | ⟨rfl, rfl⟩
      · exact absurd h2 t0
      · simp
      · simp
      · simp
      · simp
  · rintro (⟨rfl, rfl⟩ | ⟨rfl, rfl⟩ | ⟨rfl, rfl⟩ | ⟨rfl, rfl⟩ | ⟨rfl, rfl⟩)
    · exact .inl ⟨cutExample_prod.2 (by simp), t0⟩
    · exact .inr ⟨rfl, cutExample_nulls.2⟩
    · exact .inl ⟨cutExample_prod.2 (by simp), t1 1⟩
    · exact .inr ⟨rfl, cutExample_nulls.1⟩
    · exact .inl ⟨cutExample_prod.2 (by simp), t1 3⟩

theorem cutExample_trim : cutExample.CutTrim := by
  have h0 : cutExample.cutNull.Derives [.nonterm 0] [.nonterm 1, .nonterm 1, .nonterm 2, .term 2] :=
    Cfg.derives_prod (cutExample_cut.2 (by simp))
  constructor
  · intro p hp _
    have hp' := (Grammar.cfg_prod_iff cutExample_accepted.valid.toWF).2 ⟨p, hp, rfl, rfl⟩
    rcases cutExample_prod.1 hp' with ⟨h, -⟩ | ⟨h, -⟩ | ⟨h, -⟩ | ⟨h, -⟩ | ⟨h, -⟩ <;> rw [h]
    · exact ⟨[], [], .refl _⟩
    · exact ⟨[], _, h0⟩
    · exact ⟨[], _, h0⟩
    · exact ⟨[.nonterm 1, .nonterm 1], [.term 2], h0⟩
    · exact ⟨[.nonterm 1, .nonterm 1], [.term 2], h0⟩
  · refine noDeadEnds_of (fun A => A = 0 ∨ A = 1 ∨ A = 2) (Or.inl rfl) ?_ ?_
    · intro A β hp B hB
      rcases cutExample_prod.1 hp with ⟨-, rfl⟩ | ⟨-, rfl⟩ | ⟨-, rfl⟩ | ⟨-, rfl⟩ | ⟨-, rfl⟩ <;> simp at hB <;> omega
    · rintro A (rfl | rfl | rfl)
      · exact ⟨[2], (Cfg.derives_prod (cutExample_prod.2 (Or.inl ⟨rfl, rfl⟩))).trans
          (cutExample_nulls.2.append (cutExample_nulls.2.append (cutExample_nulls.1.append
            (Cfg.Derives.refl (G := cutExample.cfg) [.term 2]))))⟩
      · exact ⟨[], cutExample_nulls.2⟩
      · exact ⟨[], cutExample_nulls.1⟩

theorem cutExample_no_faults : ¬ cutExample.cutNull.OverlapsFilled ∧ ¬ cutExample.cutNull.DividesFilled := by
  refine Cfg.no_faults_of_fixed fun A β hp e he u u' hu hu' h1 h2 => ?_
  have hA : ∀ {B a : Nat}, (B = 1 ∧ a = 1) ∨ (B = 2 ∧ a = 3) → ∀ {v : List Nat}, v ≠ [] →
      cutExample.cutNull.Derives [.nonterm B] (v.map .term) → v = [a] := by
    intro B a hB v hv h
    rcases Cfg.derives_nonterm h with h | ⟨β, h, h'⟩
    · cases v <;> simp at h
    · rcases cutExample_cut.1 h with ⟨h, rfl⟩ | ⟨h, rfl⟩ | ⟨h, rfl⟩ | ⟨h, rfl⟩ | ⟨h, rfl⟩
      · omega
      · exact absurd (terms_only (u := []) h') hv
      · obtain rfl : a = 1 := by omega
        exact terms_only (u := [1]) h'
      · exact absurd (terms_only (u := []) h') hv
      · obtain rfl : a = 3 := by omega
        exact terms_only (u := [3]) h'
  have ht : ∀ {a : Nat} {v : List Nat}, cutExample.cutNull.Derives [.term a] (v.map .term) → v = [a] :=
    fun {a v} h => terms_only (u := [a]) h
  rcases cutExample_cut.1 hp with ⟨-, rfl⟩ | ⟨-, rfl⟩ | ⟨-, rfl⟩ | ⟨-, rfl⟩ | ⟨-, rfl⟩
  · simp only [List.mem_cons, List.not_mem_nil, or_false, or_self_left] at he
    rcases he with rfl | rfl | rfl
    · rw [hA (a := 1) (by simp) hu h1, hA (a := 1) (by simp) hu' h2]
    · rw [hA (a := 3) (by simp) hu h1, hA (a := 3) (by simp) hu' h2]
    · rw [ht h1, ht h2]
  · cases he
  · simp only [List.mem_cons, List.not_mem_nil, or_false] at he
    subst he
    rw [ht h1, ht h2]
  · cases he
  · simp only [List.mem_cons, List.not_mem_nil, or_false] at he
    subst he
    rw [ht h1, ht h2]

theorem cutExample_transforms : ∃ g', transformToNonnull 9 exampleAddr cutExample = .ok (.ok g') ∧
    (∃ I n, parse exampleSAddr g'.wrapped 9 (World.new : World Nat (NNActionKey Nat) Nat) 7 (exampleToks [1, 3, 2]) =
      .ok (World.new.set 7 I, some n)) ∧
    parse exampleSAddr g'.wrapped 9 (World.new : World Nat (NNActionKey Nat) Nat) 7 (exampleToks [3, 3, 2]) =
      .panic .emptyState :=
  ⟨_, rfl, ⟨_, _, rfl⟩, rfl⟩

/-- The hypotheses of `cut_right_exact` are met by a grammar with a production `A → B` that derives the empty text
though it is not empty.  `3 3 2` is a text of the grammar only with `A → B` deriving `3`, and so it is lost. -/
example : cutExample.CutTrim ∧ (¬ cutExample.cutNull.OverlapsFilled ∧ ¬ cutExample.cutNull.DividesFilled) ∧
    (¬ ∀ p ∈ cutExample.prods, cutExample.cfg.Derives p.elements [] → p.elements = []) ∧
    cutExample.cfg.InLanguage [3, 3, 2] ∧
    (∃ g', transformToNonnull 9 exampleAddr cutExample = .ok (.ok g') ∧
      (∃ restore : DTree (Token Nat Nat) (NNProd Nat Nat Nat Unit) → DTree (Token Nat Nat) (Prod Nat Nat Nat Unit),
      ∀ toks : List (Token Nat Nat), toks ≠ [] → cutExample.cutNull.InLanguage (kinds toks) → ∃ N w₁ n,
        (∀ fuel, N ≤ fuel → parse exampleSAddr g'.wrapped fuel World.new 7 toks = .ok (w₁, some n)) ∧
        ∀ s, Reads w₁ s n ↔ ∃ d', IsTree g' (·.kind) (.nonterm 0) d' ∧
          (restore d').yield = toks ∧ s = d'.mapNodes (·.actionKey)) ∧
      parse exampleSAddr g'.wrapped 9 (World.new : World Nat (NNActionKey Nat) Nat) 7 (exampleToks [3, 3, 2]) =
        .panic .emptyState) := by
  obtain ⟨g', h, -, h'⟩ := cutExample_transforms
  obtain ⟨restore, -, -, -, -, h5⟩ := cut_right_exact (V := Nat) cutExample cutExample_accepted exampleAddr
    (exampleAddr_addrInj _) 9 g' h cutExample_trim
  refine ⟨cutExample_trim, cutExample_no_faults, fun k => ?_, ?_, g', h, ⟨restore,
    (h5 exampleSAddr (exampleSAddr_addrInj _) .start 7).2 cutExample_no_faults⟩, h'⟩
  · obtain ⟨p, hp, -, he⟩ := (Grammar.cfg_prod_iff cutExample_accepted.valid.toWF).1
      (cutExample_prod.2 (Or.inr (Or.inl ⟨rfl, rfl⟩)))
    have := k p hp (he ▸ cutExample_nulls.1)
    rw [he] at this
    cases this
  · have p3 : cutExample.cfg.Derives [.nonterm 2] [.term 3] := Cfg.derives_prod (cutExample_prod.2 (by simp))
    have a3 : cutExample.cfg.Derives [.nonterm 1] [.term 3] :=
      (Cfg.derives_prod (cutExample_prod.2 (by simp))).trans p3
    exact (Cfg.derives_prod (cutExample_prod.2 (Or.inl ⟨rfl, rfl⟩))).trans
      (a3.append (a3.append (cutExample_nulls.1.append (Cfg.Derives.refl (G := cutExample.cfg) [.term 2]))))
end Bongo
