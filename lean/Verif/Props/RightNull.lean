import Verif.Proof.RightNull
import Verif.Props.LL1Null
/-!
# C143: exactly the grammars for which transforming and then parsing is right
-/
set_option linter.unusedSectionVars false
namespace Bongo
open Std

section
variable {T NT AK AV V : Type}
variable [Ord T] [Ord NT] [Ord AK] [Ord V] [DecidableEq T] [DecidableEq NT]
variable [TransOrd T] [TransOrd NT] [TransOrd AK] [TransOrd V]
variable [LawfulEqOrd T] [LawfulEqOrd NT] [LawfulEqOrd AK] [LawfulEqOrd V]
variable (g : Grammar T NT AK AV) (hg : g.Accepted) (addr : NT → Nat → Nat) (ha : AddrInj g addr) (fuel : Nat)
  (g' : NonNullGrammar T NT AK AV) (h : transformToNonnull fuel addr g = .ok (.ok g'))
  (he : ∀ p ∈ g.prods, g.cfg.Derives p.elements [] → p.elements = []) (ht : g.Trim)

include hg ha h he in
theorem nonnull_language_plain (A : NT) (u : List T) : g'.cfg.Generates A u ↔ u ≠ [] ∧ g.cfg.Generates A u :=
  nonnull_derives_elem hg ha h he (.nonterm A) u

include hg ha h he ht in
/-- C143.  Let only empty productions derive the empty text.  The derivation trees of the transformed grammar and those
of the original that spell something correspond to each other (`restore`).  `parse` with the transformed grammar is
right – for every text of the original that is not empty it returns a node from which exactly the trees of the text
can be read – if and only if the original has neither of two faults: a production whose first elements, and some more,
derive the same text; a production whose first elements and the next one divide a text in two ways.  In both, the
two ways must agree on which elements are empty, and the further elements in the first must not all be. -/
theorem nonnull_right_exact [Nonempty V] :
    ∃ restore : DTree (Token T V) (NNProd T NT AK AV) → DTree (Token T V) (Prod T NT AK AV),
      (∀ l, restore (.leaf l) = .leaf l) ∧
      (∀ e p' cs, IsTree g' (·.kind) e (.node p' cs) → ∃ p ds, restore (.node p' cs) = .node p ds ∧
        p.head = p'.head ∧ p'.actionKey.action = p.actionKey ∧
        Refilled g (·.kind) p.prodElements p'.actionKey.ntNullableStates (cs.map restore) ds) ∧
      (∀ e₁ e₂ d₁ d₂, IsTree g' (·.kind) e₁ d₁ → IsTree g' (·.kind) e₂ d₂ → restore d₁ = restore d₂ → d₁ = d₂) ∧
      (∀ e d, IsTree g (·.kind) e d ∧ d.yield ≠ [] ↔ ∃ d', IsTree g' (·.kind) e d' ∧ restore d' = d) ∧
      ∀ (saddr : StartNonTerminal NT → Nat → Nat), AddrInj g'.wrapped saddr →
      ∀ {log : TreeLog T (NNActionKey AK) V} {w : World T (NNActionKey AK) V} {held : List Handle},
        History log w held → ∀ t : Nat,
      ((∀ toks : List (Token T V), toks ≠ [] → g.cfg.InLanguage (kinds toks) → ∃ N w₁ n,
          (∀ fuel, N ≤ fuel → parse saddr g'.wrapped fuel w t toks = .ok (w₁, some n)) ∧
          ∀ s, Reads w₁ s n ↔ ∃ d', IsTree g' (·.kind) (.nonterm g.startSymbol) d' ∧
            (restore d').yield = toks ∧ s = d'.mapNodes (·.actionKey)) ↔
        ¬ g.OverlapsFilled ∧ ¬ g.DividesFilled) := by
  obtain ⟨restore, h1, h2, h3, h4, h5⟩ := nonnull_trees g hg addr ha fuel g' h (fun x : Token T V => x.kind)
  refine ⟨restore, h1, fun e p' cs hd => ?_, h4, fun e d => ⟨fun ⟨a, b⟩ => h5 e d a (solid_of_plain g he _ d e a) b, ?_⟩, ?_⟩
  · obtain ⟨p, ds, a, b, c, -, d⟩ := h2 e p' cs hd
    exact ⟨p, ds, a, b, c, d⟩
  · rintro ⟨d', a, rfl⟩
    obtain ⟨b1, b2, b3, -⟩ := h3 e d' a
    exact ⟨b1, b2 ▸ b3⟩
  intro saddr hsa log w held hist t
  have hs : g'.startSymbol = g.startSymbol := by
    obtain ⟨info, hn, rfl, -⟩ := transform_ok hg.valid.toWF h; rfl
  have hlang : ∀ u, g'.cfg.InLanguage u ↔ u ≠ [] ∧ g.cfg.InLanguage u := by
    intro u
    have := nonnull_language_plain g hg addr ha fuel g' h he g.startSymbol u
    unfold Cfg.InLanguage
    rw [show g'.cfg.start = g.startSymbol from hs]
    exact this
  have key := right_exact (nonnull_accepted g addr fuel g' h) hsa (nonnull_trim hg ha h he ht) hist t (V := V)
  rw [nonnull_overlaps hg ha h he, nonnull_divides hg ha h he, hs] at key
  rw [show ¬ g.OverlapsFilled ∧ ¬ g.DividesFilled ↔ ¬ g'.cfg.InLanguage [] ∧ ¬ g.OverlapsFilled ∧ ¬ g.DividesFilled from
    ⟨fun k => ⟨fun k' => ((hlang []).1 k').1 rfl, k⟩, fun k => k.2⟩, ← key]
  have hy : ∀ d', IsTree g' (·.kind) (.nonterm g.startSymbol) d' → (restore d').yield = d'.yield :=
    fun d' hd => (h3 _ d' hd).2.1
  constructor
  · intro k toks hl
    obtain ⟨k1, k2⟩ := (hlang _).1 hl
    obtain ⟨N, w₁, n, k3, k4⟩ := k toks (by rintro rfl; exact k1 rfl) k2
    refine ⟨N, w₁, n, k3, fun s => (k4 s).trans (exists_congr fun d' => and_congr_right fun hd => ?_)⟩
    rw [hy d' hd]
  · intro k toks hne hl
    obtain ⟨N, w₁, n, k3, k4⟩ := k toks ((hlang _).2 ⟨by simpa [kinds] using hne, hl⟩)
    refine ⟨N, w₁, n, k3, fun s => (k4 s).trans (exists_congr fun d' => and_congr_right fun hd => ?_)⟩
    rw [hy d' hd]

include hg ha h he ht in
/-- C143.  What happens otherwise: with the first fault `parse` panics on some text that is not empty; with the second
only, it returns for some text a node from which something can be read that does not spell the text. -/
theorem nonnull_wrong_exact [Nonempty V] {saddr : StartNonTerminal NT → Nat → Nat} (hsa : AddrInj g'.wrapped saddr)
    {log : TreeLog T (NNActionKey AK) V} {w : World T (NNActionKey AK) V} {held : List Handle}
    (hist : History log w held) (t : Nat) :
    ((∃ toks : List (Token T V), toks ≠ [] ∧ g.cfg.InLanguage (kinds toks) ∧
      ∃ N, ∀ fuel, N ≤ fuel → parse saddr g'.wrapped fuel w t toks = .panic .lenMismatch) ↔ g.OverlapsFilled) ∧
    ((∃ toks : List (Token T V), toks ≠ [] ∧ g.cfg.InLanguage (kinds toks) ∧
      ((∃ N, ∀ fuel, N ≤ fuel → parse saddr g'.wrapped fuel w t toks = .panic .lenMismatch) ∨
        ∃ fuel w' n s, parse saddr g'.wrapped fuel w t toks = .ok (w', some n) ∧ Reads w' s n ∧ s.yield ≠ toks)) ↔
      g.OverlapsFilled ∨ g.DividesFilled) := by
  have hs : g'.startSymbol = g.startSymbol := by
    obtain ⟨info, hn, rfl, -⟩ := transform_ok hg.valid.toWF h; rfl
  have hlang : ∀ u, g'.cfg.InLanguage u ↔ u ≠ [] ∧ g.cfg.InLanguage u := by
    intro u
    have := nonnull_language_plain g hg addr ha fuel g' h he g.startSymbol u
    unfold Cfg.InLanguage
    rw [show g'.cfg.start = g.startSymbol from hs]
    exact this
  have hne : ∀ toks : List (Token T V), g'.cfg.InLanguage (kinds toks) ↔ toks ≠ [] ∧ g.cfg.InLanguage (kinds toks) :=
    fun toks => by rw [hlang]; simp [kinds]
  have h0 : ¬ g'.cfg.InLanguage [] := fun k' => ((hlang []).1 k').1 rfl
  have k1 := fails_exact (nonnull_accepted g addr fuel g' h) hsa (nonnull_trim hg ha h he ht) hist t (V := V)
  have k2 := wrong_exact (nonnull_accepted g addr fuel g' h) hsa (nonnull_trim hg ha h he ht) hist t (V := V)
  rw [nonnull_overlaps hg ha h he] at k1 k2
  rw [nonnull_divides hg ha h he] at k2
  simp only [h0, false_or, hne, and_assoc] at k1 k2
  exact ⟨k1, k2⟩

include hg ha h he ht in
/-- C143.  What `parse` with the transformed grammar does with any text, when there are no faults. -/
theorem nonnull_right_outcome [Nonempty V] (h1 : ¬ g.OverlapsFilled) (h2 : ¬ g.DividesFilled)
    {saddr : StartNonTerminal NT → Nat → Nat} (hsa : AddrInj g'.wrapped saddr)
    {log : TreeLog T (NNActionKey AK) V} {w : World T (NNActionKey AK) V} {held : List Handle}
    (hist : History log w held) (t : Nat) (toks : List (Token T V)) :
    ∃ N, (toks ≠ [] → g.cfg.InLanguage (kinds toks) → ∃ w' n,
        ∀ fuel, N ≤ fuel → parse saddr g'.wrapped fuel w t toks = .ok (w', some n)) ∧
      (toks = [] ∨ ¬ g.cfg.InLanguage (kinds toks) → (∃ z ≠ [], kinds toks <+: z ∧ g.cfg.InLanguage z) →
        ∃ w', ∀ fuel, N ≤ fuel → parse saddr g'.wrapped fuel w t toks = .ok (w', none)) ∧
      ((¬ ∃ z ≠ [], kinds toks <+: z ∧ g.cfg.InLanguage z) →
        ∀ fuel, N ≤ fuel → parse saddr g'.wrapped fuel w t toks = .panic .emptyState) := by
  have hs : g'.startSymbol = g.startSymbol := by
    obtain ⟨info, hn, rfl, -⟩ := transform_ok hg.valid.toWF h; rfl
  have hlang : ∀ u, g'.cfg.InLanguage u ↔ u ≠ [] ∧ g.cfg.InLanguage u := by
    intro u
    have := nonnull_language_plain g hg addr ha fuel g' h he g.startSymbol u
    unfold Cfg.InLanguage
    rw [show g'.cfg.start = g.startSymbol from hs]
    exact this
  obtain ⟨N, k1, k2, k3⟩ := right_outcome (nonnull_accepted g addr fuel g' h) hsa (nonnull_trim hg ha h he ht) hist t
    (V := V) (fun k => ((hlang _).1 k).1 rfl) (by rwa [nonnull_overlaps hg ha h he]) (by rwa [nonnull_divides hg ha h he]) toks
  have hk : kinds toks = [] ↔ toks = [] := by simp [kinds]
  have hpre : (∃ z, kinds toks <+: z ∧ g'.cfg.InLanguage z) ↔ ∃ z ≠ [], kinds toks <+: z ∧ g.cfg.InLanguage z := by
    refine exists_congr fun z => ?_
    rw [hlang]
    exact ⟨fun ⟨a, b, c⟩ => ⟨b, a, c⟩, fun ⟨b, a, c⟩ => ⟨a, b, c⟩⟩
  rw [hpre, hlang] at k2
  rw [hpre] at k3
  refine ⟨N, fun a b => ?_, fun a b => k2 (fun c => a.elim (fun d => c.1 (hk.2 d)) (fun d => d c.2)) b, k3⟩
  obtain ⟨w', n, c, -⟩ := k1 ((hlang _).2 ⟨fun d => a (hk.1 d), b⟩)
  exact ⟨w', n, c⟩

include hg ha h he ht in
/-- C143.  Unambiguous grammars do not have the second fault. -/
theorem not_dividesFilled_of_unambiguous (hu : g.Unambiguous) : ¬ g.DividesFilled := by
  rw [← nonnull_divides hg ha h he]
  have ha' := nonnull_accepted g addr fuel g' h
  exact not_divides_of_unambiguous ha'.valid.toWF (nonnull_trim hg ha h he ht)
    (nonnull_unambiguous g hg addr ha fuel g' h hu)

include hg ha h he ht in
/-- C143.  The trimmed grammars of C138 have neither. -/
theorem ll1null_no_faults (hl : g.LL1Null) : ¬ g.OverlapsFilled ∧ ¬ g.DividesFilled := by
  rw [← nonnull_divides hg ha h he, ← nonnull_overlaps hg ha h he]
  exact (separated_no_faults (nonnull_accepted g addr fuel g' h) (nonnull_trim hg ha h he ht)
    (factored_separated (nonnull_accepted g addr fuel g' h) (ll1null_factored g hg addr ha fuel g' h hl).1)).2

/-- C143.  Nor do grammars in which an element of a production derives at most one text that is not empty. -/
theorem no_faults_of_fixed (hf : ∀ A β, g.cfg.prod A β → ∀ e ∈ β, ∀ u u' : List T, u ≠ [] → u' ≠ [] →
    g.cfg.Derives [e] (u.map .term) → g.cfg.Derives [e] (u'.map .term) → u = u') :
    ¬ g.OverlapsFilled ∧ ¬ g.DividesFilled := by
  have key : ∀ {β : List (Elem T NT)}, (∀ e ∈ β, ∀ u u' : List T, u ≠ [] → u' ≠ [] →
      g.cfg.Derives [e] (u.map .term) → g.cfg.Derives [e] (u'.map .term) → u = u') →
      ∀ {us vs : List (List T)}, g.cfg.Fills β us → g.cfg.Fills β vs → us.map List.isEmpty <+: vs.map List.isEmpty →
      us <+: vs := by
    intro β
    induction β with
    | nil =>
      intro _ us vs h1 _ _
      unfold Cfg.Fills at h1
      cases us with
      | nil => simp
      | cons u us => simp at h1
    | cons e β ih =>
      intro hf us vs h1 h2 h3
      unfold Cfg.Fills at h1 h2
      cases us with
      | nil => simp
      | cons u us =>
        cases vs with
        | nil => simp at h3
        | cons v vs =>
          simp only [List.map_cons, List.cons_prefix_cons] at h3
          simp only [List.length_cons, List.take_succ_cons, List.forall₂_cons] at h1 h2
          rw [List.cons_prefix_cons]
          refine ⟨?_, ih (fun e he => hf e (List.mem_cons_of_mem _ he)) h1.2 h2.2 h3.2⟩
          by_cases hu : u = []
          · subst hu
            have : v = [] := by simpa using h3.1.symm
            rw [this]
          · exact hf e List.mem_cons_self u v hu (by rintro rfl; simp [hu] at h3) h1.1 h2.1
  constructor
  · rintro ⟨A, β, us, vs, hp, h1, h2, h3, h4, v, hv, hne⟩
    obtain ⟨t, rfl⟩ := key (hf A β hp) h1 h2 h3
    rw [List.drop_left' rfl] at hv
    rw [List.flatten_append, List.self_eq_append_right] at h4
    exact hne (List.flatten_eq_nil_iff.1 h4 v hv)
  · rintro ⟨A, β, us, u, vs, v, hp, h1, h2, h3, -, h5⟩
    have h6 := (key (hf A β hp) h1 h2 (by rw [h3])).eq_of_length (by simpa using congrArg List.length h3)
    exact h5 (by rw [(List.append_inj' h6 rfl).1])
end

/-! ## Witness: `S → A A 2;  A → ε | 1` -/
def twiceExample : Grammar Nat Nat Nat Unit :=
  ⟨0, [exRule 0 [(10, [.nonterm 1, .nonterm 1, .term 2])], exRule 1 [(11, []), (12, [.term 1])]]⟩

theorem twiceExample_accepted : twiceExample.Accepted :=
  ⟨20, 0, [⟨0, [.addProd 10 () [.addNonterm 1, .addNonterm 1, .addTerm 2]]⟩,
    ⟨1, [.addProd 11 () [], .addProd 12 () [.addTerm 1]]⟩], by decide⟩

theorem twiceExample_prod {A : Nat} {β} : twiceExample.cfg.prod A β ↔
    (A = 0 ∧ β = [.nonterm 1, .nonterm 1, .term 2]) ∨ (A = 1 ∧ β = []) ∨ (A = 1 ∧ β = [.term 1]) := by
  simp [twiceExample, Grammar.cfg, exRule, or_and_right, exists_or, and_assoc]
  grind

theorem twiceExample_trim : twiceExample.Trim := by
  have h0 : twiceExample.cfg.prod 0 [.nonterm 1, .nonterm 1, .term 2] := twiceExample_prod.2 (by simp)
  have h1 : twiceExample.cfg.Derives [.nonterm 1] [] := Cfg.derives_prod (twiceExample_prod.2 (by simp))
  constructor
  · intro A β h
    rcases twiceExample_prod.1 h with ⟨rfl, -⟩ | ⟨rfl, -⟩ | ⟨rfl, -⟩
    · exact ⟨[], [], .refl _⟩
    · exact ⟨[], [.nonterm 1, .term 2], Cfg.derives_prod h0⟩
    · exact ⟨[], [.nonterm 1, .term 2], Cfg.derives_prod h0⟩
  · refine noDeadEnds_of (fun A => A = 0 ∨ A = 1) (Or.inl rfl) ?_ ?_
    · intro A β hp B hB
      rcases twiceExample_prod.1 hp with ⟨-, rfl⟩ | ⟨-, rfl⟩ | ⟨-, rfl⟩ <;> simp at hB
      omega
    · rintro A (rfl | rfl)
      · exact ⟨[2], (Cfg.derives_prod h0).trans
          (h1.append (h1.append (Cfg.Derives.refl (G := twiceExample.cfg) [.term 2])))⟩
      · exact ⟨[], h1⟩

theorem twiceExample_plain : ∀ p ∈ twiceExample.prods, twiceExample.cfg.Derives p.elements [] → p.elements = [] := by
  intro p hp hd
  rcases twiceExample_prod.1 ((Grammar.cfg_prod_iff twiceExample_accepted.valid.toWF).2 ⟨p, hp, rfl, rfl⟩) with
    ⟨-, h⟩ | ⟨-, h⟩ | ⟨-, h⟩
  · exfalso
    rw [h] at hd
    have hd' : twiceExample.cfg.Derives ([.nonterm 1, .nonterm 1] ++ [.term 2]) [] := hd
    obtain ⟨c₁, c₂, h1, -, h3⟩ := hd'.split
    have := Cfg.derives_terms (t := [2]) h3
    subst this
    simp at h1
  · exact h
  · rw [h] at hd
    have := Cfg.derives_terms (t := [1]) hd
    simp at this

theorem twiceExample_no_faults : ¬ twiceExample.OverlapsFilled ∧ ¬ twiceExample.DividesFilled := by
  refine no_faults_of_fixed _ fun A β hp e he u u' hu hu' h1 h2 => ?_
  have hA : ∀ {v : List Nat}, v ≠ [] → twiceExample.cfg.Derives [.nonterm 1] (v.map .term) → v = [1] := by
    intro v hv h
    rcases Cfg.derives_nonterm h with h | ⟨β, h, h'⟩
    · cases v <;> simp at h
    · rcases twiceExample_prod.1 h with ⟨h, -⟩ | ⟨-, rfl⟩ | ⟨-, rfl⟩
      · simp at h
      · exact absurd (terms_only (u := []) h') hv
      · exact terms_only (u := [1]) h'
  have ht : ∀ {a : Nat} {v : List Nat}, twiceExample.cfg.Derives [.term a] (v.map .term) → v = [a] :=
    fun {a v} h => terms_only (u := [a]) h
  rcases twiceExample_prod.1 hp with ⟨-, rfl⟩ | ⟨-, rfl⟩ | ⟨-, rfl⟩
  · simp only [List.mem_cons, List.not_mem_nil, or_false, or_self_left] at he
    rcases he with rfl | rfl
    · rw [hA hu h1, hA hu' h2]
    · rw [ht h1, ht h2]
  · cases he
  · simp only [List.mem_cons, List.not_mem_nil, or_false] at he
    subst he
    rw [ht h1, ht h2]

theorem twiceExample_transforms : ∃ g', transformToNonnull 9 exampleAddr twiceExample = .ok (.ok g') ∧
    (∃ I n, parse exampleSAddr g'.wrapped 9 (World.new : World Nat (NNActionKey Nat) Nat) 7 (exampleToks [1, 2]) =
      .ok (World.new.set 7 I, some n)) ∧
    (∃ I n, parse exampleSAddr g'.wrapped 9 (World.new : World Nat (NNActionKey Nat) Nat) 7 (exampleToks [1, 1, 2]) =
      .ok (World.new.set 7 I, some n)) ∧
    (∃ I, parse exampleSAddr g'.wrapped 9 (World.new : World Nat (NNActionKey Nat) Nat) 7 (exampleToks [1, 1]) =
      .ok (World.new.set 7 I, none)) ∧
    parse exampleSAddr g'.wrapped 9 (World.new : World Nat (NNActionKey Nat) Nat) 7 (exampleToks [2, 1]) =
      .panic .emptyState :=
  ⟨_, rfl, ⟨_, _, rfl⟩, ⟨_, _, rfl⟩, ⟨_, rfl⟩, rfl⟩

/-- The hypotheses of `nonnull_right_exact` are met by a grammar whose transform has no faults; the grammar itself makes
`parse` panic on the text `1 2`, which has two trees. -/
example : twiceExample.Trim ∧ (¬ twiceExample.OverlapsFilled ∧ ¬ twiceExample.DividesFilled) ∧
    (∃ g', transformToNonnull 9 exampleAddr twiceExample = .ok (.ok g') ∧
      ∃ restore : DTree (Token Nat Nat) (NNProd Nat Nat Nat Unit) → DTree (Token Nat Nat) (Prod Nat Nat Nat Unit),
      ∀ toks : List (Token Nat Nat), toks ≠ [] → twiceExample.cfg.InLanguage (kinds toks) → ∃ N w₁ n,
        (∀ fuel, N ≤ fuel → parse exampleSAddr g'.wrapped fuel World.new 7 toks = .ok (w₁, some n)) ∧
        ∀ s, Reads w₁ s n ↔ ∃ d', IsTree g' (·.kind) (.nonterm 0) d' ∧
          (restore d').yield = toks ∧ s = d'.mapNodes (·.actionKey)) ∧
    parse exampleSAddr twiceExample.wrapped 9 (World.new : World Nat Nat Nat) 7 (exampleToks [1, 2]) =
      .panic .lenMismatch := by
  obtain ⟨g', h, -⟩ := twiceExample_transforms
  obtain ⟨restore, -, -, -, -, h5⟩ := nonnull_right_exact (V := Nat) twiceExample twiceExample_accepted exampleAddr
    (exampleAddr_addrInj _) 9 g' h twiceExample_plain twiceExample_trim
  exact ⟨twiceExample_trim, twiceExample_no_faults, ⟨g', h, restore,
    (h5 exampleSAddr (exampleSAddr_addrInj _) .start 7).2 twiceExample_no_faults⟩, rfl⟩

/-- `S → A A 2;  A → ε | 1 | 1 1`, which has the first fault. -/
def longExample : Grammar Nat Nat Nat Unit :=
  ⟨0, [exRule 0 [(10, [.nonterm 1, .nonterm 1, .term 2])], exRule 1 [(11, []), (12, [.term 1]), (13, [.term 1, .term 1])]]⟩

theorem longExample_accepted : longExample.Accepted :=
  ⟨20, 0, [⟨0, [.addProd 10 () [.addNonterm 1, .addNonterm 1, .addTerm 2]]⟩,
    ⟨1, [.addProd 11 () [], .addProd 12 () [.addTerm 1], .addProd 13 () [.addTerm 1, .addTerm 1]]⟩], by decide⟩

/-- The first fault, and what comes of it. -/
example : longExample.OverlapsFilled ∧ ∃ g', transformToNonnull 9 exampleAddr longExample = .ok (.ok g') ∧
    longExample.cfg.InLanguage [1, 1, 2] ∧
    parse exampleSAddr g'.wrapped 9 (World.new : World Nat (NNActionKey Nat) Nat) 7 (exampleToks [1, 1, 2]) =
      .panic .lenMismatch := by
  have hp : ∀ {A β}, (A = 0 ∧ β = [.nonterm 1, .nonterm 1, .term 2]) ∨ (A = 1 ∧ β = []) ∨ (A = 1 ∧ β = [.term 1]) ∨
      (A = 1 ∧ β = [.term 1, .term 1]) → longExample.cfg.prod A β := by
    intro A β h
    simp [longExample, Grammar.cfg, exRule, or_and_right, exists_or, and_assoc]
    grind
  have h1 : longExample.cfg.Derives [.nonterm 1] [.term 1] := Cfg.derives_prod (hp (by simp))
  have h2 : longExample.cfg.Derives [.nonterm 1] [.term 1, .term 1] := Cfg.derives_prod (hp (by simp))
  refine ⟨⟨0, _, [[1, 1]], [[1], [1]], hp (Or.inl ⟨rfl, rfl⟩), .cons h2 .nil, .cons h1 (.cons h1 .nil), by simp, rfl,
    [1], by simp, by simp⟩, _, rfl, ?_, rfl⟩
  exact (Cfg.derives_prod (hp (Or.inl ⟨rfl, rfl⟩))).trans
    (h1.append (h1.append (Cfg.Derives.refl (G := longExample.cfg) [.term 2])))
end Bongo
