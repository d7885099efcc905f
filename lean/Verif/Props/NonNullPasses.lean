import Verif.Props.Compose
import Verif.Props.Firsts
import Verif.Props.Exact
import Verif.Props.NonNullTree
import Verif.Props.Examples
/-!
# C124: the analyses of a transformed grammar
-/
set_option linter.unusedSectionVars false
namespace Bongo
open Std
variable {T NT AK AV : Type} [Ord NT] [TransOrd NT] [LawfulEqOrd NT]

/-- `k` is `s` without some occurrences of nonterminals of which `nul` holds. -/
inductive Thinned (nul : NT → Prop) : List (Elem T NT) → List (Elem T NT) → Prop where
  | nil : Thinned nul [] []
  | keep (e : Elem T NT) {s k} : Thinned nul s k → Thinned nul (e :: s) (e :: k)
  | drop (A : NT) {s k} : nul A → Thinned nul s k → Thinned nul (.nonterm A :: s) k

namespace Thinned
variable {nul : NT → Prop}

theorem refl : (s : List (Elem T NT)) → Thinned nul s s
  | [] => .nil
  | e :: s => .keep e (refl s)

theorem split {a b k : List (Elem T NT)} (h : Thinned nul (a ++ b) k) :
    ∃ k₁ k₂, k = k₁ ++ k₂ ∧ Thinned nul a k₁ ∧ Thinned nul b k₂ := by
  induction a generalizing k with
  | nil => exact ⟨[], k, rfl, .nil, h⟩
  | cons e a ih =>
    rw [List.cons_append] at h
    cases h with
    | keep _ h =>
      obtain ⟨k₁, k₂, rfl, h1, h2⟩ := ih h
      exact ⟨e :: k₁, k₂, rfl, .keep e h1, h2⟩
    | drop A hA h =>
      obtain ⟨k₁, k₂, rfl, h1, h2⟩ := ih h
      exact ⟨k₁, k₂, rfl, .drop A hA h1, h2⟩

theorem append {a b k₁ k₂ : List (Elem T NT)} (h1 : Thinned nul a k₁) (h2 : Thinned nul b k₂) :
    Thinned nul (a ++ b) (k₁ ++ k₂) := by
  induction h1 with
  | nil => exact h2
  | keep e _ ih => exact .keep e ih
  | drop A hA _ ih => exact .drop A hA ih

theorem all {s k : List (Elem T NT)} (h : Thinned nul s k) (hk : k = []) :
    ∀ e ∈ s, ∃ A, e = .nonterm A ∧ nul A := by
  induction h with
  | nil => simp
  | keep e _ _ => cases hk
  | drop A hA _ ih =>
    intro e he
    rcases List.mem_cons.1 he with rfl | he
    · exact ⟨A, rfl, hA⟩
    · exact ih hk e he

/-- A thinning of a production body is a choice. -/
theorem choice {es : List (ProdElement T NT)} {k : List (Elem T NT)}
    (h : Thinned nul (es.map (·.element)) k) :
    ∃ c k' d, Choice nul es c k' d ∧ k = k'.map (·.element) := by
  induction es generalizing k with
  | nil => cases h; exact ⟨[], [], [], .nil, rfl⟩
  | cons e es ih =>
    obtain ⟨id, el⟩ := e
    simp only [List.map_cons] at h
    cases h with
    | keep _ h =>
      obtain ⟨c, k', d, h1, rfl⟩ := ih h
      cases el with
      | term t => exact ⟨_, _, _, .term id t h1, rfl⟩
      | nonterm A => exact ⟨_, _, _, .nonNull id A h1, rfl⟩
    | drop A hA h =>
      obtain ⟨c, k', d, h1, rfl⟩ := ih h
      exact ⟨_, _, _, .null id A hA h1, rfl⟩
end Thinned

theorem Choice.derives {g : Grammar T NT AK AV} {es : List (ProdElement T NT)} {c k d}
    (hc : Choice (fun A => g.cfg.Generates A []) es c k d) :
    g.cutNull.Derives (es.map (·.element)) (k.map (·.element)) := by
  induction hc with
  | nil => exact .refl _
  | term id t _ ih => exact Cfg.Derives.append (a := [_]) (b := [_]) (.refl _) ih
  | nonNull id A _ ih => exact Cfg.Derives.append (a := [_]) (b := [_]) (.refl _) ih
  | null id A hA _ ih =>
    refine Cfg.Derives.append (a := [_]) (b := []) ?_ ih
    exact .single (Cfg.Step.mk [] [] A [] (.inr ⟨rfl, hA⟩))

section
variable {fuel : Nat} {addr : NT → Nat → Nat} {g : Grammar T NT AK AV} (h : g.WF)
    (ha : AddrInj g addr) {info : GrammarNullableInfo NT AK}
    (hn : calculateNullables fuel addr g = .ok (.ok info))
include h ha hn

theorem nn_derives_cut {s s'} (hd : (nnGrammar info g).cfg.Derives s s') : g.cutNull.Derives s s' := by
  induction hd with
  | refl => exact .refl _
  | tail _ hs ih =>
    refine ih.trans ?_
    cases hs with
    | mk u v A β hp =>
      obtain ⟨p, hp', rfl, hnd, c, k, d, hc, rfl⟩ := (nn_cfg_prod h ha hn).1 hp
      have h1 : g.cutNull.Derives [.nonterm p.head] (k.map (·.element)) := by
        refine Cfg.Derives.trans (.single (Cfg.Step.mk [] [] p.head p.elements
          (.inl ⟨(Grammar.cfg_prod_iff h).2 ⟨p, hp', rfl, rfl⟩, hnd⟩))) ?_
        rw [List.nil_append, List.append_nil]
        exact hc.derives
      have h2 := Cfg.Derives.append (Cfg.Derives.append (.refl u) h1) (.refl v)
      simpa using h2

theorem cut_derives_nn {s s'} (hd : g.cutNull.Derives s s') :
    ∀ k', Thinned (fun A => g.cfg.Generates A []) s' k' →
      ∃ k, Thinned (fun A => g.cfg.Generates A []) s k ∧ (nnGrammar info g).cfg.Derives k k' := by
  induction hd using Relation.ReflTransGen.head_induction_on with
  | refl => exact fun k' hk => ⟨k', hk, .refl _⟩
  | head hs _ ih =>
    intro k' hk'
    obtain ⟨k1, hk1, hd1⟩ := ih k' hk'
    cases hs with
    | mk u v A β hp =>
      obtain ⟨x, kv, rfl, hx, hv⟩ := hk1.split
      obtain ⟨ku, kβ, rfl, hu, hβ⟩ := hx.split
      by_cases he : kβ = []
      · subst he
        have hA : g.cfg.Generates A [] := by
          rcases hp with ⟨hp, hnd⟩ | ⟨-, hp⟩
          · exfalso
            apply hnd
            rw [show g.cfg.Derives β [] ↔ g.cfg.Yields β [] from
              (Cfg.yields_iff (w := [])).symm, Cfg.yields_nil_word_iff]
            intro e he
            obtain ⟨B, h1, h2⟩ := hβ.all rfl e he
            exact ⟨B, h1, Cfg.null_iff.2 h2⟩
          · exact hp
        refine ⟨ku ++ kv, hu.append (.drop A hA hv), by simpa using hd1⟩
      · rcases hp with ⟨hp, hnd⟩ | ⟨rfl, -⟩
        · obtain ⟨p, hp', rfl, rfl⟩ := (Grammar.cfg_prod_iff h).1 hp
          obtain ⟨c, k', d, hc, rfl⟩ := hβ.choice
          refine ⟨ku ++ .nonterm p.head :: kv, hu.append (.keep _ hv), ?_⟩
          exact Relation.ReflTransGen.head (.mk _ _ _ _ ((nn_cfg_prod h ha hn).2
            ⟨p, hp', rfl, hnd, c, k', d, hc, rfl⟩)) hd1
        · cases hβ; exact absurd rfl he

theorem nn_derives_nil {s} (hd : (nnGrammar info g).cfg.Derives [] s) : s = [] := by
  rcases Relation.ReflTransGen.cases_head hd with h1 | ⟨y, hy, -⟩
  · exact h1.symm
  · generalize hx : ([] : List (Elem T NT)) = x at hy
    cases hy with
    | mk u v A β hp => simp at hx

theorem nn_derives_nonempty {s s'} (hd : (nnGrammar info g).cfg.Derives s s') (hs : s ≠ []) : s' ≠ [] := by
  induction hd with
  | refl => exact hs
  | tail _ hst _ =>
    cases hst with
    | mk u v A β hp =>
      have := nn_prod_nonempty h ha hn hp
      simp [this]

theorem nn_sentential {A s} : (nnGrammar info g).cfg.Derives [.nonterm A] s ↔
    s ≠ [] ∧ g.cutNull.Derives [.nonterm A] s := by
  constructor
  · exact fun hd => ⟨nn_derives_nonempty h ha hn hd (by simp), nn_derives_cut h ha hn hd⟩
  · rintro ⟨hs, hd⟩
    obtain ⟨k, hk, hd'⟩ := cut_derives_nn h ha hn hd s (Thinned.refl s)
    cases hk with
    | keep _ hk => cases hk; exact hd'
    | drop _ _ hk => cases hk; exact absurd (nn_derives_nil h ha hn hd') hs
end

/-- C124.  A transformed grammar derives exactly the nonempty sentential forms that are derivable when
every production that can vanish is replaced by an empty one (C70 says this for strings). -/
theorem nonnull_sentential (g : Grammar T NT AK AV) (hg : g.Accepted) (addr : NT → Nat → Nat)
    (ha : AddrInj g addr) (fuel : Nat) (g' : NonNullGrammar T NT AK AV)
    (h : transformToNonnull fuel addr g = .ok (.ok g')) (A : NT) (s : List (Elem T NT)) :
    g'.cfg.Derives [.nonterm A] s ↔ s ≠ [] ∧ g.cutNull.Derives [.nonterm A] s := by
  obtain ⟨info, hn, rfl, -⟩ := transform_ok hg.valid.toWF h
  exact nn_sentential hg.valid.toWF ha hn

/-- Where only empty productions vanish, replacing them by empty ones changes nothing. -/
theorem cutNull_derives_iff (g : Grammar T NT AK AV) (hg : g.Accepted)
    (he : ∀ p ∈ g.prods, g.cfg.Derives p.elements [] → p.elements = []) (s s' : List (Elem T NT)) :
    g.cutNull.Derives s s' ↔ g.cfg.Derives s s' := by
  have hw := hg.valid.toWF
  have hp : ∀ A β, g.cutNull.prod A β ↔ g.cfg.prod A β := by
    intro A β
    constructor
    · rintro (⟨h1, -⟩ | ⟨rfl, h1⟩)
      · exact h1
      · obtain ⟨β, h2, h3⟩ := Cfg.generates_iff.1 h1
        obtain ⟨p, hp, rfl, rfl⟩ := (Grammar.cfg_prod_iff hw).1 h2
        rw [← he p hp ((Cfg.yields_iff (w := [])).1 h3)]
        exact h2
    · intro h1
      by_cases hd : g.cfg.Derives β []
      · obtain ⟨p, hp, rfl, rfl⟩ := (Grammar.cfg_prod_iff hw).1 h1
        have := he p hp hd
        refine .inr ⟨this, Cfg.generates_iff.2 ⟨_, h1, ?_⟩⟩
        rw [this]; exact .nil
      · exact .inl ⟨h1, hd⟩
  constructor
  · intro h
    induction h with
    | refl => exact .refl _
    | tail _ hs ih =>
      refine ih.tail ?_
      cases hs with
      | mk u v A β h => exact .mk u v A β ((hp A β).1 h)
  · intro h
    induction h with
    | refl => exact .refl _
    | tail _ hs ih =>
      refine ih.tail ?_
      cases hs with
      | mk u v A β h => exact .mk u v A β ((hp A β).2 h)

/-- C124.  The Nullable pass succeeds on a transformed grammar and finds nothing. -/
theorem nonnull_nullable (g : Grammar T NT AK AV) (hg : g.Accepted) (addr : NT → Nat → Nat)
    (ha : AddrInj g addr) (fuel : Nat) (g' : NonNullGrammar T NT AK AV)
    (h : transformToNonnull fuel addr g = .ok (.ok g')) (addr' : NT → Nat → Nat) (ha' : AddrInj g' addr') :
    ∃ N, ∀ fuel, N ≤ fuel → ∃ i, calculateNullables fuel addr' g' = .ok (.ok i) ∧
      i.getNullableSet = [] ∧ ∀ A, i.isNullable A = false ∧ i.getNullableAction A = none := by
  have hg' := nonnull_accepted g addr fuel g' h
  have hnn := (nonnull_no_nullable g hg addr ha fuel g' h).2
  refine ⟨g'.prods.length + 1, fun fuel hf => ?_⟩
  rcases calculateNullables_spec hg'.valid.toWF ha' (fuel := fuel) (by omega) with ⟨-, i, h1, -⟩ | ⟨hu, -⟩
  · obtain ⟨e1, -, -, e4, -⟩ := nullable_exact g' hg' addr' ha' fuel i h1
    obtain ⟨n1, -⟩ := null_tree_exact g' hg' addr' ha' fuel i h1
    refine ⟨i, h1, ?_, fun A => ⟨?_, ?_⟩⟩
    · cases hs : i.getNullableSet with
      | nil => rfl
      | cons A s => exact absurd ((e4 A).1 (by rw [hs]; simp)) (hnn A)
    · cases hA : i.isNullable A with
      | false => rfl
      | true => exact absurd ((e1 A).1 hA) (hnn A)
    · cases hA : i.getNullableAction A with
      | none => rfl
      | some t => exact absurd ((n1 A).1 (by rw [hA]; rfl)) (hnn A)
  · exfalso
    apply hu
    rintro A p q ⟨p1, p2, p3⟩ -
    have : g'.cfg.Generates A [] := by
      rw [Cfg.generates_iff]
      exact ⟨p.elements, (Grammar.cfg_prod_iff hg'.valid.toWF).2 ⟨p, p1, p2, rfl⟩, p3⟩
    exact absurd this (hnn A)

variable [Ord T] [TransOrd T] [LawfulEqOrd T]

/-- C124.  The Firsts pass succeeds on a transformed grammar, and lists `t` for `A` exactly if `A` derives
something beginning with `t` when every production that can vanish is replaced by an empty one. -/
theorem nonnull_firsts (g : Grammar T NT AK AV) (hg : g.Accepted) (addr : NT → Nat → Nat)
    (ha : AddrInj g addr) (fuel : Nat) (g' : NonNullGrammar T NT AK AV)
    (h : transformToNonnull fuel addr g = .ok (.ok g')) (addr' : NT → Nat → Nat) (ha' : AddrInj g' addr') :
    ∃ N, ∀ fuel, N ≤ fuel → ∃ f, firstsPass fuel addr' g' = .ok (.ok f) ∧
      ∀ A t, (∃ s, f.get A = some s ∧ t ∈ s) ↔ ∃ γ, g.cutNull.Derives [.nonterm A] (.term t :: γ) := by
  have hg' := nonnull_accepted g addr fuel g' h
  obtain ⟨N1, h1⟩ := nonnull_nullable g hg addr ha fuel g' h addr' ha'
  obtain ⟨N2, h2⟩ := firsts_terminates g' hg' addr' ha'
  refine ⟨N1 + N2, fun fuel' hf => ?_⟩
  rcases h2 fuel' (by omega) with ⟨⟨f, b1⟩, -⟩ | ⟨e, -, b2⟩
  · refine ⟨f, b1, fun A t => ?_⟩
    rw [(firsts_exact g' hg' addr' ha' fuel' f b1 A).1 t]
    simp only [nonnull_sentential g hg addr ha fuel g' h]
    simp
  · obtain ⟨i, a1, -⟩ := h1 fuel' (by omega)
    rw [a1] at b2; cases b2

/-- C124.  The Follows pass on a transformed grammar: it panics exactly if some body has two adjacent
nonterminals, all productions of the second of which begin with that nonterminal itself; otherwise it
lists `t` for `A` exactly if `t` can follow `A` in the textbook sense, when every production that can
vanish is replaced by an empty one.  (On other grammars it can list less: C22.) -/
theorem nonnull_follows (g : Grammar T NT AK AV) (hg : g.Accepted) (addr : NT → Nat → Nat)
    (ha : AddrInj g addr) (fuel : Nat) (g' : NonNullGrammar T NT AK AV)
    (h : transformToNonnull fuel addr g = .ok (.ok g')) (addr' : NT → Nat → Nat) (ha' : AddrInj g' addr') :
    ∃ N, ∀ fuel, N ≤ fuel →
      let Gap := ∃ p ∈ g'.prods, ∃ u X Y v, p.elements = u ++ .nonterm X :: .nonterm Y :: v ∧
        ∀ q ∈ g'.prods, q.head = Y → q.elements.head? = some (.nonterm Y)
      (Gap ∧ followsPass fuel addr' g' = .panic .noFirsts) ∨
      (¬ Gap ∧ ∃ fo, followsPass fuel addr' g' = .ok (.ok fo) ∧
        ∀ A t, (∃ s, BMap.get? compare fo.map A = some s ∧ t ∈ s) ↔
          ∃ B u v, g.cutNull.Derives [.nonterm B] (u ++ .nonterm A :: .term t :: v)) := by
  have hg' := nonnull_accepted g addr fuel g' h
  obtain ⟨hne, hnn⟩ := nonnull_no_nullable g hg addr ha fuel g' h
  obtain ⟨N1, h1⟩ := nonnull_nullable g hg addr ha fuel g' h addr' ha'
  obtain ⟨N2, h2⟩ := follows_outcome g' hg' addr' ha'
  refine ⟨N1 + N2, fun fuel' hf => ?_⟩
  have hkey : ∀ Y, (¬ ∃ q ∈ g'.prods, q.head = Y ∧ ∃ pre e post, q.elements = pre ++ e :: post ∧
      (∀ x ∈ pre, x = .nonterm Y ∧ g'.cfg.Generates Y []) ∧ e ≠ .nonterm Y) ↔
      ∀ q ∈ g'.prods, q.head = Y → q.elements.head? = some (.nonterm Y) := by
    intro Y
    constructor
    · intro hn q hq hh
      cases he : q.elements with
      | nil => exact absurd he (hne q hq)
      | cons e es =>
        by_cases heY : e = .nonterm Y
        · rw [heY]; rfl
        · exact absurd ⟨q, hq, hh, [], e, es, he, by simp, heY⟩ hn
    · rintro hall ⟨q, hq, hh, pre, e, post, he, hpre, hneY⟩
      have := hall q hq hh
      cases pre with
      | nil => rw [he] at this; simp at this; exact hneY this
      | cons x pre => exact hnn Y (hpre x (by simp)).2
  rcases h2 fuel' (by omega) with ⟨e, b2, -⟩ | ⟨-, b⟩
  · obtain ⟨i, a1, -⟩ := h1 fuel' (by omega)
    rw [a1] at b2; cases b2
  · simp only [hkey] at b
    rcases b with b | ⟨b0, fo, b⟩
    · exact .inl b
    · refine .inr ⟨b0, fo, b, fun A t => ?_⟩
      have hsen : ∀ B u v, g'.cfg.Derives [.nonterm B] (u ++ .nonterm A :: .term t :: v) ↔
          g.cutNull.Derives [.nonterm B] (u ++ .nonterm A :: .term t :: v) := by
        intro B u v
        rw [nonnull_sentential g hg addr ha fuel g' h]
        simp
      constructor
      · rintro ⟨s, hs, ht⟩
        obtain ⟨B, -, -, u, v, hd⟩ := follows_sound g' hg' addr' ha' fuel' fo b A s t hs ht
        exact ⟨B, u, v, (hsen B u v).1 hd⟩
      · rintro ⟨B, u, v, hd⟩
        exact follows_complete_partial g' hg' addr' ha' (fun _ _ _ _ Y _ _ => hnn Y) fuel' fo b B A t u v
          ((hsen B u v).2 hd)

theorem Cfg.reach_derives {T N : Type} {G : Cfg T N} {A B : N} (h : Relation.ReflTransGen G.Mentions A B) :
    ∃ u v, G.Derives [.nonterm A] (u ++ .nonterm B :: v) := by
  induction h with
  | refl => exact ⟨[], [], .refl _⟩
  | tail _ hm ih =>
    obtain ⟨u, v, hd⟩ := ih
    obtain ⟨β, hp, hβ⟩ := hm
    obtain ⟨a, b, rfl⟩ := List.append_of_mem hβ
    refine ⟨u ++ a, b ++ v, ?_⟩
    have := Relation.ReflTransGen.tail hd (Cfg.Step.mk u v _ _ hp)
    unfold Cfg.Derives
    simpa using this

/-- A nonterminal all of whose productions begin with itself derives no word. -/
theorem Cfg.stuck {T N : Type} {G : Cfg T N} {Y : N}
    (hall : ∀ β, G.prod Y β → β.head? = some (.nonterm Y)) {s w} (h : G.Yields s w) :
    s.head? ≠ some (.nonterm Y) := by
  induction h with
  | nil => simp
  | term t _ _ => simp
  | nonterm hp _ _ ih1 _ =>
    intro he
    simp only [List.head?_cons, Option.some.injEq, Elem.nonterm.injEq] at he
    subst he
    exact ih1 (hall _ hp)

/-- C124.  So where only empty productions vanish and there are no dead ends, transforming a grammar
first makes the passes compute the textbook FIRST and FOLLOW sets of the original grammar: no pass fails
or panics, the FIRST sets are those of the original pass and the FOLLOW sets are complete. -/
theorem nonnull_textbook (g : Grammar T NT AK AV) (hg : g.Accepted) (addr : NT → Nat → Nat)
    (ha : AddrInj g addr) (fuel : Nat) (g' : NonNullGrammar T NT AK AV)
    (h : transformToNonnull fuel addr g = .ok (.ok g')) (addr' : NT → Nat → Nat) (ha' : AddrInj g' addr')
    (he : ∀ p ∈ g.prods, g.cfg.Derives p.elements [] → p.elements = []) (hd : g.NoDeadEnds) :
    ∃ N, ∀ fuel, N ≤ fuel → ∃ f f' fo', firstsPass fuel addr g = .ok (.ok f) ∧
      firstsPass fuel addr' g' = .ok (.ok f') ∧ followsPass fuel addr' g' = .ok (.ok fo') ∧
      (∀ A t, (∃ s, f'.get A = some s ∧ t ∈ s) ↔ ∃ s, f.get A = some s ∧ t ∈ s) ∧
      (∀ A t, (∃ s, f'.get A = some s ∧ t ∈ s) ↔ ∃ γ, g.cfg.Derives [.nonterm A] (.term t :: γ)) ∧
      ∀ A t, (∃ s, BMap.get? compare fo'.map A = some s ∧ t ∈ s) ↔
        ∃ B u v, g.cfg.Derives [.nonterm B] (u ++ .nonterm A :: .term t :: v) := by
  have hg' := nonnull_accepted g addr fuel g' h
  have hv' := hg'.valid
  obtain ⟨N1, h1⟩ := nonnull_firsts g hg addr ha fuel g' h addr' ha'
  obtain ⟨N2, h2⟩ := nonnull_follows g hg addr ha fuel g' h addr' ha'
  obtain ⟨N3, h3⟩ := firsts_terminates g hg addr ha
  refine ⟨max (N1 + N2 + N3) fuel, fun fuel' hf => ?_⟩
  obtain ⟨f', b1, b2⟩ := h1 fuel' (by omega)
  have c := h2 fuel' (by omega)
  simp only [cutNull_derives_iff g hg he] at b2 c
  rcases h3 fuel' (by omega) with ⟨⟨f, a1⟩, -⟩ | ⟨e, -, a2⟩
  swap
  · exfalso
    obtain ⟨info, hn, -, -⟩ := transform_ok hg.valid.toWF h
    rw [calculateNullables_mono (show fuel ≤ fuel' by omega) hn] at a2
    cases a2
  rcases c with ⟨⟨p, hp, u, X, Y, v, hel, hall⟩, -⟩ | ⟨-, fo, c1, c2⟩
  · exfalso
    have hm : g'.cfg.Mentions p.head Y :=
      ⟨p.elements, (Grammar.cfg_prod_iff hv'.toWF).2 ⟨p, hp, rfl, rfl⟩, by rw [hel]; simp⟩
    obtain ⟨a, b, hab⟩ := Cfg.reach_derives (hv'.reach _ _ hm).to_reflTransGen
    obtain ⟨w, hw⟩ := nonnull_no_dead_ends g hg addr ha fuel g' h hd _ hab
    obtain ⟨-, w1, -, -, hy⟩ := (Cfg.yields_iff.2 hw).split
    refine Cfg.stuck (Y := Y) ?_ hy rfl
    intro β hβ
    obtain ⟨q, hq, hqh, rfl⟩ := (Grammar.cfg_prod_iff hv'.toWF).1 hβ
    exact hall q hq hqh
  · refine ⟨f, f', fo, a1, b1, c1, fun A t => ?_, b2, c2⟩
    rw [b2, (firsts_exact g hg addr ha fuel' f a1 A).1 t]

/-! ## Witnesses -/

theorem followExample_cut : ∀ p ∈ followExample.prods, followExample.cfg.Derives p.elements [] →
    p.elements = [] := by
  intro p hp hd
  have hn := (Cfg.yields_iff (w := [])).2 hd
  rw [Cfg.yields_nil_word_iff] at hn
  have : ∀ p ∈ followExample.prods, p.elements = [] ∨ ∃ t ∈ [100, 101, 102], Elem.term t ∈ p.elements := by decide
  rcases this p hp with h | ⟨t, -, ht⟩
  · exact h
  · obtain ⟨B, hB, -⟩ := hn _ ht
    cases hB

theorem followExample_noDeadEnds : followExample.NoDeadEnds := by
  have hp : ∀ p ∈ followExample.prods, followExample.cfg.prod p.head p.elements := fun p hp =>
    (Grammar.cfg_prod_iff followExample_accepted.valid.toWF).2 ⟨p, hp, rfl, rfl⟩
  have h1 : followExample.cfg.Yields [.nonterm 1] [100] :=
    .nonterm (β := [.term 100]) (w₁ := [100]) (w₂ := []) (hp ⟨1, 0, ⟨2, (), [⟨none, .term 100⟩]⟩⟩ (by decide))
      (.term _ .nil) .nil
  have h2 : followExample.cfg.Yields [.nonterm 2] [] :=
    .nonterm (β := []) (w₁ := []) (w₂ := []) (hp ⟨2, 0, ⟨3, (), []⟩⟩ (by decide)) .nil .nil
  have h0 : followExample.cfg.Yields [.nonterm 0] [100, 102] :=
    .nonterm (β := [.nonterm 1, .nonterm 2, .term 102]) (w₁ := [100, 102]) (w₂ := [])
      (hp ⟨0, 0, ⟨1, (), [⟨none, .nonterm 1⟩, ⟨none, .nonterm 2⟩, ⟨none, .term 102⟩]⟩⟩ (by decide))
      ((h1.append h2).append (.term 102 .nil)) .nil
  refine noDeadEnds_of (fun A => A ∈ [0, 1, 2]) (by decide) ?_ ?_
  · intro A β hβ B hB
    obtain ⟨p, hp', -, rfl⟩ := (Grammar.cfg_prod_iff followExample_accepted.valid.toWF).1 hβ
    have : ∀ p ∈ followExample.prods, ∀ e ∈ p.elements, e ∈ [.nonterm 1, .nonterm 2] ∨
        e ∈ [.term 100, .term 101, .term 102] := by decide
    rcases this p hp' _ hB with h | h <;> simp at h ⊢
    exact .inr h
  · intro A hA
    simp only [List.mem_cons, List.not_mem_nil, or_false] at hA
    rcases hA with rfl | rfl | rfl
    · exact ⟨_, Cfg.yields_nonterm_iff.1 h0⟩
    · exact ⟨_, Cfg.yields_nonterm_iff.1 h1⟩
    · exact ⟨_, Cfg.yields_nonterm_iff.1 h2⟩

/-- `S → A B c; A → a; B → ε | b`: FOLLOW of `A` is only `b` in the original grammar, and `b`, `c` after the
transform. -/
example : followExample.Accepted ∧ AddrInj followExample exampleAddr ∧
    (∀ p ∈ followExample.prods, followExample.cfg.Derives p.elements [] → p.elements = []) ∧
    followExample.NoDeadEnds ∧ ∃ g' fo fo', transformToNonnull 20 exampleAddr followExample = .ok (.ok g') ∧
      AddrInj g' exampleAddr ∧
      followsPass 20 exampleAddr followExample = .ok (.ok fo) ∧ BMap.get? compare fo.map 1 = some [101] ∧
      followsPass 20 exampleAddr g' = .ok (.ok fo') ∧ BMap.get? compare fo'.map 1 = some [101, 102] := by
  refine ⟨followExample_accepted, exampleAddr_addrInj _, followExample_cut,
    followExample_noDeadEnds, _, _, _, by rfl,
    exampleAddr_addrInj _, by rfl, by rfl, by rfl, by rfl⟩
end Bongo
