import Verif.Spec.Follow
import Verif.Proof.Follows
import Verif.Props.Nullable
/-!
# Properties C19–C23: the Firsts and Follows passes
-/
set_option linter.unusedSectionVars false
namespace Bongo
open Std

section
variable {T NT AK AV : Type} [Ord T] [TransOrd T] [LawfulEqOrd T]
  [Ord NT] [TransOrd NT] [LawfulEqOrd NT]

theorem firstsRun_mono {g : Grammar T NT AK AV} {nul : Except NullableError (GrammarNullableInfo NT AK)}
    {n m : Nat} (hnm : n ≤ m) {r} (h : Firsts.runPass n g nul = .ok r) :
    Firsts.runPass m g nul = .ok r := by
  cases nul with
  | error e => exact h
  | ok info =>
    unfold Firsts.runPass at h ⊢
    simp only at h ⊢
    rw [changeLoop_mono hnm]
    · exact h
    · intro h'; rw [h'] at h; simp at h

theorem firstsPass_mono {g : Grammar T NT AK AV} {addr : NT → Nat → Nat} {n m : Nat}
    (hnm : n ≤ m) {r} (h : firstsPass n addr g = .ok r) : firstsPass m addr g = .ok r := by
  unfold firstsPass at h ⊢
  cases h1 : calculateNullables n addr g with
  | ok x =>
    rw [h1] at h
    rw [calculateNullables_mono hnm h1]
    exact firstsRun_mono hnm h
  | panic w => rw [h1] at h; cases h
  | oof => rw [h1] at h; cases h

/-- Everything about the outcome of the Firsts pass with enough fuel. -/
theorem firstsPass_spec {g : Grammar T NT AK AV} (hw : g.WF) {addr : NT → Nat → Nat}
    (ha : AddrInj g addr) : ∃ N, ∀ fuel, N ≤ fuel →
    (NullUnique g ∧ ∃ f, firstsPass fuel addr g = .ok (.ok f) ∧
      CollectMap.WF compare compare f.map ∧
      (∀ A t, CollectMap.Has compare f.map A t ↔ ∃ γ, g.cfg.Derives [.nonterm A] (.term t :: γ)) ∧
      ∀ A, BMap.get? compare f.map A ≠ none ↔
        ∃ p ∈ g.prods, p.head = A ∧ ∃ pre e post, p.elements = pre ++ e :: post ∧
        (∀ x ∈ pre, x = .nonterm A ∧ g.cfg.Generates A []) ∧ e ≠ .nonterm A) ∨
    (¬ NullUnique g ∧ firstsPass fuel addr g = .ok (.error .ambiguity)) := by
  rcases calculateNullables_spec hw ha (fuel := g.prods.length + 1) (by omega)
    with ⟨hu, info, h1, -, h3, -⟩ | ⟨hu, h1⟩
  · have hn : ∀ A, info.isNullable A = true ↔ g.cfg.Null A := by
      intro A
      rw [← h3]
      unfold GrammarNullableInfo.isNullable BMap.contains
      cases BMap.get? compare info.nontermInfo A <;> simp
    refine ⟨max (g.prods.length + 1) (CollectOp.bound (allFirstsOps info g)), fun fuel hf => ?_⟩
    left
    obtain ⟨f, k1, k2, k3, k4⟩ := firstsRun_spec hw hn (fuel := fuel) (by omega)
    refine ⟨hu, f, ?_, k2, k3, ?_⟩
    · unfold firstsPass
      rw [calculateNullables_mono (by omega) h1]
      exact k1
    · intro A
      rw [k4]
      simp only [hn, Cfg.null_iff]
  · refine ⟨g.prods.length + 1, fun fuel hf => Or.inr ⟨hu, ?_⟩⟩
    unfold firstsPass
    rw [calculateNullables_mono hf h1]
    rfl

/-- What any successful run returned, for whatever fuel. -/
theorem firstsPass_ok {g : Grammar T NT AK AV} (hw : g.WF) {addr : NT → Nat → Nat}
    (ha : AddrInj g addr) {fuel : Nat} {f : Firsts T NT}
    (h : firstsPass fuel addr g = .ok (.ok f)) :
    CollectMap.WF compare compare f.map ∧
      (∀ A t, CollectMap.Has compare f.map A t ↔ ∃ γ, g.cfg.Derives [.nonterm A] (.term t :: γ)) ∧
      ∀ A, BMap.get? compare f.map A ≠ none ↔
        ∃ p ∈ g.prods, p.head = A ∧ ∃ pre e post, p.elements = pre ++ e :: post ∧
        (∀ x ∈ pre, x = .nonterm A ∧ g.cfg.Generates A []) ∧ e ≠ .nonterm A := by
  obtain ⟨N, hN⟩ := firstsPass_spec hw ha
  have h' := firstsPass_mono (Nat.le_max_left fuel N) h
  rcases hN (max fuel N) (by omega) with ⟨-, f', h1, h2⟩ | ⟨-, h1⟩
  · rw [h'] at h1
    cases h1
    exact h2
  · rw [h'] at h1; cases h1

/-- C19.  When the Firsts pass succeeds, `t` is in `get(A)` iff `A` derives a sentential form
beginning with `t`; and the set is in increasing order without duplicates. -/
theorem firsts_exact (g : Grammar T NT AK AV) (hg : g.Accepted) (addr : NT → Nat → Nat)
    (ha : AddrInj g addr) (fuel : Nat) (f : Firsts T NT)
    (h : firstsPass fuel addr g = .ok (.ok f)) (A : NT) :
    (∀ t, (∃ s, f.get A = some s ∧ t ∈ s) ↔ ∃ γ, g.cfg.Derives [.nonterm A] (.term t :: γ)) ∧
    (∀ s, f.get A = some s → BSet.Sorted compare s) := by
  obtain ⟨h1, h2, -⟩ := firstsPass_ok hg.valid.toWF ha h
  exact ⟨fun t => h2 A t, fun s hs => h1.sets A s hs⟩

/-- C20.  For every accepted grammar and layout the pass returns (with enough fuel it neither
runs out nor panics); it is an error iff the Nullable pass is, with the same error. -/
theorem firsts_terminates (g : Grammar T NT AK AV) (hg : g.Accepted) (addr : NT → Nat → Nat)
    (ha : AddrInj g addr) : ∃ N, ∀ fuel, N ≤ fuel →
      ((∃ f, firstsPass fuel addr g = .ok (.ok f)) ∧
        ∃ i, calculateNullables fuel addr g = .ok (.ok i)) ∨
      (∃ e, firstsPass fuel addr g = .ok (.error e) ∧
        calculateNullables fuel addr g = .ok (.error e)) := by
  have hw := hg.valid.toWF
  obtain ⟨N, hN⟩ := firstsPass_spec hw ha
  refine ⟨max N (g.prods.length + 1), fun fuel hf => ?_⟩
  rcases calculateNullables_spec hw ha (fuel := fuel) (by omega) with ⟨hu, i, h1, -⟩ | ⟨hu, h1⟩
  · rcases hN fuel (by omega) with ⟨-, f, h2, -⟩ | ⟨hu', -⟩
    · exact Or.inl ⟨⟨f, h2⟩, i, h1⟩
    · exact absurd hu hu'
  · rcases hN fuel (by omega) with ⟨hu', -⟩ | ⟨-, h2⟩
    · exact absurd hu' hu
    · exact Or.inr ⟨_, h2, h1⟩

/-- C20.  `get(A)` is `Some` iff some production of `A` contains, possibly after occurrences of a
nullable `A` itself, an element other than `A`. -/
theorem firsts_key_exact (g : Grammar T NT AK AV) (hg : g.Accepted) (addr : NT → Nat → Nat)
    (ha : AddrInj g addr) (fuel : Nat) (f : Firsts T NT)
    (h : firstsPass fuel addr g = .ok (.ok f)) (A : NT) :
    (f.get A).isSome = true ↔
      ∃ p ∈ g.prods, p.head = A ∧ ∃ pre e post, p.elements = pre ++ e :: post ∧
        (∀ x ∈ pre, x = .nonterm A ∧ g.cfg.Generates A []) ∧ e ≠ .nonterm A := by
  obtain ⟨-, -, h3⟩ := firstsPass_ok hg.valid.toWF ha h
  rw [← h3]
  unfold Firsts.get
  cases BMap.get? compare f.map A <;> simp

/-- The outcome of the Follows pass when the Firsts pass succeeds. -/
theorem followsPass_spec {g : Grammar T NT AK AV} (hw : g.WF) {addr : NT → Nat → Nat}
    (ha : AddrInj g addr) {fuel₀ : Nat} {f : Firsts T NT}
    (h : firstsPass fuel₀ addr g = .ok (.ok f)) : ∃ N, ∀ fuel, N ≤ fuel →
    ((∃ p ∈ g.prods, FirstsGap f p.elements) ∧ followsPass fuel addr g = .panic .noFirsts) ∨
    ((¬ ∃ p ∈ g.prods, FirstsGap f p.elements) ∧ ∃ fo, followsPass fuel addr g = .ok (.ok fo) ∧
      CollectMap.WF compare compare fo.map ∧
      (∀ A t, CollectMap.Has compare fo.map A t ↔ Coll (allFollowsOps f g) A t)) := by
  refine ⟨max (fuel₀ + 1) (CollectOp.bound (allFollowsOps f g)), fun fuel hf => ?_⟩
  have h' := firstsPass_mono (show fuel₀ ≤ fuel by omega) h
  unfold followsPass
  rw [h']
  simp only
  by_cases hgap : ∃ p ∈ g.prods, FirstsGap f p.elements
  · exact Or.inl ⟨hgap, followsRun_panic hgap (by omega)⟩
  · exact Or.inr ⟨hgap, followsRun_ok (fun p hp hg => hgap ⟨p, hp, hg⟩) (by omega)⟩

theorem changeIterM_mono_ok {g : Grammar T NT AK AV} {addr : NT → Nat → Nat} {n m : Nat}
    (hnm : n ≤ m) {r} (h : followsPass n addr g = .ok r) : followsPass m addr g = .ok r := by
  unfold followsPass at h ⊢
  cases h1 : firstsPass n addr g with
  | panic w => rw [h1] at h; cases h
  | oof => rw [h1] at h; cases h
  | ok x =>
    rw [h1] at h
    rw [firstsPass_mono hnm h1]
    simp only at h ⊢
    cases x with
    | error e => exact h
    | ok f =>
      unfold Follows.runPass at h ⊢
      simp only at h ⊢
      rw [changeLoop_mono hnm]
      · exact h
      · intro h'; rw [h'] at h; simp at h

/-- What any successful run of Follows returned. -/
theorem followsPass_ok {g : Grammar T NT AK AV} (hw : g.WF) {addr : NT → Nat → Nat}
    (ha : AddrInj g addr) {fuel : Nat} {fo : Follows T NT}
    (h : followsPass fuel addr g = .ok (.ok fo)) :
    ∃ f, FirstsExact g f ∧ CollectMap.WF compare compare fo.map ∧
      (∀ A t, CollectMap.Has compare fo.map A t ↔ Coll (allFollowsOps f g) A t) := by
  have h0 := h
  unfold followsPass at h0
  cases h1 : firstsPass fuel addr g with
  | panic w => rw [h1] at h0; cases h0
  | oof => rw [h1] at h0; cases h0
  | ok x =>
    rw [h1] at h0
    cases x with
    | error e => simp [Follows.runPass] at h0
    | ok f =>
      obtain ⟨N, hN⟩ := followsPass_spec hw ha h1
      have h' := changeIterM_mono_ok (Nat.le_max_left fuel N) h
      rcases hN (max fuel N) (by omega) with ⟨-, h2⟩ | ⟨-, fo', h2, h3⟩
      · rw [h'] at h2; cases h2
      · rw [h'] at h2
        cases h2
        exact ⟨f, fun A t => (firstsPass_ok hw ha h1).2.1 A t, h3⟩

/-- C21.  Every terminal recorded by the Follows pass for `A` can follow `A`: some nonterminal
with a rule derives a sentential form in which `A` is immediately followed by it. -/
theorem follows_sound (g : Grammar T NT AK AV) (hg : g.Accepted) (addr : NT → Nat → Nat)
    (ha : AddrInj g addr) (fuel : Nat) (fo : Follows T NT)
    (h : followsPass fuel addr g = .ok (.ok fo)) (A : NT) (s : BSet T) (t : T)
    (hs : BMap.get? compare fo.map A = some s) (ht : t ∈ s) :
    ∃ B r, g.tryGetRule B = some r ∧
      ∃ u v, g.cfg.Derives [.nonterm B] (u ++ .nonterm A :: .term t :: v) := by
  have hw := hg.valid.toWF
  obtain ⟨f, h1, -, h3⟩ := followsPass_ok hw ha h
  obtain ⟨p, hp, u, v, hd⟩ := coll_follows_sound hw h1 ((h3 A t).1 ⟨s, hs, ht⟩)
  obtain ⟨r, hr, -⟩ := (Grammar.mem_prods hw).1 hp
  exact ⟨p.head, r, hr, u, v, hd⟩

/-- C22, partial: complete for grammars in which no nonterminal that can derive the empty string comes
directly after a nonterminal in a production, so in particular for grammars without empty
productions.  (In general it is false: `follows_incomplete`.) -/
theorem follows_complete_partial (g : Grammar T NT AK AV) (hg : g.Accepted) (addr : NT → Nat → Nat)
    (ha : AddrInj g addr) (hnn : ∀ p ∈ g.prods, ∀ u X Y v,
      p.elements = u ++ .nonterm X :: .nonterm Y :: v → ¬ g.cfg.Generates Y [])
    (fuel : Nat) (fo : Follows T NT)
    (h : followsPass fuel addr g = .ok (.ok fo)) (B A : NT) (t : T) (u v : List (Elem T NT))
    (hd : g.cfg.Derives [.nonterm B] (u ++ .nonterm A :: .term t :: v)) :
    ∃ s, BMap.get? compare fo.map A = some s ∧ t ∈ s := by
  have hw := hg.valid.toWF
  obtain ⟨f, h1, -, h3⟩ := followsPass_ok hw ha h
  exact (h3 A t).2 (coll_follows_complete hw h1 hnn hd u A (.term t :: v) rfl t v
    Relation.ReflTransGen.refl)

/-- C66: exactly what the Follows pass records, for every grammar. -/
theorem follows_exact (g : Grammar T NT AK AV) (hg : g.Accepted) (addr : NT → Nat → Nat)
    (ha : AddrInj g addr) (fuel : Nat) (fo : Follows T NT)
    (h : followsPass fuel addr g = .ok (.ok fo)) (A : NT) (t : T) :
    (∃ s, BMap.get? compare fo.map A = some s ∧ t ∈ s) ↔ g.cfg.DirectFollow A t := by
  have hw := hg.valid.toWF
  obtain ⟨f, h1, -, h3⟩ := followsPass_ok hw ha h
  refine Iff.trans (h3 A t) ?_
  have hprod : ∀ p ∈ g.prods, g.cfg.prod p.head p.elements := fun p hp =>
    (Grammar.cfg_prod_iff hw).2 ⟨p, hp, rfl, rfl⟩
  constructor
  · intro hc
    induction hc with
    | insert hop =>
      obtain ⟨p, hp, ⟨u, X, t, v, he, h⟩ | ⟨u, X, Y, v, he, h⟩ | ⟨u, X, he, h⟩⟩ :=
        mem_allFollowsOps.1 hop
      · cases h
        exact .next (he ▸ hprod p hp) (γ := []) Relation.ReflTransGen.refl
      · cases h
      · cases h
    | iter hop hv =>
      obtain ⟨p, hp, ⟨u, X, t, v, he, h⟩ | ⟨u, X, Y, v, he, h⟩ | ⟨u, X, he, h⟩⟩ :=
        mem_allFollowsOps.1 hop
      · cases h
      · cases h
        obtain ⟨γ, hγ⟩ := (mem_getD_firsts h1).1 hv
        exact .next (he ▸ hprod p hp) hγ
      · cases h
    | fromKey hop _ ih =>
      obtain ⟨p, hp, ⟨u, X, t, v, he, h⟩ | ⟨u, X, Y, v, he, h⟩ | ⟨u, X, he, h⟩⟩ :=
        mem_allFollowsOps.1 hop
      · cases h
      · cases h
      · cases h
        exact .last (he ▸ hprod p hp) ih
  · intro hd
    induction hd with
    | @next B A u v γ e t hq hγ =>
      obtain ⟨p, hp, hB, he⟩ := (Grammar.cfg_prod_iff hw).1 hq
      cases e with
      | term t' =>
        have := firstElem_term (g := g) ⟨_, hγ⟩
        subst this
        exact .insert (mem_allFollowsOps.2 ⟨p, hp, Or.inl ⟨_, _, _, _, he, rfl⟩⟩)
      | nonterm Y =>
        exact .iter (mem_allFollowsOps.2 ⟨p, hp, Or.inr (Or.inl ⟨_, _, Y, _, he, rfl⟩)⟩)
          ((mem_getD_firsts h1).2 ⟨_, hγ⟩)
    | last hq _ ih =>
      obtain ⟨p, hp, rfl, he⟩ := (Grammar.cfg_prod_iff hw).1 hq
      exact .fromKey (mem_allFollowsOps.2 ⟨p, hp, Or.inr (Or.inr ⟨_, _, he, rfl⟩)⟩) ih

/-- C23, exact outcome (the property itself is false: `follows_panics`).  When the Nullable pass
fails, Follows returns that error; otherwise it panics iff some production body has two adjacent
nonterminals `X Y` where no production of `Y` contains an element other than `Y` (after nullable
`Y`s), and otherwise returns `Ok`.  It always terminates. -/
theorem follows_outcome_partial (g : Grammar T NT AK AV) (hg : g.Accepted) (addr : NT → Nat → Nat)
    (ha : AddrInj g addr) : ∃ N, ∀ fuel, N ≤ fuel →
      (∃ e, calculateNullables fuel addr g = .ok (.error e) ∧
        followsPass fuel addr g = .ok (.error e)) ∨
      ((∃ i, calculateNullables fuel addr g = .ok (.ok i)) ∧
        let Gap := ∃ p ∈ g.prods, ∃ u X Y v, p.elements = u ++ .nonterm X :: .nonterm Y :: v ∧
          ¬ ∃ q ∈ g.prods, q.head = Y ∧ ∃ pre e post, q.elements = pre ++ e :: post ∧
            (∀ x ∈ pre, x = .nonterm Y ∧ g.cfg.Generates Y []) ∧ e ≠ .nonterm Y
        ((Gap ∧ followsPass fuel addr g = .panic .noFirsts) ∨
          (¬ Gap ∧ ∃ fo, followsPass fuel addr g = .ok (.ok fo)))) := by
  have hw := hg.valid.toWF
  obtain ⟨N, hN⟩ := firsts_terminates g hg addr ha
  rcases hN N (Nat.le_refl N) with ⟨⟨f, h1⟩, i, h2⟩ | ⟨e, h1, h2⟩
  · obtain ⟨M, hM⟩ := followsPass_spec hw ha h1
    refine ⟨max M N, fun fuel hf => Or.inr ⟨⟨i, calculateNullables_mono (by omega) h2⟩, ?_⟩⟩
    have hkey := (firstsPass_ok hw ha h1).2.2
    have hgap : (∃ p ∈ g.prods, FirstsGap f p.elements) ↔ ∃ p ∈ g.prods, ∃ u X Y v,
        p.elements = u ++ .nonterm X :: .nonterm Y :: v ∧
          ¬ ∃ q ∈ g.prods, q.head = Y ∧ ∃ pre e post, q.elements = pre ++ e :: post ∧
            (∀ x ∈ pre, x = .nonterm Y ∧ g.cfg.Generates Y []) ∧ e ≠ .nonterm Y := by
      unfold FirstsGap Firsts.get
      simp only [← hkey, not_not]
    simp only [← hgap]
    rcases hM fuel (by omega) with h | ⟨h3, fo, h4, -⟩
    · exact Or.inl h
    · exact Or.inr ⟨h3, fo, h4⟩
  · refine ⟨N, fun fuel hf => Or.inl ⟨e, calculateNullables_mono hf h2, ?_⟩⟩
    unfold followsPass
    rw [firstsPass_mono hf h1]
    rfl

end

/-! ## Witnesses and refutations -/

/-- On `nullExample` (`S → x:E y:E | a`, `E → ε | b E`) both passes succeed, with nonempty sets. -/
example : ∃ f fo, firstsPass 20 exampleAddr nullExample = .ok (.ok f) ∧
    f.get 0 = some [7, 8] ∧ f.get 1 = some [8] ∧
    followsPass 20 exampleAddr nullExample = .ok (.ok fo) ∧
    BMap.get? compare fo.map 1 = some [8] := by
  refine ⟨⟨[(0, [7, 8]), (1, [8])]⟩, ⟨[(1, [8])]⟩, by rfl, by rfl, by rfl, by rfl, by rfl⟩

/-- `S(0) → A(1) B(2) c`, `A → a`, `B → ε | b`. -/
def followExample : Grammar Nat Nat Nat Unit :=
  ⟨0, [(0, ⟨0, [⟨1, (), [⟨none, .nonterm 1⟩, ⟨none, .nonterm 2⟩, ⟨none, .term 102⟩]⟩]⟩),
       (1, ⟨1, [⟨2, (), [⟨none, .term 100⟩]⟩]⟩),
       (2, ⟨2, [⟨3, (), []⟩, ⟨4, (), [⟨none, .term 101⟩]⟩]⟩)]⟩

theorem followExample_accepted : followExample.Accepted :=
  ⟨9, 0, [⟨0, [.addProd 1 () [.addNonterm 1, .addNonterm 2, .addTerm 102]]⟩,
          ⟨1, [.addProd 2 () [.addTerm 100]]⟩,
          ⟨2, [.addProd 3 () [], .addProd 4 () [.addTerm 101]]⟩], by decide⟩

/-- C22 is false of the code: the pass ignores that `B` can vanish, so `c` is missing from the
FOLLOW set of `A` although `S ⇒ A B c ⇒ A c`. -/
theorem follows_incomplete : ∃ fo, followsPass 20 exampleAddr followExample = .ok (.ok fo) ∧
    followExample.cfg.Derives [.nonterm 0] [.nonterm 1, .term 102] ∧
    BMap.get? compare fo.map 1 = some [101] := by
  refine ⟨⟨[(1, [101]), (2, [102])]⟩, by rfl, ?_, by rfl⟩
  refine Relation.ReflTransGen.tail (Relation.ReflTransGen.single
    (Cfg.Step.mk [] [] 0 [.nonterm 1, .nonterm 2, .term 102] ?_))
    (Cfg.Step.mk [.nonterm 1] [.term 102] 2 [] ?_)
  · exact ⟨_, _, List.mem_cons_self, List.mem_cons_self, rfl⟩
  · exact ⟨⟨2, [⟨3, (), []⟩, ⟨4, (), [⟨none, .term 101⟩]⟩]⟩, ⟨3, (), []⟩, by decide, by decide, rfl⟩

/-- `S(0) → A(1) B(2)`, `A → a`, `B → ε`. -/
def followPanicExample : Grammar Nat Nat Nat Unit :=
  ⟨0, [(0, ⟨0, [⟨1, (), [⟨none, .nonterm 1⟩, ⟨none, .nonterm 2⟩]⟩]⟩),
       (1, ⟨1, [⟨2, (), [⟨none, .term 100⟩]⟩]⟩),
       (2, ⟨2, [⟨3, (), []⟩]⟩)]⟩

/-- C23 is false of the code: `B` has no FIRST entry, so `unwrap` panics, for every fuel. -/
theorem follows_panics : followPanicExample.Accepted ∧
    (∃ i, calculateNullables 20 exampleAddr followPanicExample = .ok (.ok i)) ∧
    ∃ N, ∀ fuel, N ≤ fuel → followsPass fuel exampleAddr followPanicExample = .panic .noFirsts := by
  have hacc : followPanicExample.Accepted :=
    ⟨9, 0, [⟨0, [.addProd 1 () [.addNonterm 1, .addNonterm 2]]⟩,
            ⟨1, [.addProd 2 () [.addTerm 100]]⟩, ⟨2, [.addProd 3 () []]⟩], by decide⟩
  have hf : firstsPass 20 exampleAddr followPanicExample =
      .ok (.ok ⟨[(0, [100]), (1, [100])]⟩) := by rfl
  refine ⟨hacc, ⟨⟨[(2, .mk ⟨2, 3⟩ [])]⟩, by rfl⟩, ?_⟩
  obtain ⟨N, hN⟩ := followsPass_spec hacc.valid.toWF (exampleAddr_addrInj _) hf
  refine ⟨N, fun fuel hfu => ?_⟩
  rcases hN fuel hfu with ⟨-, h⟩ | ⟨h, -⟩
  · exact h
  · refine absurd ⟨⟨0, 0, ⟨1, (), [⟨none, .nonterm 1⟩, ⟨none, .nonterm 2⟩]⟩⟩, by decide,
      [], 1, 2, [], rfl, by rfl⟩ h

/-- The hypothesis of `follows_complete_partial` is met by `S(0) → a S b | N(1) c`, `N → ε`, which has
an empty production; the FOLLOW set of `S` is nonempty. -/
example : ∃ (g : Grammar Nat Nat Nat Unit) (fo : Follows Nat Nat), g.Accepted ∧
    (∀ p ∈ g.prods, ∀ u X Y v,
      p.elements = u ++ .nonterm X :: .nonterm Y :: v → ¬ g.cfg.Generates Y []) ∧
    (∃ p ∈ g.prods, p.elements = []) ∧
    followsPass 20 exampleAddr g = .ok (.ok fo) ∧ BMap.get? compare fo.map 0 = some [101] := by
  refine ⟨⟨0, [(0, ⟨0, [⟨1, (), [⟨none, .term 100⟩, ⟨none, .nonterm 0⟩, ⟨none, .term 101⟩]⟩,
      ⟨2, (), [⟨none, .nonterm 1⟩, ⟨none, .term 102⟩]⟩]⟩), (1, ⟨1, [⟨3, (), []⟩]⟩)]⟩,
    ⟨[(0, [101]), (1, [102])]⟩,
    ⟨9, 0, [⟨0, [.addProd 1 () [.addTerm 100, .addNonterm 0, .addTerm 101],
      .addProd 2 () [.addNonterm 1, .addTerm 102]]⟩, ⟨1, [.addProd 3 () []]⟩], by decide⟩, ?_,
    by decide, by rfl, by rfl⟩
  intro p hp u X Y v he
  exfalso
  have : ∀ p ∈ Grammar.prods (⟨0, [(0, ⟨0, [⟨1, (), [⟨none, .term 100⟩, ⟨none, .nonterm 0⟩,
      ⟨none, .term 101⟩]⟩, ⟨2, (), [⟨none, .nonterm 1⟩, ⟨none, .term 102⟩]⟩]⟩),
      (1, ⟨1, [⟨3, (), []⟩]⟩)]⟩ : Grammar Nat Nat Nat Unit),
      p.elements.IsChain (fun a b => a.asNonterm = none ∨ b.asNonterm = none) := by decide
  have hc := this p hp
  rw [List.isChain_iff_forall_rel_of_append_cons_cons] at hc
  have := hc he
  simp [Elem.asNonterm] at this

end Bongo
