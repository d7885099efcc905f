import Verif.Props.Compose
import Verif.Props.Firsts
import Verif.Props.Exact
import Verif.Spec.WrappedPasses
/-!
# C123: the analyses of a wrapped grammar
-/
set_option linter.unusedSectionVars false
namespace Bongo
open Std
variable {T NT AK AV : Type} [Ord NT] [TransOrd NT] [LawfulEqOrd NT]

/-! ## Derivations of the wrapped grammar -/

theorem wrapped_step {g : Grammar T NT AK AV} {s : List (Elem T NT)} {s'} :
    g.wrapped.cfg.Step (s.map baseElemToStartElem) s' ↔
      ∃ u, s' = u.map baseElemToStartElem ∧ g.cfg.Step s u := by
  constructor
  · intro h
    generalize hx : s.map baseElemToStartElem = x at h
    cases h with
    | mk u v A β hp =>
      rw [List.map_eq_append_iff] at hx
      obtain ⟨u0, r, rfl, rfl, hr⟩ := hx
      rw [List.map_eq_cons_iff] at hr
      obtain ⟨e, v0, rfl, he, rfl⟩ := hr
      cases e with
      | term t => cases he
      | nonterm B =>
        cases he
        obtain ⟨β', h1, rfl⟩ := wrapped_prod_nterm.1 hp
        exact ⟨u0 ++ β' ++ v0, by simp, .mk _ _ _ _ h1⟩
  · rintro ⟨u, rfl, h⟩
    cases h with
    | mk u v A β hp =>
      simp only [List.map_append, List.map_cons]
      exact .mk _ _ _ _ (wrapped_prod_nterm.2 ⟨_, hp, rfl⟩)

theorem wrapped_derives {g : Grammar T NT AK AV} {s : List (Elem T NT)} {s'} :
    g.wrapped.cfg.Derives (s.map baseElemToStartElem) s' ↔
      ∃ u, s' = u.map baseElemToStartElem ∧ g.cfg.Derives s u := by
  constructor
  · intro h
    induction h with
    | refl => exact ⟨s, rfl, .refl _⟩
    | tail _ h ih =>
      obtain ⟨u, rfl, h1⟩ := ih
      obtain ⟨v, rfl, h2⟩ := wrapped_step.1 h
      exact ⟨v, rfl, h1.tail h2⟩
  · rintro ⟨u, rfl, h⟩
    induction h with
    | refl => exact .refl _
    | tail _ h ih => exact ih.tail (wrapped_step.2 ⟨_, rfl, h⟩)

theorem wrapped_derives_term {g : Grammar T NT AK AV} {s : List (Elem T NT)} {t'} :
    (∃ γ, g.wrapped.cfg.Derives (s.map baseElemToStartElem) (.term t' :: γ)) ↔
      ∃ t, t' = .term t ∧ ∃ γ, g.cfg.Derives s (.term t :: γ) := by
  constructor
  · rintro ⟨γ, h⟩
    obtain ⟨u, hu, h1⟩ := wrapped_derives.1 h
    symm at hu
    rw [List.map_eq_cons_iff] at hu
    obtain ⟨e, v, rfl, he, rfl⟩ := hu
    cases e with
    | term t => cases he; exact ⟨t, rfl, v, h1⟩
    | nonterm B => cases he
  · rintro ⟨t, rfl, γ, h⟩
    exact ⟨_, wrapped_derives.2 ⟨_, rfl, h⟩⟩

/-- What the start symbol of the wrapped grammar can begin with. -/
theorem wrapped_derives_start_term {g : Grammar T NT AK AV} {t'} :
    (∃ γ, g.wrapped.cfg.Derives [.nonterm .start] (.term t' :: γ)) ↔
      (∃ t, t' = .term t ∧ ∃ γ, g.cfg.Derives [.nonterm g.startSymbol] (.term t :: γ)) ∨
      (t' = .endOfStream ∧ g.cfg.Generates g.startSymbol []) := by
  have key : ∀ x, g.wrapped.cfg.Derives [.nonterm .start] x → x = [.nonterm .start] ∨
      ∃ u, x = u.map baseElemToStartElem ++ [.term .endOfStream] ∧ g.cfg.Derives [.nonterm g.startSymbol] u := by
    intro x h
    induction h with
    | refl => exact .inl rfl
    | @tail y z _ h ih =>
      right
      rcases ih with rfl | ⟨u, rfl, h1⟩
      · generalize hx : [Elem.nonterm StartNonTerminal.start] = x at h
        cases h with
        | mk a b A β hp =>
          cases a with
          | nil =>
            simp only [List.nil_append, List.cons.injEq, Elem.nonterm.injEq] at hx
            obtain ⟨rfl, rfl⟩ := hx
            rw [wrapped_prod_start] at hp
            subst hp
            exact ⟨[.nonterm g.startSymbol], rfl, .refl _⟩
          | cons c a => simp at hx
      · generalize hx : u.map baseElemToStartElem ++ [.term .endOfStream] = x at h
        cases h with
        | mk a b A β hp =>
          rw [List.append_eq_append_iff] at hx
          rcases hx with ⟨c, rfl, hc⟩ | ⟨c, hc, hb⟩
          · cases c with
            | nil => simp at hc
            | cons c d => simp at hc
          · cases c with
            | nil => simp at hb
            | cons c d =>
              simp only [List.cons_append, List.cons.injEq] at hb
              obtain ⟨rfl, rfl⟩ := hb
              have hst : g.wrapped.cfg.Step (u.map baseElemToStartElem) (a ++ β ++ d) := by
                rw [hc]; exact .mk _ _ _ _ hp
              obtain ⟨v, hv, h2⟩ := wrapped_step.1 hst
              exact ⟨v, by rw [← hv]; simp, h1.tail h2⟩
  have lift : ∀ u, g.cfg.Derives [.nonterm g.startSymbol] u →
      g.wrapped.cfg.Derives [.nonterm .start] (u.map baseElemToStartElem ++ [.term .endOfStream]) := by
    intro u h
    induction h with
    | refl => exact .single (Cfg.Step.mk [] [] _ _ (wrapped_prod_start.2 rfl))
    | tail _ h ih =>
      refine ih.tail ?_
      cases h with
      | mk a b A β hp =>
        have := Cfg.Step.mk (G := g.wrapped.cfg) (a.map baseElemToStartElem)
          (b.map baseElemToStartElem ++ [.term .endOfStream]) _ _ (wrapped_prod_nterm.2 ⟨_, hp, rfl⟩)
        simpa [baseElemToStartElem] using this
  constructor
  · rintro ⟨γ, h⟩
    rcases key _ h with h | ⟨u, hu, h1⟩
    · cases h
    · cases u with
      | nil =>
        simp only [List.map_nil, List.nil_append, List.cons.injEq, Elem.term.injEq] at hu
        exact .inr ⟨hu.1, h1⟩
      | cons e u =>
        simp only [List.map_cons, List.cons_append, List.cons.injEq] at hu
        cases e with
        | term t => cases hu.1; exact .inl ⟨t, rfl, u, h1⟩
        | nonterm B => cases hu.1
  · rintro (⟨t, rfl, γ, h⟩ | ⟨rfl, h⟩)
    · exact ⟨_, lift _ h⟩
    · exact ⟨_, lift _ h⟩

/-- Nonterminals that come at the very end: `A` ends a production of `B`. -/
def Cfg.EndsIn (G : Cfg T NT) (B A : NT) : Prop := ∃ u, G.prod B (u ++ [.nonterm A])

theorem wrapped_endsIn {g : Grammar T NT AK AV} {A B : NT} :
    g.wrapped.cfg.EndsIn (.nterm B) (.nterm A) ↔ g.cfg.EndsIn B A := by
  constructor
  · rintro ⟨u, h⟩
    obtain ⟨β, h1, h2⟩ := wrapped_prod_nterm.1 h
    symm at h2
    rw [List.map_eq_append_iff] at h2
    obtain ⟨a, b, rfl, rfl, hb⟩ := h2
    rw [List.map_eq_singleton_iff] at hb
    obtain ⟨e, rfl, he⟩ := hb
    cases e with
    | term t => cases he
    | nonterm C => cases he; exact ⟨a, h1⟩
  · rintro ⟨u, h⟩
    refine ⟨u.map baseElemToStartElem, wrapped_prod_nterm.2 ⟨_, h, by simp [baseElemToStartElem]⟩⟩

/-- The content of FOLLOW for the wrapped grammar. -/
theorem wrapped_directFollow {g : Grammar T NT AK AV} (X : StartNonTerminal NT) (t' : StreamTerminal T) :
    g.wrapped.cfg.DirectFollow X t' ↔ ∃ A, X = .nterm A ∧
      ((∃ t, t' = .term t ∧ g.cfg.DirectFollow A t) ∨
        (t' = .endOfStream ∧ Relation.ReflTransGen g.cfg.EndsIn g.startSymbol A)) := by
  constructor
  · intro h
    induction h with
    | @next B A u v γ e t hp hd =>
      cases B with
      | start =>
        rw [wrapped_prod_start] at hp
        have hu : u = [] := by
          cases u with
          | nil => rfl
          | cons a u =>
            have := congrArg List.length hp
            simp only [List.length_append, List.length_cons, List.length_nil] at this
            omega
        subst hu
        simp only [List.nil_append, List.cons.injEq, Elem.nonterm.injEq] at hp
        obtain ⟨rfl, rfl, rfl⟩ := hp
        refine ⟨_, rfl, .inr ⟨?_, .refl⟩⟩
        rcases Relation.ReflTransGen.cases_head hd with h | ⟨y, hy, -⟩
        · cases h; rfl
        · generalize hx : [Elem.term (NT := StartNonTerminal NT) (StreamTerminal.endOfStream (T := T))] = x at hy
          cases hy with
          | mk a b A β hp =>
            cases a <;> simp at hx
      | nterm B =>
        obtain ⟨β, h1, h2⟩ := wrapped_prod_nterm.1 hp
        symm at h2
        rw [List.map_eq_append_iff] at h2
        obtain ⟨a, b, rfl, rfl, hb⟩ := h2
        rw [List.map_eq_cons_iff] at hb
        obtain ⟨x, b, rfl, hx, hb⟩ := hb
        rw [List.map_eq_cons_iff] at hb
        obtain ⟨e0, b, rfl, rfl, rfl⟩ := hb
        cases x with
        | term t => cases hx
        | nonterm C =>
          cases hx
          obtain ⟨t0, rfl, γ0, h3⟩ := (wrapped_derives_term (s := [e0])).1 ⟨γ, hd⟩
          exact ⟨C, rfl, .inl ⟨t0, rfl, .next h1 h3⟩⟩
    | @last B A u t hp hf ih =>
      obtain ⟨B, rfl, ih⟩ := ih
      obtain ⟨β, h1, h2⟩ := wrapped_prod_nterm.1 hp
      symm at h2
      rw [List.map_eq_append_iff] at h2
      obtain ⟨a, b, rfl, rfl, hb⟩ := h2
      rw [List.map_eq_singleton_iff] at hb
      obtain ⟨e, rfl, he⟩ := hb
      cases e with
      | term t => cases he
      | nonterm C =>
        cases he
        refine ⟨C, rfl, ?_⟩
        rcases ih with ⟨t0, rfl, h3⟩ | ⟨rfl, h3⟩
        · exact .inl ⟨t0, rfl, .last h1 h3⟩
        · exact .inr ⟨rfl, h3.tail ⟨a, h1⟩⟩
  · rintro ⟨A, rfl, ⟨t, rfl, h⟩ | ⟨rfl, h⟩⟩
    · induction h with
      | @next B A u v γ e t hp hd =>
        obtain ⟨γ', h'⟩ := (wrapped_derives_term (g := g) (s := [e])).2 ⟨t, rfl, γ, hd⟩
        refine .next (u := u.map baseElemToStartElem) (v := v.map baseElemToStartElem)
          (wrapped_prod_nterm.2 ⟨_, hp, by simp [baseElemToStartElem]⟩) h'
      | last hp _ ih =>
        obtain ⟨u', h'⟩ := wrapped_endsIn.2 ⟨_, hp⟩
        exact .last h' ih
    · induction h with
      | refl =>
        exact .next (u := []) (v := []) (B := .start) (γ := []) (wrapped_prod_start.2 rfl) (.refl _)
      | tail _ h ih =>
        obtain ⟨u', h'⟩ := wrapped_endsIn.2 h
        exact .last h' ih
/-! ## The passes -/

section passes
variable {g : Grammar T NT AK AV}

theorem lifted_generates_nil (A : NT) : g.wrapped.cfg.Generates (.nterm A) [] ↔ g.cfg.Generates A [] := by
  rw [wrap_language_nt]
  constructor
  · rintro ⟨w, h1, h2⟩
    obtain rfl := List.map_eq_nil_iff.1 h2.symm
    exact h1
  · exact fun h => ⟨[], h, rfl⟩

theorem start_generates_nil : ¬ g.wrapped.cfg.Generates .start [] := by
  intro h
  obtain ⟨w, -, h2⟩ := (wrap_language g []).1 h
  simp at h2

theorem lifted_sorted {s : BSet NT} (h : BSet.Sorted compare s) :
    BSet.Sorted compare (s.map StartNonTerminal.nterm) :=
  List.pairwise_map.2 h

theorem TreeNode.liftedAll_eq (ps : List (Name × TreeNode (ProdKey NT AK))) :
    TreeNode.liftedAll ps = ps.map fun x => (x.1, x.2.lifted) := by
  induction ps with
  | nil => rfl
  | cons x ps ih => rw [TreeNode.liftedAll, ih]; rfl

theorem TreeNode.lifted_eq (t : TreeNode (ProdKey NT AK)) :
    t.lifted = .mk t.action.lifted (t.params.map fun x => (x.1, x.2.lifted)) := by
  cases t with
  | mk k ps => rw [TreeNode.lifted, TreeNode.liftedAll_eq]; rfl

theorem get?_map_val {K V W : Type} {cmp : K → K → Ordering} (f : V → W) (m : BMap K V) (k : K) :
    BMap.get? cmp (m.map fun x => (x.1, f x.2)) k = (BMap.get? cmp m k).map f := by
  induction m with
  | nil => rfl
  | cons x m ih =>
    obtain ⟨a, b⟩ := x
    simp only [List.map_cons, BMap.get?_cons, ih]
    split <;> rfl

/-- C18: the parameters of a null tree are in the order of their names. -/
theorem null_tree_sorted (g : Grammar T NT AK AV) (hg : g.Accepted) (addr : NT → Nat → Nat)
    (ha : AddrInj g addr) (fuel : Nat) (info : GrammarNullableInfo NT AK)
    (h : calculateNullables fuel addr g = .ok (.ok info)) (A : NT) (t : TreeNode (ProdKey NT AK))
    (ht : info.getNullableAction A = some t) : BMap.Sorted compare t.params := by
  rcases calculateNullables_ok hg.valid.toWF ha h with ⟨-, info', he, -, -, hn⟩ | ⟨-, he⟩
  · cases he
    obtain ⟨p, -, -, ts, -, h2⟩ := hn A t ht
    rw [h2]
    exact BMap.sorted_ofList _
  · cases he

/-- An element of a production inside the wrapped grammar, with its name. -/
def liftedElement (e : ProdElement T NT) : ProdElement (StreamTerminal T) (StartNonTerminal NT) :=
  ⟨e.identifier, match e.element with
    | .term t => .term (.term t)
    | .nonterm nt => .nonterm (.nterm nt)⟩

theorem param_lt {t u : TreeNode (ProdKey NT AK)} {n : Name} (h : BMap.get? compare t.params n = some u) :
    sizeOf u < sizeOf t := by
  obtain ⟨k, hm, -⟩ := BMap.get?_mem h
  cases t with
  | mk a ps =>
    have h1 := List.sizeOf_lt_of_mem (as := ps) hm
    simp only [TreeNode.mk.sizeOf_spec]
    simp only [_root_.Prod.mk.sizeOf_spec] at h1
    omega

/-- C123.  The Nullable pass on a wrapped grammar: it succeeds exactly if it does on the original; the
new start symbol is not nullable, the other nonterminals are exactly if they were, the null trees are the
original ones with wrapped keys and the set lists the same nonterminals in the same order. -/
theorem wrapped_nullable (g : Grammar T NT AK AV) (hg : g.Accepted) (addr : NT → Nat → Nat)
    (ha : AddrInj g addr) (saddr : StartNonTerminal NT → Nat → Nat) (hs : AddrInj g.wrapped saddr) :
    ∃ N, ∀ fuel, N ≤ fuel →
      (calculateNullables fuel addr g = .ok (.error .ambiguity) ∧
        calculateNullables fuel saddr g.wrapped = .ok (.error .ambiguity)) ∨
      ∃ i i', calculateNullables fuel addr g = .ok (.ok i) ∧
        calculateNullables fuel saddr g.wrapped = .ok (.ok i') ∧
        i'.isNullable .start = false ∧ i'.getNullableAction .start = none ∧
        (∀ A, i'.isNullable (.nterm A) = i.isNullable A) ∧
        (∀ A, i'.getNullableAction (.nterm A) = (i.getNullableAction A).map TreeNode.lifted) ∧
        i'.getNullableSet = i.getNullableSet.map .nterm ∧
        (∀ p : Prod T NT AK AV, i'.prodNullable p.lifted = i.prodNullable p) := by
  have hv := hg.valid
  have hw := hv.toWF
  have hwa := (wrap_exact g hg).2.2
  refine ⟨g.prods.length + g.wrapped.prods.length + 1, fun fuel hf => ?_⟩
  rcases calculateNullables_spec hw ha (fuel := fuel) (by omega) with ⟨hu, i, h1, -⟩ | ⟨hu, h1⟩
  · rcases calculateNullables_spec (Grammar.wrapped_wf hw) hs (fuel := fuel) (by omega) with ⟨hu', i', h2, -⟩ | ⟨hu', h2⟩
    · right
      refine ⟨i, i', h1, h2, ?_⟩
      obtain ⟨e1, e2, e3, e4, e5⟩ := nullable_exact g hg addr ha fuel i h1
      obtain ⟨f1, f2, f3, f4, f5⟩ := nullable_exact g.wrapped hwa saddr hs fuel i' h2
      obtain ⟨n1, n2⟩ := null_tree_exact g hg addr ha fuel i h1
      obtain ⟨m1, m2⟩ := null_tree_exact g.wrapped hwa saddr hs fuel i' h2
      have tree : ∀ k (t : TreeNode (ProdKey NT AK)), sizeOf t = k → ∀ A, i.getNullableAction A = some t →
          i'.getNullableAction (.nterm A) = some t.lifted := by
        intro k
        induction k using Nat.strongRecOn with
        | ind k ih =>
          rintro t rfl A ht
          obtain ⟨p, hp, rfl, hpd, hpu, hk, hpar⟩ := n2 A t ht
          obtain ⟨t', ht'⟩ := Option.isSome_iff_exists.1 ((m1 (.nterm p.head)).2
            ((lifted_generates_nil _).2 ((n1 _).1 (by rw [ht]; rfl))))
          rw [ht']
          obtain ⟨q, hq, hqh, hqd, -, hk', hpar'⟩ := m2 _ t' ht'
          have hqp : q = p.lifted := by
            rcases (mem_prods_wrapped hw).1 hq with rfl | ⟨q, hq0, rfl⟩
            · cases hqh
            · rw [hpu q hq0 (StartNonTerminal.nterm.inj hqh) ((lifted_derives_nil q).1 hqd)]
          subst hqp
          have hsort := null_tree_sorted g hg addr ha fuel i h1 _ t ht
          have hsort' := null_tree_sorted g.wrapped hwa saddr hs fuel i' h2 _ t' ht'
          rw [TreeNode.lifted_eq]
          cases t' with
          | mk a' ps' =>
            congr 2
            · rw [show a' = p.lifted.prodKey from hk', hk]; rfl
            · refine BMap.ext (cmp := compare) hsort' (List.pairwise_map.2 hsort) ?_
              intro n
              rw [get?_map_val]
              have hpe : p.lifted.prodElements = p.prodElements.map liftedElement := rfl
              have hall : ∀ e ∈ p.prodElements, ∃ B u, e.element = .nonterm B ∧ i.getNullableAction B = some u := by
                intro e he
                have := (e3 p).2 hpd
                have := (e2 p).1 this e.element (List.mem_map.2 ⟨e, he, rfl⟩)
                cases hee : e.element with
                | term t =>
                  rw [hee] at this
                  exact absurd this (fun hd => by
                    have := (Cfg.yields_iff (w := [])).2 hd
                    rw [Cfg.yields_nil_word_iff] at this
                    obtain ⟨B, hB, -⟩ := this _ (List.mem_singleton.2 rfl)
                    cases hB)
                | nonterm B =>
                  rw [hee] at this
                  obtain ⟨u, hu⟩ := Option.isSome_iff_exists.1 ((n1 B).2 this)
                  exact ⟨B, u, rfl, hu⟩
              cases hn : BMap.get? compare t.params n with
              | some u =>
                obtain ⟨pre, B, post, h3, h4, h5⟩ := (hpar n u).1 hn
                have h6 := ih _ (param_lt hn) u rfl B h5
                refine (hpar' n u.lifted).2 ⟨pre.map liftedElement, .nterm B, post.map liftedElement, ?_, ?_, h6⟩
                · rw [hpe, h3]; simp [liftedElement]
                · intro e he
                  obtain ⟨e0, he0, rfl⟩ := List.mem_map.1 he
                  exact h4 e0 he0
              | none =>
                cases hn' : BMap.get? compare ps' n with
                | none => rfl
                | some u' =>
                  obtain ⟨pre, B, post, h3, h4, h5⟩ := (hpar' n u').1 hn'
                  rw [hpe, List.map_eq_append_iff] at h3
                  obtain ⟨a, b, hab, rfl, hb⟩ := h3
                  rw [List.map_eq_cons_iff] at hb
                  obtain ⟨e, c, rfl, he, rfl⟩ := hb
                  obtain ⟨B0, u0, hB0, hu0⟩ := hall e (by rw [hab]; simp)
                  have hid : e.identifier = some n := congrArg ProdElement.identifier he
                  have : BMap.get? compare t.params n = some u0 := (hpar n u0).2 ⟨a, B0, c, by
                    rw [hab]; congr 2; cases e; simp at hid hB0; rw [hid, hB0], fun x hx =>
                      h4 _ (List.mem_map.2 ⟨x, hx, rfl⟩), hu0⟩
                  rw [hn] at this
                  cases this
      have hst : i'.isNullable .start = false := by
        cases h : i'.isNullable .start with
        | false => rfl
        | true => exact absurd ((f1 _).1 h) start_generates_nil
      refine ⟨hst, ?_, ?_, ?_, ?_, ?_⟩
      · cases h : i'.getNullableAction .start with
        | none => rfl
        | some t => exact absurd ((m1 .start).1 (by rw [h]; rfl)) start_generates_nil
      · intro A
        rw [Bool.eq_iff_iff, f1, e1, lifted_generates_nil]
      · intro A
        cases hA : i.getNullableAction A with
        | some t => exact tree _ t rfl A hA
        | none =>
          cases h : i'.getNullableAction (.nterm A) with
          | none => rfl
          | some t =>
            have := (n1 A).2 ((lifted_generates_nil A).1 ((m1 _).1 (by rw [h]; rfl)))
            rw [hA] at this
            cases this
      · refine BSet.ext (cmp := compare) f5 (lifted_sorted e5) ?_
        intro X
        rw [f4, List.mem_map]
        cases X with
        | start => simp [start_generates_nil]
        | nterm A =>
          rw [lifted_generates_nil, ← e4]
          simp
      · intro p
        rw [Bool.eq_iff_iff, f3, e3, lifted_derives_nil]
    · exact absurd ((wrapped_nullUnique hw).2 hu) hu'
  · rcases calculateNullables_spec (Grammar.wrapped_wf hw) hs (fuel := fuel) (by omega) with ⟨hu', i', h2, -⟩ | ⟨hu', h2⟩
    · exact absurd ((wrapped_nullUnique hw).1 hu') hu
    · exact .inl ⟨h1, h2⟩

variable [Ord T] [TransOrd T] [LawfulEqOrd T]

/-- C123.  The Firsts pass on a wrapped grammar: it succeeds exactly if it does on the original; the set
of an original nonterminal is the original set, and that of the new start symbol is the set of the
original start symbol, with the end of the stream in front if that is nullable. -/
theorem wrapped_firsts (g : Grammar T NT AK AV) (hg : g.Accepted) (addr : NT → Nat → Nat)
    (ha : AddrInj g addr) (saddr : StartNonTerminal NT → Nat → Nat) (hs : AddrInj g.wrapped saddr) :
    ∃ N, ∀ fuel, N ≤ fuel →
      (firstsPass fuel addr g = .ok (.error .ambiguity) ∧
        firstsPass fuel saddr g.wrapped = .ok (.error .ambiguity)) ∨
      ∃ i f f', calculateNullables fuel addr g = .ok (.ok i) ∧ firstsPass fuel addr g = .ok (.ok f) ∧
        firstsPass fuel saddr g.wrapped = .ok (.ok f') ∧
        (∀ A, f'.get (.nterm A) = (f.get A).map (·.map .term)) ∧
        f'.get .start = some ((if i.isNullable g.startSymbol then [.endOfStream] else []) ++
          ((f.get g.startSymbol).getD []).map .term) := by
  have hv := hg.valid
  have hw := hv.toWF
  have hwa := (wrap_exact g hg).2.2
  obtain ⟨N1, h1⟩ := wrapped_nullable g hg addr ha saddr hs
  obtain ⟨N2, h2⟩ := firsts_terminates g hg addr ha
  obtain ⟨N3, h3⟩ := firsts_terminates g.wrapped hwa saddr hs
  refine ⟨N1 + N2 + N3, fun fuel hf => ?_⟩
  rcases h1 fuel (by omega) with ⟨a1, a2⟩ | ⟨i, i', a1, a2, -⟩
  · left
    rcases h2 fuel (by omega) with ⟨-, j, b⟩ | ⟨e, b1, b2⟩
    · rw [a1] at b; cases b
    rcases h3 fuel (by omega) with ⟨-, j, c⟩ | ⟨e', c1, c2⟩
    · rw [a2] at c; cases c
    rw [a1] at b2; cases b2
    rw [a2] at c2; cases c2
    exact ⟨b1, c1⟩
  · right
    rcases h2 fuel (by omega) with ⟨⟨f, b1⟩, -⟩ | ⟨e, b1, b2⟩
    swap
    · rw [a1] at b2; cases b2
    rcases h3 fuel (by omega) with ⟨⟨f', c1⟩, -⟩ | ⟨e, c1, c2⟩
    swap
    · rw [a2] at c2; cases c2
    refine ⟨i, f, f', a1, b1, c1, ?_, ?_⟩
    · intro A
      obtain ⟨d1, d2⟩ := firsts_exact g hg addr ha fuel f b1 A
      obtain ⟨d1', d2'⟩ := firsts_exact g.wrapped hwa saddr hs fuel f' c1 (.nterm A)
      have dk := firsts_key_exact g hg addr ha fuel f b1 A
      have dk' := firsts_key_exact g.wrapped hwa saddr hs fuel f' c1 (.nterm A)
      have hkey : (f'.get (.nterm A)).isSome = true ↔ (f.get A).isSome = true := by
        rw [dk, dk']
        constructor
        · rintro ⟨p, hp, hh, pre, e, post, he, hpre, hne⟩
          rcases (mem_prods_wrapped hw).1 hp with rfl | ⟨q, hq, rfl⟩
          · cases hh
          · cases hh
            rw [Prod.lifted_elements, List.map_eq_append_iff] at he
            obtain ⟨a, b, hab, rfl, hb⟩ := he
            rw [List.map_eq_cons_iff] at hb
            obtain ⟨e0, c, rfl, rfl, rfl⟩ := hb
            refine ⟨q, hq, rfl, a, e0, c, hab, ?_, ?_⟩
            · intro x hx
              obtain ⟨k1, k2⟩ := hpre _ (List.mem_map.2 ⟨x, hx, rfl⟩)
              refine ⟨?_, (lifted_generates_nil _).1 k2⟩
              cases x with
              | term t => cases k1
              | nonterm B => cases k1; rfl
            · rintro rfl; exact hne rfl
        · rintro ⟨p, hp, rfl, pre, e, post, he, hpre, hne⟩
          refine ⟨p.lifted, (mem_prods_wrapped hw).2 (.inr ⟨p, hp, rfl⟩), rfl,
            pre.map baseElemToStartElem, baseElemToStartElem e, post.map baseElemToStartElem, ?_, ?_, ?_⟩
          · rw [Prod.lifted_elements, he]; simp
          · intro x hx
            obtain ⟨y, hy, rfl⟩ := List.mem_map.1 hx
            obtain ⟨rfl, k2⟩ := hpre y hy
            exact ⟨rfl, (lifted_generates_nil _).2 k2⟩
          · intro h
            cases e with
            | term t => cases h
            | nonterm B => cases h; exact hne rfl
      cases hA : f.get A with
      | none =>
        cases hA' : f'.get (.nterm A) with
        | none => rfl
        | some s' => rw [hA, hA'] at hkey; simp at hkey
      | some s =>
        cases hA' : f'.get (.nterm A) with
        | none => rw [hA, hA'] at hkey; simp at hkey
        | some s' =>
          refine congrArg some (BSet.ext (cmp := compare) (d2' _ hA') (List.pairwise_map.2 (d2 _ hA)) ?_)
          intro t'
          have e1 := d1' t'
          rw [hA'] at e1
          have e2 := wrapped_derives_term (g := g) (s := [.nonterm A]) (t' := t')
          rw [List.mem_map]
          have e1' : t' ∈ s' ↔ ∃ γ, g.wrapped.cfg.Derives [.nonterm (.nterm A)] (.term t' :: γ) := by
            simpa using e1
          refine e1'.trans (e2.trans ?_)
          constructor
          · rintro ⟨t, rfl, h⟩
            obtain ⟨s0, k1, k2⟩ := (d1 t).2 h
            rw [hA] at k1; cases k1
            exact ⟨t, k2, rfl⟩
          · rintro ⟨t, h, rfl⟩
            exact ⟨t, rfl, (d1 t).1 ⟨s, hA, h⟩⟩
    · obtain ⟨d1, d2⟩ := firsts_exact g hg addr ha fuel f b1 g.startSymbol
      obtain ⟨d1', d2'⟩ := firsts_exact g.wrapped hwa saddr hs fuel f' c1 .start
      have dk' := firsts_key_exact g.wrapped hwa saddr hs fuel f' c1 .start
      have hn := (nullable_exact g hg addr ha fuel i a1).1 g.startSymbol
      obtain ⟨s', hs'⟩ := Option.isSome_iff_exists.1 (dk'.2 ⟨_, (mem_prods_wrapped hw).2 (.inl rfl), rfl,
        [], .nonterm (.nterm g.startSymbol), [.term .endOfStream], rfl, by simp, by simp⟩)
      rw [hs']
      have hsf : BSet.Sorted compare ((f.get g.startSymbol).getD []) := by
        cases hA : f.get g.startSymbol with
        | none => exact List.Pairwise.nil
        | some s => exact d2 _ hA
      refine congrArg some (BSet.ext (cmp := compare) (d2' _ hs') ?_ ?_)
      · refine List.pairwise_append.2 ⟨?_, List.pairwise_map.2 hsf, ?_⟩
        · split <;> simp
        · intro a ha b hb
          obtain ⟨t, -, rfl⟩ := List.mem_map.1 hb
          split at ha
          · simp only [List.mem_singleton] at ha; subst ha; rfl
          · cases ha
      · intro t'
        have e1 := d1' t'
        rw [hs'] at e1
        refine Iff.trans (by simpa using e1) (Iff.trans wrapped_derives_start_term ?_)
        rw [List.mem_append, List.mem_map]
        constructor
        · rintro (⟨t, rfl, h⟩ | ⟨rfl, h⟩)
          · obtain ⟨s, k1, k2⟩ := (d1 t).2 h
            exact .inr ⟨t, by rw [k1]; exact k2, rfl⟩
          · exact .inl (by rw [if_pos (hn.2 h)]; simp)
        · rintro (h | ⟨t, h, rfl⟩)
          · split at h
            · rename_i hn'
              simp only [List.mem_singleton] at h
              exact .inr ⟨h, hn.1 hn'⟩
            · cases h
          · refine .inl ⟨t, rfl, (d1 t).1 ?_⟩
            cases hA : f.get g.startSymbol with
            | none => rw [hA] at h; cases h
            | some s => rw [hA] at h; exact ⟨s, rfl, h⟩

theorem wrapped_gap (hw : g.WF) :
    (∃ p ∈ g.wrapped.prods, ∃ u X Y v, p.elements = u ++ .nonterm X :: .nonterm Y :: v ∧
      ¬ ∃ q ∈ g.wrapped.prods, q.head = Y ∧ ∃ pre e post, q.elements = pre ++ e :: post ∧
        (∀ x ∈ pre, x = .nonterm Y ∧ g.wrapped.cfg.Generates Y []) ∧ e ≠ .nonterm Y) ↔
    (∃ p ∈ g.prods, ∃ u X Y v, p.elements = u ++ .nonterm X :: .nonterm Y :: v ∧
      ¬ ∃ q ∈ g.prods, q.head = Y ∧ ∃ pre e post, q.elements = pre ++ e :: post ∧
        (∀ x ∈ pre, x = .nonterm Y ∧ g.cfg.Generates Y []) ∧ e ≠ .nonterm Y) := by
  have hk : ∀ A, (∃ q ∈ g.wrapped.prods, q.head = .nterm A ∧ ∃ pre e post, q.elements = pre ++ e :: post ∧
        (∀ x ∈ pre, x = .nonterm (.nterm A) ∧ g.wrapped.cfg.Generates (.nterm A) []) ∧ e ≠ .nonterm (.nterm A)) ↔
      ∃ q ∈ g.prods, q.head = A ∧ ∃ pre e post, q.elements = pre ++ e :: post ∧
        (∀ x ∈ pre, x = .nonterm A ∧ g.cfg.Generates A []) ∧ e ≠ .nonterm A := by
    intro A
    constructor
    · rintro ⟨p, hp, hh, pre, e, post, he, hpre, hne⟩
      rcases (mem_prods_wrapped hw).1 hp with rfl | ⟨q, hq, rfl⟩
      · cases hh
      · cases hh
        rw [Prod.lifted_elements, List.map_eq_append_iff] at he
        obtain ⟨a, b, hab, rfl, hb⟩ := he
        rw [List.map_eq_cons_iff] at hb
        obtain ⟨e0, c, rfl, rfl, rfl⟩ := hb
        refine ⟨q, hq, rfl, a, e0, c, hab, ?_, ?_⟩
        · intro x hx
          obtain ⟨k1, k2⟩ := hpre _ (List.mem_map.2 ⟨x, hx, rfl⟩)
          refine ⟨?_, (lifted_generates_nil _).1 k2⟩
          cases x with
          | term t => cases k1
          | nonterm B => cases k1; rfl
        · rintro rfl; exact hne rfl
    · rintro ⟨p, hp, rfl, pre, e, post, he, hpre, hne⟩
      refine ⟨p.lifted, (mem_prods_wrapped hw).2 (.inr ⟨p, hp, rfl⟩), rfl,
        pre.map baseElemToStartElem, baseElemToStartElem e, post.map baseElemToStartElem, ?_, ?_, ?_⟩
      · rw [Prod.lifted_elements, he]; simp
      · intro x hx
        obtain ⟨y, hy, rfl⟩ := List.mem_map.1 hx
        obtain ⟨rfl, k2⟩ := hpre y hy
        exact ⟨rfl, (lifted_generates_nil _).2 k2⟩
      · intro h
        cases e with
        | term t => cases h
        | nonterm B => cases h; exact hne rfl
  constructor
  · rintro ⟨p, hp, u, X, Y, v, he, hn⟩
    rcases (mem_prods_wrapped hw).1 hp with rfl | ⟨q, hq, rfl⟩
    · exfalso
      have hl := congrArg List.length he
      have he : [Elem.nonterm (StartNonTerminal.nterm g.startSymbol), Elem.term StreamTerminal.endOfStream] =
        u ++ .nonterm X :: .nonterm Y :: v := he
      cases u with
      | nil => simp at he
      | cons a u =>
        cases u with
        | nil => simp at he
        | cons b u => simp at he
    · rw [Prod.lifted_elements, List.map_eq_append_iff] at he
      obtain ⟨a, b, hab, rfl, hb⟩ := he
      rw [List.map_eq_cons_iff] at hb
      obtain ⟨x, b, rfl, hx, hb⟩ := hb
      rw [List.map_eq_cons_iff] at hb
      obtain ⟨y, b, rfl, hy, rfl⟩ := hb
      cases x with
      | term t => cases hx
      | nonterm X =>
        cases y with
        | term t => cases hy
        | nonterm Y =>
          cases hx; cases hy
          exact ⟨q, hq, a, X, Y, b, hab, mt (hk Y).2 hn⟩
  · rintro ⟨p, hp, u, X, Y, v, he, hn⟩
    refine ⟨p.lifted, (mem_prods_wrapped hw).2 (.inr ⟨p, hp, rfl⟩), u.map baseElemToStartElem, .nterm X,
      .nterm Y, v.map baseElemToStartElem, ?_, mt (hk Y).1 hn⟩
    rw [Prod.lifted_elements, he]; simp [baseElemToStartElem]

/-- C123.  The Follows pass on a wrapped grammar has the same outcome as on the original: the same error,
the same panic, or success; then the original start symbol, and every nonterminal that ends a production
of one having it, has the end of the stream in addition to what it had; and nothing is listed for the new
start symbol. -/
theorem wrapped_follows (g : Grammar T NT AK AV) (hg : g.Accepted) (addr : NT → Nat → Nat)
    (ha : AddrInj g addr) (saddr : StartNonTerminal NT → Nat → Nat) (hs : AddrInj g.wrapped saddr) :
    ∃ N, ∀ fuel, N ≤ fuel →
      (followsPass fuel addr g = .ok (.error .ambiguity) ∧
        followsPass fuel saddr g.wrapped = .ok (.error .ambiguity)) ∨
      (followsPass fuel addr g = .panic .noFirsts ∧ followsPass fuel saddr g.wrapped = .panic .noFirsts) ∨
      ∃ fo fo', followsPass fuel addr g = .ok (.ok fo) ∧ followsPass fuel saddr g.wrapped = .ok (.ok fo') ∧
        (∀ s t, BMap.get? compare fo'.map .start = some s → t ∉ s) ∧
        (∀ A t, (∃ s, BMap.get? compare fo'.map (.nterm A) = some s ∧ .term t ∈ s) ↔
          ∃ s, BMap.get? compare fo.map A = some s ∧ t ∈ s) ∧
        ∀ A, (∃ s, BMap.get? compare fo'.map (.nterm A) = some s ∧ .endOfStream ∈ s) ↔
          Relation.ReflTransGen (fun B C => ∃ p ∈ g.prods, p.head = B ∧ ∃ u, p.elements = u ++ [.nonterm C])
            g.startSymbol A := by
  have hw := hg.valid.toWF
  have hwa := (wrap_exact g hg).2.2
  obtain ⟨N1, h1⟩ := wrapped_nullable g hg addr ha saddr hs
  obtain ⟨N2, h2⟩ := follows_outcome g hg addr ha
  obtain ⟨N3, h3⟩ := follows_outcome g.wrapped hwa saddr hs
  refine ⟨N1 + N2 + N3, fun fuel hf => ?_⟩
  rcases h1 fuel (by omega) with ⟨a1, a2⟩ | ⟨i, i', a1, a2, -⟩
  · left
    rcases h2 fuel (by omega) with ⟨e, b2, b1⟩ | ⟨⟨j, b⟩, -⟩
    swap
    · rw [a1] at b; cases b
    rcases h3 fuel (by omega) with ⟨e', c2, c1⟩ | ⟨⟨j, c⟩, -⟩
    swap
    · rw [a2] at c; cases c
    rw [a1] at b2; cases b2
    rw [a2] at c2; cases c2
    exact ⟨b1, c1⟩
  · right
    rcases h2 fuel (by omega) with ⟨e, b2, b1⟩ | ⟨-, b⟩
    · rw [a1] at b2; cases b2
    rcases h3 fuel (by omega) with ⟨e', c2, c1⟩ | ⟨-, c⟩
    · rw [a2] at c2; cases c2
    simp only at b c
    rw [wrapped_gap hw] at c
    rcases b with ⟨k, b⟩ | ⟨k, fo, b⟩
    · rcases c with ⟨-, c⟩ | ⟨k', -⟩
      · exact .inl ⟨b, c⟩
      · exact absurd k k'
    · rcases c with ⟨k', -⟩ | ⟨-, fo', c⟩
      · exact absurd k' k
      · right
        refine ⟨fo, fo', b, c, ?_, ?_, ?_⟩
        · intro s t hs' ht
          obtain ⟨A, hA, -⟩ := (wrapped_directFollow _ _).1
            ((follows_exact g.wrapped hwa saddr hs fuel fo' c .start t).1 ⟨s, hs', ht⟩)
          cases hA
        · intro A t
          rw [follows_exact g.wrapped hwa saddr hs fuel fo' c, follows_exact g hg addr ha fuel fo b,
            wrapped_directFollow]
          simp
        · intro A
          rw [follows_exact g.wrapped hwa saddr hs fuel fo' c, wrapped_directFollow]
          have : g.cfg.EndsIn = fun B C => ∃ p ∈ g.prods, p.head = B ∧ ∃ u, p.elements = u ++ [.nonterm C] := by
            funext B C
            apply propext
            constructor
            · rintro ⟨u, h⟩
              obtain ⟨p, hp, k1, k2⟩ := (Grammar.cfg_prod_iff hw).1 h
              exact ⟨p, hp, k1.symm ▸ rfl, u, k2.symm ▸ rfl⟩
            · rintro ⟨p, hp, rfl, u, hu⟩
              exact ⟨u, (Grammar.cfg_prod_iff hw).2 ⟨p, hp, rfl, hu.symm ▸ rfl⟩⟩
          rw [← this]
          simp

/-- `S → x:E y:E | 7; E → ε | 8 E` and its wrapped grammar: the sets of the original are there, with the
end of the stream in front, and it follows `S` and the last `E`; the null tree of `S` has wrapped keys. -/
example : nullExample.Accepted ∧ AddrInj nullExample exampleAddr ∧ AddrInj nullExample.wrapped exampleSAddr ∧
    (∃ f f' fo', firstsPass 20 exampleAddr nullExample = .ok (.ok f) ∧
      firstsPass 20 exampleSAddr nullExample.wrapped = .ok (.ok f') ∧
      followsPass 20 exampleSAddr nullExample.wrapped = .ok (.ok fo') ∧ f.get 0 = some [7, 8] ∧
      f'.get (.nterm 0) = some [.term 7, .term 8] ∧
      f'.get .start = some [.endOfStream, .term 7, .term 8] ∧
      BMap.get? compare fo'.map (.nterm 1) = some [.endOfStream, .term 8] ∧
      BMap.get? compare fo'.map (.nterm 0) = some [.endOfStream]) ∧
    ∃ i', calculateNullables 20 exampleSAddr nullExample.wrapped = .ok (.ok i') ∧
      i'.getNullableAction (.nterm 0) = some (.mk ⟨.nterm 0, .actionKey 1⟩
        [("x", .mk ⟨.nterm 1, .actionKey 3⟩ []), ("y", .mk ⟨.nterm 1, .actionKey 3⟩ [])]) := by
  refine ⟨nullExample_accepted, exampleAddr_addrInj _, exampleSAddr_addrInj _,
    ⟨_, _, _, by rfl, by rfl, by rfl, by rfl, by rfl, by rfl, by rfl, by rfl⟩, _, by rfl, by rfl⟩

/-- The other two outcomes: an ambiguous empty word, and two nonterminals of which the second has no
FIRST set. -/
example : nullAmbiguous.Accepted ∧ followPanicExample.Accepted ∧
    firstsPass 20 exampleSAddr nullAmbiguous.wrapped = .ok (.error .ambiguity) ∧
    followsPass 20 exampleSAddr followPanicExample.wrapped = .panic .noFirsts :=
  ⟨nullAmbiguous_accepted, follows_panics.1, by rfl, by rfl⟩
end passes
end Bongo
