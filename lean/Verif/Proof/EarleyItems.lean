import Verif.Spec.Earley
import Verif.Proof.Sentential
import Verif.Proof.Start
import Verif.Proof.Tree
/-! The items of Earley's algorithm as a deduction system, and what they mean. -/
set_option linter.unusedSectionVars false
namespace Bongo
open Std
variable {T NT AK AV V : Type}

/-- The part of the list from `i` to `j`. -/
def seg {α : Type} (l : List α) (i j : Nat) : List α := (l.take j).drop i

@[simp] theorem seg_self {α : Type} (l : List α) (i : Nat) : seg l i i = [] := by
  unfold seg; simp

@[simp] theorem seg_zero {α : Type} (l : List α) (j : Nat) : seg l 0 j = l.take j := rfl

theorem seg_length {α : Type} {l : List α} {i j : Nat} (hj : j ≤ l.length) :
    (seg l i j).length = j - i := by
  unfold seg; simp; omega

theorem seg_append {α : Type} (l : List α) {i k j : Nat} (h1 : i ≤ k) (h2 : k ≤ j) :
    seg l i k ++ seg l k j = seg l i j := by
  unfold seg
  apply List.ext_getElem?
  intro n
  simp only [List.getElem?_append, List.length_drop, List.length_take, List.getElem?_drop,
    List.getElem?_take]
  split
  · next h => rw [if_pos (by omega), if_pos (by omega)]
  · next h =>
    by_cases hl : k ≤ l.length
    · have e : k + (n - (min k l.length - i)) = i + n := by omega
      rw [e]
    · rw [List.getElem?_eq_none (l := l) (by omega), List.getElem?_eq_none (l := l) (by omega)]
      simp

theorem take_seg {α : Type} (l : List α) {i j : Nat} (h : i ≤ j) : l.take i ++ seg l i j = l.take j := by
  have := seg_append l (Nat.zero_le i) h
  simpa using this

theorem seg_succ {α : Type} {l : List α} {i j : Nat} {a : α} (h : i ≤ j) (ha : l[j]? = some a) :
    seg l i (j + 1) = seg l i j ++ [a] := by
  rw [← seg_append l h (Nat.le_succ j)]
  congr 1
  obtain ⟨hj, rfl⟩ := List.getElem?_eq_some_iff.1 ha
  unfold seg
  apply List.ext_getElem?
  intro n
  simp only [List.getElem?_drop, List.getElem?_take]
  cases n with
  | zero => simp
  | succ n => simp

theorem seg_cons {α : Type} {l : List α} {i j : Nat} {a : α} {r : List α} (h : seg l i j = a :: r) :
    l[i]? = some a ∧ seg l (i + 1) j = r ∧ i < j := by
  unfold seg at h
  have h0 : ((l.take j).drop i)[0]? = some a := by rw [h]; rfl
  rw [List.getElem?_drop, List.getElem?_take] at h0
  simp only [Nat.add_zero] at h0
  split at h0
  · next hij =>
    refine ⟨h0, ?_, hij⟩
    unfold seg
    have : List.drop 1 (List.drop i (List.take j l)) = r := by rw [h]; rfl
    rw [List.drop_drop] at this
    exact this
  · cases h0

theorem seg_eq_append {α : Type} {l : List α} {i j : Nat} {a b : List α} (hij : i ≤ j)
    (hj : j ≤ l.length) (h : seg l i j = a ++ b) :
    ∃ k, i ≤ k ∧ k ≤ j ∧ seg l i k = a ∧ seg l k j = b := by
  have hlen := seg_length (i := i) hj
  rw [h, List.length_append] at hlen
  have hk := seg_append l (Nat.le_add_right i a.length) (show i + a.length ≤ j by omega)
  rw [h] at hk
  obtain ⟨h1, h2⟩ := List.append_inj hk (by rw [seg_length (by omega)]; omega)
  exact ⟨i + a.length, by omega, by omega, h1, h2⟩

/-- A derivation tree of a start grammar over tokens. -/
abbrev STree (T NT AK AV V : Type) := DTree (Token T V) (SProd T NT AK AV)

/-- `EParse j p d i ts`: production `p`, started at `i`, is at position `d` after the first `j`
tokens, and `ts` are derivation trees of its first `d` elements. -/
inductive EParse (sg : StartGrammar T NT AK AV) (toks : List (Token T V)) :
    Nat → SProd T NT AK AV → Nat → Nat → List (STree T NT AK AV V) → Prop where
  | start {p} : p ∈ sg.prods → p.head = sg.startSymbol → EParse sg toks 0 p 0 0 []
  | predict {j p d i ts q} : EParse sg toks j p d i ts →
      p.elements[d]? = some (.nonterm q.head) → q ∈ sg.prods → EParse sg toks j q 0 j []
  | scan {j p d i ts tok} : EParse sg toks j p d i ts →
      p.elements[d]? = some (.term (.term tok.kind)) → toks[j]? = some tok →
      EParse sg toks (j + 1) p (d + 1) i (ts ++ [.leaf tok])
  | complete {j k p d i ts q us} : EParse sg toks k p d i ts →
      p.elements[d]? = some (.nonterm q.head) → EParse sg toks j q q.numElements k us →
      EParse sg toks j p (d + 1) i (ts ++ [.node q us])

/-- The item is derivable. -/
def EItem (sg : StartGrammar T NT AK AV) (toks : List (Token T V)) (j : Nat)
    (p : SProd T NT AK AV) (d i : Nat) : Prop := ∃ ts, EParse sg toks j p d i ts

theorem Prod.elements_length {T NT AK AV : Type} (p : Prod T NT AK AV) :
    p.elements.length = p.numElements := by
  unfold Prod.elements Prod.numElements ProdInner.elems; simp

section
variable {sg : StartGrammar T NT AK AV} {toks : List (Token T V)}

theorem EParse.mem {j p d i ts} (h : EParse sg toks j p d i ts) : p ∈ sg.prods := by
  induction h with
  | start h _ => exact h
  | predict _ _ h _ => exact h
  | scan _ _ _ ih => exact ih
  | complete _ _ _ ih _ => exact ih

theorem EParse.bounds {j p d i ts} (h : EParse sg toks j p d i ts) :
    d ≤ p.elements.length ∧ i ≤ j ∧ j ≤ toks.length ∧ ts.length = d := by
  induction h with
  | start _ _ => simp
  | predict h1 _ _ ih => simp; exact ih.2.2.1
  | scan _ h2 h3 ih =>
    have := (List.getElem?_eq_some_iff.1 h2).1
    have := (List.getElem?_eq_some_iff.1 h3).1
    simp; omega
  | complete _ h2 _ ih1 ih2 =>
    have := (List.getElem?_eq_some_iff.1 h2).1
    simp; omega

/-- No item has moved over the end of stream. -/
theorem EParse.no_eos {j p d i ts} (h : EParse sg toks j p d i ts) :
    ∀ x < d, p.elements[x]? ≠ some (.term .endOfStream) := by
  induction h with
  | start _ _ => simp
  | predict _ _ _ _ => simp
  | scan _ h2 _ ih =>
    intro x hx hh
    rcases Nat.lt_succ_iff_lt_or_eq.1 hx with h | rfl
    · exact ih x h hh
    · rw [h2] at hh; simp at hh
  | complete _ h2 _ ih1 _ =>
    intro x hx hh
    rcases Nat.lt_succ_iff_lt_or_eq.1 hx with h | rfl
    · exact ih1 x h hh
    · rw [h2] at hh; simp at hh

theorem EItem.predict {j p d i q} (h : EItem sg toks j p d i)
    (he : p.elements[d]? = some (.nonterm q.head)) (hq : q ∈ sg.prods) : EItem sg toks j q 0 j := by
  obtain ⟨ts, h⟩ := h; exact ⟨_, h.predict he hq⟩

theorem EItem.scan {j p d i tok} (h : EItem sg toks j p d i)
    (he : p.elements[d]? = some (.term (.term tok.kind))) (ht : toks[j]? = some tok) :
    EItem sg toks (j + 1) p (d + 1) i := by
  obtain ⟨ts, h⟩ := h; exact ⟨_, h.scan he ht⟩

theorem EItem.complete {j k p d i q} (h : EItem sg toks k p d i)
    (he : p.elements[d]? = some (.nonterm q.head)) (hq : EItem sg toks j q q.numElements k) :
    EItem sg toks j p (d + 1) i := by
  obtain ⟨ts, h⟩ := h; obtain ⟨us, hq⟩ := hq; exact ⟨_, h.complete he hq⟩

/-- An item at any later position has an item at the earlier ones. -/
theorem EParse.earlier {j p d i ts} (h : EParse sg toks j p d i ts) :
    ∀ k ≤ j, ∃ p' d' i', EItem sg toks k p' d' i' := by
  induction h with
  | start h1 h2 => intro k hk; exact ⟨_, _, _, _, by simpa [Nat.le_zero.1 hk] using .start h1 h2⟩
  | predict _ _ _ ih => exact ih
  | scan h1 h2 h3 ih =>
    intro k hk
    rcases Nat.lt_succ_iff_lt_or_eq.1 (Nat.lt_succ_of_le hk) with h | rfl
    · exact ih k (by omega)
    · exact ⟨_, _, _, _, h1.scan h2 h3⟩
  | complete _ _ _ _ ih => exact ih
end

/-! ### The productions of the wrapped grammar -/
/-- An original production as a production of the wrapped grammar. -/
def liftProd (q : Prod T NT AK AV) : SProd T NT AK AV := ⟨.nterm q.head, q.index, q.inner.lifted⟩

/-- `Start => s EOS`. -/
def startRef (g : Grammar T NT AK AV) : SProd T NT AK AV := ⟨.start, 0, startProduction g.startSymbol⟩

@[simp] theorem liftProd_head (q : Prod T NT AK AV) : (liftProd q).head = .nterm q.head := rfl
@[simp] theorem startRef_head (g : Grammar T NT AK AV) : (startRef g).head = .start := rfl

theorem startRef_elements (g : Grammar T NT AK AV) : (startRef g).elements =
    [.nonterm (.nterm g.startSymbol), .term .endOfStream] := rfl

theorem liftProd_actionKey (q : Prod T NT AK AV) : (liftProd q).actionKey = .actionKey q.actionKey := rfl

theorem liftProd_inj {p q : Prod T NT AK AV} (h : liftProd p = liftProd q) : p = q := by
  unfold liftProd ProdInner.lifted at h
  obtain ⟨h1, i1, ⟨k1, v1, e1⟩⟩ := p
  obtain ⟨h2, i2, ⟨k2, v2, e2⟩⟩ := q
  simp only [Prod.mk.injEq, StartNonTerminal.nterm.injEq, ProdInner.mk.injEq,
    StartActionKey.actionKey.injEq, StartActionValue.actionValue.injEq] at h
  obtain ⟨rfl, rfl, rfl, rfl, h⟩ := h
  have : e1 = e2 := by
    apply List.map_injective_iff.2 _ h
    rintro ⟨a, b⟩ ⟨a', b'⟩ hab
    simp only [ProdElement.mk.injEq] at hab
    obtain ⟨rfl, hb⟩ := hab
    cases b <;> cases b' <;> simp_all
  subst this; rfl

section
variable [Ord NT] [TransOrd NT] [LawfulEqOrd NT] {g : Grammar T NT AK AV}

theorem liftProd_elements (q : Prod T NT AK AV) :
    (liftProd q).elements = q.elements.map baseElemToStartElem := lifted_elems q.inner

theorem liftProd_numElements (q : Prod T NT AK AV) : (liftProd q).numElements = q.numElements := by
  rw [← Prod.elements_length, ← Prod.elements_length, liftProd_elements]; simp

theorem lift_getElem_nonterm {q : Prod T NT AK AV} {d : Nat} {B} :
    (liftProd q).elements[d]? = some (.nonterm B) ↔
      ∃ B', B = .nterm B' ∧ q.elements[d]? = some (.nonterm B') := by
  rw [liftProd_elements, List.getElem?_map]
  constructor
  · intro h
    obtain ⟨e, he, h⟩ := Option.map_eq_some_iff.1 h
    cases e with
    | term t => cases h
    | nonterm nt => cases h; exact ⟨nt, rfl, he⟩
  · rintro ⟨B', rfl, h⟩; rw [h]; rfl

theorem lift_getElem_term {q : Prod T NT AK AV} {d : Nat} {t} :
    (liftProd q).elements[d]? = some (.term t) ↔
      ∃ t', t = .term t' ∧ q.elements[d]? = some (.term t') := by
  rw [liftProd_elements, List.getElem?_map]
  constructor
  · intro h
    obtain ⟨e, he, h⟩ := Option.map_eq_some_iff.1 h
    cases e with
    | nonterm t => cases h
    | term nt => cases h; exact ⟨nt, rfl, he⟩
  · rintro ⟨B', rfl, h⟩; rw [h]; rfl

theorem wrapped_prods_eq (g : Grammar T NT AK AV) :
    g.wrapped.prods = startRef g :: g.prods.map liftProd := by
  unfold Grammar.wrapped Grammar.prods Grammar.rules BMap.values
  simp only [List.map_cons, List.map_map, List.flatMap_cons, List.flatMap_map, List.map_flatMap]
  have h1 : (RuleInner.prodRefs (⟨.start, [startProduction g.startSymbol]⟩ : RuleInner
    (StreamTerminal T) (StartNonTerminal NT) (StartActionKey AK) (StartActionValue AV)))
      = [startRef g] := rfl
  rw [h1, List.singleton_append]
  congr 1
  apply List.flatMap_congr
  intro kr _
  simp only [Function.comp, RuleInner.prodRefs, RuleInner.lifted, List.zipIdx_map, List.map_map]
  rfl

theorem mem_wrapped_prods (hw : g.WF) {p : SProd T NT AK AV} :
    p ∈ g.wrapped.prods ↔ p = startRef g ∨ ∃ q ∈ g.prods, p = liftProd q := by
  rw [wrapped_prods_eq]
  simp [eq_comm]

theorem startSymbol_wrapped (g : Grammar T NT AK AV) : g.wrapped.startSymbol = .start := rfl

theorem wrapped_prods_start (hw : g.WF) {p : SProd T NT AK AV} (hp : p ∈ g.wrapped.prods)
    (hh : p.head = .start) : p = startRef g := by
  rcases (mem_wrapped_prods hw).1 hp with rfl | ⟨q, _, rfl⟩
  · rfl
  · cases hh

theorem wrapped_prods_nterm (hw : g.WF) {p : SProd T NT AK AV} (hp : p ∈ g.wrapped.prods) {A : NT}
    (hh : p.head = .nterm A) : ∃ q ∈ g.prods, p = liftProd q ∧ q.head = A := by
  rcases (mem_wrapped_prods hw).1 hp with rfl | ⟨q, h, rfl⟩
  · cases hh
  · cases hh; exact ⟨q, h, rfl, rfl⟩

/-! ### Soundness of the items -/
/-- What an item says about the original grammar. -/
def EMeans (g : Grammar T NT AK AV) (toks : List (Token T V)) (j : Nat) (p : SProd T NT AK AV)
    (d i : Nat) : Prop :=
  (p = startRef g ∧ i = 0 ∧ ((d = 0 ∧ j = 0) ∨
    (d = 1 ∧ g.cfg.Generates g.startSymbol (kinds (toks.take j))))) ∨
  ∃ q ∈ g.prods, p = liftProd q ∧
    (∃ δ, g.cfg.Derives [.nonterm g.startSymbol]
      ((kinds (toks.take i)).map .term ++ .nonterm q.head :: δ)) ∧
    g.cfg.Yields (q.elements.take d) (kinds (seg toks i j))

theorem kinds_append {T V : Type} (a b : List (Token T V)) : kinds (a ++ b) = kinds a ++ kinds b := by
  unfold kinds; simp

theorem EParse.means (hw : g.WF) {toks : List (Token T V)} {j p d i ts}
    (h : EParse g.wrapped toks j p d i ts) : EMeans g toks j p d i := by
  induction h with
  | start h1 h2 => exact Or.inl ⟨wrapped_prods_start hw h1 h2, rfl, Or.inl ⟨rfl, rfl⟩⟩
  | @predict j p d i ts q h1 h2 h3 ih =>
    right
    rcases ih with ⟨rfl, rfl, ⟨rfl, rfl⟩ | ⟨rfl, -⟩⟩ | ⟨p0, hp0, rfl, ⟨δ, hδ⟩, hy⟩
    · rw [startRef_elements] at h2
      simp at h2
      obtain ⟨q0, hq0, rfl, hh⟩ := wrapped_prods_nterm hw h3 h2.symm
      refine ⟨q0, hq0, rfl, ⟨[], ?_⟩, ?_⟩
      · rw [hh]; exact .refl _
      · simp [kinds]; exact .nil
    · rw [startRef_elements] at h2; simp at h2
    · obtain ⟨B, hB, hel⟩ := lift_getElem_nonterm.1 h2
      obtain ⟨q0, hq0, rfl, hh⟩ := wrapped_prods_nterm hw h3 hB
      refine ⟨q0, hq0, rfl, ?_, by simp [kinds]; exact .nil⟩
      have hdec : p0.elements = p0.elements.take d ++ .nonterm B :: p0.elements.drop (d + 1) := by
        obtain ⟨hlt, he⟩ := List.getElem?_eq_some_iff.1 hel
        rw [← he, List.getElem_cons_drop, List.take_append_drop]
      refine ⟨p0.elements.drop (d + 1) ++ δ, ?_⟩
      have hp := Cfg.derives_prod ((Grammar.cfg_prod_iff hw).2 ⟨p0, hp0, rfl, rfl⟩)
      have h4 := Cfg.Derives.append (Cfg.Derives.refl ((kinds (toks.take i)).map Elem.term))
        (Cfg.Derives.append hp (Cfg.Derives.refl δ))
      have h5 := hδ.trans h4
      rw [hdec] at h5
      have h6 := Cfg.Derives.append (Cfg.Derives.refl ((kinds (toks.take i)).map Elem.term))
        (Cfg.Derives.append (Cfg.Derives.append hy.derives
          (Cfg.Derives.refl (.nonterm B :: p0.elements.drop (d + 1)))) (Cfg.Derives.refl δ))
      have h7 := h5.trans h6
      rw [hh, ← take_seg toks h1.bounds.2.1, kinds_append, List.map_append]
      simpa using h7
  | @scan j p d i ts tok h1 h2 h3 ih =>
    right
    rcases ih with ⟨rfl, rfl, ⟨rfl, rfl⟩ | ⟨rfl, -⟩⟩ | ⟨p0, hp0, rfl, hc, hy⟩
    · rw [startRef_elements] at h2; simp at h2
    · rw [startRef_elements] at h2; simp at h2
    · refine ⟨p0, hp0, rfl, hc, ?_⟩
      obtain ⟨t, ht, hel⟩ := lift_getElem_term.1 h2
      cases ht
      rw [List.take_add_one, hel, seg_succ h1.bounds.2.1 h3, kinds_append]
      exact hy.append (.term _ .nil)
  | @complete j k p d i ts q us h1 h2 h3 ih1 ih2 =>
    rcases ih1 with ⟨rfl, rfl, ⟨rfl, rfl⟩ | ⟨rfl, -⟩⟩ | ⟨p0, hp0, rfl, hc, hy⟩
    · rw [startRef_elements] at h2
      simp at h2
      left
      refine ⟨rfl, rfl, Or.inr ⟨rfl, ?_⟩⟩
      rcases ih2 with ⟨rfl, -, -⟩ | ⟨q0, hq0, rfl, -, hy⟩
      · cases h2
      · rw [liftProd_numElements, ← Prod.elements_length, List.take_length] at hy
        simp at h2
        exact Cfg.generates_iff.2 ⟨_, (Grammar.cfg_prod_iff hw).2 ⟨q0, hq0, h2.symm, rfl⟩, hy⟩
    · rw [startRef_elements] at h2; simp at h2
    · right
      refine ⟨p0, hp0, rfl, hc, ?_⟩
      obtain ⟨B, hB, hel⟩ := lift_getElem_nonterm.1 h2
      rcases ih2 with ⟨rfl, -, -⟩ | ⟨q0, hq0, rfl, -, hy2⟩
      · cases hB
      · rw [liftProd_numElements, ← Prod.elements_length, List.take_length] at hy2
        simp at hB
        rw [List.take_add_one, hel, ← seg_append toks h1.bounds.2.1 h3.bounds.2.1, kinds_append]
        refine hy.append (Cfg.yields_nonterm_iff.2 (Cfg.generates_iff.2 ⟨_, ?_, hy2⟩))
        exact (Grammar.cfg_prod_iff hw).2 ⟨q0, hq0, hB, rfl⟩
end
end Bongo
