import Verif.Spec.WorkNull
import Verif.Props.RightCut
import Verif.Props.WorkOnce
/-!
# C149: what transforming costs a parse
-/
set_option linter.unusedSectionVars false
namespace Bongo
open Std

section
variable {T NT AK AV : Type} [Ord NT] [TransOrd NT] [LawfulEqOrd NT] (g : Grammar T NT AK AV)
    (hg : g.Accepted) (addr : NT → Nat → Nat) (ha : AddrInj g addr) (fuel : Nat)
    (g' : NonNullGrammar T NT AK AV) (h : transformToNonnull fuel addr g = .ok (.ok g'))
include hg ha h

open Classical in
/-- C149.  The number of productions after the transform: none for a production that derives the empty text, and `2 ^ k`
for another one with `k` elements that can be empty. -/
theorem nonnull_size_exact :
    g'.prods.length = (g.prods.map fun p => if g.cfg.Derives p.elements [] then 0 else 2 ^ g.emptiable p).sum := by
  have hwf := hg.valid.toWF
  obtain ⟨info, hn, rfl, -⟩ := transform_ok hwf h
  have hlen : ∀ p : Prod T NT AK AV, (if info.prodNullable p then [] else nnVariants info p).length =
      if g.cfg.Derives p.elements [] then 0 else 2 ^ g.emptiable p := by
    intro p
    by_cases hp : g.cfg.Derives p.elements []
    · simp [(prodNullable_iff hwf ha hn p).2 hp, hp]
    · have hp' : info.prodNullable p = false := by
        rw [Bool.eq_false_iff]
        exact fun hc => hp ((prodNullable_iff hwf ha hn p).1 hc)
      simp only [hp', Bool.false_eq_true, if_false, hp, nnVariants_length]
      congr 1
      unfold nullCount Grammar.emptiable Prod.elements ProdInner.elems Prod.prodElements
      rw [List.countP_map]
      refine List.countP_congr fun e _ => ?_
      cases he : e.element with
      | term t =>
        simp only [Function.comp, he, decide_eq_true_eq, Bool.false_eq_true, false_iff]
        intro hd
        have := Cfg.derives_terms (t := [t]) hd
        simp at this
      | nonterm A =>
        simp only [Function.comp, he, decide_eq_true_eq, Option.isSome_iff_ne_none]
        exact getNullableAction_iff hwf ha hn A
  have hrefs : ∀ (r : RuleInner T NT (NNActionKey AK) (NNActionValue NT AK AV)), r.prodRefs.length = r.prods.length := by
    intro r; simp [RuleInner.prodRefs]
  have hsum : ∀ l : List (Prod T NT AK AV), (l.flatMap fun p => if info.prodNullable p then [] else nnVariants info p).length =
      (l.map fun p => if g.cfg.Derives p.elements [] then 0 else 2 ^ g.emptiable p).sum := by
    intro l
    induction l with
    | nil => rfl
    | cons p l ih => rw [List.flatMap_cons, List.length_append, hlen, ih, List.map_cons, List.sum_cons]
  show ((g.ruleSet.map fun kr => (kr.1, (⟨kr.1, nnProds info kr.2⟩ : RuleInner _ _ _ _))).map (·.2) |>.flatMap (·.prodRefs)).length =
    (((g.ruleSet.map (·.2)).flatMap (·.prodRefs)).map _).sum
  generalize g.ruleSet = l
  induction l with
  | nil => rfl
  | cons kr l ih =>
    simp only [List.map_cons, List.flatMap_cons, List.length_append, List.map_append, List.sum_append, hrefs]
    rw [ih]
    congr 1
    exact hsum _

/-- C149.  So if each production has at most `k` such elements, the transform multiplies their number by at most `2 ^ k`. -/
theorem nonnull_size_le {k : Nat} (hk : ∀ p ∈ g.prods, g.emptiable p ≤ k) : g'.prods.length ≤ g.prods.length * 2 ^ k := by
  classical
  rw [nonnull_size_exact g hg addr ha fuel g' h]
  revert hk
  generalize g.prods = l
  intro hk
  induction l with
  | nil => simp
  | cons p l ih =>
    rw [List.map_cons, List.sum_cons, List.length_cons, Nat.add_mul, Nat.one_mul, Nat.add_comm]
    refine Nat.add_le_add (ih fun q hq => hk q (List.mem_cons_of_mem _ hq)) ?_
    split
    · exact Nat.zero_le _
    · exact Nat.pow_le_pow_right (by omega) (hk p List.mem_cons_self)

/-- C149.  Productions do not become longer. -/
theorem nonnull_elements_le {e : Nat} (he : ∀ p ∈ g.prods, p.elements.length ≤ e) :
    ∀ p ∈ g'.prods, p.elements.length ≤ e := by
  have hwf := hg.valid.toWF
  obtain ⟨info, hn, rfl, hv⟩ := transform_ok hwf h
  obtain ⟨origin, o1, -, -⟩ := nn_origin hwf ha hn
  intro p hp
  obtain ⟨a, -, -, -, -, d, hc⟩ := o1 p hp
  have : ∀ {es : List (ProdElement T NT)} {c k d}, Choice (fun A => g.cfg.Generates A []) es c k d → k.length ≤ es.length := by
    intro es c k d hc
    induction hc with
    | nil => simp
    | term id t _ ih => simpa using ih
    | nonNull id A _ ih => simpa using ih
    | null id A _ _ ih => simp only [List.length_cons]; omega
  have h1 := this hc
  have h2 := he _ a
  rw [Prod.elements_length] at h2 ⊢
  exact Nat.le_trans h1 h2
end

theorem workFactor_mono {p q : Nat} (h : p ≤ q) (e : Nat) : workFactor p e ≤ workFactor q e := by
  unfold workFactor
  gcongr

theorem workFactorOnce_mono {p q : Nat} (h : p ≤ q) (e : Nat) : workFactorOnce p e ≤ workFactorOnce q e := by
  unfold workFactorOnce passFactorOnce
  gcongr

section
variable {T NT AK AV V : Type}
variable [Ord T] [Ord NT] [Ord AK] [Ord V] [DecidableEq T] [DecidableEq NT]
variable [TransOrd T] [TransOrd NT] [TransOrd AK] [TransOrd V]
variable [LawfulEqOrd T] [LawfulEqOrd NT] [LawfulEqOrd AK] [LawfulEqOrd V]
variable (g : Grammar T NT AK AV) (hg : g.Accepted) (addr : NT → Nat → Nat) (ha : AddrInj g addr) (fuel : Nat)
  (g' : NonNullGrammar T NT AK AV) (h : transformToNonnull fuel addr g = .ok (.ok g'))
  {saddr : StartNonTerminal NT → Nat → Nat} (hsa : AddrInj g'.wrapped saddr)
  {log : TreeLog T (NNActionKey AK) V} {w : World T (NNActionKey AK) V} {held : List Handle} (hist : History log w held)
  {e k : Nat} (he : ∀ p ∈ g.prods, p.elements.length ≤ e) (hk : ∀ p ∈ g.prods, g.emptiable p ≤ k)

include hg ha h hsa hist he hk in
/-- C149.  The calls of a parse with the transformed grammar, for every input. -/
theorem nonnull_parse_work (t pfuel : Nat) (toks : List (Token T V)) :
    (parseProg saddr g'.wrapped t pfuel toks).calls w ≤
      workFactor (g.prods.length * 2 ^ k + 1) (max e 2) * (toks.length + 1) ^ 6 :=
  Nat.le_trans (parse_work_polynomial (nonnull_accepted g addr fuel g' h) hsa
    (nonnull_elements_le g hg addr ha fuel g' h he) hist t pfuel toks)
    (Nat.mul_le_mul_right _ (workFactor_mono (Nat.succ_le_succ (nonnull_size_le g hg addr ha fuel g' h hk)) _))

include hg ha h hsa hist he hk in
/-- C149.  And if the original has not the second fault of C147, or is unambiguous and has no dead ends. -/
theorem nonnull_parse_work_once (hc : ¬ g.cutNull.DividesFilled ∨ g.Unambiguous ∧ g.NoDeadEnds)
    (t pfuel : Nat) (toks : List (Token T V)) :
    (parseProg saddr g'.wrapped t pfuel toks).calls w ≤
      workFactorOnce (g.prods.length * 2 ^ k + 1) (max e 2) * (toks.length + 1) ^ 4 := by
  refine Nat.le_trans (parse_work_grammar (nonnull_accepted g addr fuel g' h) hsa ?_
    (nonnull_elements_le g hg addr ha fuel g' h he) hist t pfuel toks)
    (Nat.mul_le_mul_right _ (workFactorOnce_mono (Nat.succ_le_succ (nonnull_size_le g hg addr ha fuel g' h hk)) _))
  rcases hc with hc | ⟨h1, h2⟩
  · exact .inl (by rwa [cut_divides hg ha h])
  · exact .inr ⟨nonnull_unambiguous g hg addr ha fuel g' h h1, nonnull_no_dead_ends g hg addr ha fuel g' h h2⟩
end

/-- `S → A A B 2;  A → B | 1;  B → ε | 3`: three elements can be empty in the first production, and the others with a text
become one each; the bounds hold for it. -/
example : ∃ g', transformToNonnull 9 exampleAddr cutExample = .ok (.ok g') ∧ g'.prods.length = 8 + 1 + 1 ∧
    (∀ p ∈ cutExample.prods, p.elements.length ≤ 4) ∧ (∀ p ∈ cutExample.prods, cutExample.emptiable p ≤ 4) ∧
    ∀ fuel, (parseProg exampleSAddr g'.wrapped 7 fuel (exampleToks [1, 3, 2])).calls
        (World.new : World Nat (NNActionKey Nat) Nat) ≤
      workFactorOnce (cutExample.prods.length * 2 ^ 4 + 1) 4 * 4 ^ 4 := by
  have he : ∀ p ∈ cutExample.prods, p.elements.length ≤ 4 := by decide
  have hk : ∀ p ∈ cutExample.prods, cutExample.emptiable p ≤ 4 := fun p hp =>
    Nat.le_trans List.countP_le_length (he p hp)
  refine ⟨_, rfl, by decide, he, hk, fun fuel => ?_⟩
  exact nonnull_parse_work_once cutExample cutExample_accepted exampleAddr (exampleAddr_addrInj _) 9 _ rfl
    (exampleSAddr_addrInj _) .start he hk (.inl cutExample_no_faults.2) 7 fuel (exampleToks [1, 3, 2])
end Bongo
