import Verif.Proof.EarleyItems
/-! The trees that the merging of items allows at least: the children of an item are chosen
independently of each other. -/
set_option linter.unusedSectionVars false
namespace Bongo
open Std
variable {T NT AK AV V : Type}

/-- `s` can be the `x`-th child of the item `p`, `d`, `i` of state `j`. -/
inductive LItem (sg : StartGrammar T NT AK AV) (toks : List (Token T V)) :
    Nat → SProd T NT AK AV → Nat → Nat → Nat → STree T NT AK AV V → Prop where
  | scanOld {k p d i tok x s} : EItem sg toks k p d i →
      p.elements[d]? = some (.term (.term tok.kind)) → toks[k]? = some tok →
      LItem sg toks k p d i x s → LItem sg toks (k + 1) p (d + 1) i x s
  | scanNew {k p d i tok} : EItem sg toks k p d i →
      p.elements[d]? = some (.term (.term tok.kind)) → toks[k]? = some tok →
      LItem sg toks (k + 1) p (d + 1) i d (.leaf tok)
  | compOld {j k p d i q x s} : EItem sg toks k p d i → p.elements[d]? = some (.nonterm q.head) →
      EItem sg toks j q q.numElements k → LItem sg toks k p d i x s → LItem sg toks j p (d + 1) i x s
  | compNew {j k p d i q us} : EItem sg toks k p d i → p.elements[d]? = some (.nonterm q.head) →
      EItem sg toks j q q.numElements k → us.length = q.numElements →
      (∀ (y : Nat) (u : STree T NT AK AV V), us[y]? = some u →
        LItem sg toks j q q.numElements k y u) →
      LItem sg toks j p (d + 1) i d (.node q us)

section
variable {sg : StartGrammar T NT AK AV} {toks : List (Token T V)}

theorem LItem.lt {j p d i x s} (h : LItem sg toks j p d i x s) : x < d := by
  induction h with
  | scanOld _ _ _ _ ih => omega
  | scanNew _ _ _ => omega
  | compOld _ _ _ _ ih => omega
  | compNew _ _ _ _ _ _ => omega

/-- The trees of a derivation of an item are possible children. -/
theorem EParse.litem {j p d i ts} (h : EParse sg toks j p d i ts) :
    ∀ (x : Nat) (s : STree T NT AK AV V), ts[x]? = some s → LItem sg toks j p d i x s := by
  induction h with
  | start _ _ => intro x s h; simp at h
  | predict _ _ _ _ => intro x s h; simp at h
  | @scan j p d i ts tok h1 h2 h3 ih =>
    intro x s hx
    have hl := h1.bounds.2.2.2
    rw [List.getElem?_append] at hx
    split at hx
    · exact .scanOld ⟨_, h1⟩ h2 h3 (ih x s hx)
    · rw [List.getElem?_singleton] at hx
      split at hx
      · cases hx
        have : x = d := by omega
        subst this
        exact .scanNew ⟨_, h1⟩ h2 h3
      · cases hx
  | @complete j k p d i ts q us h1 h2 h3 ih1 ih2 =>
    intro x s hx
    have hl := h1.bounds.2.2.2
    rw [List.getElem?_append] at hx
    split at hx
    · exact .compOld ⟨_, h1⟩ h2 ⟨_, h3⟩ (ih1 x s hx)
    · rw [List.getElem?_singleton] at hx
      split at hx
      · cases hx
        have : x = d := by omega
        subst this
        exact .compNew ⟨_, h1⟩ h2 ⟨_, h3⟩ h3.bounds.2.2.2 ih2
      · cases hx
end
end Bongo
