import Verif.Props.RightCut
import Verif.Props.TreeCount
/-!
# C148: counting the trees that can be read after the non-null transform
-/
set_option linter.unusedSectionVars false
namespace Bongo
open Std

/-- C148.  If no two productions have the same head and action key, the same holds after the transform. -/
theorem nonnull_keys_tell {T NT AK AV : Type} [Ord NT] [TransOrd NT] [LawfulEqOrd NT] (g : Grammar T NT AK AV)
    (hg : g.Accepted) (addr : NT → Nat → Nat) (ha : AddrInj g addr) (fuel : Nat)
    (g' : NonNullGrammar T NT AK AV) (h : transformToNonnull fuel addr g = .ok (.ok g'))
    (hk : ∀ p ∈ g.prods, ∀ q ∈ g.prods, p.prodKey = q.prodKey → p = q) :
    ∀ p ∈ g'.prods, ∀ q ∈ g'.prods, p.prodKey = q.prodKey → p = q := by
  have hwf := hg.valid.toWF
  obtain ⟨info, hn, rfl, -⟩ := transform_ok hwf h
  obtain ⟨origin, o1, o2, -⟩ := nn_origin hwf ha hn
  intro p hp q hq he
  simp only [Prod.prodKey, ProdKey.mk.injEq] at he
  obtain ⟨a1, a2, -, a3, -⟩ := o1 p hp
  obtain ⟨b1, b2, -, b3, -⟩ := o1 q hq
  refine o2 p hp q hq (hk _ a1 _ b1 ?_) (by rw [he.2])
  simp only [Prod.prodKey, ProdKey.mk.injEq]
  exact ⟨by rw [a2, b2, he.1], by rw [← a3, ← b3, he.2]⟩

section
variable {T NT AK AV V : Type}
variable [Ord T] [Ord NT] [Ord AK] [Ord V] [DecidableEq T] [DecidableEq NT]
variable [TransOrd T] [TransOrd NT] [TransOrd AK] [TransOrd V]
variable [LawfulEqOrd T] [LawfulEqOrd NT] [LawfulEqOrd AK] [LawfulEqOrd V]
variable (g : Grammar T NT AK AV) (hg : g.Accepted) (addr : NT → Nat → Nat) (ha : AddrInj g addr) (fuel : Nat)
  (g' : NonNullGrammar T NT AK AV) (h : transformToNonnull fuel addr g = .ok (.ok g'))
  (hk : ∀ p ∈ g.prods, ∀ q ∈ g.prods, p.prodKey = q.prodKey → p = q)
  {saddr : StartNonTerminal NT → Nat → Nat} (hsa : AddrInj g'.wrapped saddr)
  {log : TreeLog T (NNActionKey AK) V} {w : World T (NNActionKey AK) V} {held : List Handle} (hist : History log w held)

include hg ha h hk hsa hist in
/-- C148.  Let keys tell productions apart, and productions have one way to divide a text (the second fault of C147).  What
can be read off the node that `parse` with the transformed grammar returns corresponds one to one to the
derivation trees of the text in the transformed grammar, and these do so to the derivation trees of the text
in the original in which no production that can derive the empty text derives something. -/
theorem cut_reads_bijOn {t pfuel : Nat} {toks : List (Token T V)} {w' : World T (NNActionKey AK) V} {n : Node}
    (hne : toks ≠ []) (hd : ¬ g.cutNull.DividesFilled)
    (hp : parse saddr g'.wrapped pfuel w t toks = .ok (w', some n)) :
    ∃ restore : DTree (Token T V) (NNProd T NT AK AV) → DTree (Token T V) (Prod T NT AK AV),
      (∀ l, restore (.leaf l) = .leaf l) ∧
      (∀ e p' cs, IsTree g' (·.kind) e (.node p' cs) → ∃ p ds, restore (.node p' cs) = .node p ds ∧
        p.head = p'.head ∧ p'.actionKey.action = p.actionKey ∧
        Refilled g (·.kind) p.prodElements p'.actionKey.ntNullableStates (cs.map restore) ds) ∧
      Set.BijOn (DTree.mapNodes (·.actionKey)) {d' | IsTree g' (·.kind) (.nonterm g.startSymbol) d' ∧ d'.yield = toks}
        {s | Reads w' s n} ∧
      Set.BijOn restore {d' | IsTree g' (·.kind) (.nonterm g.startSymbol) d' ∧ d'.yield = toks}
        {d | IsTree g (·.kind) (.nonterm g.startSymbol) d ∧ d.yield = toks ∧ Solid g d} := by
  obtain ⟨restore, h1, h2, h3, h4, h5⟩ := nonnull_trees g hg addr ha fuel g' h (fun x : Token T V => x.kind)
  have hs : g'.startSymbol = g.startSymbol := by
    obtain ⟨info, hn, rfl, -⟩ := transform_ok hg.valid.toWF h; rfl
  refine ⟨restore, h1, fun e p' cs hd => ?_, ?_, ?_, ?_, ?_⟩
  · obtain ⟨p, ds, a, b, c, -, d⟩ := h2 e p' cs hd
    exact ⟨p, ds, a, b, c, d⟩
  · have := reads_bijOn (nonnull_accepted g addr fuel g' h) hsa hist (nonnull_keys_tell g hg addr ha fuel g' h hk)
      (splitsOnce_of_not_divides (by rwa [cut_divides hg ha h]) _) hp
    unfold Grammar.treesOf at this
    rwa [hs] at this
  · rintro d' ⟨a, rfl⟩
    obtain ⟨b1, b2, -, b4⟩ := h3 _ _ a
    exact ⟨b1, b2, b4⟩
  · rintro d ⟨a, -⟩ d' ⟨a', -⟩ e
    exact h4 _ _ d d' a a' e
  · rintro d ⟨a, b, c⟩
    obtain ⟨d', e, rfl⟩ := h5 _ d a c (by rwa [b])
    exact ⟨d', ⟨e, by rw [← b, (h3 _ _ e).2.1]⟩, rfl⟩

include hg ha h hk hsa hist in
/-- C148.  So there are as many of the one as of the other. -/
theorem cut_reads_count {t pfuel : Nat} {toks : List (Token T V)} {w' : World T (NNActionKey AK) V} {n : Node}
    (hne : toks ≠ []) (hd : ¬ g.cutNull.DividesFilled)
    (hp : parse saddr g'.wrapped pfuel w t toks = .ok (w', some n)) :
    {s : DTree (Token T V) (NNActionKey AK) | Reads w' s n}.encard =
      {d : DTree (Token T V) (Prod T NT AK AV) |
        IsTree g (·.kind) (.nonterm g.startSymbol) d ∧ d.yield = toks ∧ Solid g d}.encard := by
  obtain ⟨restore, -, -, b1, b2⟩ := cut_reads_bijOn g hg addr ha fuel g' h hk hsa hist hne hd hp
  rw [← b1.image_eq, b1.injOn.encard_image, ← b2.image_eq, b2.injOn.encard_image]

include hg ha h hk hsa hist in
/-- C148.  If only empty productions derive the empty text, these are all derivation trees of the text: so a text that is
not empty is ambiguous in the original exactly if two trees can be read. -/
theorem nonnull_ambiguous_iff_two_read (he : ∀ p ∈ g.prods, g.cfg.Derives p.elements [] → p.elements = [])
    {t pfuel : Nat} {toks : List (Token T V)} {w' : World T (NNActionKey AK) V} {n : Node}
    (hne : toks ≠ []) (hd : ¬ g.cutNull.DividesFilled)
    (hp : parse saddr g'.wrapped pfuel w t toks = .ok (w', some n)) :
    {s : DTree (Token T V) (NNActionKey AK) | Reads w' s n}.encard = (g.treesOf toks).encard ∧
    ((∃ d d' : DTree (Token T V) (Prod T NT AK AV), d ≠ d' ∧ IsTree g (·.kind) (.nonterm g.startSymbol) d ∧ d.yield = toks ∧
      IsTree g (·.kind) (.nonterm g.startSymbol) d' ∧ d'.yield = toks) ↔
    ∃ s s', s ≠ s' ∧ Reads w' s n ∧ Reads w' s' n) := by
  have hc := cut_reads_count g hg addr ha fuel g' h hk hsa hist hne hd hp
  have he' : {d : DTree (Token T V) (Prod T NT AK AV) |
      IsTree g (·.kind) (.nonterm g.startSymbol) d ∧ d.yield = toks ∧ Solid g d} = g.treesOf toks := by
    ext d
    exact ⟨fun a => ⟨a.1, a.2.1⟩, fun a => ⟨a.1, a.2, solid_of_plain g he _ d _ a.1⟩⟩
  rw [he'] at hc
  refine ⟨hc, ?_⟩
  have two : ∀ {α : Type} (S : Set α), 1 < S.encard ↔ ∃ a b, a ≠ b ∧ a ∈ S ∧ b ∈ S := by
    intro α S
    rw [Set.one_lt_encard_iff]
    exact ⟨fun ⟨a, b, h1, h2, h3⟩ => ⟨a, b, h3, h1, h2⟩, fun ⟨a, b, h3, h1, h2⟩ => ⟨a, b, h1, h2, h3⟩⟩
  have k1 := two {s : DTree (Token T V) (NNActionKey AK) | Reads w' s n}
  have k2 := two (g.treesOf toks)
  rw [hc, k2] at k1
  refine Iff.trans (exists_congr fun a => exists_congr fun b => and_congr_right fun _ => ?_) k1
  exact and_assoc.symm
end

/-- The text `1 3 2` of `S → A A B 2;  A → B | 1;  B → ε | 3` (the `1` comes from the first or the second `A`). -/
example : ∃ g', transformToNonnull 9 exampleAddr cutExample = .ok (.ok g') ∧
    ∃ w' n, parse exampleSAddr g'.wrapped 9 (World.new : World Nat (NNActionKey Nat) Nat) 7 (exampleToks [1, 3, 2]) =
      .ok (w', some n) ∧
    {s : DTree (Token Nat Nat) (NNActionKey Nat) | Reads w' s n}.encard =
      {d : DTree (Token Nat Nat) (Prod Nat Nat Nat Unit) |
        IsTree cutExample (·.kind) (.nonterm 0) d ∧ d.yield = exampleToks [1, 3, 2] ∧ Solid cutExample d}.encard := by
  obtain ⟨g', h, ⟨I, n, hp⟩, -⟩ := cutExample_transforms
  exact ⟨g', h, _, n, hp, cut_reads_count cutExample cutExample_accepted exampleAddr (exampleAddr_addrInj _) 9 g' h
    (by decide) (exampleSAddr_addrInj _) .start (by simp [exampleToks]) cutExample_no_faults.2 hp⟩

/-- The text `1 2` of `S → A A 2;  A → ε | 1`, of which as many trees can be read as there are. -/
example : ∃ g', transformToNonnull 9 exampleAddr twiceExample = .ok (.ok g') ∧
    ∃ w' n, parse exampleSAddr g'.wrapped 9 (World.new : World Nat (NNActionKey Nat) Nat) 7 (exampleToks [1, 2]) =
      .ok (w', some n) ∧
    {s : DTree (Token Nat Nat) (NNActionKey Nat) | Reads w' s n}.encard =
      (twiceExample.treesOf (exampleToks [1, 2])).encard := by
  obtain ⟨g', h, ⟨I, n, hp⟩, -⟩ := twiceExample_transforms
  refine ⟨g', h, _, n, hp, (nonnull_ambiguous_iff_two_read twiceExample twiceExample_accepted exampleAddr
    (exampleAddr_addrInj _) 9 g' h (by decide) (exampleSAddr_addrInj _) .start twiceExample_plain (by simp [exampleToks])
    ?_ hp).1⟩
  rw [(cutTrim_of_trim twiceExample twiceExample_accepted twiceExample_plain twiceExample_trim).2.2.1]
  exact twiceExample_no_faults.2
end Bongo
