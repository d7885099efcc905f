import Verif.Props.Right
import Verif.Props.Keys
/-!
# C144: action keys tell derivation trees apart
-/
set_option linter.unusedSectionVars false
namespace Bongo
open Std

section
variable {T NT AK AV L : Type} {g : Grammar T NT AK AV} {kind : L → T}
  (hk : ∀ p ∈ g.prods, ∀ q ∈ g.prods, p.prodKey = q.prodKey → p = q)
include hk

mutual
/-- C144.  If no two productions have the same head and action key, different derivation trees of the same element look
different when the productions in them are replaced by their action keys. -/
theorem keys_tell_trees {e : Elem T NT} : (d d' : DTree L (Prod T NT AK AV)) → IsTree g kind e d → IsTree g kind e d' →
    d.mapNodes (·.actionKey) = d'.mapNodes (·.actionKey) → d = d'
  | .leaf _, .leaf _, _, _, h => by simpa [DTree.mapNodes] using h
  | .leaf _, .node _ _, _, _, h => by simp [DTree.mapNodes] at h
  | .node _ _, .leaf _, _, _, h => by simp [DTree.mapNodes] at h
  | .node p cs, .node q ds, h1, h2, h => by
    simp only [DTree.mapNodes, DTree.node.injEq] at h
    have hh : Elem.nonterm p.head = e := by cases h1; rfl
    have hh' : Elem.nonterm q.head = e := by cases h2; rfl
    obtain ⟨m1, f1⟩ : p ∈ g.prods ∧ IsForest g kind p.elements cs := by cases h1; exact ⟨‹_›, ‹_›⟩
    obtain ⟨m2, f2⟩ : q ∈ g.prods ∧ IsForest g kind q.elements ds := by cases h2; exact ⟨‹_›, ‹_›⟩
    have hpq : p = q := hk p m1 q m2 (by
      have : p.head = q.head := by simpa using hh.trans hh'.symm
      simp only [Prod.prodKey, this, h.1])
    subst hpq
    rw [keys_tell_forests cs ds f1 f2 h.2]
theorem keys_tell_forests {es : List (Elem T NT)} : (cs ds : List (DTree L (Prod T NT AK AV))) → IsForest g kind es cs →
    IsForest g kind es ds → DTree.mapNodesAll (·.actionKey) cs = DTree.mapNodesAll (·.actionKey) ds → cs = ds
  | [], [], _, _, _ => rfl
  | [], _ :: _, _, _, h => by simp [DTree.mapNodesAll] at h
  | _ :: _, [], _, _, h => by simp [DTree.mapNodesAll] at h
  | c :: cs, d :: ds, h1, h2, h => by
    simp only [DTree.mapNodesAll, List.cons.injEq] at h
    cases h1 with
    | cons a1 a2 =>
      cases h2 with
      | cons b1 b2 => rw [keys_tell_trees c d a1 b1 h.1, keys_tell_forests cs ds a2 b2 h.2]
end
end

section
variable {T NT AK AV L : Type} {g : Grammar T NT AK AV} {kind : L → T} {f : T → L} (hf : ∀ t, kind (f t) = t)
include hf
mutual
theorem IsTree.liftLeaves {e : Elem T NT} : {d : DTree T (Prod T NT AK AV)} → IsTree g id e d →
    IsTree g kind e (d.mapLeaves f)
  | _, .leaf l => by
    rw [DTree.mapLeaves]
    have := IsTree.leaf (g := g) (kind := kind) (f l)
    rwa [hf] at this
  | _, .node p cs hp hc => by rw [DTree.mapLeaves]; exact IsTree.node p _ hp (IsForest.liftLeaves hc)
theorem IsForest.liftLeaves {es : List (Elem T NT)} : {cs : List (DTree T (Prod T NT AK AV))} →
    IsForest g id es cs → IsForest g kind es (DTree.mapLeavesAll f cs)
  | _, .nil => by rw [DTree.mapLeavesAll]; exact .nil
  | _, .cons hc hcs => by rw [DTree.mapLeavesAll]; exact .cons (IsTree.liftLeaves hc) (IsForest.liftLeaves hcs)
end
end

section
variable {L M P : Type} {f : L → M} (hf : ∀ a b, f a = f b → a = b)
include hf
mutual
theorem DTree.mapLeaves_inj : (s s' : DTree L P) → s.mapLeaves f = s'.mapLeaves f → s = s'
  | .leaf _, .leaf _, h => by simp only [DTree.mapLeaves, DTree.leaf.injEq] at h; rw [hf _ _ h]
  | .leaf _, .node _ _, h => by simp [DTree.mapLeaves] at h
  | .node _ _, .leaf _, h => by simp [DTree.mapLeaves] at h
  | .node k cs, .node k' cs', h => by
    simp only [DTree.mapLeaves, DTree.node.injEq] at h
    rw [h.1, DTree.mapLeavesAll_inj cs cs' h.2]
theorem DTree.mapLeavesAll_inj : (cs cs' : List (DTree L P)) → DTree.mapLeavesAll f cs = DTree.mapLeavesAll f cs' → cs = cs'
  | [], [], _ => rfl
  | [], _ :: _, h => by simp [DTree.mapLeavesAll] at h
  | _ :: _, [], h => by simp [DTree.mapLeavesAll] at h
  | c :: cs, c' :: cs', h => by
    simp only [DTree.mapLeavesAll, List.cons.injEq] at h
    rw [DTree.mapLeaves_inj c c' h.1, DTree.mapLeavesAll_inj cs cs' h.2]
end
end

section
variable {T NT AK AV V : Type}
variable [Ord T] [Ord NT] [Ord AK] [Ord V] [DecidableEq T] [DecidableEq NT]
variable [TransOrd T] [TransOrd NT] [TransOrd AK] [TransOrd V]
variable [LawfulEqOrd T] [LawfulEqOrd NT] [LawfulEqOrd AK] [LawfulEqOrd V]
variable {addr : StartNonTerminal NT → Nat → Nat} {g : Grammar T NT AK AV}
variable (hg : g.Accepted) (ha : AddrInj g.wrapped addr) {log : TreeLog T AK V} {w : World T AK V}
  {held : List Handle} (hist : History log w held)
  (hk : ∀ p ∈ g.prods, ∀ q ∈ g.prods, p.prodKey = q.prodKey → p = q)

include hg ha hist hk in
/-- C144.  So with such keys every tree that can be read off the node `parse` returns is that of exactly one derivation
tree. -/
theorem read_tree_of_one {t fuel : Nat} {toks : List (Token T V)} {w' : World T AK V} {n : Node}
    (h : parse addr g.wrapped fuel w t toks = .ok (w', some n)) {s : DTree (Token T V) AK} (hs : Reads w' s n) :
    ∃! d : DTree (Token T V) (Prod T NT AK AV), IsTree g (·.kind) (.nonterm g.startSymbol) d ∧
      d.mapNodes (·.actionKey) = s := by
  obtain ⟨d, h1, rfl, -⟩ := parse_trees_grammatical hg ha hist h hs
  exact ⟨d, ⟨h1, rfl⟩, fun d' h2 => keys_tell_trees hk d' d h2.1 h1 h2.2⟩

include hg ha hist hk in
/-- C144.  The text is ambiguous exactly if two different trees can be read off the node, where productions divide the
input in one way only. -/
theorem ambiguous_iff_two_read {t fuel : Nat} {toks : List (Token T V)} {w' : World T AK V} {n : Node}
    (hsplit : g.SplitsOnce (kinds toks)) (h : parse addr g.wrapped fuel w t toks = .ok (w', some n)) :
    (∃ d d' : DTree (Token T V) (Prod T NT AK AV), d ≠ d' ∧ IsTree g (·.kind) (.nonterm g.startSymbol) d ∧ d.yield = toks ∧
      IsTree g (·.kind) (.nonterm g.startSymbol) d' ∧ d'.yield = toks) ↔
    ∃ s s', s ≠ s' ∧ Reads w' s n ∧ Reads w' s' n := by
  constructor
  · rintro ⟨d, d', hne, h1, h2, h3, h4⟩
    exact ⟨_, _, fun he => hne (keys_tell_trees hk d d' h1 h3 he), parse_all_trees hg ha hist h h1 h2,
      parse_all_trees hg ha hist h h3 h4⟩
  · rintro ⟨s, s', hne, h1, h2⟩
    obtain ⟨d, k1, rfl, -⟩ := parse_trees_grammatical hg ha hist h h1
    obtain ⟨d', k2, rfl, -⟩ := parse_trees_grammatical hg ha hist h h2
    have y1 := parse_trees_spell_partial hg ha hist hsplit h h1
    have y2 := parse_trees_spell_partial hg ha hist hsplit h h2
    rw [DTree.yield_mapNodes] at y1 y2
    exact ⟨d, d', by rintro rfl; exact hne rfl, k1, y1, k2, y2⟩

include hg ha hist hk in
/-- C144.  In general two trees can be read if the text is ambiguous. -/
theorem two_read_of_ambiguous {t fuel : Nat} {toks : List (Token T V)} {w' : World T AK V} {n : Node}
    (h : parse addr g.wrapped fuel w t toks = .ok (w', some n)) {d d' : DTree (Token T V) (Prod T NT AK AV)} (hne : d ≠ d')
    (h1 : IsTree g (·.kind) (.nonterm g.startSymbol) d) (h2 : d.yield = toks)
    (h3 : IsTree g (·.kind) (.nonterm g.startSymbol) d') (h4 : d'.yield = toks) :
    ∃ s s', s ≠ s' ∧ Reads w' s n ∧ Reads w' s' n :=
  ⟨_, _, fun he => hne (keys_tell_trees hk d d' h1 h3 he), parse_all_trees hg ha hist h h1 h2,
      parse_all_trees hg ha hist h h3 h4⟩

include hg ha hist hk in
/-- C144.  A trimmed grammar without the faults of C140 is unambiguous exactly if one tree can be read off each node that
`parse` returns. -/
theorem unambiguous_iff_one_read [Nonempty V] (ht : g.Trim) (h1 : ¬ g.cfg.InLanguage []) (h2 : ¬ g.Overlaps) (t : Nat) :
    g.Unambiguous ↔ ∀ (toks : List (Token T V)) fuel w' n, parse addr g.wrapped fuel w t toks = .ok (w', some n) →
      ∃! s, Reads w' s n := by
  constructor
  · intro hu toks fuel w' n h
    obtain ⟨d, -, -, h3⟩ := parse_one_tree hg ha hist hu ht.noDeadEnds h
    exact ⟨_, (h3 _).2 rfl, fun s hs => (h3 s).1 hs⟩
  · intro h d d' hd hd' hy
    obtain ⟨v⟩ := ‹Nonempty V›
    have e1 := hd.liftLeaves (kind := fun x : Token T V => x.kind) (f := fun k => ⟨k, v⟩) fun _ => rfl
    have e2 := hd'.liftLeaves (kind := fun x : Token T V => x.kind) (f := fun k => ⟨k, v⟩) fun _ => rfl
    have hin : g.cfg.InLanguage (kinds (d.yield.map fun k => (⟨k, v⟩ : Token T V))) := by
      have : kinds (d.yield.map fun k => (⟨k, v⟩ : Token T V)) = d.yield := by simp [kinds, Function.comp_def]
      rw [this]
      have := hd.yields hg.valid.toWF
      rw [List.map_id] at this
      exact Cfg.yields_nonterm_iff.1 this
    obtain ⟨N, w', n, h3⟩ := (reliable_exact hg ha ht hist t).2 ⟨h1, h2⟩ _ hin
    have h4 := h3 N (Nat.le_refl _)
    have r1 := parse_all_trees hg ha hist h4 e1 (DTree.yield_mapLeaves _ _)
    have r2 := parse_all_trees hg ha hist h4 e2 (by rw [DTree.yield_mapLeaves, hy])
    obtain ⟨s, -, h5⟩ := h _ _ _ _ h4
    have := keys_tell_trees hk _ _ e1 e2 ((h5 _ r1).trans (h5 _ r2).symm)
    exact DTree.mapLeaves_inj (fun a b hab => by simpa using hab) _ _ this
end

/-! ## Witnesses -/

/-- `S → 7 | 7` with one key for both. -/
def sameKey : Grammar Nat Nat Nat Unit := ⟨0, [exRule 0 [(10, [.term 7]), (10, [.term 7])]]⟩

theorem sameKey_accepted : sameKey.Accepted :=
  ⟨20, 0, [⟨0, [.addProd 10 () [.addTerm 7], .addProd 10 () [.addTerm 7]]⟩], by decide⟩

/-- The hypotheses are met by a grammar with two trees for a text. -/
example : (∀ p ∈ twoWays.prods, ∀ q ∈ twoWays.prods, p.prodKey = q.prodKey → p = q) ∧
    ∃ w n s s', parse exampleSAddr twoWays.wrapped 9 (World.new : World Nat Nat Nat) 7 [⟨7, 70⟩] = .ok (w, some n) ∧
      s ≠ s' ∧ Reads w s n ∧ Reads w s' n := by
  have hk : ∀ p ∈ twoWays.prods, ∀ q ∈ twoWays.prods, p.prodKey = q.prodKey → p = q := by decide
  obtain ⟨w, n, h⟩ : ∃ w n, parse exampleSAddr twoWays.wrapped 9 (World.new : World Nat Nat Nat) 7
      [⟨7, 70⟩] = .ok (w, some n) := ⟨_, _, rfl⟩
  have hl : IsTree twoWays (fun x : Token Nat Nat => x.kind) (.term 7) (.leaf ⟨7, 70⟩) :=
    IsTree.leaf (kind := fun x : Token Nat Nat => x.kind) ⟨7, 70⟩
  have t1 : IsTree twoWays (fun x : Token Nat Nat => x.kind) (.nonterm 0)
      (.node ⟨0, 0, ⟨10, (), [⟨none, .nonterm 1⟩]⟩⟩ [.node ⟨1, 0, ⟨12, (), [⟨none, .term 7⟩]⟩⟩ [.leaf ⟨7, 70⟩]]) :=
    IsTree.node (g := twoWays) ⟨0, 0, ⟨10, (), [⟨none, .nonterm 1⟩]⟩⟩ _ (by decide)
      (.cons (IsTree.node (g := twoWays) ⟨1, 0, ⟨12, (), [⟨none, .term 7⟩]⟩⟩ _ (by decide) (.cons hl .nil)) .nil)
  have t2 : IsTree twoWays (fun x : Token Nat Nat => x.kind) (.nonterm 0)
      (.node ⟨0, 1, ⟨11, (), [⟨none, .nonterm 2⟩]⟩⟩ [.node ⟨2, 0, ⟨13, (), [⟨none, .term 7⟩]⟩⟩ [.leaf ⟨7, 70⟩]]) :=
    IsTree.node (g := twoWays) ⟨0, 1, ⟨11, (), [⟨none, .nonterm 2⟩]⟩⟩ _ (by decide)
      (.cons (IsTree.node (g := twoWays) ⟨2, 0, ⟨13, (), [⟨none, .term 7⟩]⟩⟩ _ (by decide) (.cons hl .nil)) .nil)
  obtain ⟨s, s', k⟩ := two_read_of_ambiguous twoWays_accepted (exampleSAddr_addrInj _) .start hk h
    (by simp) t1 rfl t2 rfl
  exact ⟨hk, w, n, s, s', h, k⟩

/-- Without the condition on the keys: two trees of a text that look the same. -/
example : ¬ (∀ p ∈ sameKey.prods, ∀ q ∈ sameKey.prods, p.prodKey = q.prodKey → p = q) ∧
    ∃ d d' : DTree (Token Nat Nat) (Prod Nat Nat Nat Unit), d ≠ d' ∧
      IsTree sameKey (fun x => x.kind) (.nonterm 0) d ∧ IsTree sameKey (fun x => x.kind) (.nonterm 0) d' ∧
      d.yield = d'.yield ∧ d.mapNodes (·.actionKey) = d'.mapNodes (·.actionKey) := by
  have hl : IsTree sameKey (fun x : Token Nat Nat => x.kind) (.term 7) (.leaf ⟨7, 70⟩) :=
    IsTree.leaf (kind := fun x : Token Nat Nat => x.kind) ⟨7, 70⟩
  refine ⟨by decide, _, _, ?_, IsTree.node (g := sameKey) ⟨0, 0, ⟨10, (), [⟨none, .term 7⟩]⟩⟩ _ (by decide) (.cons hl .nil),
    IsTree.node (g := sameKey) ⟨0, 1, ⟨10, (), [⟨none, .term 7⟩]⟩⟩ _ (by decide) (.cons hl .nil), rfl, rfl⟩
  simp

/-- An instance of `unambiguous_iff_one_read`. -/
example : lateExample.Unambiguous ↔ ∀ (toks : List (Token Nat Nat)) fuel w' n,
    parse exampleSAddr lateExample.wrapped fuel World.new 7 toks = .ok (w', some n) → ∃! s, Reads w' s n :=
  unambiguous_iff_one_read lateExample_accepted (exampleSAddr_addrInj _) .start (by decide) lateExample_trim
    lateExample_no_faults.1 lateExample_no_faults.2.1 7
end Bongo
