import Verif.Proof.Keys
import Verif.Props.RenamePasses
import Verif.Props.OneTree
/-!
# C133: action keys are only carried along
-/
set_option linter.unusedSectionVars false
namespace Bongo
open Std
variable {T NT AK AV V T' NT' AK' AV' V' : Type}
variable {ρ : Renaming T NT AK AV T' NT' AK' AV'} {fV : V → V'}
variable {g : Grammar T NT AK AV} {g' : Grammar T' NT' AK' AV'}

theorem Renaming.term_map (u : List T) :
    (u.map ρ.term).map (Elem.term (NT := NT')) = (u.map (Elem.term (NT := NT))).map ρ.elem := by
  simp only [List.map_map]; rfl

section lang
variable [Ord NT] [TransOrd NT] [LawfulEqOrd NT] [Ord NT'] [TransOrd NT'] [LawfulEqOrd NT']
variable (hw : g.WF) (hw' : g'.WF) (hρ : ρ.SymInjective) (hr : g.RenamedTo ρ g')
include hw hw' hρ hr

theorem renamed_derives' {s t : List (Elem T NT)} :
    g'.cfg.Derives (s.map ρ.elem) (t.map ρ.elem) ↔ g.cfg.Derives s t := by
  rw [renamed_derives hw hw' hρ hr]
  constructor
  · rintro ⟨u, h1, h2⟩
    rw [ρ.elems_inj hρ h1]; exact h2
  · exact fun h => ⟨t, rfl, h⟩

theorem renamed_derives_word {s : List (Elem T NT)} {u : List T} :
    g'.cfg.Derives (s.map ρ.elem) ((u.map ρ.term).map .term) ↔ g.cfg.Derives s (u.map .term) := by
  rw [ρ.term_map, renamed_derives' hw hw' hρ hr]

theorem renamed_generates {A : NT} {u : List T} :
    g'.cfg.Generates (ρ.nonterm A) (u.map ρ.term) ↔ g.cfg.Generates A u :=
  renamed_derives_word hw hw' hρ hr (s := [.nonterm A])

theorem renamed_inLanguage {u : List T} : g'.cfg.InLanguage (u.map ρ.term) ↔ g.cfg.InLanguage u := by
  have h := renamed_generates hw hw' hρ hr (A := g.startSymbol) (u := u)
  rw [← hr.1] at h
  exact h

theorem renamed_viable {u : List T} : g'.Viable (u.map ρ.term) ↔ g.Viable u := by
  unfold Grammar.Viable
  have hs : [Elem.nonterm g'.startSymbol] = [Elem.nonterm g.startSymbol].map (ρ.elem) := by
    rw [hr.1]; rfl
  rw [hs]
  constructor
  · rintro ⟨δ', h⟩
    obtain ⟨x, h1, h2⟩ := (renamed_derives hw hw' hρ hr).1 h
    symm at h1
    rw [List.map_eq_append_iff] at h1
    obtain ⟨a, b, rfl, ha, rfl⟩ := h1
    rw [ρ.term_map] at ha
    rw [ρ.elems_inj hρ ha] at h2
    exact ⟨b, h2⟩
  · rintro ⟨δ, h⟩
    refine ⟨δ.map ρ.elem, ?_⟩
    rw [ρ.term_map, ← List.map_append]
    exact (renamed_derives' hw hw' hρ hr).2 h

theorem renamed_clash {w : List T} : g'.Clash (w.map ρ.term) ↔ g.Clash w := by
  unfold Grammar.Clash
  have hs : [Elem.nonterm g'.startSymbol] = [Elem.nonterm g.startSymbol].map (ρ.elem) := by
    rw [hr.1]; rfl
  rw [hs, hr.1, List.map_eq_nil_iff, renamed_generates_nil hw hw' hρ hr]
  refine or_congr Iff.rfl ?_
  constructor
  · rintro ⟨u', v', A', β', δ', d₁, d₂, h1, h2, h3, h4, h5, h6, h7⟩
    rw [List.map_eq_append_iff] at h1
    obtain ⟨u, v, rfl, rfl, rfl⟩ := h1
    obtain ⟨x, k1, k2⟩ := (renamed_derives hw hw' hρ hr).1 h2
    symm at k1
    rw [List.map_eq_append_iff] at k1
    obtain ⟨a, b, rfl, ha, hb⟩ := k1
    rw [ρ.term_map] at ha
    rw [ρ.elems_inj hρ ha] at k2
    rw [List.map_eq_cons_iff] at hb
    obtain ⟨e, c, rfl, he, rfl⟩ := hb
    obtain ⟨A, rfl, rfl⟩ := ρ.elem_nonterm he
    obtain ⟨β, rfl, k3⟩ := (renamed_prod hw hw' hρ hr).1 h3
    rw [← List.map_take, renamed_derives_word hw hw' hρ hr] at h6 h7
    rw [List.length_map] at h5
    exact ⟨u, v, A, β, c, d₁, d₂, rfl, k2, k3, h4, h5, h6, h7⟩
  · rintro ⟨u, v, A, β, δ, d₁, d₂, rfl, h2, h3, h4, h5, h6, h7⟩
    refine ⟨u.map ρ.term, v.map ρ.term, ρ.nonterm A, β.map ρ.elem, δ.map ρ.elem, d₁, d₂, by simp, ?_,
      (renamed_prod hw hw' hρ hr).2 ⟨β, rfl, h3⟩, h4, by rw [List.length_map]; exact h5, ?_, ?_⟩
    · have := (renamed_derives' hw hw' hρ hr).2 h2
      rw [List.map_append] at this
      rw [ρ.term_map]; exact this
    · rw [← List.map_take, renamed_derives_word hw hw' hρ hr]; exact h6
    · rw [← List.map_take, renamed_derives_word hw hw' hρ hr]; exact h7
end lang

theorem kinds_map (fT : T → T') (fV : V → V') (toks : List (Token T V)) :
    kinds (toks.map (Token.renamed fT fV)) = (kinds toks).map fT := by
  simp only [kinds, List.map_map]
  rfl

variable [Ord T] [Ord NT] [Ord AK] [Ord V] [DecidableEq T] [DecidableEq NT]
variable [TransOrd T] [TransOrd NT] [TransOrd AK] [TransOrd V]
variable [LawfulEqOrd T] [LawfulEqOrd NT] [LawfulEqOrd AK] [LawfulEqOrd V]
variable [Ord T'] [Ord NT'] [Ord AK'] [Ord V'] [DecidableEq T'] [DecidableEq NT']
variable [TransOrd T'] [TransOrd NT'] [TransOrd AK'] [TransOrd V']
variable [LawfulEqOrd T'] [LawfulEqOrd NT'] [LawfulEqOrd AK'] [LawfulEqOrd V']
variable {addr : StartNonTerminal NT → Nat → Nat} {addr' : StartNonTerminal NT' → Nat → Nat}

/-- C133: giving the productions other action keys, equal or different ones whether or not they had equal
ones before, (and the symbols other names and the tokens other values) does not change whether and how
`parse` panics, returns `None` or returns `Some`. -/
theorem parse_keys_outcome (hg : g.Accepted) (hg' : g'.Accepted) (hρ : ρ.SymInjective)
    (hr : g.RenamedTo ρ g') (ha : AddrInj g.wrapped addr) (ha' : AddrInj g'.wrapped addr')
    {log : TreeLog T AK V} {log' : TreeLog T' AK' V'} {w : World T AK V}
    {w' : World T' AK' V'} {held held' : List Handle} (hist : History log w held)
    (hist' : History log' w' held') (t t' : Nat) (toks : List (Token T V)) :
    ∃ N, ∀ fuel, N ≤ fuel → (parse addr g.wrapped fuel w t toks).mapOut (fun r => r.2.isSome) =
      (parse addr' g'.wrapped fuel w' t' (toks.map (Token.renamed ρ.term fV))).mapOut
        (fun r => r.2.isSome) := by
  have hw := hg.valid.toWF
  have hw' := hg'.valid.toWF
  obtain ⟨N, h⟩ := parse_exact hg ha hist t toks
  obtain ⟨N', h'⟩ := parse_exact hg' ha' hist' t' (toks.map (Token.renamed ρ.term fV))
  simp only [← List.map_take, kinds_map, List.length_map, renamed_viable hw hw' hρ hr,
    renamed_clash hw hw' hρ hr, renamed_inLanguage hw hw' hρ hr] at h'
  refine ⟨max N N', fun fuel hf => ?_⟩
  have hN : N ≤ fuel := by omega
  have hN' : N' ≤ fuel := by omega
  rcases h with ⟨h0, w1, r1, h1, h2⟩ | ⟨b, hb, hlt, h⟩
  · rcases h' with ⟨-, w1', r1', h1', h2'⟩ | ⟨b', hb', -, ⟨h1', -⟩ | ⟨-, h1', -⟩⟩
    · rw [h1 fuel hN, h1' fuel hN']
      simp only [Res.mapOut, Res.ok.injEq]
      rw [Bool.eq_iff_iff, h2, h2']
    · exact absurd (h0 b' hb').1 h1'
    · exact absurd h1' (h0 b' hb').2
  · rcases h' with ⟨h0', w1', r1', h1', h2'⟩ | ⟨b', hb', hlt', h'⟩
    · rcases h with ⟨h, -⟩ | ⟨-, h, -⟩
      · exact absurd (h0' b hb).1 h
      · exact absurd h (h0' b hb).2
    · have hbb : b = b' := by
        rcases Nat.lt_trichotomy b b' with hl | hl | hl
        · rcases h with ⟨h, -⟩ | ⟨-, h, -⟩
          · exact absurd (hlt' b hl).1 h
          · exact absurd h (hlt' b hl).2
        · exact hl
        · rcases h' with ⟨h', -⟩ | ⟨-, h', -⟩
          · exact absurd (hlt b' hl).1 h'
          · exact absurd h' (hlt b' hl).2
      subst hbb
      rcases h with ⟨h, h1⟩ | ⟨h, -, h1⟩ <;> rcases h' with ⟨h', h1'⟩ | ⟨h', -, h1'⟩
      · rw [h1 fuel hN, h1' fuel hN']; rfl
      · exact absurd h' h
      · exact absurd h h'
      · rw [h1 fuel hN, h1' fuel hN']; rfl

/-- The same, whatever was in the trees before. -/
theorem parse_keys_carried_of_wf (hw : g.WF) (hw' : g'.WF) (hρ : ρ.SymInjective)
    (hr : g.RenamedTo ρ g') (ha : AddrPlaced g.wrapped addr) (ha' : AddrPlaced g'.wrapped addr')
    {w w₁ : World T AK V} {w' w₁' : World T' AK' V'} {t t' fuel fuel' : Nat} (hi : (w t).WF) (hi' : (w' t').WF)
    {toks : List (Token T V)} {n n' : Node}
    (h : parse addr g.wrapped fuel w t toks = .ok (w₁, some n))
    (h' : parse addr' g'.wrapped fuel' w' t' (toks.map (Token.renamed ρ.term fV)) = .ok (w₁', some n'))
    (s' : DTree (Token T' V') AK') :
    Reads w₁' s' n' ↔ ∃ s, s' = s.renamed ρ.term ρ.key fV ∧ Reads w₁ s n := by
  have hws : g.wrapped.WF := Grammar.wrapped_wf hw
  obtain ⟨I₁, m₁, p₁, rfl, e₁⟩ := parse_ok_iff h
  obtain ⟨I₂, m₂, p₂, rfl, e₂⟩ := parse_ok_iff h'
  cases m₁ with
  | none => cases e₁
  | some m₁ =>
    cases m₂ with
    | none => cases e₂
    | some m₂ =>
      cases e₁
      cases e₂
      have hfin : finalName g' (toks.map (Token.renamed ρ.term fV)) = ρ.nname (finalName g toks) := by
        simp only [finalName, Renaming.nname, List.length_map, startRef, hr.1]
        rfl
      have hin : (finalName g toks).2.In g.wrapped := startRef_mem hw
      rw [parseInner_reads hw' ha'.addrInj ha'.ordered hi'
        (by rw [World.set_self]; exact p₂) s', List.length_map, hfin]
      constructor
      · intro hr'
        obtain ⟨s, rfl, hs⟩ := CReads.renamed' hws hρ.nonterm hρ.term hr.wrapped.prods hr.wrapped.1
          _ _ _ hin hr'
        exact ⟨s, rfl, (parseInner_reads hw ha.addrInj ha.ordered hi
          (by rw [World.set_self]; exact p₁) s).2 hs⟩
      · rintro ⟨s, rfl, hs⟩
        exact CReads.renamed hws hρ.nonterm hρ.term hr.wrapped.prods hr.wrapped.1 _ _ _
          ((parseInner_reads hw ha.addrInj ha.ordered hi
            (by rw [World.set_self]; exact p₁) s).1 hs)

/-- C133: the trees that can be read off the returned node are those that can be read off without the
change, with the keys (and the kinds and values of the tokens) replaced, whatever keys are replaced by what. -/
theorem parse_keys_carried (hg : g.Accepted) (hg' : g'.Accepted) (hρ : ρ.SymInjective)
    (hr : g.RenamedTo ρ g') (ha : AddrPlaced g.wrapped addr) (ha' : AddrPlaced g'.wrapped addr')
    {log : TreeLog T AK V} {log' : TreeLog T' AK' V'}
    {w w₁ : World T AK V} {w' w₁' : World T' AK' V'} {held held' : List Handle} (hist : History log w held)
    (hist' : History log' w' held') {t t' fuel fuel' : Nat} {toks : List (Token T V)} {n n' : Node}
    (h : parse addr g.wrapped fuel w t toks = .ok (w₁, some n))
    (h' : parse addr' g'.wrapped fuel' w' t' (toks.map (Token.renamed ρ.term fV)) = .ok (w₁', some n'))
    (s' : DTree (Token T' V') AK') :
    Reads w₁' s' n' ↔ ∃ s, s' = s.renamed ρ.term ρ.key fV ∧ Reads w₁ s n :=
  parse_keys_carried_of_wf hg.valid.toWF hg'.valid.toWF hρ hr ha ha' (hist.inv.wf t) (hist'.inv.wf t') h h' s'

/-! ## An example: two trees become one -/

/-- `0 => 1 | 2`, `1 => 7`, `2 => 7`, all keys different. -/
def twoWays : Grammar Nat Nat Nat Unit :=
  ⟨0, [exRule 0 [(10, [.nonterm 1]), (11, [.nonterm 2])], exRule 1 [(12, [.term 7])], exRule 2 [(13, [.term 7])]]⟩

/-- The same with one key for everything. -/
def twoWaysOneKey : Grammar Nat Nat Nat Unit :=
  ⟨0, [exRule 0 [(5, [.nonterm 1]), (5, [.nonterm 2])], exRule 1 [(5, [.term 7])], exRule 2 [(5, [.term 7])]]⟩

theorem twoWays_accepted : twoWays.Accepted :=
  ⟨20, 0, [⟨0, [.addProd 10 () [.addNonterm 1], .addProd 11 () [.addNonterm 2]]⟩,
    ⟨1, [.addProd 12 () [.addTerm 7]]⟩, ⟨2, [.addProd 13 () [.addTerm 7]]⟩], by decide⟩

theorem twoWaysOneKey_accepted : twoWaysOneKey.Accepted :=
  ⟨20, 0, [⟨0, [.addProd 5 () [.addNonterm 1], .addProd 5 () [.addNonterm 2]]⟩,
    ⟨1, [.addProd 5 () [.addTerm 7]]⟩, ⟨2, [.addProd 5 () [.addTerm 7]]⟩], by decide⟩

def oneKey : Renaming Nat Nat Nat Unit Nat Nat Nat Unit := ⟨id, id, fun _ => 5, id⟩

theorem oneKey_symInjective : oneKey.SymInjective := ⟨fun _ _ h => h, fun _ _ h => h⟩

theorem twoWays_oneKey : twoWays.RenamedTo oneKey twoWaysOneKey := by
  have h : twoWaysOneKey.rules = twoWays.rules.map oneKey.rule := by decide
  refine ⟨rfl, fun r' => ?_⟩
  rw [h, List.mem_map]
  constructor
  · rintro ⟨r, hr, rfl⟩; exact ⟨r, hr, rfl⟩
  · rintro ⟨r, hr, rfl⟩; exact ⟨r, hr, rfl⟩

/-- The hypotheses of the theorems are met by grammars whose keys become the same: two trees can be read off
the one node, and what they become off the other. -/
example : ∃ w n w' n',
    parse exampleSAddr twoWays.wrapped 9 (World.new : World Nat Nat Nat) 7 [⟨7, 70⟩] = .ok (w, some n) ∧
    parse exampleSAddr twoWaysOneKey.wrapped 9 (World.new : World Nat Nat Nat) 7
      ([⟨7, 70⟩].map (Token.renamed oneKey.term id)) = .ok (w', some n') ∧
    Reads w (.node 10 [.node 12 [.leaf ⟨7, 70⟩]]) n ∧ Reads w (.node 11 [.node 13 [.leaf ⟨7, 70⟩]]) n ∧
    Reads w' (.node 5 [.node 5 [.leaf ⟨7, 70⟩]]) n' := by
  obtain ⟨w, n, h⟩ : ∃ w n, parse exampleSAddr twoWays.wrapped 9 (World.new : World Nat Nat Nat) 7
      [⟨7, 70⟩] = .ok (w, some n) := ⟨_, _, rfl⟩
  obtain ⟨w', n', h'⟩ : ∃ w' n', parse exampleSAddr twoWaysOneKey.wrapped 9
      (World.new : World Nat Nat Nat) 7 ([⟨7, 70⟩].map (Token.renamed oneKey.term id)) = .ok (w', some n') :=
    ⟨_, _, rfl⟩
  have pl := exampleSAddr_placed twoWays.wrapped (by decide)
  have pl' := exampleSAddr_placed twoWaysOneKey.wrapped (by decide)
  have hl : IsTree twoWays (fun x : Token Nat Nat => x.kind) (.term 7) (.leaf ⟨7, 70⟩) :=
    IsTree.leaf (kind := fun x : Token Nat Nat => x.kind) ⟨7, 70⟩
  have t1 : IsTree twoWays (fun x : Token Nat Nat => x.kind) (.nonterm 0)
      (.node ⟨0, 0, ⟨10, (), [⟨none, .nonterm 1⟩]⟩⟩ [.node ⟨1, 0, ⟨12, (), [⟨none, .term 7⟩]⟩⟩ [.leaf ⟨7, 70⟩]]) :=
    IsTree.node (g := twoWays) ⟨0, 0, ⟨10, (), [⟨none, .nonterm 1⟩]⟩⟩ _ (by decide)
      (.cons (IsTree.node (g := twoWays) ⟨1, 0, ⟨12, (), [⟨none, .term 7⟩]⟩⟩ _ (by decide) (.cons hl .nil)) .nil)
  have t2 : IsTree twoWays (fun x : Token Nat Nat => x.kind) (.nonterm 0)
      (.node ⟨0, 1, ⟨11, (), [⟨none, .nonterm 2⟩]⟩⟩ [.node ⟨2, 0, ⟨13, (), [⟨none, .term 7⟩]⟩⟩ [.leaf ⟨7, 70⟩]]) :=
    IsTree.node (g := twoWays) ⟨0, 1, ⟨11, (), [⟨none, .nonterm 2⟩]⟩⟩ _ (by decide)
      (.cons (IsTree.node (g := twoWays) ⟨2, 0, ⟨13, (), [⟨none, .term 7⟩]⟩⟩ _ (by decide) (.cons hl .nil)) .nil)
  have r1 := parse_all_trees twoWays_accepted pl.addrInj History.start h t1 rfl
  have r2 := parse_all_trees twoWays_accepted pl.addrInj History.start h t2 rfl
  exact ⟨w, n, w', n', h, h', r1, r2, (parse_keys_carried twoWays_accepted twoWaysOneKey_accepted
    oneKey_symInjective twoWays_oneKey pl pl' History.start History.start h h' _).2 ⟨_, rfl, r1⟩⟩
end Bongo
