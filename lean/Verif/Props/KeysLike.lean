import Verif.Proof.KeyClass
import Verif.Proof.KeysExactReads
import Verif.Props.Keys
import Verif.Props.Values
import Verif.Props.Compose
/-!
# C134: kinds, action keys and values that compare equal
-/
set_option linter.unusedSectionVars false
namespace Bongo
open Std
variable {T NT AK AV V T' AK' V' : Type}

/-! ## Forests -/
section calls
variable [Ord T] [Ord AK] [Ord V] [TransOrd T] [TransOrd AK] [TransOrd V]
variable [Ord T'] [Ord AK'] [Ord V'] [TransOrd T'] [TransOrd AK'] [TransOrd V']

/-- C134 for trees: of the orders only matters what compares equal.  If other kinds, action keys and values
are used, of any other types and in any other order, that compare equal exactly where the given ones do,
every sequence of calls returns the same handles, and all answers are the same up to kinds, keys and
values, those of the sequence and those of every further call. -/
theorem calls_alike {fT : T → T'} {fA : AK → AK'} {fV : V → V'}
    (hT : ∀ a b, compare (fT a) (fT b) = .eq ↔ compare a b = .eq)
    (hA : ∀ a b, compare (fA a) (fA b) = .eq ↔ compare a b = .eq)
    (hV : ∀ a b, compare (fV a) (fV b) = .eq ↔ compare a b = .eq)
    {log : TreeLog T AK V} {w : World T AK V} {held : List Handle} (hist : History log w held) :
    ∃ w' : World T' AK' V', History (log.renamed fT fA fV) w' held ∧ w.AnswersAs fT fA fV w' := by
  have hi : RenInj fT fA fV := ⟨hT, hA, hV⟩
  obtain ⟨w', h1, h2⟩ := history_worldRen hi hist
  exact ⟨w', h1, fun op => (h2.exec hi op).2⟩

/-- C134: what an alternative reads: the first content of those alike that was given in that tree. -/
theorem alt_reads_first {log : TreeLog T AK V} {w : World T AK V} {held : List Handle}
    (h : History log w held) {op : TreeOp T AK V} {a : Alternative} {t : Nat}
    {x : (T × V) ⊕ (AK × List Node)} (hm : (op, .ok (.alt a)) ∈ log) (hx : op.made = some (t, x)) :
    ∃ y, (log.madeOn t).find? (alike · x) = some y ∧ w.Shows a y :=
  history_shows h hm hx

/-- C134: two calls of `make_leaf_alt` or `make_branch_alt` return the same alternative exactly if they
are calls on one tree with contents that are alike. -/
theorem alts_interned_alike {log : TreeLog T AK V} {w : World T AK V} {held : List Handle}
    (h : History log w held) {op op' : TreeOp T AK V} {a a' : Alternative} {t t' : Nat}
    {x x' : (T × V) ⊕ (AK × List Node)} (hm : (op, .ok (.alt a)) ∈ log) (hm' : (op', .ok (.alt a')) ∈ log)
    (hx : op.made = some (t, x)) (hx' : op'.made = some (t', x')) :
    a = a' ↔ t = t' ∧ alike x x' = true := by
  obtain ⟨ht, hn, c, hc, he⟩ := history_made_class h hm hx
  obtain ⟨ht', hn', c', hc', he'⟩ := history_made_class h hm' hx'
  constructor
  · rintro rfl
    subst ht
    subst ht'
    rw [hc] at hc'
    cases hc'
    exact ⟨rfl, (cmp_toContent hn hn').1 (TransCmp.eq_trans (OrientedCmp.eq_comm.1 he) he')⟩
  · rintro ⟨rfl, hl⟩
    have hcc : NodeContent.cmp c c' = .eq :=
      TransCmp.eq_trans he (TransCmp.eq_trans ((cmp_toContent hn hn').2 hl) (OrientedCmp.eq_comm.1 he'))
    have k := history_keepsC h t
    have e1 := k.here _ _ hc
    have e2 := k.here _ _ hc'
    rw [BMap.get?_congr _ hcc, e2] at e1
    obtain ⟨i, ti⟩ := a
    obtain ⟨j, tj⟩ := a'
    simp only [Option.some.injEq] at e1 ht ht'
    rw [e1, ht, ht']
end calls

/-! ## Parsing -/
section parse
variable [Ord T] [Ord NT] [Ord AK] [Ord V] [DecidableEq T] [DecidableEq NT]
variable [TransOrd T] [TransOrd NT] [TransOrd AK] [TransOrd V] [LawfulEqOrd T] [LawfulEqOrd NT]
variable {g : Grammar T NT AK AV} {addr : StartNonTerminal NT → Nat → Nat}

theorem keyRen_renInj : RenInj (keyRen T NT AV (CmpClass.mk : AK → CmpClass AK)).term
    (keyRen T NT AV (CmpClass.mk : AK → CmpClass AK)).key (CmpClass.mk : V → CmpClass V) :=
  ⟨fun _ _ => Iff.rfl, fun _ _ => by rw [keyRen, CmpClass.compare_mk], fun _ _ => by rw [CmpClass.compare_mk]⟩

/-- C134 for `parse`: whether and how it panics, returns `None` or returns `Some` depends on the kinds of
the tokens as it does with other action keys and values. -/
theorem parse_exact_alike (hg : g.Accepted) (ha : AddrInj g.wrapped addr) {log : TreeLog T AK V}
    {w : World T AK V} {held : List Handle} (hist : History log w held) (t : Nat)
    (toks : List (Token T V)) :
    ∃ N, ((∀ j, j ≤ toks.length → g.Viable (kinds (toks.take j)) ∧ ¬ g.Clash (kinds (toks.take j))) ∧
        ∃ w' r, (∀ fuel, N ≤ fuel → parse addr g.wrapped fuel w t toks = .ok (w', r)) ∧
          (r.isSome ↔ g.cfg.InLanguage (kinds toks))) ∨
      ∃ b, b ≤ toks.length ∧
        (∀ j, j < b → g.Viable (kinds (toks.take j)) ∧ ¬ g.Clash (kinds (toks.take j))) ∧
        ((¬ g.Viable (kinds (toks.take b)) ∧
            ∀ fuel, N ≤ fuel → parse addr g.wrapped fuel w t toks = .panic .emptyState) ∨
          (g.Viable (kinds (toks.take b)) ∧ g.Clash (kinds (toks.take b)) ∧
            ∀ fuel, N ≤ fuel → parse addr g.wrapped fuel w t toks = .panic .lenMismatch)) := by
  obtain ⟨g', hg', hr⟩ := keyRen_grammar CmpClass.mk hg
  have hw := hg.valid.toWF
  have hw' := hg'.valid.toWF
  obtain ⟨w₀, h1, h2⟩ := history_worldRen (keyRen_renInj (T := T) (NT := NT) (AV := AV)) hist
  obtain ⟨N, h⟩ := parse_exact hg' (keyRen_addrInj hr ha) h1 t
    (toks.map (Token.renamed (keyRen T NT AV (CmpClass.mk : AK → CmpClass AK)).term CmpClass.mk))
  simp only [← List.map_take, kinds_map, List.length_map, renamed_viable hw hw' (keyRen_inj _) hr,
    renamed_clash hw hw' (keyRen_inj _) hr, renamed_inLanguage hw hw' (keyRen_inj _) hr] at h
  have hboth := fun fuel => parse_worldRen (addr := addr) (addr' := addr) hg hg' (keyRen_inj _) keyRen_renInj hr
    (fun A i => by rw [keyRen_start_nonterm]) h2 t fuel toks
  have hpan : ∀ p, (∀ fuel, N ≤ fuel → parse addr g'.wrapped fuel w₀ t
      (toks.map (Token.renamed (keyRen T NT AV (CmpClass.mk : AK → CmpClass AK)).term CmpClass.mk)) = .panic p) →
      ∀ fuel, N ≤ fuel → parse addr g.wrapped fuel w t toks = .panic p := by
    intro p hp fuel hf
    rcases (hboth fuel).out with ⟨a, b, e1, e2, -⟩ | ⟨q, e1, e2⟩ | ⟨e1, e2⟩
    · rw [hp fuel hf] at e2; cases e2
    · rw [hp fuel hf] at e2; cases e2; exact e1
    · rw [hp fuel hf] at e2; cases e2
  refine ⟨N, ?_⟩
  rcases h with ⟨h0, w1, r1, h3, h4⟩ | ⟨b, hb, hlt, h⟩
  · refine .inl ⟨h0, ?_⟩
    rcases (hboth N).out with ⟨a, b, e1, e2, r1, r2⟩ | ⟨q, e1, e2⟩ | ⟨e1, e2⟩
    · rw [h3 N (Nat.le_refl N)] at e2
      cases e2
      refine ⟨a.1, a.2, fun fuel hf => ?_, by rw [r2]; exact h4⟩
      rw [parse_mono hf (by rw [e1]; simp), e1]
    · rw [h3 N (Nat.le_refl N)] at e2; cases e2
    · rw [h3 N (Nat.le_refl N)] at e2; cases e2
  · refine .inr ⟨b, hb, hlt, ?_⟩
    rcases h with ⟨h, h3⟩ | ⟨h, h', h3⟩
    · exact .inl ⟨h, hpan _ h3⟩
    · exact .inr ⟨h, h', hpan _ h3⟩

/-! ### The trees that can be read -/

/-- C134: every derivation tree of the input can be read off the returned node, with the action keys of its
productions and not others that compare equal, and with every token replaced by the first token like it
that the tree was given, in an earlier call or in the input. -/
theorem parse_all_trees_alike (hg : g.Accepted) (ha : AddrInj g.wrapped addr) {log : TreeLog T AK V}
    {w w₁ : World T AK V} {held : List Handle} (hist : History log w held) {t fuel : Nat}
    {toks : List (Token T V)} {n : Node} (h : parse addr g.wrapped fuel w t toks = .ok (w₁, some n))
    {d : DTree (Token T V) (Prod T NT AK AV)} (hd : IsTree g (·.kind) (.nonterm g.startSymbol) d)
    (hy : d.yield = toks) :
    Reads w₁ ((d.mapNodes (·.actionKey)).mapLeaves (firstLike (log.leavesOn t ++ toks))) n := by
  obtain ⟨w₀, log₀, w₀', h1, h2, h3, -⟩ := parse_reads_class hg hist h
  have hr := parse_all_trees_keyed hg ha h1 h2 (hd.renamedLeaves (f := CmpClass.mk))
    (by rw [DTree.yield_mapLeaves, hy])
  rw [DTree.mapLeaves_mapNodes] at hr
  exact h3 _ hr _ rfl

/-- C134: every tree that can be read off the returned node is a derivation tree of the start symbol, with the
action keys of its productions.  Each of its leaves is a token of the input, but for being replaced by the
first token like it that the tree was given. -/
theorem parse_trees_grammatical_alike (hg : g.Accepted) (ha : AddrInj g.wrapped addr) {log : TreeLog T AK V}
    {w w₁ : World T AK V} {held : List Handle} (hist : History log w held) {t fuel : Nat}
    {toks : List (Token T V)} {n : Node} (h : parse addr g.wrapped fuel w t toks = .ok (w₁, some n))
    {s : DTree (Token T V) AK} (hs : Reads w₁ s n) :
    ∃ d : DTree (Token T V) (Prod T NT AK AV), IsTree g (·.kind) (.nonterm g.startSymbol) d ∧
      d.mapNodes (·.actionKey) = s ∧
      ∀ tok ∈ s.yield, ∃ tok' ∈ toks, tok = firstLike (log.leavesOn t ++ toks) tok' := by
  obtain ⟨w₀, log₀, w₀', h1, h2, -, h4⟩ := parse_reads_class hg hist h
  obtain ⟨k1, k2, k3⟩ := h4 s hs
  obtain ⟨d', e1, e2, e3⟩ := parse_trees_grammatical_keyed hg ha h1 h2 k1
  obtain ⟨d, e4, e5⟩ := e1.unrename s e2
  refine ⟨d, e4, e5, fun tok ht => ?_⟩
  have hm : tok.renamed id CmpClass.mk ∈ (s.renamed id id CmpClass.mk).yield := by
    rw [← e5, ← DTree.mapLeaves_mapNodes, DTree.yield_mapNodes, DTree.yield_mapLeaves]
    rw [← e5, DTree.yield_mapNodes] at ht
    exact List.mem_map.2 ⟨tok, ht, rfl⟩
  obtain ⟨tok', t1, t2⟩ := List.mem_map.1 (e3 _ hm)
  refine ⟨tok', t1, ?_⟩
  simp only [Token.renamed, Token.mk.injEq, id] at t2
  have hl : tok.like tok' = true :=
    Token.like_iff.2 ⟨t2.1.symm, OrientedCmp.eq_comm.1 (CmpClass.mk_eq.1 t2.2)⟩
  have hf := k2 tok ht
  rw [← firstLike_congr hl ⟨_, List.mem_of_find?_eq_some hf, Token.like_refl _⟩]
  unfold firstLike
  rw [hf]; rfl

variable {T' NT' AK' AV' V' : Type} [Ord T'] [Ord NT'] [Ord AK'] [Ord V'] [DecidableEq T'] [DecidableEq NT']
variable [TransOrd T'] [TransOrd NT'] [TransOrd AK'] [TransOrd V']
variable [LawfulEqOrd T'] [LawfulEqOrd NT'] [LawfulEqOrd AK'] [LawfulEqOrd V']

/-- C134 for the returned forests: take a grammar and an input whose keys and values can be told apart, say the
productions and the positions of the tokens, and let `ρ` and `f` give the actual keys and values (and the
actual symbols).  The trees that can be read off the node returned for the actual grammar and input are
those that can be read for the distinguishable ones, with the keys replaced, and with every token replaced
by the first token like it that the tree was given. -/
theorem parse_reads_alike {ρ : Renaming T' NT' AK' AV' T NT AK AV} {f : V' → V} (hρ : ρ.SymInjective)
    {g' : Grammar T' NT' AK' AV'} {addr' : StartNonTerminal NT' → Nat → Nat}
    (hg : g.Accepted) (hg' : g'.Accepted) (hr : g'.RenamedTo ρ g) (ha : AddrPlaced g.wrapped addr)
    (ha' : AddrPlaced g'.wrapped addr') {log : TreeLog T AK V} {log' : TreeLog T' AK' V'}
    {w w₁ : World T AK V} {w' w₁' : World T' AK' V'} {held held' : List Handle} (hist : History log w held)
    (hist' : History log' w' held') {t t' fuel fuel' : Nat} {toks : List (Token T' V')} {n n' : Node}
    (h : parse addr g.wrapped fuel w t (toks.map (Token.renamed ρ.term f)) = .ok (w₁, some n))
    (h' : parse addr' g'.wrapped fuel' w' t' toks = .ok (w₁', some n')) (s : DTree (Token T V) AK) :
    Reads w₁ s n ↔ ∃ s', Reads w₁' s' n' ∧ s = (s'.renamed ρ.term ρ.key f).mapLeaves
      (firstLike (log.leavesOn t ++ toks.map (Token.renamed ρ.term f))) := by
  obtain ⟨w₀, log₀, w₀', h1, h2, h3, h4⟩ := parse_reads_class hg hist h
  obtain ⟨g₂, w₂, w₂', hg₂, hr₂, hi₂, p₂, hx⟩ := parse_exactKeys hg h1 h2
  have hmap : (toks.map (Token.renamed ρ.term f)).map (Token.renamed id CmpClass.mk) =
      toks.map (Token.renamed (ρ.rekey ExactKey.mk).term (CmpClass.mk ∘ f)) := by
    rw [List.map_map]; rfl
  rw [hmap] at p₂
  have hc := parse_keys_carried_of_wf (ρ := ρ.rekey ExactKey.mk) (fV := CmpClass.mk ∘ f) hg'.valid.toWF
    hg₂.valid.toWF ⟨hρ.term, hρ.nonterm⟩ (hr.rekey hr₂) ha' (keyRen_addrPlaced hr₂ ha) (hist'.inv.wf t') hi₂ h' p₂
  have hcomp : ∀ s' : DTree (Token T' V') AK', s'.renamed ρ.term (ExactKey.mk ∘ ρ.key) (CmpClass.mk ∘ f) =
      ((s'.renamed ρ.term ρ.key f).renamed id id CmpClass.mk).renamed id ExactKey.mk id := by
    intro s'
    rw [DTree.renamed_comp, DTree.renamed_comp]; rfl
  constructor
  · intro hs
    obtain ⟨k1, -, k3⟩ := h4 s hs
    obtain ⟨s', e, hs'⟩ := (hc _).1 ((hx _).2 k1)
    exact ⟨s', hs', k3 _ (DTree.exact_inj _ _ (e.trans (hcomp s')))⟩
  · rintro ⟨s', hs', rfl⟩
    refine h3 _ ((hx _).1 ((hc _).2 ⟨s', ?_, hs'⟩)) _ rfl
    exact (hcomp s').symm
end parse

/-! ## An example: keys with a place -/

/-- `0 => 1 | 1` and `1 => 7`; the keys are compared by their words only, so those of `0` are alike. -/
def placedKeys : Grammar Nat Nat PlacedWord Unit :=
  ⟨0, [(0, ⟨0, [⟨⟨5, 0⟩, (), [⟨none, .nonterm 1⟩]⟩, ⟨⟨5, 1⟩, (), [⟨none, .nonterm 1⟩]⟩]⟩),
    (1, ⟨1, [⟨⟨6, 2⟩, (), [⟨none, .term 7⟩]⟩]⟩)]⟩

theorem placedKeys_accepted : placedKeys.Accepted :=
  ⟨20, 0, [⟨0, [.addProd ⟨5, 0⟩ () [.addNonterm 1], .addProd ⟨5, 1⟩ () [.addNonterm 1]]⟩,
    ⟨1, [.addProd ⟨6, 2⟩ () [.addTerm 7]]⟩], by decide⟩

theorem placedKeys_parse : ∃ w, parse exampleSAddr placedKeys.wrapped 9
    (World.new : World Nat PlacedWord Nat) 7 [⟨7, 70⟩] = .ok (w, some ⟨3, 7⟩) := ⟨_, rfl⟩

def placedKeysTree : DTree (Token Nat Nat) (Prod Nat Nat PlacedWord Unit) :=
  .node ⟨0, 1, ⟨⟨5, 1⟩, (), [⟨none, .nonterm 1⟩]⟩⟩
    [.node ⟨1, 0, ⟨⟨6, 2⟩, (), [⟨none, .term 7⟩]⟩⟩ [.leaf ⟨7, 70⟩]]

theorem placedKeysTree_isTree : IsTree placedKeys (·.kind) (.nonterm 0) placedKeysTree :=
  IsTree.node (g := placedKeys) ⟨0, 1, ⟨⟨5, 1⟩, (), [⟨none, .nonterm 1⟩]⟩⟩ _ (by decide)
    (.cons (IsTree.node (g := placedKeys) ⟨1, 0, ⟨⟨6, 2⟩, (), [⟨none, .term 7⟩]⟩⟩ _ (by decide)
      (.cons (IsTree.leaf (kind := fun x : Token Nat Nat => x.kind) ⟨7, 70⟩) .nil)) .nil)

/-- The hypotheses of the theorems about parsing are met by a grammar with keys that compare equal, and the
tree with the second of them can be read. -/
example : ∃ w n, placedKeys.Accepted ∧ AddrInj placedKeys.wrapped exampleSAddr ∧
    parse exampleSAddr placedKeys.wrapped 9 (World.new : World Nat PlacedWord Nat) 7 [⟨7, 70⟩] =
      .ok (w, some n) ∧ IsTree placedKeys (·.kind) (.nonterm 0) placedKeysTree ∧
    placedKeysTree.yield = [⟨7, 70⟩] ∧ Reads w (.node ⟨5, 1⟩ [.node ⟨6, 2⟩ [.leaf ⟨7, 70⟩]]) n := by
  obtain ⟨w, h⟩ := placedKeys_parse
  have ha := (exampleSAddr_placed placedKeys.wrapped (by decide)).addrInj
  exact ⟨w, _, placedKeys_accepted, ha, h, placedKeysTree_isTree, rfl,
    parse_all_trees_alike placedKeys_accepted ha History.start h placedKeysTree_isTree rfl⟩

/-- The same grammar with numbers for keys. -/
def numberedKeys : Grammar Nat Nat Nat Unit :=
  ⟨0, [exRule 0 [(0, [.nonterm 1]), (1, [.nonterm 1])], exRule 1 [(2, [.term 7])]]⟩

/-- The actual keys. -/
def placedKeyOf : Renaming Nat Nat Nat Unit Nat Nat PlacedWord Unit :=
  ⟨id, id, fun k => if k = 2 then ⟨6, 2⟩ else ⟨5, k⟩, id⟩

/-- The hypotheses of `parse_reads_alike` are met, also with values that compare equal. -/
example : ∃ w n w' n', numberedKeys.Accepted ∧ placedKeyOf.SymInjective ∧ numberedKeys.RenamedTo placedKeyOf placedKeys ∧
    AddrPlaced placedKeys.wrapped exampleSAddr ∧ AddrPlaced numberedKeys.wrapped exampleSAddr ∧
    parse exampleSAddr placedKeys.wrapped 9 (World.new : World Nat PlacedWord PlacedWord) 7
      ([⟨7, 0⟩].map (Token.renamed placedKeyOf.term wordAt)) = .ok (w, some n) ∧
    parse exampleSAddr numberedKeys.wrapped 9 (World.new : World Nat Nat Nat) 7 [⟨7, 0⟩] = .ok (w', some n') := by
  have h1 : ∃ w, parse exampleSAddr placedKeys.wrapped 9 (World.new : World Nat PlacedWord PlacedWord) 7
      ([⟨7, 0⟩].map (Token.renamed placedKeyOf.term wordAt)) = .ok (w, some ⟨3, 7⟩) := ⟨_, rfl⟩
  have h2 : ∃ w, parse exampleSAddr numberedKeys.wrapped 9 (World.new : World Nat Nat Nat) 7 [⟨7, 0⟩] =
      .ok (w, some ⟨3, 7⟩) := ⟨_, rfl⟩
  obtain ⟨w, h1⟩ := h1
  obtain ⟨w', h2⟩ := h2
  refine ⟨w, _, w', _, ⟨20, 0, [⟨0, [.addProd 0 () [.addNonterm 1], .addProd 1 () [.addNonterm 1]]⟩,
    ⟨1, [.addProd 2 () [.addTerm 7]]⟩], by decide⟩, ⟨fun _ _ h => h, fun _ _ h => h⟩, ⟨rfl, ?_⟩,
    exampleSAddr_placed _ (by decide), exampleSAddr_placed _ (by decide), h1, h2⟩
  intro r'
  have h1 : placedKeys.rules = numberedKeys.rules.map placedKeyOf.rule := rfl
  rw [h1, List.mem_map]
  exact exists_congr fun r => and_congr_right fun _ => eq_comm

/-- The calls of `alt_reads_first` and `alts_interned_alike`: branches over the same nodes with keys that
compare equal are one alternative, which reads the first key; with other nodes they are not. -/
example : ∃ (log : TreeLog Nat PlacedWord Nat) (w : World Nat PlacedWord Nat) (held : List Handle),
    History log w held ∧ (.makeBranchAlt 7 ⟨5, 0⟩ [⟨0, 7⟩], .ok (.alt ⟨0, 7⟩)) ∈ log ∧
    (.makeBranchAlt 7 ⟨5, 1⟩ [⟨0, 7⟩], .ok (.alt ⟨0, 7⟩)) ∈ log ∧
    (.makeBranchAlt 7 ⟨5, 1⟩ [], .ok (.alt ⟨1, 7⟩)) ∈ log ∧
    w.action ⟨0, 7⟩ = .ok ⟨5, 0⟩ ∧ w.action ⟨1, 7⟩ = .ok ⟨5, 1⟩ := by
  have h0 : History ([] : TreeLog Nat PlacedWord Nat) World.new [.tree 7] := .newOwner 7 .start (by simp)
  have h1 := h0.call (.makeNode 7) ⟨.tree 7, by simp, rfl⟩
  have h2 := h1.call (.makeBranchAlt 7 ⟨5, 0⟩ [⟨0, 7⟩])
    ⟨⟨.tree 7, by decide, rfl⟩, by decide⟩
  have h3 := h2.call (.makeBranchAlt 7 ⟨5, 1⟩ [⟨0, 7⟩])
    ⟨⟨.tree 7, by decide, rfl⟩, by decide⟩
  have h4 := h3.call (.makeBranchAlt 7 ⟨5, 1⟩ []) ⟨⟨.tree 7, by decide, rfl⟩, by decide⟩
  exact ⟨_, _, _, h4, by decide, by decide, by decide, rfl, rfl⟩

/-- The hypotheses of `calls_alike` are met by forgetting the place of every key and turning orders around. -/
example : (∀ a b : PlacedWord, compare (-(a.word : Int)) (-(b.word : Int)) = .eq ↔ compare a b = .eq) ∧
    ∀ a b : Nat, compare (-(a : Int)) (-(b : Int)) = .eq ↔ compare a b = .eq := by
  constructor
  · intro a b
    show _ ↔ compare a.word b.word = .eq
    simp only [LawfulEqCmp.compare_eq_iff_eq]
    omega
  · intro a b
    simp only [LawfulEqCmp.compare_eq_iff_eq]
    omega
end Bongo
