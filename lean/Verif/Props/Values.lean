import Verif.Proof.CmpClass
import Verif.Props.Rename
import Verif.Props.Forest
import Verif.Props.OneTree
/-!
# C129 and C130: the values of the tokens
-/
set_option linter.unusedSectionVars false
namespace Bongo
open Std
variable {T NT AK AV V V' : Type}
variable [Ord T] [Ord NT] [Ord AK] [Ord V] [Ord V'] [DecidableEq T] [DecidableEq NT]
variable [TransOrd T] [TransOrd NT] [TransOrd AK] [TransOrd V] [TransOrd V']
variable [LawfulEqOrd T] [LawfulEqOrd NT] [LawfulEqOrd AK]
variable {g : Grammar T NT AK AV} {addr addr' : StartNonTerminal NT → Nat → Nat}

theorem kinds_renamed (f : V → V') (toks : List (Token T V)) :
    kinds (toks.map (Token.renamed id f)) = kinds toks := by
  simp only [kinds, List.map_map]
  rfl

section lawful
variable [LawfulEqOrd V] [LawfulEqOrd V']

/-- C129: replacing the values of the tokens, equal or different ones by equal or different ones, does
not change whether and how `parse` panics, returns `None` or returns `Some`. -/
theorem parse_values_outcome (f : V → V') (hg : g.Accepted) (ha : AddrInj g.wrapped addr)
    (ha' : AddrInj g.wrapped addr') {log : TreeLog T AK V} {log' : TreeLog T AK V'} {w : World T AK V}
    {w' : World T AK V'} {held held' : List Handle} (hist : History log w held)
    (hist' : History log' w' held') (t t' : Nat) (toks : List (Token T V)) :
    ∃ N, ∀ fuel, N ≤ fuel → (parse addr g.wrapped fuel w t toks).mapOut (fun r => r.2.isSome) =
      (parse addr' g.wrapped fuel w' t' (toks.map (Token.renamed id f))).mapOut (fun r => r.2.isSome) := by
  obtain ⟨N, h⟩ := parse_exact hg ha hist t toks
  obtain ⟨N', h'⟩ := parse_exact hg ha' hist' t' (toks.map (Token.renamed id f))
  simp only [← List.map_take, kinds_renamed, List.length_map] at h'
  refine ⟨max N N', fun fuel hf => ?_⟩
  have hN : N ≤ fuel := by omega
  have hN' : N' ≤ fuel := by omega
  rcases h with ⟨h0, w1, r1, h1, h2⟩ | ⟨b, hb, hlt, h⟩
  · rcases h' with ⟨-, w1', r1', h1', h2'⟩ | ⟨b', hb', -, ⟨h1', -⟩ | ⟨-, h1', -⟩⟩
    · rw [h1 fuel hN, h1' fuel hN']
      simp only [Res.mapOut, Res.ok.injEq]
      rw [Bool.eq_iff_iff, h2, h2']
    · exact absurd (h0 b' hb').1 h1'
    · exact absurd h1' (h0 b' hb').2
  · rcases h' with ⟨h0', w1', r1', h1', h2'⟩ | ⟨b', hb', hlt', h'⟩
    · rcases h with ⟨h, -⟩ | ⟨-, h, -⟩
      · exact absurd (h0' b hb).1 h
      · exact absurd h (h0' b hb).2
    · have hbb : b = b' := by
        rcases Nat.lt_trichotomy b b' with hl | hl | hl
        · rcases h with ⟨h, -⟩ | ⟨-, h, -⟩
          · exact absurd (hlt' b hl).1 h
          · exact absurd h (hlt' b hl).2
        · exact hl
        · rcases h' with ⟨h', -⟩ | ⟨-, h', -⟩
          · exact absurd (hlt b' hl).1 h'
          · exact absurd h' (hlt b' hl).2
      subst hbb
      rcases h with ⟨h, h1⟩ | ⟨h, -, h1⟩ <;> rcases h' with ⟨h', h1'⟩ | ⟨h', -, h1'⟩
      · rw [h1 fuel hN, h1' fuel hN']; rfl
      · exact absurd h' h
      · exact absurd h h'
      · rw [h1 fuel hN, h1' fuel hN']; rfl

/-- C129: the trees that can be read off the returned node are those with the values replaced, whatever
is replaced by what. -/
theorem parse_values_carried (f : V → V') (hg : g.Accepted) (ha : AddrPlaced g.wrapped addr)
    (ha' : AddrPlaced g.wrapped addr') {log : TreeLog T AK V} {log' : TreeLog T AK V'}
    {w w₁ : World T AK V} {w' w₁' : World T AK V'} {held held' : List Handle} (hist : History log w held)
    (hist' : History log' w' held') {t t' fuel fuel' : Nat} {toks : List (Token T V)} {n n' : Node}
    (h : parse addr g.wrapped fuel w t toks = .ok (w₁, some n))
    (h' : parse addr' g.wrapped fuel' w' t' (toks.map (Token.renamed id f)) = .ok (w₁', some n'))
    (s' : DTree (Token T V') AK) :
    Reads w₁' s' n' ↔ ∃ s, s' = s.renamed id id f ∧ Reads w₁ s n := by
  have hw := hg.valid.toWF
  obtain ⟨I₁, m₁, p₁, rfl, e₁⟩ := parse_ok_iff h
  obtain ⟨I₂, m₂, p₂, rfl, e₂⟩ := parse_ok_iff h'
  cases m₁ with
  | none => cases e₁
  | some m₁ =>
    cases m₂ with
    | none => cases e₂
    | some m₂ =>
      cases e₁
      cases e₂
      have hfin : finalName g (toks.map (Token.renamed id f)) = finalName g toks := by
        simp [finalName]
      rw [parseInner_reads hw ha'.addrInj ha'.ordered (hist'.inv.wf t')
        (by rw [World.set_self]; exact p₂) s', List.length_map, hfin]
      constructor
      · intro hr
        obtain ⟨s, rfl, hs⟩ := CReads.values' _ _ _ hr
        exact ⟨s, rfl, (parseInner_reads hw ha.addrInj ha.ordered (hist.inv.wf t)
          (by rw [World.set_self]; exact p₁) s).2 hs⟩
      · rintro ⟨s, rfl, hs⟩
        exact CReads.values _ _ _ ((parseInner_reads hw ha.addrInj ha.ordered (hist.inv.wf t)
          (by rw [World.set_self]; exact p₁) s).1 hs)
end lawful

/-! ## Values that compare equal

From here on the order of the values need not tell different values apart. -/

/-- C130 for trees: of the order of the values only matters which of them compare equal.  If other values
are used, of any other type and in any other order, that compare equal exactly where the given ones do,
every sequence of calls returns the same handles, and all answers are the same up to the values, those
of the sequence and those of every further call. -/
theorem calls_like {f : V → V'} (hf : ∀ a b, compare (f a) (f b) = .eq ↔ compare a b = .eq)
    {log : TreeLog T AK V} {w : World T AK V} {held : List Handle} (hist : History log w held) :
    ∃ w' : World T AK V', History (log.renamed id id f) w' held ∧ w.AnswersAs id id f w' := by
  have hi : RenInj (id : T → T) (id : AK → AK) f := ⟨fun _ _ => Iff.rfl, fun _ _ => Iff.rfl, hf⟩
  obtain ⟨w', h1, h2⟩ := history_worldRen hi hist
  exact ⟨w', h1, fun op => (h2.exec hi op).2⟩

/-- C130: what a leaf alternative reads: its kind, and the value that was given first, in that tree and
with that kind, of those that compare equal to its own. -/
theorem leaf_alt_reads_first {log : TreeLog T AK V} {w : World T AK V} {held : List Handle}
    (h : History log w held) {t : Nat} {k : T} {v : V} {a : Alternative}
    (hm : (.makeLeafAlt t k v, .ok (.alt a)) ∈ log) :
    ∃ l, w.content a = .ok (.leaf l) ∧ w.kind l = .ok k ∧
      w.value l = .ok (firstLike (log.leavesOn t) ⟨k, v⟩).value := by
  obtain ⟨w', h1, h2⟩ := history_worldRen (T' := T) (AK' := AK) (V' := CmpClass V) renInj_class h
  have hm' : (.makeLeafAlt t k (CmpClass.mk v), .ok (.alt a)) ∈ log.renamed id id CmpClass.mk :=
    List.mem_map.2 ⟨_, hm, rfl⟩
  obtain ⟨ht, ha⟩ := h1.inv.made _ a (t, .inl (k, CmpClass.mk v)) hm' rfl
  subst ht
  simp only [Inner.altAt, (h2 a.tree).vals, List.getElem?_map, Option.map_eq_some_iff] at ha
  obtain ⟨c, hc, he⟩ := ha
  cases c with
  | branch ak ns => cases he
  | leaf k' v' =>
    simp only [NodeContent.ren, NodeContent.leaf.injEq, id] at he
    obtain ⟨rfl, he⟩ := he
    have hl : (⟨k', v'⟩ : Token T V).like ⟨k', v⟩ = true := Token.like_iff.2 ⟨rfl, CmpClass.mk_eq.1 he⟩
    have hf := (history_keeps h a.tree).first _ _ _ hc
    have e : firstLike (log.leavesOn a.tree) ⟨k', v⟩ = ⟨k', v'⟩ := by
      rw [← firstLike_congr hl ⟨_, List.mem_of_find?_eq_some hf, Token.like_refl _⟩]
      unfold firstLike
      rw [hf]; rfl
    have hg := getAlt_of_altAt (i := w a.tree) hc
    refine ⟨⟨a.index, a.tree⟩, ?_, ?_, ?_⟩
    · simp only [World.content, hg]
    · simp only [World.kind, World.withLeaf, hg, NodeContent.asLeaf, Res.expect_some]
    · rw [e]; simp only [World.value, World.withLeaf, hg, NodeContent.asLeaf, Res.expect_some]

/-- C130: two calls of `make_leaf_alt` on one tree return the same alternative exactly if the kinds are
the same and the values compare equal. -/
theorem leaf_alts_interned {log : TreeLog T AK V} {w : World T AK V} {held : List Handle}
    (h : History log w held) {t t' : Nat} {k k' : T} {v v' : V} {a a' : Alternative}
    (hm : (.makeLeafAlt t k v, .ok (.alt a)) ∈ log) (hm' : (.makeLeafAlt t' k' v', .ok (.alt a')) ∈ log) :
    a = a' ↔ t = t' ∧ k = k' ∧ compare v v' = .eq := by
  obtain ⟨w', h1, -⟩ := history_worldRen (T' := T) (AK' := AK) (V' := CmpClass V) renInj_class h
  have e1 : (.makeLeafAlt t k (CmpClass.mk v), .ok (.alt a)) ∈ log.renamed id id CmpClass.mk :=
    List.mem_map.2 ⟨_, hm, rfl⟩
  have e2 : (.makeLeafAlt t' k' (CmpClass.mk v'), .ok (.alt a')) ∈ log.renamed id id CmpClass.mk :=
    List.mem_map.2 ⟨_, hm', rfl⟩
  rw [alts_interned h1 e1 e2 rfl rfl]
  simp only [_root_.Prod.mk.injEq, Sum.inl.injEq, CmpClass.mk_eq]

/-- C130 for `parse`: whether and how it panics, returns `None` or returns `Some` depends on the kinds of
the tokens as it does with other values. -/
theorem parse_exact_like (hg : g.Accepted) (ha : AddrInj g.wrapped addr) {log : TreeLog T AK V}
    {w : World T AK V} {held : List Handle} (hist : History log w held) (t : Nat)
    (toks : List (Token T V)) :
    ∃ N, ((∀ j, j ≤ toks.length → g.Viable (kinds (toks.take j)) ∧ ¬ g.Clash (kinds (toks.take j))) ∧
        ∃ w' r, (∀ fuel, N ≤ fuel → parse addr g.wrapped fuel w t toks = .ok (w', r)) ∧
          (r.isSome ↔ g.cfg.InLanguage (kinds toks))) ∨
      ∃ b, b ≤ toks.length ∧
        (∀ j, j < b → g.Viable (kinds (toks.take j)) ∧ ¬ g.Clash (kinds (toks.take j))) ∧
        ((¬ g.Viable (kinds (toks.take b)) ∧
            ∀ fuel, N ≤ fuel → parse addr g.wrapped fuel w t toks = .panic .emptyState) ∨
          (g.Viable (kinds (toks.take b)) ∧ g.Clash (kinds (toks.take b)) ∧
            ∀ fuel, N ≤ fuel → parse addr g.wrapped fuel w t toks = .panic .lenMismatch)) := by
  obtain ⟨w₀, h1, h2⟩ := history_worldRen (T' := T) (AK' := AK) (V' := CmpClass V) renInj_class hist
  obtain ⟨N, h⟩ := parse_exact hg ha h1 t (toks.map (Token.renamed id CmpClass.mk))
  simp only [← List.map_take, kinds_renamed, List.length_map] at h
  have hboth := fun fuel => parse_class (addr := addr) hg h2 t fuel toks
  have hpan : ∀ p, (∀ fuel, N ≤ fuel → parse addr g.wrapped fuel w₀ t
      (toks.map (Token.renamed id CmpClass.mk)) = .panic p) →
      ∀ fuel, N ≤ fuel → parse addr g.wrapped fuel w t toks = .panic p := by
    intro p hp fuel hf
    rcases (hboth fuel).out with ⟨a, b, e1, e2, -⟩ | ⟨q, e1, e2⟩ | ⟨e1, e2⟩
    · rw [hp fuel hf] at e2; cases e2
    · rw [hp fuel hf] at e2; cases e2; exact e1
    · rw [hp fuel hf] at e2; cases e2
  refine ⟨N, ?_⟩
  rcases h with ⟨h0, w1, r1, h3, h4⟩ | ⟨b, hb, hlt, h⟩
  · refine .inl ⟨h0, ?_⟩
    rcases (hboth N).out with ⟨a, b, e1, e2, r1, r2⟩ | ⟨q, e1, e2⟩ | ⟨e1, e2⟩
    · rw [h3 N (Nat.le_refl N)] at e2
      cases e2
      refine ⟨a.1, a.2, fun fuel hf => ?_, by rw [r2]; exact h4⟩
      rw [parse_mono hf (by rw [e1]; simp), e1]
    · rw [h3 N (Nat.le_refl N)] at e2; cases e2
    · rw [h3 N (Nat.le_refl N)] at e2; cases e2
  · refine .inr ⟨b, hb, hlt, ?_⟩
    rcases h with ⟨h, h3⟩ | ⟨h, h', h3⟩
    · exact .inl ⟨h, hpan _ h3⟩
    · exact .inr ⟨h, h', hpan _ h3⟩

omit [LawfulEqOrd AK] in
theorem parse_keeps {g : StartGrammar T NT AK AV} {log : TreeLog T AK V} {w w₁ : World T AK V}
    {held : List Handle} (hist : History log w held) {t fuel : Nat} {toks : List (Token T V)} {n : Node}
    (h : parse addr g fuel w t toks = .ok (w₁, some n)) :
    Keeps (log.leavesOn t ++ toks) (w₁ t).alternatives ∧ n.tree = t := by
  unfold parse at h
  split at h
  · rename_i i r hp
    simp only [Res.ok.injEq, _root_.Prod.mk.injEq] at h
    obtain ⟨rfl, h2⟩ := h
    rw [World.set_self]
    refine ⟨parseInner_keeps (history_keeps hist t) hp, ?_⟩
    cases r with
    | none => cases h2
    | some m => cases h2; rfl
  · cases h
  · cases h

omit [LawfulEqOrd AK] in
theorem parse_reads_class (hg : g.Accepted) {log : TreeLog T AK V} {w w₁ : World T AK V}
    {held : List Handle} (hist : History log w held) {t fuel : Nat} {toks : List (Token T V)} {n : Node}
    (h : parse addr g.wrapped fuel w t toks = .ok (w₁, some n)) :
    ∃ (w' : World T AK (CmpClass V)) (log' : TreeLog T AK (CmpClass V)) (w₁' : World T AK (CmpClass V)),
      History log' w' held ∧
      parse addr g.wrapped fuel w' t (toks.map (Token.renamed id CmpClass.mk)) = .ok (w₁', some n) ∧
      (∀ s', Reads w₁' s' n → ∀ s₀ : DTree (Token T V) AK, s' = s₀.renamed id id CmpClass.mk →
        Reads w₁ (s₀.mapLeaves (firstLike (log.leavesOn t ++ toks))) n) ∧
      (∀ s, Reads w₁ s n → Reads w₁' (s.renamed id id CmpClass.mk) n ∧
        (∀ tok ∈ s.yield, (log.leavesOn t ++ toks).find? (·.like tok) = some tok) ∧
        ∀ s₀ : DTree (Token T V) AK, s.renamed id id CmpClass.mk = s₀.renamed id id CmpClass.mk →
          s = s₀.mapLeaves (firstLike (log.leavesOn t ++ toks))) := by
  obtain ⟨w', h1, h2⟩ := history_worldRen (T' := T) (AK' := AK) (V' := CmpClass V) renInj_class hist
  obtain ⟨hk, hn⟩ := parse_keeps hist h
  rcases (parse_class (addr := addr) hg h2 t fuel toks).out with
    ⟨a, b, e1, e2, r1, r2⟩ | ⟨q, e1, e2⟩ | ⟨e1, e2⟩
  · rw [h] at e1
    cases e1
    obtain ⟨b1, b2⟩ := b
    simp only at r1 r2
    subst r2
    have hx := r1.reads renInj_class
    refine ⟨w', _, b1, h1, e2, ?_, ?_⟩
    · intro s' hs' s₀ hs₀
      obtain ⟨s, rfl, hs⟩ := hx.2 s' n hs'
      rw [← eq_first s s₀ hs₀ (reads_first hk s n hn hs)]
      exact hs
    · intro s hs
      exact ⟨hx.1 s n hs, reads_first hk s n hn hs,
        fun s₀ hs₀ => eq_first s s₀ hs₀ (reads_first hk s n hn hs)⟩
  · rw [h] at e1; cases e1
  · rw [h] at e1; cases e1

/-- C130 for the returned forests: take the same input with values that can be told apart, say the
positions of the tokens, and let `f` give the actual values.  The trees that can be read off the
returned node are those that can be read there with the distinguishable values, with every token
replaced by the first token like it that the tree was given: in an earlier call, or in the input. -/
theorem parse_reads_first [LawfulEqOrd V'] (f : V' → V) (hg : g.Accepted) (ha : AddrPlaced g.wrapped addr)
    (ha' : AddrPlaced g.wrapped addr') {log : TreeLog T AK V} {log' : TreeLog T AK V'}
    {w w₁ : World T AK V} {w' w₁' : World T AK V'} {held held' : List Handle} (hist : History log w held)
    (hist' : History log' w' held') {t t' fuel fuel' : Nat} {toks : List (Token T V')} {n n' : Node}
    (h : parse addr g.wrapped fuel w t (toks.map (Token.renamed id f)) = .ok (w₁, some n))
    (h' : parse addr' g.wrapped fuel' w' t' toks = .ok (w₁', some n'))
    (s : DTree (Token T V) AK) :
    Reads w₁ s n ↔ ∃ s', Reads w₁' s' n' ∧ s = (s'.renamed id id f).mapLeaves
      (firstLike (log.leavesOn t ++ toks.map (Token.renamed id f))) := by
  obtain ⟨w₀, log₀, w₀', h1, h2, h3, h4⟩ := parse_reads_class hg hist h
  have hmap : (toks.map (Token.renamed id f)).map (Token.renamed id CmpClass.mk) =
      toks.map (Token.renamed id (CmpClass.mk ∘ f)) := by
    rw [List.map_map]; rfl
  rw [hmap] at h2
  have hc := parse_values_carried (CmpClass.mk ∘ f) hg ha' ha hist' h1 h' h2
  constructor
  · intro hs
    obtain ⟨k1, -, k3⟩ := h4 s hs
    obtain ⟨s', e, hs'⟩ := (hc _).1 k1
    refine ⟨s', hs', k3 _ ?_⟩
    rw [DTree.renamed_renamed]; exact e
  · rintro ⟨s', hs', rfl⟩
    refine h3 _ ((hc _).2 ⟨s', rfl, hs'⟩) _ ?_
    rw [DTree.renamed_renamed]

/-- C130: every derivation tree of the input can be read off the returned node, with every token
replaced by the first token like it that the tree was given. -/
theorem parse_all_trees_first (hg : g.Accepted) (ha : AddrInj g.wrapped addr) {log : TreeLog T AK V}
    {w w₁ : World T AK V} {held : List Handle} (hist : History log w held) {t fuel : Nat}
    {toks : List (Token T V)} {n : Node}
    (h : parse addr g.wrapped fuel w t toks = .ok (w₁, some n))
    {d : DTree (Token T V) (Prod T NT AK AV)} (hd : IsTree g (·.kind) (.nonterm g.startSymbol) d)
    (hy : d.yield = toks) :
    Reads w₁ ((d.mapNodes (·.actionKey)).mapLeaves (firstLike (log.leavesOn t ++ toks))) n := by
  obtain ⟨w₀, log₀, w₀', h1, h2, h3, -⟩ := parse_reads_class hg hist h
  have hr := parse_all_trees hg ha h1 h2 (hd.renamedLeaves (f := CmpClass.mk))
    (by rw [DTree.yield_mapLeaves, hy])
  rw [DTree.mapLeaves_mapNodes] at hr
  exact h3 _ hr _ rfl

/-- C130: every tree that can be read off the returned node is a derivation tree of the start symbol.
Each of its leaves is a token of the input, but for being replaced by the first token like it that the
tree was given. -/
theorem parse_trees_grammatical_first (hg : g.Accepted) (ha : AddrInj g.wrapped addr)
    {log : TreeLog T AK V} {w w₁ : World T AK V} {held : List Handle} (hist : History log w held)
    {t fuel : Nat} {toks : List (Token T V)} {n : Node}
    (h : parse addr g.wrapped fuel w t toks = .ok (w₁, some n)) {s : DTree (Token T V) AK}
    (hs : Reads w₁ s n) :
    ∃ d : DTree (Token T V) (Prod T NT AK AV), IsTree g (·.kind) (.nonterm g.startSymbol) d ∧
      d.mapNodes (·.actionKey) = s ∧
      ∀ tok ∈ s.yield, ∃ tok' ∈ toks, tok = firstLike (log.leavesOn t ++ toks) tok' := by
  obtain ⟨w₀, log₀, w₀', h1, h2, -, h4⟩ := parse_reads_class hg hist h
  obtain ⟨k1, k2, k3⟩ := h4 s hs
  obtain ⟨d', e1, e2, e3⟩ := parse_trees_grammatical hg ha h1 h2 k1
  obtain ⟨d, e4, e5⟩ := e1.unrename s e2
  refine ⟨d, e4, e5, fun tok ht => ?_⟩
  have hm : tok.renamed id CmpClass.mk ∈ (s.renamed id id CmpClass.mk).yield := by
    rw [← e5, ← DTree.mapLeaves_mapNodes, DTree.yield_mapNodes, DTree.yield_mapLeaves]
    rw [← e5, DTree.yield_mapNodes] at ht
    exact List.mem_map.2 ⟨tok, ht, rfl⟩
  obtain ⟨tok', t1, t2⟩ := List.mem_map.1 (e3 _ hm)
  refine ⟨tok', t1, ?_⟩
  simp only [Token.renamed, Token.mk.injEq, id] at t2
  have hl : tok.like tok' = true :=
    Token.like_iff.2 ⟨t2.1.symm, OrientedCmp.eq_comm.1 (CmpClass.mk_eq.1 t2.2)⟩
  have hf := k2 tok ht
  rw [← firstLike_congr hl ⟨_, List.mem_of_find?_eq_some hf, Token.like_refl _⟩]
  unfold firstLike
  rw [hf]; rfl

/-! ## An example: words at positions -/

/-- A word of a text, by its number, and where it is.  It is compared by the word alone. -/
structure PlacedWord where
  word : Nat
  place : Nat
  deriving DecidableEq, Repr

instance : Ord PlacedWord := ⟨fun a b => compare a.word b.word⟩

instance : TransOrd PlacedWord where
  eq_swap := OrientedCmp.eq_swap (cmp := (compare : Nat → Nat → Ordering))
  isLE_trans := TransCmp.isLE_trans (cmp := (compare : Nat → Nat → Ordering))

/-- `0 => 1 1 1`. -/
def threeExample : Grammar Nat Nat Nat Unit := ⟨0, [exRule 0 [(10, [.term 1, .term 1, .term 1])]]⟩

theorem threeExample_accepted : threeExample.Accepted :=
  ⟨20, 0, [⟨0, [.addProd 10 () [.addTerm 1, .addTerm 1, .addTerm 1]]⟩], by decide⟩

/-- The words of the text: the first is also the third. -/
def wordAt : Nat → PlacedWord
  | 0 => ⟨70, 0⟩
  | 1 => ⟨80, 1⟩
  | _ => ⟨70, 2⟩

def threeWords : List (Token Nat Nat) := [⟨1, 0⟩, ⟨1, 1⟩, ⟨1, 2⟩]

def threeWordsTree : DTree (Token Nat PlacedWord) (Prod Nat Nat Nat Unit) :=
  .node ⟨0, 0, ⟨10, (), [⟨none, .term 1⟩, ⟨none, .term 1⟩, ⟨none, .term 1⟩]⟩⟩
    [.leaf ⟨1, ⟨70, 0⟩⟩, .leaf ⟨1, ⟨80, 1⟩⟩, .leaf ⟨1, ⟨70, 2⟩⟩]

theorem threeWordsTree_isTree : IsTree threeExample (·.kind) (.nonterm 0) threeWordsTree := by
  have hl : ∀ v : PlacedWord, IsTree threeExample (fun x : Token Nat PlacedWord => x.kind) (.term 1) (.leaf ⟨1, v⟩) :=
    fun v => IsTree.leaf (kind := fun x : Token Nat PlacedWord => x.kind) ⟨1, v⟩
  exact IsTree.node (g := threeExample)
    ⟨0, 0, ⟨10, (), [⟨none, .term 1⟩, ⟨none, .term 1⟩, ⟨none, .term 1⟩]⟩⟩ _ (by decide)
    (.cons (hl _) (.cons (hl _) (.cons (hl _) .nil)))

theorem threeWords_parse : ∃ w, parse exampleSAddr threeExample.wrapped 9
    (World.new : World Nat Nat PlacedWord) 7 (threeWords.map (Token.renamed id wordAt)) =
      .ok (w, some ⟨3, 7⟩) := ⟨_, rfl⟩

theorem threeWords_parse' : ∃ w, parse exampleSAddr threeExample.wrapped 9
    (World.new : World Nat Nat Nat) 7 threeWords = .ok (w, some ⟨3, 7⟩) := ⟨_, rfl⟩

theorem threeWords_parse'' : ∃ w, parse exampleSAddr threeExample.wrapped 9
    (World.new : World Nat Nat Nat) 7 (threeWords.map (Token.renamed id fun x => (wordAt x).word)) =
      .ok (w, some ⟨3, 7⟩) := ⟨_, rfl⟩

/-- The hypotheses of `parse_reads_first` and of the two theorems about derivation trees are met; the
third token is read with the place of the first. -/
example : ∃ w n w' n', threeExample.Accepted ∧ AddrPlaced threeExample.wrapped exampleSAddr ∧
    parse exampleSAddr threeExample.wrapped 9 (World.new : World Nat Nat PlacedWord) 7
      (threeWords.map (Token.renamed id wordAt)) = .ok (w, some n) ∧
    parse exampleSAddr threeExample.wrapped 9 (World.new : World Nat Nat Nat) 7 threeWords =
      .ok (w', some n') ∧
    Reads w (.node 10 [.leaf ⟨1, ⟨70, 0⟩⟩, .leaf ⟨1, ⟨80, 1⟩⟩, .leaf ⟨1, ⟨70, 0⟩⟩]) n := by
  obtain ⟨w, h⟩ := threeWords_parse
  obtain ⟨w', h'⟩ := threeWords_parse'
  exact ⟨w, _, w', _, threeExample_accepted, exampleSAddr_placed _ (by decide), h, h',
    parse_all_trees_first threeExample_accepted (exampleSAddr_placed _ (by decide)).addrInj History.start h
      threeWordsTree_isTree rfl⟩

/-- The value of a token of the input cannot always be read back: here every tree that can be read off
the returned node lacks the place of the third word.  So C44 (every derivation tree of the input can be
read off) needs an order that tells values apart. -/
theorem parse_values_replaced : ∃ (g : Grammar Nat Nat Nat Unit) (toks : List (Token Nat PlacedWord))
    (d : DTree (Token Nat PlacedWord) (Prod Nat Nat Nat Unit)) (w : World Nat Nat PlacedWord) (n : Node),
    g.Accepted ∧ IsTree g (·.kind) (.nonterm g.startSymbol) d ∧ d.yield = toks ∧
      (∀ fuel, 9 ≤ fuel → parse exampleSAddr g.wrapped fuel World.new 7 toks = .ok (w, some n)) ∧
      (∃ s, Reads w s n) ∧ (∀ s, Reads w s n → s.yield ≠ toks) ∧ ¬ Reads w (d.mapNodes (·.actionKey)) n := by
  obtain ⟨w, h⟩ := threeWords_parse
  have hno : ∀ s, Reads w s ⟨3, 7⟩ → s.yield ≠ threeWords.map (Token.renamed id wordAt) := by
    intro s hs he
    obtain ⟨d, -, -, h3⟩ := parse_trees_grammatical_first threeExample_accepted
      (exampleSAddr_placed _ (by decide)).addrInj History.start h hs
    obtain ⟨tok', h4, h5⟩ := h3 ⟨1, ⟨70, 2⟩⟩ (by rw [he]; decide)
    revert h5
    revert tok'
    decide
  refine ⟨threeExample, threeWords.map (Token.renamed id wordAt), threeWordsTree, w, ⟨3, 7⟩,
    threeExample_accepted, threeWordsTree_isTree, rfl, ?_, ?_, hno, ?_⟩
  · intro fuel hf
    rw [parse_mono hf (by rw [h]; simp), h]
  · exact ⟨_, parse_all_trees_first threeExample_accepted (exampleSAddr_placed _ (by decide)).addrInj
      History.start h threeWordsTree_isTree rfl⟩
  · intro hr
    exact hno _ hr rfl

/-- The calls of `leaf_alt_reads_first`: two leaves with words that compare equal, with another one between
them, are one alternative, which reads the first. -/
example : ∃ (log : TreeLog Nat Nat PlacedWord) (w : World Nat Nat PlacedWord) (held : List Handle),
    History log w held ∧ (.makeLeafAlt 7 1 ⟨70, 0⟩, .ok (.alt ⟨0, 7⟩)) ∈ log ∧
    (.makeLeafAlt 7 1 ⟨70, 2⟩, .ok (.alt ⟨0, 7⟩)) ∈ log ∧ (.makeLeafAlt 7 2 ⟨70, 3⟩, .ok (.alt ⟨1, 7⟩)) ∈ log ∧
    w.value ⟨0, 7⟩ = .ok ⟨70, 0⟩ ∧ w.value ⟨1, 7⟩ = .ok ⟨70, 3⟩ := by
  have h0 : History ([] : TreeLog Nat Nat PlacedWord) World.new [.tree 7] := .newOwner 7 .start (by simp)
  have h1 := h0.call (.makeLeafAlt 7 1 ⟨70, 0⟩) ⟨.tree 7, by simp, rfl⟩
  have h2 := h1.call (.makeLeafAlt 7 2 ⟨70, 3⟩) ⟨.tree 7, by simp [TreeOut.gives], rfl⟩
  have h3 := h2.call (.makeLeafAlt 7 1 ⟨70, 2⟩) ⟨.tree 7, by simp [TreeOut.gives], rfl⟩
  exact ⟨_, _, _, h3, by decide, by decide, by decide, rfl, rfl⟩

/-- C129 with values that were different and become equal. -/
example : ∃ w n w' n',
    parse exampleSAddr threeExample.wrapped 9 (World.new : World Nat Nat Nat) 7 threeWords =
      .ok (w, some n) ∧
    parse exampleSAddr threeExample.wrapped 9 (World.new : World Nat Nat Nat) 7
      (threeWords.map (Token.renamed id fun x => (wordAt x).word)) = .ok (w', some n') ∧
    (∀ s', Reads w' s' n' ↔ ∃ s, s' = s.renamed id id (fun x => (wordAt x).word) ∧ Reads w s n) := by
  obtain ⟨w, h⟩ := threeWords_parse'
  obtain ⟨w', h'⟩ := threeWords_parse''
  exact ⟨w, _, w', _, h, h', fun s' => parse_values_carried _ threeExample_accepted
    (exampleSAddr_placed _ (by decide)) (exampleSAddr_placed _ (by decide)) History.start History.start
    h h' s'⟩

/-- The hypothesis of `calls_like` is met by forgetting the place of every word and turning the order of the
words around. -/
example : ∀ a b : PlacedWord, compare (-(a.word : Int)) (-(b.word : Int)) = .eq ↔ compare a b = .eq := by
  intro a b
  show _ ↔ compare a.word b.word = .eq
  simp only [LawfulEqCmp.compare_eq_iff_eq]
  omega
end Bongo
