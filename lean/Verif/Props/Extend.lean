import Verif.Proof.Extend
import Verif.Props.RenamePasses
import Verif.Props.Earley
import Verif.Props.EarleyExamples
import Verif.Props.LL1
/-!
# C135: adding productions to a grammar; C136: continuing an input
-/
set_option linter.unusedSectionVars false
namespace Bongo
open Std
variable {T NT AK AV V : Type}

/-! ## The analyses -/
section passes
variable [Ord T] [TransOrd T] [LawfulEqOrd T] [Ord NT] [TransOrd NT] [LawfulEqOrd NT]
variable {g g' : Grammar T NT AK AV} {addr addr' : NT → Nat → Nat}

/-- C135: the Nullable pass fails on the larger grammar if it fails on the smaller one. -/
theorem extend_nullable_error (he : g.ExtendedTo g') (hg : g.Accepted) (hg' : g'.Accepted) (ha : AddrInj g addr)
    (ha' : AddrInj g' addr') {fuel fuel' : Nat} (hf' : g'.prods.length < fuel')
    (h : calculateNullables fuel addr g = .ok (.error .ambiguity)) :
    calculateNullables fuel' addr' g' = .ok (.error .ambiguity) := by
  have h1 := calculateNullables_mono (Nat.le_max_left fuel (g.prods.length + 1)) h
  obtain ⟨A, t₁, t₂, k1, k2, k3, k4, k5⟩ :=
    (nullable_ambiguity_exact g hg addr ha _ (by omega)).1.1 h1
  obtain ⟨φ, e1, e2, e3⟩ := he.embed hg.valid.toWF
  refine (nullable_ambiguity_exact g' hg' addr' ha' _ hf').1.2 ⟨A, t₁.mapNodes φ, t₂.mapNodes φ,
    fun hh => k1 (DTree.mapNodes_inj e1 _ _ hh), k2.embed e2 e3, k3.embed e2 e3, ?_, ?_⟩
  · rw [DTree.yield_mapNodes, k4]
  · rw [DTree.yield_mapNodes, k5]

/-- C135: what is nullable stays nullable, with the same null tree. -/
theorem extend_nullable (he : g.ExtendedTo g') (hg : g.Accepted) (hg' : g'.Accepted) (ha : AddrInj g addr)
    (ha' : AddrInj g' addr') {fuel fuel' : Nat} {i i' : GrammarNullableInfo NT AK}
    (h1 : calculateNullables fuel addr g = .ok (.ok i)) (h2 : calculateNullables fuel' addr' g' = .ok (.ok i'))
    {A : NT} {t : TreeNode (ProdKey NT AK)} (ht : i.getNullableAction A = some t) :
    i'.isNullable A = true ∧ i'.getNullableAction A = some t := by
  have hw := hg.valid.toWF
  have hw' := hg'.valid.toWF
  have hm := he.cfg hw hw'
  obtain ⟨φ, φ1, φ2, φ3⟩ := he.embed hw
  obtain ⟨e1, e2, e3, e4, e5⟩ := nullable_exact g hg addr ha fuel i h1
  obtain ⟨f1, f2, f3, f4, f5⟩ := nullable_exact g' hg' addr' ha' fuel' i' h2
  obtain ⟨n1, n2⟩ := null_tree_exact g hg addr ha fuel i h1
  obtain ⟨m1, m2⟩ := null_tree_exact g' hg' addr' ha' fuel' i' h2
  have hgen : ∀ {A}, g.cfg.Generates A [] → g'.cfg.Generates A [] := fun h => Cfg.Derives.mono hm h
  have tree : ∀ k (t : TreeNode (ProdKey NT AK)), sizeOf t = k → ∀ A, i.getNullableAction A = some t →
      i'.getNullableAction A = some t := by
    intro k
    induction k using Nat.strongRecOn with
    | ind k ih =>
      rintro t rfl A ht
      obtain ⟨p, hp, rfl, hpd, hpu, hk, hpar⟩ := n2 A t ht
      obtain ⟨t', ht'⟩ := Option.isSome_iff_exists.1 ((m1 p.head).2 (hgen ((n1 _).1 (by rw [ht]; rfl))))
      rw [ht']
      obtain ⟨q, hq, hqh, hqd, hqu, hk', hpar'⟩ := m2 _ t' ht'
      have hel : (φ p).elements = p.elements := by unfold Prod.elements; rw [(φ2 p).2]
      have hqp : φ p = q := hqu (φ p) (φ3 p hp) (φ2 p).1 (by rw [hel]; exact hpd.mono hm)
      subst hqp
      have hsort := null_tree_sorted g hg addr ha fuel i h1 _ t ht
      have hsort' := null_tree_sorted g' hg' addr' ha' fuel' i' h2 _ t' ht'
      cases t with
      | mk a ps =>
        cases t' with
        | mk a' ps' =>
          congr 2
          · rw [show a' = (φ p).prodKey from hk', show a = p.prodKey from hk]
            unfold Prod.prodKey Prod.actionKey
            rw [(φ2 p).1, (φ2 p).2]
          · refine BMap.ext (cmp := compare) hsort' hsort ?_
            intro n
            have hpe : (φ p).prodElements = p.prodElements := by unfold Prod.prodElements; rw [(φ2 p).2]
            have hall : ∀ e ∈ p.prodElements, ∃ B u, e.element = .nonterm B ∧ i.getNullableAction B = some u := by
              intro e he
              have := (e3 p).2 hpd
              have := (e2 p).1 this e.element (List.mem_map.2 ⟨e, he, rfl⟩)
              cases hee : e.element with
              | term t =>
                rw [hee] at this
                exact absurd this (fun hd => by
                  have := (Cfg.yields_iff (w := [])).2 hd
                  rw [Cfg.yields_nil_word_iff] at this
                  obtain ⟨B, hB, -⟩ := this _ (List.mem_singleton.2 rfl)
                  cases hB)
              | nonterm B =>
                rw [hee] at this
                obtain ⟨u, hu⟩ := Option.isSome_iff_exists.1 ((n1 B).2 this)
                exact ⟨B, u, rfl, hu⟩
            cases hn : BMap.get? compare ps n with
            | some u =>
              obtain ⟨pre, B, post, h3, h4, h5⟩ := (hpar n u).1 hn
              have hlt : sizeOf u < sizeOf (TreeNode.mk a ps) := param_lt (t := TreeNode.mk a ps) hn
              have h6 := ih _ hlt u rfl B h5
              exact (hpar' n u).2 ⟨pre, B, post, by rw [hpe, h3], h4, h6⟩
            | none =>
              cases hn' : BMap.get? compare ps' n with
              | none => rfl
              | some u' =>
                obtain ⟨pre, B, post, h3, h4, h5⟩ := (hpar' n u').1 hn'
                rw [hpe] at h3
                obtain ⟨B0, u0, hB0, hu0⟩ := hall ⟨some n, .nonterm B⟩ (by rw [h3]; simp)
                cases hB0
                have := (hpar n u0).2 ⟨pre, B, post, h3, h4, hu0⟩
                rw [show BMap.get? compare (TreeNode.mk a ps).params n = none from hn] at this
                cases this
  have hi := tree _ t rfl A ht
  exact ⟨(f1 A).2 ((m1 A).1 (by rw [hi]; rfl)), hi⟩

/-- C135: FIRST sets only grow. -/
theorem extend_firsts (he : g.ExtendedTo g') (hg : g.Accepted) (hg' : g'.Accepted) (ha : AddrInj g addr)
    (ha' : AddrInj g' addr') {fuel fuel' : Nat} {f f' : Firsts T NT} (h1 : firstsPass fuel addr g = .ok (.ok f))
    (h2 : firstsPass fuel' addr' g' = .ok (.ok f')) {A : NT} {s : BSet T} (hs : f.get A = some s) :
    ∃ s', f'.get A = some s' ∧ ∀ t ∈ s, t ∈ s' := by
  have hm := he.cfg hg.valid.toWF hg'.valid.toWF
  have hk : (f'.get A).isSome = true := by
    obtain ⟨p, k1, k2, pre, e, post, k3, k4, k5⟩ := (firsts_key_exact g hg addr ha fuel f h1 A).1 (by rw [hs]; rfl)
    obtain ⟨p', j1, j2, j3⟩ := he.carries hg.valid.toWF p k1
    have hel : p'.elements = p.elements := by unfold Prod.elements; rw [j3]
    exact (firsts_key_exact g' hg' addr' ha' fuel' f' h2 A).2 ⟨p', j1, by rw [j2, k2], pre, e, post,
      by rw [hel, k3], fun x hx => ⟨(k4 x hx).1, Cfg.Derives.mono hm (k4 x hx).2⟩, k5⟩
  obtain ⟨s', hs'⟩ := Option.isSome_iff_exists.1 hk
  refine ⟨s', hs', fun t ht => ?_⟩
  obtain ⟨γ, hγ⟩ := ((firsts_exact g hg addr ha fuel f h1 A).1 t).1 ⟨s, hs, ht⟩
  obtain ⟨s₁, k1, k2⟩ := ((firsts_exact g' hg' addr' ha' fuel' f' h2 A).1 t).2 ⟨γ, hγ.mono hm⟩
  rw [hs'] at k1
  cases k1
  exact k2

/-- C135: FOLLOW sets only grow. -/
theorem extend_follows (he : g.ExtendedTo g') (hg : g.Accepted) (hg' : g'.Accepted) (ha : AddrInj g addr)
    (ha' : AddrInj g' addr') {fuel fuel' : Nat} {f f' : Follows T NT} (h1 : followsPass fuel addr g = .ok (.ok f))
    (h2 : followsPass fuel' addr' g' = .ok (.ok f')) {A : NT} {t : T}
    (hs : ∃ s, BMap.get? compare f.map A = some s ∧ t ∈ s) :
    ∃ s, BMap.get? compare f'.map A = some s ∧ t ∈ s := by
  rw [follows_exact g hg addr ha fuel f h1] at hs
  rw [follows_exact g' hg' addr' ha' fuel' f' h2]
  exact hs.mono (he.cfg hg.valid.toWF hg'.valid.toWF)
end passes

/-! ## Parsing -/
section parse
variable [Ord T] [Ord NT] [Ord AK] [Ord V] [DecidableEq T] [DecidableEq NT]
variable [TransOrd T] [TransOrd NT] [TransOrd AK] [TransOrd V]
variable [LawfulEqOrd T] [LawfulEqOrd NT] [LawfulEqOrd AK] [LawfulEqOrd V]
variable {addr addr' : StartNonTerminal NT → Nat → Nat} {g g' : Grammar T NT AK AV}

/-- C135: with more productions the outcome of `parse` stays or moves up in this row: it panics as the input cannot
be continued to a sentence; it returns `None`; it returns `Some`; it panics as a production can be at two
positions. -/
theorem extend_parse_outcome (he : g.ExtendedTo g') (hg : g.Accepted) (hg' : g'.Accepted)
    (ha : AddrInj g.wrapped addr) (ha' : AddrInj g'.wrapped addr') {log log' : TreeLog T AK V}
    {w w' : World T AK V} {held held' : List Handle} (hist : History log w held)
    (hist' : History log' w' held') (t t' : Nat) (toks : List (Token T V)) :
    ∃ N a b, a ≤ b ∧ ∀ fuel, N ≤ fuel → parseRank (parse addr g.wrapped fuel w t toks) = some a ∧
      parseRank (parse addr' g'.wrapped fuel w' t' toks) = some b := by
  have hw := hg.valid.toWF
  have hw' := hg'.valid.toWF
  obtain ⟨N, h⟩ := parse_exact hg ha hist t toks
  obtain ⟨N', h'⟩ := parse_exact hg' ha' hist' t' toks
  have hv : ∀ {u}, g.Viable u → g'.Viable u := fun h => he.viable hw hw' h
  have hc : ∀ {u}, g.Clash u → g'.Clash u := fun h => he.clash hw hw' h
  have hl : ∀ {u}, g.cfg.InLanguage u → g'.cfg.InLanguage u := fun h => he.inLanguage hw hw' h
  have key : ∀ a b, (∀ fuel, N ≤ fuel → parseRank (parse addr g.wrapped fuel w t toks) = some a) →
      (∀ fuel, N' ≤ fuel → parseRank (parse addr' g'.wrapped fuel w' t' toks) = some b) → a ≤ b →
      ∃ N a b, a ≤ b ∧ ∀ fuel, N ≤ fuel → parseRank (parse addr g.wrapped fuel w t toks) = some a ∧
        parseRank (parse addr' g'.wrapped fuel w' t' toks) = some b :=
    fun a b h1 h2 h3 => ⟨max N N', a, b, h3, fun fuel hf => ⟨h1 fuel (by omega), h2 fuel (by omega)⟩⟩
  rcases h with ⟨h0, w1, r1, h1, h2⟩ | ⟨b, hb, hlt, ⟨hnv, hp⟩ | ⟨hyv, hcl, hp⟩⟩
  · -- the smaller grammar: returns
    have hr : ∀ fuel, N ≤ fuel → parseRank (parse addr g.wrapped fuel w t toks) = some (if r1.isSome then 2 else 1) := by
      intro fuel hf
      rw [h1 fuel hf]
      cases r1 <;> rfl
    rcases h' with ⟨h0', w1', r1', h1', h2'⟩ | ⟨b', hb', hlt', ⟨hnv', hp'⟩ | ⟨hyv', hcl', hp'⟩⟩
    · refine key _ (if r1'.isSome then 2 else 1) hr (fun fuel hf => ?_) ?_
      · rw [h1' fuel hf]
        cases r1' <;> rfl
      · by_cases hs : r1.isSome
        · rw [if_pos hs, if_pos (h2'.2 (hl (h2.1 hs)))]
        · rw [if_neg hs]; split <;> omega
    · exact absurd (hv (h0 b' hb').1) hnv'
    · refine key _ 3 hr (fun fuel hf => by rw [hp' fuel hf]; rfl) ?_
      split <;> omega
  · -- it cannot be continued
    have hr : ∀ fuel, N ≤ fuel → parseRank (parse addr g.wrapped fuel w t toks) = some 0 :=
      fun fuel hf => by rw [hp fuel hf]; rfl
    rcases h' with ⟨h0', w1', r1', h1', h2'⟩ | ⟨b', hb', hlt', ⟨hnv', hp'⟩ | ⟨hyv', hcl', hp'⟩⟩
    · refine key _ (if r1'.isSome then 2 else 1) hr (fun fuel hf => ?_) (Nat.zero_le _)
      rw [h1' fuel hf]
      cases r1' <;> rfl
    · exact key _ 0 hr (fun fuel hf => by rw [hp' fuel hf]; rfl) (Nat.le_refl _)
    · exact key _ 3 hr (fun fuel hf => by rw [hp' fuel hf]; rfl) (Nat.zero_le _)
  · -- a production at two positions
    have hr : ∀ fuel, N ≤ fuel → parseRank (parse addr g.wrapped fuel w t toks) = some 3 :=
      fun fuel hf => by rw [hp fuel hf]; rfl
    rcases h' with ⟨h0', w1', r1', h1', h2'⟩ | ⟨b', hb', hlt', ⟨hnv', hp'⟩ | ⟨hyv', hcl', hp'⟩⟩
    · exact absurd (hc hcl) (h0' b hb).2
    · rcases Nat.lt_trichotomy b b' with hl | hl | hl
      · exact absurd (hc hcl) (hlt' b hl).2
      · subst hl
        exact absurd (hv hyv) hnv'
      · exact absurd (hv (hlt b' hl).1) hnv'
    · exact key _ 3 hr (fun fuel hf => by rw [hp' fuel hf]; rfl) (Nat.le_refl _)

/-- C135: the trees of the input can still be read. -/
theorem extend_trees (he : g.ExtendedTo g') (hg : g.Accepted) (hg' : g'.Accepted)
    (ha' : AddrInj g'.wrapped addr') {log' : TreeLog T AK V} {w' w₁' : World T AK V} {held' : List Handle}
    (hist' : History log' w' held') {t' fuel' : Nat} {toks : List (Token T V)} {n' : Node}
    (h' : parse addr' g'.wrapped fuel' w' t' toks = .ok (w₁', some n'))
    {d : DTree (Token T V) (Prod T NT AK AV)} (hd : IsTree g (·.kind) (.nonterm g.startSymbol) d)
    (hy : d.yield = toks) : Reads w₁' (d.mapNodes (·.actionKey)) n' := by
  obtain ⟨d', k1, k2, k3⟩ := hd.reorder (he.carries hg.valid.toWF)
  rw [← he.1] at k1
  rw [← k2]
  exact parse_all_trees hg' ha' hist' h' k1 (by rw [k3, hy])

/-- C135: a grammar on which `parse` can be relied on (C107) stays one when productions are removed. -/
theorem extend_relied (he : g.ExtendedTo g') (hg : g.Accepted) (hg' : g'.Accepted) (h : g'.PrefixFreeInside) :
    g.PrefixFreeInside :=
  he.prefixFree hg.valid.toWF hg'.valid.toWF h

/-- C136: if `parse` panics, it panics in the same way on every input that continues this one, whatever the trees
were used for before. -/
theorem parse_panic_continues (hg : g.Accepted) (ha : AddrInj g.wrapped addr) (ha' : AddrInj g.wrapped addr')
    {log log' : TreeLog T AK V} {w w' : World T AK V} {held held' : List Handle} (hist : History log w held)
    (hist' : History log' w' held') (t t' : Nat) (toks more : List (Token T V)) {fuel : Nat} {p : Panic}
    (h : parse addr g.wrapped fuel w t toks = .panic p) :
    ∃ N, ∀ fuel, N ≤ fuel → parse addr' g.wrapped fuel w' t' (toks ++ more) = .panic p := by
  obtain ⟨N, k⟩ := parse_exact hg ha hist t toks
  obtain ⟨N', k'⟩ := parse_exact hg ha' hist' t' (toks ++ more)
  have hm : ∀ {r}, (∀ f, N ≤ f → parse addr g.wrapped f w t toks = r) → r = .panic p := by
    intro r hr
    rw [← hr (max N fuel) (by omega), parse_mono (Nat.le_max_right N fuel) (by rw [h]; simp), h]
  have htake : ∀ {j}, j ≤ toks.length → (toks ++ more).take j = toks.take j :=
    fun hj => List.take_append_of_le_length hj
  have hlen : toks.length ≤ (toks ++ more).length := by simp
  rcases k with ⟨h0, w1, r1, h1, h2⟩ | ⟨b, hb, hlt, k⟩
  · cases hm h1
  · have hbad : ¬ (g.Viable (kinds (toks.take b)) ∧ ¬ g.Clash (kinds (toks.take b))) := by
      rcases k with ⟨k1, -⟩ | ⟨-, k1, -⟩
      · exact fun hh => k1 hh.1
      · exact fun hh => hh.2 k1
    rcases k' with ⟨h0', -⟩ | ⟨b', hb', hlt', k'⟩
    · have := h0' b (by omega)
      rw [htake hb] at this
      exact absurd this hbad
    · have hbb : b = b' := by
        rcases Nat.lt_trichotomy b b' with hl | hl | hl
        · have := hlt' b hl
          rw [htake hb] at this
          exact absurd this hbad
        · exact hl
        · have h3 := hlt b' hl
          rw [htake (by omega)] at k'
          rcases k' with ⟨k1, -⟩ | ⟨-, k1, -⟩
          · exact absurd h3.1 k1
          · exact absurd k1 h3.2
      subst hbb
      rw [htake hb] at k'
      refine ⟨N', ?_⟩
      rcases k with ⟨k1, kp⟩ | ⟨k1, k2, kp⟩ <;> rcases k' with ⟨k1', kp'⟩ | ⟨k1', k2', kp'⟩
      · cases hm kp; exact kp'
      · exact absurd k1' k1
      · exact absurd k1 k1'
      · cases hm kp; exact kp'

/-- C136: if `parse` panics as a state is empty, no sentence begins with the input. -/
theorem parse_emptyState_hopeless (hg : g.Accepted) (ha : AddrInj g.wrapped addr) {log : TreeLog T AK V}
    {w : World T AK V} {held : List Handle} (hist : History log w held) {t fuel : Nat}
    {toks : List (Token T V)} (h : parse addr g.wrapped fuel w t toks = .panic .emptyState) (v : List T) :
    ¬ g.cfg.InLanguage (kinds toks ++ v) := by
  intro hl
  obtain ⟨N, k⟩ := parse_exact hg ha hist t toks
  have hm : ∀ {r}, (∀ f, N ≤ f → parse addr g.wrapped f w t toks = r) → r = .panic .emptyState := by
    intro r hr
    rw [← hr (max N fuel) (by omega), parse_mono (Nat.le_max_right N fuel) (by rw [h]; simp), h]
  rcases k with ⟨h0, w1, r1, h1, h2⟩ | ⟨b, hb, hlt, ⟨k1, -⟩ | ⟨-, -, kp⟩⟩
  · cases hm h1
  · refine k1 (Grammar.viable_of_continues (v := kinds (toks.drop b) ++ v) ?_)
    rw [← List.append_assoc]
    have : kinds (toks.take b) ++ kinds (toks.drop b) = kinds toks := by
      unfold kinds
      rw [← List.map_append, List.take_append_drop]
    rw [this]; exact hl
  · cases hm kp

/-- C136: if every rule generates some text, and `parse` returns on an input, then some sentence begins with it. -/
theorem parse_returns_continuable (hg : g.Accepted) (hp : g.Productive) (ha : AddrInj g.wrapped addr)
    {log : TreeLog T AK V} {w w₁ : World T AK V} {held : List Handle} (hist : History log w held) {t fuel : Nat}
    {toks : List (Token T V)} {r : Option Node} (h : parse addr g.wrapped fuel w t toks = .ok (w₁, r)) :
    ∃ v, g.cfg.InLanguage (kinds toks ++ v) := by
  obtain ⟨N, k⟩ := parse_exact hg ha hist t toks
  have hm : ∀ {x}, (∀ f, N ≤ f → parse addr g.wrapped f w t toks = x) → x = .ok (w₁, r) := by
    intro x hr
    rw [← hr (max N fuel) (by omega), parse_mono (Nat.le_max_right N fuel) (by rw [h]; simp), h]
  rcases k with ⟨h0, -⟩ | ⟨b, hb, hlt, ⟨-, kp⟩ | ⟨-, -, kp⟩⟩
  · have := (h0 toks.length (Nat.le_refl _)).1
    rw [List.take_length] at this
    exact (hp.viable_iff hg.valid).1 this
  · cases hm kp
  · cases hm kp
end parse

/-! ## Witnesses -/

/-- `S → 2`, then `| 1 1`, then `| 1`, then `|` nothing: an input can take all four outcomes, in this order. -/
def growing (n : Nat) : Grammar Nat Nat Nat Unit :=
  ⟨0, [exRule 0 ([(10, [.term 2]), (11, [.term 1, .term 1]), (12, [.term 1]), (13, [])].take n)]⟩

def growingCalls (n : Nat) : List (GrammarOp Nat Nat Nat Unit) :=
  [⟨0, [.addProd 10 () [.addTerm 2], .addProd 11 () [.addTerm 1, .addTerm 1], .addProd 12 () [.addTerm 1],
    .addProd 13 () []].take n⟩]

theorem growing_accepted : (growing 1).Accepted ∧ (growing 2).Accepted ∧ (growing 3).Accepted ∧
    (growing 4).Accepted :=
  ⟨⟨20, 0, growingCalls 1, by decide⟩, ⟨20, 0, growingCalls 2, by decide⟩, ⟨20, 0, growingCalls 3, by decide⟩,
    ⟨20, 0, growingCalls 4, by decide⟩⟩

theorem growing_extended {n m : Nat} (h : n ≤ m) : (growing n).ExtendedTo (growing m) := by
  refine ⟨rfl, fun r hr => ?_⟩
  cases List.mem_singleton.1 hr
  exact ⟨_, List.mem_singleton.2 rfl, rfl, (List.take_sublist_take_left h).map _⟩

/-- All four outcomes on the input `1`. -/
example : (∀ n m, n ≤ m → (growing n).ExtendedTo (growing m)) ∧
    (∀ n, AddrInj (growing n).wrapped exampleSAddr) ∧
    [1, 2, 3, 4].map (fun n => parseRank (parse exampleSAddr (growing n).wrapped 20
      (World.new : World Nat Nat Nat) 7 (exampleToks [1]))) = [some 0, some 1, some 2, some 3] :=
  ⟨fun _ _ => growing_extended, fun _ => exampleSAddr_addrInj _, by rfl⟩

/-- C136: the panics of the input `1` and of one that continues it. -/
example : parse exampleSAddr (growing 1).wrapped 20 (World.new : World Nat Nat Nat) 7 (exampleToks [1]) =
      .panic .emptyState ∧
    parse exampleSAddr (growing 1).wrapped 20 (World.new : World Nat Nat Nat) 7 (exampleToks [1, 2, 1]) =
      .panic .emptyState ∧
    parse exampleSAddr (growing 4).wrapped 20 (World.new : World Nat Nat Nat) 7 (exampleToks [2]) =
      .panic .lenMismatch ∧
    parse exampleSAddr (growing 4).wrapped 20 (World.new : World Nat Nat Nat) 7 (exampleToks [2, 2]) =
      .panic .lenMismatch :=
  ⟨by rfl, by rfl, by rfl, by rfl⟩

/-- C136: a productive grammar and an input on which `parse` returns, though it is no sentence. -/
example : (growing 3).Productive ∧ ∃ w₁, parse exampleSAddr (growing 2).wrapped 20
    (World.new : World Nat Nat Nat) 7 (exampleToks [1]) = .ok (w₁, none) := by
  refine ⟨fun r hr => ⟨[2], ?_⟩, ⟨_, rfl⟩⟩
  obtain rfl : r = ⟨0, _⟩ := List.mem_singleton.1 hr
  exact Cfg.generates_iff.2 ⟨[.term 2], ⟨_, _, List.mem_singleton.2 rfl, List.Mem.head _, rfl⟩, .term _ .nil⟩

/-- `S → A b; A → C | x; C → c`, which `lossExample` extends. -/
def lossWithout : Grammar Nat Nat Nat Unit :=
  ⟨0, [exRule 0 [(1, [.nonterm 1, .term 11])], exRule 1 [(2, [.nonterm 2]), (3, [.term 13])],
    exRule 2 [(5, [.term 12])]]⟩

theorem lossWithout_accepted : lossWithout.Accepted :=
  ⟨9, 0, [⟨0, [.addProd 1 () [.addNonterm 1, .addTerm 11]]⟩,
    ⟨1, [.addProd 2 () [.addNonterm 2], .addProd 3 () [.addTerm 13]]⟩,
    ⟨2, [.addProd 5 () [.addTerm 12]]⟩], by decide⟩

theorem lossWithout_extended : lossWithout.ExtendedTo lossExample := by
  refine ⟨rfl, ?_⟩
  decide

/-- C135: FIRST and FOLLOW of the smaller and of the larger grammar. -/
example : (∃ f f', firstsPass 20 exampleAddr lossWithout = .ok (.ok f) ∧
      firstsPass 20 exampleAddr lossExample = .ok (.ok f') ∧
      f.get 0 = some [12, 13] ∧ f'.get 0 = some [11, 12, 13]) ∧
    (∃ f f', followsPass 20 exampleAddr lossWithout = .ok (.ok f) ∧
      followsPass 20 exampleAddr lossExample = .ok (.ok f') ∧
      BMap.get? compare f.map 1 = some [11] ∧ BMap.get? compare f'.map 1 = some [11]) ∧
    (∃ i i', calculateNullables 20 exampleAddr lossWithout = .ok (.ok i) ∧
      calculateNullables 20 exampleAddr lossExample = .ok (.ok i') ∧
      i.isNullable 1 = false ∧ i'.isNullable 1 = true) :=
  ⟨⟨_, _, by rfl, by rfl, by rfl, by rfl⟩, ⟨_, _, by rfl, by rfl, by rfl, by rfl⟩,
    ⟨_, _, by rfl, by rfl, by rfl, by rfl⟩⟩

/-- C135: the language of the transformed grammar need not grow: adding `C → ε` to a grammar loses `c b`. -/
theorem extend_nonnull_loses : lossWithout.Accepted ∧ lossExample.Accepted ∧ lossWithout.ExtendedTo lossExample ∧
    ∃ h h', transformToNonnull 9 exampleAddr lossWithout = .ok (.ok h) ∧
      transformToNonnull 9 exampleAddr lossExample = .ok (.ok h') ∧
      h.cfg.InLanguage [12, 11] ∧ ¬ h'.cfg.InLanguage [12, 11] := by
  obtain ⟨h1, h', h2, -, h3⟩ := nonnull_loses_string
  have ht : ∃ h, transformToNonnull 9 exampleAddr lossWithout = .ok (.ok h) := ⟨_, rfl⟩
  obtain ⟨h, ht⟩ := ht
  refine ⟨lossWithout_accepted, h1, lossWithout_extended, h, h', ht, h2, ?_, h3⟩
  have hstart : h.startSymbol = 0 := by
    have : transformToNonnull 9 exampleAddr lossWithout = .ok (.ok h) → h.startSymbol = 0 := by
      intro hh; cases hh; rfl
    exact this ht
  have hi : ∃ i, calculateNullables 20 exampleAddr lossWithout = .ok (.ok i) ∧ ∀ A, i.isNullable A = false :=
    ⟨_, rfl, fun _ => rfl⟩
  obtain ⟨i, hi1, hi2⟩ := hi
  obtain ⟨e1, -⟩ := nullable_exact lossWithout lossWithout_accepted exampleAddr (exampleAddr_addrInj _) _ i hi1
  unfold Cfg.InLanguage
  rw [show h.cfg.start = 0 from hstart]
  refine nonnull_complete_partial lossWithout lossWithout_accepted exampleAddr (exampleAddr_addrInj _) _ h ht ?_
    0 _ (by simp) ?_
  · intro p _ hd
    have hd := (Cfg.yields_iff (w := [])).2 hd
    rw [Cfg.yields_nil_word_iff] at hd
    cases hp : p.elements with
    | nil => rfl
    | cons e es =>
      obtain ⟨B, -, hB⟩ := hd e (by rw [hp]; simp)
      have := (e1 B).2 (Cfg.null_iff.1 hB)
      rw [hi2] at this
      cases this
  · rw [Cfg.generates_iff]
    refine ⟨[.nonterm 1, .term 11], ⟨_, _, List.Mem.head _, List.Mem.head _, rfl⟩, ?_⟩
    refine .nonterm (w₁ := [12]) (β := [.nonterm 2])
      ⟨_, _, List.Mem.tail _ (List.Mem.head _), List.Mem.head _, rfl⟩ ?_ (.term _ .nil)
    exact .nonterm (w₁ := [12]) (β := [.term 12])
      ⟨_, _, List.Mem.tail _ (List.Mem.tail _ (List.Mem.head _)), List.Mem.head _, rfl⟩ (.term _ .nil) .nil
end Bongo
