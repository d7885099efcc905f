import Verif.Proof.KeysExactParse
import Verif.Proof.CmpClass
import Verif.Props.RenamePasses
import Verif.Props.Earley
/-!
# Lemmas: a parse with keys that compare equal reads as one with the same keys told apart
-/
set_option linter.unusedSectionVars false
namespace Bongo
open Std
variable {T NT AK AV V : Type}

/-! ## A tree with given contents -/
section
variable [Ord T] [Ord AK] [Ord V] [TransOrd T] [TransOrd AK] [TransOrd V] [LawfulEqOrd T] [LawfulEqOrd AK]
  [LawfulEqOrd V]

theorem exists_contents (n : Nat) (l : List (NodeContent T AK V)) (hl : l.Nodup)
    (hb : ∀ ak ns, .branch ak ns ∈ l → ∀ m ∈ ns, m < n) :
    ∃ i : Inner T AK V, i.WF ∧ i.nodes.length = n ∧ i.alternatives.idToValue = l := by
  induction l using List.reverseRecOn with
  | nil =>
    refine ⟨⟨List.replicate n [], AltSet.new⟩, ⟨List.Pairwise.nil, by simp [AltSet.new], ?_, ?_, by simp [AltSet.new]⟩,
      by simp, rfl⟩
    · intro s hs
      rw [(List.mem_replicate.1 hs).2]
      exact List.Pairwise.nil
    · intro s hs a ha
      rw [(List.mem_replicate.1 hs).2] at ha
      cases ha
  | append_singleton l c ih =>
    have hn := List.nodup_append.1 hl
    obtain ⟨i, h1, h2, h3⟩ := ih hn.1 (fun ak ns h => hb ak ns (List.mem_append_left _ h))
    refine ⟨(i.makeAlt c).1, Inner.makeAlt_wf h1 c ?_, ?_, ?_⟩
    · rintro ak ns rfl m hm
      rw [h2]
      exact hb ak ns (by simp) m hm
    · exact h2
    · have hnone : BMap.get? NodeContent.cmp i.alternatives.valueToId c = none := by
        cases hg : BMap.get? NodeContent.cmp i.alternatives.valueToId c with
        | none => rfl
        | some k =>
          exfalso
          have := (h1.ids c k).1 hg
          rw [h3] at this
          exact hn.2.2 c (List.mem_of_getElem? this) c (by simp) rfl
      simp only [Inner.makeAlt, AltSet.add, hnone, h3]
end

/-! ## The tree before the parse -/
section
variable [Ord T] [Ord AK] [Ord V] [TransOrd T] [TransOrd AK] [TransOrd V] [LawfulEqOrd T] [LawfulEqOrd V]

theorem history_xrel {log : TreeLog T AK V} {w : World T AK V} {held : List Handle} (hist : History log w held)
    (t : Nat) : ∃ i' : Inner T (ExactKey AK) V, i'.WF ∧ XRel (fun _ _ => False) (w t) i' := by
  have hi : RenInj (id : T → T) (CmpClass.mk : AK → CmpClass AK) (id : V → V) :=
    ⟨fun _ _ => Iff.rfl, fun _ _ => by rw [CmpClass.compare_mk], fun _ _ => Iff.rfl⟩
  obtain ⟨w₀, h1, h2⟩ := history_worldRen (T' := T) (AK' := CmpClass AK) (V' := V) hi hist
  have hwf := h1.inv.wf t
  have hr := h2 t
  have hvals : ∀ k : Nat, (w₀ t).alternatives.idToValue[k]? =
      ((w t).alternatives.idToValue[k]?).map
        (NodeContent.ren (id : T → T) (CmpClass.mk : AK → CmpClass AK) (id : V → V)) := by
    intro k; rw [hr.vals, List.getElem?_map]
  have hst : (w t).alternatives.Stored := by
    intro c k
    rw [← hr.look c, hwf.ids, hvals, Option.map_eq_some_iff]
    constructor
    · rintro ⟨c', h3, h4⟩
      refine ⟨c', h3, (hi.content c c').1 ?_⟩
      rw [h4]; exact ReflCmp.compare_self
    · rintro ⟨c', h3, h4⟩
      exact ⟨c', h3, (LawfulEqCmp.eq_of_compare ((hi.content c c').2 h4)).symm⟩
  have hbound : ∀ (k : Nat) ak ns, (w t).alternatives.idToValue[k]? = some (.branch ak ns) →
      ∀ m ∈ ns, m < (w t).nodes.length := by
    intro k ak ns hk m hm
    rw [← hr.nodes]
    exact hwf.branchNodes k (CmpClass.mk ak) ns (by rw [hvals, hk]; rfl) m hm
  have hnd : ((w t).alternatives.idToValue.map
      (NodeContent.ren (id : T → T) (ExactKey.mk : AK → ExactKey AK) (id : V → V))).Nodup := by
    refine List.Nodup.map (fun a b h => rn_inj h) ?_
    rw [List.nodup_iff_getElem?_ne_getElem?]
    intro a b hab hb he
    obtain ⟨c, hc⟩ : ∃ c, (w t).alternatives.idToValue[b]? = some c := ⟨_, List.getElem?_eq_getElem hb⟩
    have hb' := (hst c b).2 ⟨c, hc, ReflCmp.compare_self⟩
    have ha' := (hst c a).2 ⟨c, by rw [he, hc], ReflCmp.compare_self⟩
    rw [hb'] at ha'
    cases ha'
    omega
  obtain ⟨i, e1, e2, e3⟩ := exists_contents (w t).nodes.length _ hnd (by
    intro ak ns hm m hmm
    obtain ⟨c, hc, he⟩ := List.mem_map.1 hm
    obtain ⟨k, hk⟩ := List.mem_iff_getElem?.1 hc
    cases c with
    | leaf x v => cases he
    | branch ak' ns' =>
      cases he
      exact hbound k ak' ns hk m hmm)
  have hwf' : Inner.WF (⟨(w t).nodes, i.alternatives⟩ : Inner T (ExactKey AK) V) := by
    refine ⟨e1.sorted, e1.ids, ?_, ?_, ?_⟩
    · simp only [← hr.nodes]; exact hwf.nodeSorted
    · intro s hs a ha
      simp only [e3, List.length_map]
      have := hwf.nodeAlts s (by rw [hr.nodes]; exact hs) a ha
      rw [hr.vals, List.length_map] at this
      exact this
    · intro k a ns hk
      have := e1.branchNodes k a ns hk
      rwa [e2] at this
  refine ⟨_, hwf', ⟨rfl, e3, hst, ?_, hbound, fun _ _ _ _ _ _ _ h => h.elim, fun _ _ h => h.elim,
    fun _ _ _ h => h.elim⟩⟩
  intro c k
  rw [hwf'.ids c k]
  constructor
  · exact fun h => ⟨c, h, ReflCmp.compare_self⟩
  · rintro ⟨c', h3, h4⟩
    rw [LawfulEqCmp.eq_of_compare h4]; exact h3

/-! ## What can be read -/

theorem XRel.reads {O : Nat → AK → Prop} {w : World T AK V} {w' : World T (ExactKey AK) V} {t : Nat}
    (h : XRel O (w t) (w' t)) (s : DTree (Token T V) AK) : ∀ n : Node, n.tree = t →
      (Reads w' (s.renamed id ExactKey.mk id) n ↔ Reads w s n) := by
  have hleaf : ∀ a k v, (w' t).altAt a = some (.leaf k v) ↔ (w t).altAt a = some (.leaf k v) := by
    intro a k v
    simp only [Inner.altAt, h.vals, List.getElem?_map, Option.map_eq_some_iff]
    constructor
    · rintro ⟨c, h1, h2⟩
      cases c with
      | leaf k' v' => cases h2; exact h1
      | branch ak ns => cases h2
    · exact fun h1 => ⟨_, h1, rfl⟩
  have hbranch : ∀ a ak ns, (w' t).altAt a = some (.branch ⟨ak⟩ ns) ↔ (w t).altAt a = some (.branch ak ns) := by
    intro a ak ns
    simp only [Inner.altAt, h.vals, List.getElem?_map, Option.map_eq_some_iff]
    constructor
    · rintro ⟨c, h1, h2⟩
      cases c with
      | leaf k' v' => cases h2
      | branch ak ns => cases h2; exact h1
    · exact fun h1 => ⟨_, h1, rfl⟩
  have hhas : ∀ m a, (w' t).Has m a ↔ (w t).Has m a := by
    intro m a; simp only [Inner.Has, h.nodes]
  refine DTree.rec (motive_1 := fun s => ∀ n : Node, n.tree = t →
      (Reads w' (s.renamed id ExactKey.mk id) n ↔ Reads w s n))
    (motive_2 := fun cs => ∀ ns : List Node, (∀ n ∈ ns, n.tree = t) →
      (ReadsAll w' (DTree.renameds id ExactKey.mk id cs) ns ↔ ReadsAll w cs ns)) ?_ ?_ ?_ ?_ s
  · intro tok n hn
    rw [DTree.renamed, reads_leaf, reads_leaf, hn]
    simp only [hhas, hleaf, Token.renamed, id]
  · intro ak cs ih n hn
    rw [DTree.renamed, reads_node, reads_node, hn]
    simp only [hhas, hbranch]
    refine exists_congr fun a => exists_congr fun ns => and_congr_right fun _ => and_congr_right fun _ => ?_
    exact ih _ (by simp)
  · intro ns _
    rw [DTree.renameds]
    cases ns <;> simp [ReadsAll]
  · intro c cs ih1 ih2 ns hns
    rw [DTree.renameds]
    cases ns with
    | nil => simp [ReadsAll]
    | cons n ns =>
      rw [ReadsAll, ReadsAll, ih1 n (hns n (by simp)), ih2 ns (fun m hm => hns m (by simp [hm]))]
end

/-! ## The grammar with other keys -/
section
variable {AK' : Type} {g : Grammar T NT AK AV}

theorem keyRen_elements (f : AK → AK') (p : Prod T NT AK AV) :
    ((keyRen T NT AV f).prod p).elements = p.elements := by
  simp only [Prod.elements, ProdInner.elems, Renaming.prod, Renaming.prodInner, List.map_map]
  apply List.map_congr_left
  intro e _
  exact keyRen_elem f e.element

/-- First the renaming, then other keys. -/
def Renaming.rekey {T₀ NT₀ AK₀ AV₀ : Type} (ρ : Renaming T₀ NT₀ AK₀ AV₀ T NT AK AV) (f : AK → AK') :
    Renaming T₀ NT₀ AK₀ AV₀ T NT AK' AV :=
  ⟨ρ.term, ρ.nonterm, f ∘ ρ.key, ρ.value⟩

theorem Grammar.RenamedTo.rekey {T₀ NT₀ AK₀ AV₀ : Type} {ρ : Renaming T₀ NT₀ AK₀ AV₀ T NT AK AV}
    {g₀ : Grammar T₀ NT₀ AK₀ AV₀} {g' : Grammar T NT AK' AV} {f : AK → AK'}
    (h : g₀.RenamedTo ρ g) (h' : g.RenamedTo (keyRen T NT AV f) g') : g₀.RenamedTo (ρ.rekey f) g' := by
  have hr : ∀ r : RuleInner T₀ NT₀ AK₀ AV₀, (keyRen T NT AV f).rule (ρ.rule r) = (ρ.rekey f).rule r := by
    intro r
    have he : (keyRen T NT AV f).prodElement = id := by
      funext ⟨n, e⟩; cases e <;> rfl
    simp only [Renaming.rule, List.map_map]
    congr 1
    apply List.map_congr_left
    intro p _
    simp only [Function.comp, Renaming.prodInner, he, List.map_id]
    rfl
  refine ⟨h'.1.trans h.1, fun r' => ?_⟩
  rw [h'.2]
  constructor
  · rintro ⟨r, h1, rfl⟩
    obtain ⟨r0, h2, rfl⟩ := (h.2 r).1 h1
    exact ⟨r0, h2, hr r0⟩
  · rintro ⟨r0, h2, rfl⟩
    exact ⟨_, (h.2 _).2 ⟨r0, h2, rfl⟩, (hr r0).symm⟩

section
variable [Ord T] [Ord NT] [DecidableEq T] [DecidableEq NT] [TransOrd T] [TransOrd NT] [LawfulEqOrd T]
  [LawfulEqOrd NT]

theorem keyRen_grammar (f : AK → AK') (hg : g.Accepted) :
    ∃ g' : Grammar T NT AK' AV, g'.Accepted ∧ g.RenamedTo (keyRen T NT AV f) g' := by
  obtain ⟨fuel, start, calls, h⟩ := hg
  obtain ⟨N, hN⟩ := build_renamed (ρ := keyRen T NT AV f) (fun _ _ h => h) start calls
  have hm : buildGrammar (max N fuel) start calls = .ok (.ok g) := by
    rw [grammar_builder_records] at h ⊢
    exact Grammar.new_mono (by omega) h
  rcases hN (max N fuel) (by omega) with ⟨h1, -⟩ | ⟨e, e', h1, -⟩ | ⟨g₁, g', h1, h2, h3⟩
  · rw [hm] at h1; cases h1
  · rw [hm] at h1; cases h1
  · rw [hm] at h1; cases h1
    exact ⟨g', ⟨_, _, _, h2⟩, h3⟩

variable {addr : StartNonTerminal NT → Nat → Nat} {g' : Grammar T NT AK' AV} {f : AK → AK'}

theorem keyRen_addrInj (hr : g.RenamedTo (keyRen T NT AV f) g') (ha : AddrInj g.wrapped addr) :
    AddrInj g'.wrapped addr := by
  intro p' hp' q' hq' he
  obtain ⟨p, hp, rfl⟩ := (hr.wrapped.prods p').1 hp'
  obtain ⟨q, hq, rfl⟩ := (hr.wrapped.prods q').1 hq'
  simp only [Renaming.prod, keyRen_start_nonterm] at he ⊢
  exact ha p hp q hq he

theorem keyRen_addrPlaced (hr : g.RenamedTo (keyRen T NT AV f) g') (ha : AddrPlaced g.wrapped addr) :
    AddrPlaced g'.wrapped addr := by
  obtain ⟨base, size, h0, h1, h2⟩ := ha
  refine ⟨base, size, h0, ?_, ?_⟩
  · intro p' hp'
    obtain ⟨p, hp, rfl⟩ := (hr.wrapped.prods p').1 hp'
    simp only [Renaming.prod, keyRen_start_nonterm]
    exact h1 p hp
  · intro r hr1 r' hr2 hne
    obtain ⟨q, hq, rfl⟩ := (hr.wrapped.2 r).1 hr1
    obtain ⟨q', hq', rfl⟩ := (hr.wrapped.2 r').1 hr2
    simp only [Renaming.rule, keyRen_start_nonterm, List.length_map] at hne ⊢
    exact h2 q hq q' hq' hne

mutual
theorem IsTree.keyed {g' : Grammar T NT AK' AV} {f : AK → AK'} (hr : g.RenamedTo (keyRen T NT AV f) g')
    {e : Elem T NT} : {d : DTree (Token T V) (Prod T NT AK AV)} →
    IsTree g (·.kind) e d → IsTree g' (·.kind) e (d.mapNodes (keyRen T NT AV f).prod)
  | _, .leaf l => by
    rw [DTree.mapNodes]
    exact IsTree.leaf (kind := fun t : Token T V => t.kind) l
  | _, .node p cs hp hc => by
    rw [DTree.mapNodes]
    have hh : Elem.nonterm (T := T) p.head = .nonterm ((keyRen T NT AV f).prod p).head := rfl
    rw [hh]
    exact .node ((keyRen T NT AV f).prod p) _ ((hr.prods _).2 ⟨p, hp, rfl⟩)
      (by rw [keyRen_elements]; exact IsForest.keyed hr hc)
theorem IsForest.keyed {g' : Grammar T NT AK' AV} {f : AK → AK'} (hr : g.RenamedTo (keyRen T NT AV f) g')
    {es : List (Elem T NT)} : {cs : List (DTree (Token T V) (Prod T NT AK AV))} →
    IsForest g (·.kind) es cs → IsForest g' (·.kind) es (DTree.mapNodesAll (keyRen T NT AV f).prod cs)
  | _, .nil => by rw [DTree.mapNodesAll]; exact .nil
  | _, .cons hc hcs => by rw [DTree.mapNodesAll]; exact .cons (IsTree.keyed hr hc) (IsForest.keyed hr hcs)
end

mutual
theorem IsTree.unkeyed {g' : Grammar T NT AK' AV} {f : AK → AK'} (hr : g.RenamedTo (keyRen T NT AV f) g')
    {e : Elem T NT} : {d' : DTree (Token T V) (Prod T NT AK' AV)} →
    IsTree g' (·.kind) e d' → ∃ d : DTree (Token T V) (Prod T NT AK AV), IsTree g (·.kind) e d ∧
      d.mapNodes (keyRen T NT AV f).prod = d'
  | _, .leaf l => ⟨.leaf l, IsTree.leaf (kind := fun t : Token T V => t.kind) l, rfl⟩
  | _, .node p' cs' hp hc => by
    obtain ⟨p, hp0, rfl⟩ := (hr.prods p').1 hp
    rw [keyRen_elements] at hc
    obtain ⟨cs, h1, h2⟩ := IsForest.unkeyed hr hc
    exact ⟨.node p cs, .node p cs hp0 h1, by rw [DTree.mapNodes, h2]⟩
theorem IsForest.unkeyed {g' : Grammar T NT AK' AV} {f : AK → AK'} (hr : g.RenamedTo (keyRen T NT AV f) g')
    {es : List (Elem T NT)} : {cs' : List (DTree (Token T V) (Prod T NT AK' AV))} →
    IsForest g' (·.kind) es cs' → ∃ cs : List (DTree (Token T V) (Prod T NT AK AV)),
      IsForest g (·.kind) es cs ∧ DTree.mapNodesAll (keyRen T NT AV f).prod cs = cs'
  | _, .nil => ⟨[], .nil, rfl⟩
  | _, .cons hc hcs => by
    obtain ⟨c, h1, h2⟩ := IsTree.unkeyed hr hc
    obtain ⟨cs, h3, h4⟩ := IsForest.unkeyed hr hcs
    exact ⟨c :: cs, .cons h1 h3, by rw [DTree.mapNodesAll, h2, h4]⟩
end

end

mutual
theorem DTree.keyed_key (f : AK → AK') : (d : DTree (Token T V) (Prod T NT AK AV)) →
    (d.mapNodes (keyRen T NT AV f).prod).mapNodes (·.actionKey) = (d.mapNodes (·.actionKey)).renamed id f id
  | .leaf l => rfl
  | .node p cs => by
    simp only [DTree.mapNodes, DTree.renamed, DTree.keyeds_key f cs]
    rfl
theorem DTree.keyeds_key (f : AK → AK') : (cs : List (DTree (Token T V) (Prod T NT AK AV))) →
    DTree.mapNodesAll (·.actionKey) (DTree.mapNodesAll (keyRen T NT AV f).prod cs) =
      DTree.renameds id f id (DTree.mapNodesAll (·.actionKey) cs)
  | [] => rfl
  | c :: cs => by
    simp only [DTree.mapNodesAll, DTree.renameds, DTree.keyed_key f c, DTree.keyeds_key f cs]
end
end

/-! ## Trees under maps -/
mutual
theorem DTree.renamed_comp {T₀ T₁ T₂ A₀ A₁ A₂ V₀ V₁ V₂ : Type} (f : T₀ → T₁) (f' : T₁ → T₂) (k : A₀ → A₁)
    (k' : A₁ → A₂) (v : V₀ → V₁) (v' : V₁ → V₂) : (s : DTree (Token T₀ V₀) A₀) →
    (s.renamed f k v).renamed f' k' v' = s.renamed (f' ∘ f) (k' ∘ k) (v' ∘ v)
  | .leaf _ => rfl
  | .node p cs => by
    simp only [DTree.renamed, DTree.renameds_comp f f' k k' v v' cs]
    rfl
theorem DTree.renameds_comp {T₀ T₁ T₂ A₀ A₁ A₂ V₀ V₁ V₂ : Type} (f : T₀ → T₁) (f' : T₁ → T₂) (k : A₀ → A₁)
    (k' : A₁ → A₂) (v : V₀ → V₁) (v' : V₁ → V₂) : (cs : List (DTree (Token T₀ V₀) A₀)) →
    DTree.renameds f' k' v' (DTree.renameds f k v cs) = DTree.renameds (f' ∘ f) (k' ∘ k) (v' ∘ v) cs
  | [] => rfl
  | c :: cs => by
    simp only [DTree.renameds, DTree.renamed_comp f f' k k' v v' c, DTree.renameds_comp f f' k k' v v' cs]
end

mutual
theorem DTree.exact_inj : (s s' : DTree (Token T V) AK) →
    s.renamed id (ExactKey.mk : AK → ExactKey AK) id = s'.renamed id ExactKey.mk id → s = s'
  | .leaf _, .leaf _, h => by
    simp only [DTree.renamed, DTree.leaf.injEq] at h
    rw [DTree.leaf.injEq]; exact h
  | .leaf _, .node _ _, h => by simp [DTree.renamed] at h
  | .node _ _, .leaf _, h => by simp [DTree.renamed] at h
  | .node k cs, .node k' cs', h => by
    simp only [DTree.renamed, DTree.node.injEq, ExactKey.mk.injEq] at h
    rw [h.1, DTree.exacts_inj cs cs' h.2]
theorem DTree.exacts_inj : (cs cs' : List (DTree (Token T V) AK)) →
    DTree.renameds id (ExactKey.mk : AK → ExactKey AK) id cs = DTree.renameds id ExactKey.mk id cs' → cs = cs'
  | [], [], _ => rfl
  | [], _ :: _, h => by simp [DTree.renameds] at h
  | _ :: _, [], h => by simp [DTree.renameds] at h
  | c :: cs, c' :: cs', h => by
    simp only [DTree.renameds, List.cons.injEq] at h
    rw [DTree.exact_inj c c' h.1, DTree.exacts_inj cs cs' h.2]
end

/-! ## The parse -/
section
variable [Ord T] [Ord NT] [Ord AK] [Ord V] [DecidableEq T] [DecidableEq NT] [TransOrd T] [TransOrd NT]
  [TransOrd AK] [TransOrd V] [LawfulEqOrd T] [LawfulEqOrd NT] [LawfulEqOrd V]
variable {g : Grammar T NT AK AV} {addr : StartNonTerminal NT → Nat → Nat}

theorem parse_exactKeys (hg : g.Accepted) {log : TreeLog T AK V} {w w₁ : World T AK V} {held : List Handle}
    (hist : History log w held) {t fuel : Nat} {toks : List (Token T V)} {n : Node}
    (h : parse addr g.wrapped fuel w t toks = .ok (w₁, some n)) :
    ∃ (g' : Grammar T NT (ExactKey AK) AV) (w' w₁' : World T (ExactKey AK) V), g'.Accepted ∧
      g.RenamedTo (keyRen T NT AV ExactKey.mk) g' ∧ (w' t).WF ∧
      parse addr g'.wrapped fuel w' t toks = .ok (w₁', some n) ∧
      ∀ s, Reads w₁' (s.renamed id ExactKey.mk id) n ↔ Reads w₁ s n := by
  obtain ⟨g', hg', hr⟩ := keyRen_grammar ExactKey.mk hg
  obtain ⟨i', hwf, hx⟩ := history_xrel hist t
  have hw := hg.valid.toWF
  have hws := Grammar.wrapped_wf hw
  have hG : XGrammar g.wrapped g'.wrapped := by
    refine ⟨hr.wrapped.tryGetRule hws (Grammar.wrapped_wf hg'.valid.toWF)
      (fun a b => Renaming.start_nonterm_inj (keyRen_inj _)), hr.wrapped.1, ?_, ?_⟩
    · intro nt r h
      exact ((Grammar.tryGetRule_iff_rules hws).1 h).2
    · intro r h p hp h0
      obtain ⟨h1, h2⟩ := (Grammar.tryGetRule_iff_rules hws).1 h
      have hm : p ∈ g.wrapped.prods := List.mem_flatMap.2 ⟨r, h1, hp⟩
      obtain ⟨q, hq, rfl⟩ := List.mem_map.1 hp
      rcases (mem_wrapped_prods hw).1 hm with e | ⟨q', hq', e⟩
      · rw [← Prod.elements_length, e, startRef_elements] at h0
        simp at h0
      · have : r.head = (liftProd q').head := by rw [← e]
        rw [h2] at this
        cases this
  obtain ⟨I, m, p1, p2, p3⟩ := parse_ok_iff h
  obtain ⟨O, j', e1, h1⟩ := hx.parseInner hG p1
  obtain ⟨w', hw'⟩ : ∃ w' : World T (ExactKey AK) V, w' t = i' := ⟨fun _ => i', rfl⟩
  subst hw'
  refine ⟨g', w', w'.set t j', hg', hr, hwf, ?_, ?_⟩
  · unfold parse
    rw [e1]
    simp only [p3]
  · intro s
    have hn : n.tree = t := by
      cases m with
      | none => cases p3
      | some m => cases p3; rfl
    refine XRel.reads (O := O) (t := t) ?_ s n hn
    rw [p2, World.set_self, World.set_self]
    exact h1

theorem parse_all_trees_keyed (hg : g.Accepted) (ha : AddrInj g.wrapped addr) {log : TreeLog T AK V}
    {w w₁ : World T AK V} {held : List Handle} (hist : History log w held) {t fuel : Nat}
    {toks : List (Token T V)} {n : Node} (h : parse addr g.wrapped fuel w t toks = .ok (w₁, some n))
    {d : DTree (Token T V) (Prod T NT AK AV)} (hd : IsTree g (·.kind) (.nonterm g.startSymbol) d)
    (hy : d.yield = toks) : Reads w₁ (d.mapNodes (·.actionKey)) n := by
  obtain ⟨g', w', w₁', hg', hr, hi, h', hx⟩ := parse_exactKeys hg hist h
  have hs : g'.startSymbol = g.startSymbol := hr.1
  rw [← hx, ← DTree.keyed_key (T := T) (NT := NT) (AV := AV)]
  exact parse_all_trees_of_wf hg'.valid.toWF (keyRen_addrInj hr ha) hi h' (by rw [hs]; exact hd.keyed hr)
    (by rw [DTree.yield_mapNodes, hy])

theorem parse_trees_grammatical_keyed (hg : g.Accepted) (ha : AddrInj g.wrapped addr) {log : TreeLog T AK V}
    {w w₁ : World T AK V} {held : List Handle} (hist : History log w held) {t fuel : Nat}
    {toks : List (Token T V)} {n : Node} (h : parse addr g.wrapped fuel w t toks = .ok (w₁, some n))
    {s : DTree (Token T V) AK} (hs : Reads w₁ s n) :
    ∃ d : DTree (Token T V) (Prod T NT AK AV), IsTree g (·.kind) (.nonterm g.startSymbol) d ∧
      d.mapNodes (·.actionKey) = s ∧ ∀ tok ∈ s.yield, tok ∈ toks := by
  obtain ⟨g', w', w₁', hg', hr, hi, h', hx⟩ := parse_exactKeys hg hist h
  have hst : g'.startSymbol = g.startSymbol := hr.1
  obtain ⟨d', e1, e2, e3⟩ := parse_trees_grammatical_of_wf hg'.valid.toWF (keyRen_addrInj hr ha) hi h' ((hx s).2 hs)
  rw [hst] at e1
  obtain ⟨d, k1, rfl⟩ := IsTree.unkeyed hr e1
  rw [DTree.keyed_key] at e2
  have e4 := DTree.exact_inj _ _ e2
  refine ⟨d, k1, e4, ?_⟩
  rw [← e2, ← DTree.keyed_key (T := T) (NT := NT) (AV := AV), DTree.yield_mapNodes, DTree.yield_mapNodes] at e3
  rw [← e4, DTree.yield_mapNodes]
  exact e3
end
end Bongo
