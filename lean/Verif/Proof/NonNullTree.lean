import Verif.Spec.NonNullTree
import Verif.Proof.NonNull
import Verif.Proof.Tree
import Verif.Spec.Earley
/-! Trees of the non-null grammar and trees of the original. -/
set_option linter.unusedSectionVars false
namespace Bongo
open Std
variable {T NT AK AV L : Type}

/-! ## Productions -/
section origin
variable [Ord NT] [TransOrd NT] [LawfulEqOrd NT]

/-- The transformed productions of a rule, each with the production it was made from. -/
def nnTagged (info : GrammarNullableInfo NT AK) (r : RuleInner T NT AK AV) :
    List (Prod T NT AK AV × ProdInner T NT (NNActionKey AK) (NNActionValue NT AK AV)) :=
  r.prodRefs.flatMap fun p => (if info.prodNullable p then [] else nnVariants info p).map (p, ·)

theorem nnTagged_snd (info : GrammarNullableInfo NT AK) (r : RuleInner T NT AK AV) :
    (nnTagged info r).map (·.2) = nnProds info r := by
  unfold nnTagged nnProds
  rw [List.map_flatMap]
  congr 1; funext p
  rw [List.map_map]
  exact List.map_id _

theorem mem_nnTagged {info : GrammarNullableInfo NT AK} {r : RuleInner T NT AK AV} {x} :
    x ∈ nnTagged info r ↔ x.1 ∈ r.prodRefs ∧ info.prodNullable x.1 ≠ true ∧ x.2 ∈ nnVariants info x.1 := by
  unfold nnTagged
  rw [List.mem_flatMap]
  constructor
  · rintro ⟨p, hp, hx⟩
    obtain ⟨q, hq, rfl⟩ := List.mem_map.1 hx
    split at hq
    · cases hq
    · rename_i hn; exact ⟨hp, hn, hq⟩
  · rintro ⟨h1, h2, h3⟩
    exact ⟨x.1, h1, List.mem_map.2 ⟨x.2, by rw [if_neg h2]; exact h3, rfl⟩⟩

theorem prodRefs_nodup (r : RuleInner T NT AK AV) : r.prodRefs.Nodup := by
  have h : (r.prodRefs.map (·.index)).Nodup := by
    have : r.prodRefs.map (·.index) = List.range r.prods.length := by
      unfold RuleInner.prodRefs
      apply List.ext_getElem <;> simp
    rw [this]; exact List.nodup_range
  exact h.of_map

theorem nnTagged_nodup (info : GrammarNullableInfo NT AK) (r : RuleInner T NT AK AV) :
    ((nnTagged info r).map fun x => (x.1, x.2.actionKey)).Nodup := by
  have h := prodRefs_nodup r
  unfold nnTagged
  generalize r.prodRefs = ps at h
  induction ps with
  | nil => simp
  | cons p ps ih =>
    rw [List.nodup_cons] at h
    rw [List.flatMap_cons, List.map_append, List.nodup_append]
    refine ⟨?_, ih h.2, ?_⟩
    · rw [List.map_map]
      have : ((if info.prodNullable p then [] else nnVariants info p).map (·.actionKey)).Nodup := by
        split
        · simp
        · exact nnVariants_keys info p
      have h2 := this.map_on (f := fun k => (p, k)) (by intro x _ y _ h; cases h; rfl)
      rw [List.map_map] at h2
      exact h2
    · intro a h1 b h2 heq
      subst heq
      obtain ⟨x, hx, rfl⟩ := List.mem_map.1 h1
      obtain ⟨q, -, rfl⟩ := List.mem_map.1 hx
      obtain ⟨y, hy, hxy⟩ := List.mem_map.1 h2
      obtain ⟨p', hp', hy⟩ := List.mem_flatMap.1 hy
      obtain ⟨q', -, rfl⟩ := List.mem_map.1 hy
      simp only [_root_.Prod.mk.injEq] at hxy
      rw [hxy.1] at hp'
      exact h.1 hp'

/-- Every production of the non-null grammar has a production it was made from; that production and
the choice determine it; and every choice for every production that cannot vanish is there. -/
theorem nn_origin {fuel : Nat} {addr : NT → Nat → Nat} {g : Grammar T NT AK AV} (h : g.WF)
    (ha : AddrInj g addr) {info : GrammarNullableInfo NT AK}
    (hn : calculateNullables fuel addr g = .ok (.ok info)) :
    ∃ origin : NNProd T NT AK AV → Prod T NT AK AV,
      (∀ p' ∈ (nnGrammar info g).prods, origin p' ∈ g.prods ∧ (origin p').head = p'.head ∧
        ¬ g.cfg.Derives (origin p').elements [] ∧
        p'.actionKey.action = (origin p').actionKey ∧
        p'.actionValue.parentValue = (origin p').actionValue ∧
        ∃ d, Choice (fun A => g.cfg.Generates A []) (origin p').prodElements
          p'.actionKey.ntNullableStates p'.prodElements d) ∧
      (∀ p' ∈ (nnGrammar info g).prods, ∀ q' ∈ (nnGrammar info g).prods, origin p' = origin q' →
        p'.actionKey.ntNullableStates = q'.actionKey.ntNullableStates → p' = q') ∧
      (∀ p ∈ g.prods, ¬ g.cfg.Derives p.elements [] → ∀ c k d,
        Choice (fun A => g.cfg.Generates A []) p.prodElements c k d →
        ∃ p' ∈ (nnGrammar info g).prods, origin p' = p ∧ p'.actionKey.ntNullableStates = c ∧
          p'.prodElements = k) := by
  classical
  have hcg : (fun A => info.getNullableAction A ≠ none) = fun A => g.cfg.Generates A [] := by
    funext A
    exact propext (getNullableAction_iff h ha hn A)
  have hw' := nnGrammar_wf (info := info) h
  -- the entry a production refers to
  have hentry : ∀ p' ∈ (nnGrammar info g).prods, ∃ r x, g.tryGetRule p'.head = some r ∧
      (nnTagged info r)[p'.index]? = some x ∧ x.2 = p'.inner := by
    intro p' hp'
    obtain ⟨r', h1, h2⟩ := (Grammar.mem_prods hw').1 hp'
    obtain ⟨r, hr, rfl⟩ := (nn_tryGetRule h _ _).1 h1
    simp only [← nnTagged_snd, List.getElem?_map] at h2
    obtain ⟨x, hx, hx2⟩ := Option.map_eq_some_iff.1 h2
    exact ⟨r, x, hr, hx, hx2⟩
  refine ⟨fun p' => match g.tryGetRule p'.head with
    | some r => match (nnTagged info r)[p'.index]? with
      | some x => x.1
      | none => ⟨p'.head, 0, ⟨p'.actionKey.action, p'.actionValue.parentValue, []⟩⟩
    | none => ⟨p'.head, 0, ⟨p'.actionKey.action, p'.actionValue.parentValue, []⟩⟩, ?_, ?_, ?_⟩
  · intro p' hp'
    obtain ⟨r, x, hr, hx, hx2⟩ := hentry p' hp'
    simp only [hr, hx]
    obtain ⟨h1, h2, h3⟩ := mem_nnTagged.1 (List.mem_of_getElem? hx)
    obtain ⟨a1, a2⟩ := (Grammar.mem_prods_of_rule h hr).1 h1
    obtain ⟨c, k, d, hc, hq⟩ := mem_nnVariants.1 h3
    rw [hcg] at hc
    rw [hx2] at hq
    refine ⟨a1, a2, fun hd => h2 ((prodNullable_iff h ha hn _).2 hd), ?_, ?_, d, ?_⟩
    · show p'.inner.actionKey.action = _; rw [hq]
    · show p'.inner.actionValue.parentValue = _; rw [hq]
    · show Choice _ _ p'.inner.actionKey.ntNullableStates p'.inner.elements d
      rw [hq]; exact hc
  · intro p' hp' q' hq' ho hk
    obtain ⟨r, x, hr, hx, hx2⟩ := hentry p' hp'
    obtain ⟨s, y, hs, hy, hy2⟩ := hentry q' hq'
    simp only [hr, hs, hx, hy] at ho
    obtain ⟨h1, h2, h3⟩ := mem_nnTagged.1 (List.mem_of_getElem? hx)
    obtain ⟨b1, b2, b3⟩ := mem_nnTagged.1 (List.mem_of_getElem? hy)
    have hh1 := ((Grammar.mem_prods_of_rule h hr).1 h1).2
    have hh2 := ((Grammar.mem_prods_of_rule h hs).1 b1).2
    have hhead : p'.head = q'.head := by rw [← hh1, ← hh2, ho]
    rw [hhead, hs] at hr
    cases hr
    obtain ⟨c, k, d, -, e1⟩ := mem_nnVariants.1 h3
    obtain ⟨c', k', d', -, e2⟩ := mem_nnVariants.1 b3
    have hc1 : p'.actionKey.ntNullableStates = c := by
      show p'.inner.actionKey.ntNullableStates = c; rw [← hx2, e1]
    have hc2 : q'.actionKey.ntNullableStates = c' := by
      show q'.inner.actionKey.ntNullableStates = c'; rw [← hy2, e2]
    have hkey : (x.1, x.2.actionKey) = (y.1, y.2.actionKey) := by
      rw [e1, e2, ho, ← hc1, ← hc2, hk]
    have hi : p'.index = q'.index := by
      have hnd := nnTagged_nodup info r
      obtain ⟨hl1, e1⟩ := List.getElem?_eq_some_iff.1 hx
      obtain ⟨hl2, e2⟩ := List.getElem?_eq_some_iff.1 hy
      have := (List.Nodup.getElem_inj_iff hnd (i := p'.index) (j := q'.index)
        (hi := by simpa using hl1) (hj := by simpa using hl2)).1 (by
          rw [List.getElem_map, List.getElem_map, e1, e2]; exact hkey)
      exact this
    exact Grammar.prod_ext hw' hp' hq' hhead hi
  · intro p hp hnd c k d hc
    obtain ⟨r, h1, h2⟩ := (Grammar.mem_prods h).1 hp
    have hv : (⟨⟨p.actionKey, c⟩, ⟨p.actionValue, argsOf info [] d⟩, k⟩ :
        ProdInner T NT (NNActionKey AK) (NNActionValue NT AK AV)) ∈ nnVariants info p :=
      mem_nnVariants.2 ⟨c, k, d, by rw [hcg]; exact hc, rfl⟩
    have hm := (mem_nnTagged (x := (p, (⟨⟨p.actionKey, c⟩, ⟨p.actionValue, argsOf info [] d⟩, k⟩ :
        ProdInner T NT (NNActionKey AK) (NNActionValue NT AK AV))))).2 ⟨(Grammar.mem_prods_of_rule h h1).2 ⟨hp, rfl⟩,
      fun hd => hnd ((prodNullable_iff h ha hn p).1 hd), hv⟩
    obtain ⟨i, hi, he⟩ := List.mem_iff_getElem.1 hm
    have hget : (nnTagged info r)[i]? = some (p, _) := List.getElem?_eq_some_iff.2 ⟨hi, he⟩
    refine ⟨⟨p.head, i, ⟨⟨p.actionKey, c⟩, ⟨p.actionValue, argsOf info [] d⟩, k⟩⟩, ?_, ?_, rfl, rfl⟩
    · rw [Grammar.mem_prods hw']
      refine ⟨_, (nn_tryGetRule h _ _).2 ⟨r, h1, rfl⟩, ?_⟩
      show (nnProds info r)[i]? = _
      rw [← nnTagged_snd, List.getElem?_map, hget]; rfl
    · simp only [h1, hget]
end origin

/-! ## Refilling -/
section refill
variable {g : Grammar T NT AK AV} {kind : L → T} (nullTree : NT → DTree L (Prod T NT AK AV))

def refill : List (ProdElement T NT) → List Bool → List (DTree L (Prod T NT AK AV)) →
    List (DTree L (Prod T NT AK AV))
  | ⟨_, .term _⟩ :: es, c, d :: ds => d :: refill es c ds
  | ⟨_, .nonterm _⟩ :: es, false :: c, d :: ds => d :: refill es c ds
  | ⟨_, .nonterm A⟩ :: es, true :: c, ds => nullTree A :: refill es c ds
  | _, _, _ => []

variable (origin : NNProd T NT AK AV → Prod T NT AK AV)
mutual
def restore : DTree L (NNProd T NT AK AV) → DTree L (Prod T NT AK AV)
  | .leaf l => .leaf l
  | .node p cs => .node (origin p) (refill nullTree (origin p).prodElements p.actionKey.ntNullableStates
      (restoreAll cs))
def restoreAll : List (DTree L (NNProd T NT AK AV)) → List (DTree L (Prod T NT AK AV))
  | [] => []
  | d :: ds => restore d :: restoreAll ds
end

theorem restoreAll_eq (cs : List (DTree L (NNProd T NT AK AV))) :
    restoreAll nullTree origin cs = cs.map (restore nullTree origin) := by
  induction cs with
  | nil => rfl
  | cons c cs ih => rw [restoreAll, ih]; rfl

variable {nullTree}
theorem refill_spec {nul : NT → Prop} (hnull : ∀ A, nul A → IsTree g kind (.nonterm A) (nullTree A) ∧
      (nullTree A).yield = [])
    {es c k d} (hc : Choice (T := T) nul es c k d) {ds : List (DTree L (Prod T NT AK AV))}
    (hl : ds.length = k.length) : Refilled g kind es c ds (refill nullTree es c ds) := by
  induction hc generalizing ds with
  | nil => cases ds with
    | nil => exact .nil
    | cons => simp at hl
  | term id t _ ih => cases ds with
    | nil => simp at hl
    | cons x ds => exact .term id t x (ih (by simpa using hl))
  | nonNull id A _ ih => cases ds with
    | nil => simp at hl
    | cons x ds => exact .nonNull id A x (ih (by simpa using hl))
  | null id A hA _ ih =>
    exact .null id A _ (hnull A hA).1 (hnull A hA).2 (ih hl)

theorem Refilled.forest {nul : NT → Prop} {es c ds full} (hr : Refilled g kind es c ds full) {k d}
    (hc : Choice (T := T) nul es c k d) (hf : IsForest g kind (k.map (·.element)) ds) :
    IsForest g kind (es.map (·.element)) full ∧ DTree.yields full = DTree.yields ds := by
  induction hr generalizing k d with
  | nil => exact ⟨.nil, rfl⟩
  | term id t x _ ih =>
    cases hc with
    | term _ _ hc =>
      cases hf with
      | cons h1 h2 =>
        obtain ⟨a, b⟩ := ih hc h2
        exact ⟨.cons h1 a, by rw [DTree.yields, DTree.yields, b]⟩
  | nonNull id A x _ ih =>
    cases hc with
    | nonNull _ _ hc =>
      cases hf with
      | cons h1 h2 =>
        obtain ⟨a, b⟩ := ih hc h2
        exact ⟨.cons h1 a, by rw [DTree.yields, DTree.yields, b]⟩
  | null id A n h1 h2 _ ih =>
    cases hc with
    | null _ _ _ hc =>
      obtain ⟨a, b⟩ := ih hc hf
      exact ⟨.cons h1 a, by rw [DTree.yields, h2, b]; rfl⟩

theorem Refilled.mem {es c ds full} (hr : Refilled g kind es c ds full) :
    ∀ x ∈ full, x ∈ ds ∨ ∃ A, IsTree g kind (.nonterm A) x ∧ x.yield = [] := by
  induction hr with
  | nil => intro x hx; cases hx
  | term id t d _ ih =>
    intro x hx
    rcases List.mem_cons.1 hx with rfl | hx
    · exact Or.inl (List.mem_cons_self ..)
    · rcases ih x hx with h | h
      · exact Or.inl (List.mem_cons_of_mem _ h)
      · exact Or.inr h
  | nonNull id A d _ ih =>
    intro x hx
    rcases List.mem_cons.1 hx with rfl | hx
    · exact Or.inl (List.mem_cons_self ..)
    · rcases ih x hx with h | h
      · exact Or.inl (List.mem_cons_of_mem _ h)
      · exact Or.inr h
  | null id A n h1 h2 _ ih =>
    intro x hx
    rcases List.mem_cons.1 hx with rfl | hx
    · exact Or.inr ⟨A, h1, h2⟩
    · exact ih x hx

/-- If what is kept is never empty, the full list of children determines the choice and what is
kept. -/
theorem Refilled.inj {es c ds full} (hr : Refilled g kind es c ds full) {c' ds'}
    (hr' : Refilled g kind es c' ds' full) (h : ∀ d ∈ ds, d.yield ≠ [])
    (h' : ∀ d ∈ ds', d.yield ≠ []) : c = c' ∧ ds = ds' := by
  induction hr generalizing c' ds' with
  | nil => cases hr'; exact ⟨rfl, rfl⟩
  | term id t d _ ih =>
    cases hr' with
    | term _ _ _ hr' =>
      obtain ⟨a, b⟩ := ih hr' (fun x hx => h x (List.mem_cons_of_mem _ hx))
        (fun x hx => h' x (List.mem_cons_of_mem _ hx))
      exact ⟨a, by rw [b]⟩
  | nonNull id A d _ ih =>
    cases hr' with
    | nonNull _ _ _ hr' =>
      obtain ⟨a, b⟩ := ih hr' (fun x hx => h x (List.mem_cons_of_mem _ hx))
        (fun x hx => h' x (List.mem_cons_of_mem _ hx))
      exact ⟨by rw [a], by rw [b]⟩
    | null _ _ _ h1 h2 => exact absurd h2 (h _ (List.mem_cons_self ..))
  | null id A n h1 h2 _ ih =>
    cases hr' with
    | nonNull _ _ _ hr' => exact absurd h2 (h' _ (List.mem_cons_self ..))
    | null _ _ _ h1 h2 hr' =>
      obtain ⟨a, b⟩ := ih hr' h h'
      exact ⟨by rw [a], b⟩

theorem IsForest.length_eq {es : List (Elem T NT)} {cs : List (DTree L (Prod T NT AK AV))}
    (h : IsForest g kind es cs) : cs.length = es.length := by
  induction cs generalizing es with
  | nil => cases h; rfl
  | cons c cs ih => cases h with | cons _ h2 => simp [ih h2]
end refill

/-! ## Trees -/
section trees
variable [Ord NT] [TransOrd NT] [LawfulEqOrd NT]

mutual
theorem solid_of_empty (g : Grammar T NT AK AV) : (d : DTree L (Prod T NT AK AV)) → d.yield = [] → Solid g d
  | .leaf l, h => by simp [DTree.yield] at h
  | .node p cs, h => by
    rw [DTree.yield] at h
    exact .node p cs (fun hne => absurd h hne) (solids_of_empty g cs h)
theorem solids_of_empty (g : Grammar T NT AK AV) : (cs : List (DTree L (Prod T NT AK AV))) →
    DTree.yields cs = [] → ∀ c ∈ cs, Solid g c
  | [], _ => by intro c hc; cases hc
  | d :: ds, h => by
    rw [DTree.yields, List.append_eq_nil_iff] at h
    have h0 := solid_of_empty g d h.1
    intro c hc
    rcases List.mem_cons.1 hc with rfl | hc
    · exact h0
    · exact solids_of_empty g ds h.2 c hc
end

/-- What the production map must satisfy. -/
structure IsOrigin (g : Grammar T NT AK AV) (g' : NonNullGrammar T NT AK AV)
    (origin : NNProd T NT AK AV → Prod T NT AK AV) : Prop where
  ok : ∀ p' ∈ g'.prods, origin p' ∈ g.prods ∧ (origin p').head = p'.head ∧
        ¬ g.cfg.Derives (origin p').elements [] ∧
        p'.actionKey.action = (origin p').actionKey ∧
        p'.actionValue.parentValue = (origin p').actionValue ∧
        ∃ d, Choice (fun A => g.cfg.Generates A []) (origin p').prodElements
          p'.actionKey.ntNullableStates p'.prodElements d
  inj : ∀ p' ∈ g'.prods, ∀ q' ∈ g'.prods, origin p' = origin q' →
        p'.actionKey.ntNullableStates = q'.actionKey.ntNullableStates → p' = q'
  surj : ∀ p ∈ g.prods, ¬ g.cfg.Derives p.elements [] → ∀ c k d,
        Choice (fun A => g.cfg.Generates A []) p.prodElements c k d →
        ∃ p' ∈ g'.prods, origin p' = p ∧ p'.actionKey.ntNullableStates = c ∧ p'.prodElements = k

variable {g : Grammar T NT AK AV} {g' : NonNullGrammar T NT AK AV} {kind : L → T}
  {nullTree : NT → DTree L (Prod T NT AK AV)} {origin : NNProd T NT AK AV → Prod T NT AK AV}

mutual
theorem restore_tree (ho : IsOrigin g g' origin)
    (hnull : ∀ A, g.cfg.Generates A [] → IsTree g kind (.nonterm A) (nullTree A) ∧
      (nullTree A).yield = []) {e : Elem T NT} : {d : DTree L (NNProd T NT AK AV)} →
    IsTree g' kind e d → IsTree g kind e (restore nullTree origin d) ∧
      (restore nullTree origin d).yield = d.yield ∧ Solid g (restore nullTree origin d)
  | _, .leaf l => ⟨.leaf l, rfl, .leaf l⟩
  | _, .node p cs hp hf => by
    obtain ⟨h1, h2, h3, -, -, d, hc⟩ := ho.ok p hp
    obtain ⟨a, b, c⟩ := restore_forest ho hnull hf
    have hr := refill_spec (g := g) (kind := kind) hnull hc (ds := restoreAll nullTree origin cs)
      (by rw [a.length_eq]; exact List.length_map _)
    obtain ⟨f1, f2⟩ := hr.forest hc a
    refine ⟨?_, ?_, ?_⟩
    · rw [restore, ← h2]
      exact .node _ _ h1 f1
    · rw [restore, DTree.yield, f2, b]; rfl
    · rw [restore]
      refine .node _ _ (fun _ => h3) ?_
      intro x hx
      rcases hr.mem x hx with hx | ⟨A, -, hx⟩
      · exact c x hx
      · exact solid_of_empty g x hx
theorem restore_forest (ho : IsOrigin g g' origin)
    (hnull : ∀ A, g.cfg.Generates A [] → IsTree g kind (.nonterm A) (nullTree A) ∧
      (nullTree A).yield = []) {es : List (Elem T NT)} : {ds : List (DTree L (NNProd T NT AK AV))} →
    IsForest g' kind es ds → IsForest g kind es (restoreAll nullTree origin ds) ∧
      DTree.yields (restoreAll nullTree origin ds) = DTree.yields ds ∧
      ∀ x ∈ restoreAll nullTree origin ds, Solid g x
  | _, .nil => ⟨.nil, rfl, by intro x hx; cases hx⟩
  | _, .cons h1 h2 => by
    obtain ⟨a, b, c⟩ := restore_tree ho hnull h1
    obtain ⟨a', b', c'⟩ := restore_forest ho hnull h2
    refine ⟨.cons a a', ?_, ?_⟩
    · rw [restoreAll, DTree.yields, b, b']; rfl
    · rw [restoreAll]
      intro x hx
      rcases List.mem_cons.1 hx with rfl | hx
      · exact c
      · exact c' x hx
end

theorem IsForest.each {g : Grammar T NT AK AV} {es : List (Elem T NT)}
    {cs : List (DTree L (Prod T NT AK AV))} (h : IsForest g kind es cs) :
    ∀ c ∈ cs, ∃ e, IsTree g kind e c := by
  induction cs generalizing es with
  | nil => intro c hc; cases hc
  | cons c cs ih =>
    cases h with
    | cons h1 h2 =>
      intro x hx
      rcases List.mem_cons.1 hx with rfl | hx
      · exact ⟨_, h1⟩
      · exact ih h2 x hx

mutual
theorem restore_inj (ho : IsOrigin g g' origin)
    (hnull : ∀ A, g.cfg.Generates A [] → IsTree g kind (.nonterm A) (nullTree A) ∧
      (nullTree A).yield = [])
    (hne : ∀ (e : Elem T NT) (d : DTree L (NNProd T NT AK AV)), IsTree g' kind e d → d.yield ≠ []) :
    (d₁ d₂ : DTree L (NNProd T NT AK AV)) → {e₁ e₂ : Elem T NT} → IsTree g' kind e₁ d₁ →
      IsTree g' kind e₂ d₂ → restore nullTree origin d₁ = restore nullTree origin d₂ → d₁ = d₂
  | .leaf l, .leaf m, _, _, _, _, h => by rw [restore, restore] at h; cases h; rfl
  | .leaf l, .node p cs, _, _, _, _, h => by rw [restore, restore] at h; cases h
  | .node p cs, .leaf l, _, _, _, _, h => by rw [restore, restore] at h; cases h
  | .node p cs, .node q ds, _, _, h1, h2, h => by
    rw [restore, restore] at h
    injection h with h3 h4
    cases h1 with
    | node _ _ hp hf =>
    cases h2 with
    | node _ _ hq hg =>
    obtain ⟨-, -, -, -, -, d, hc⟩ := ho.ok p hp
    obtain ⟨-, -, -, -, -, d', hc'⟩ := ho.ok q hq
    obtain ⟨a, b, -⟩ := restore_forest ho hnull hf
    obtain ⟨a', b', -⟩ := restore_forest ho hnull hg
    have hr := refill_spec (g := g) (kind := kind) hnull hc (ds := restoreAll nullTree origin cs)
      (by rw [a.length_eq]; exact List.length_map _)
    have hr' := refill_spec (g := g) (kind := kind) hnull hc' (ds := restoreAll nullTree origin ds)
      (by rw [a'.length_eq]; exact List.length_map _)
    have key : ∀ {es} {xs : List (DTree L (NNProd T NT AK AV))}, IsForest g' kind es xs →
        ∀ y ∈ restoreAll nullTree origin xs, y.yield ≠ [] := by
      intro es xs hxs y hy
      rw [restoreAll_eq] at hy
      obtain ⟨x, hx, rfl⟩ := List.mem_map.1 hy
      obtain ⟨e, he⟩ := hxs.each x hx
      rw [(restore_tree ho hnull he).2.1]
      exact hne e x he
    rw [h4, h3] at hr
    obtain ⟨e1, e2⟩ := hr.inj hr' (key hf) (key hg)
    have hpq := ho.inj p hp q hq h3 e1
    subst hpq
    rw [restores_inj ho hnull hne cs ds hf hg e2]
theorem restores_inj (ho : IsOrigin g g' origin)
    (hnull : ∀ A, g.cfg.Generates A [] → IsTree g kind (.nonterm A) (nullTree A) ∧
      (nullTree A).yield = [])
    (hne : ∀ (e : Elem T NT) (d : DTree L (NNProd T NT AK AV)), IsTree g' kind e d → d.yield ≠ []) :
    (c₁ c₂ : List (DTree L (NNProd T NT AK AV))) → {e₁ e₂ : List (Elem T NT)} →
      IsForest g' kind e₁ c₁ → IsForest g' kind e₂ c₂ →
      restoreAll nullTree origin c₁ = restoreAll nullTree origin c₂ → c₁ = c₂
  | [], [], _, _, _, _, _ => rfl
  | [], _ :: _, _, _, _, _, h => by rw [restoreAll, restoreAll] at h; cases h
  | _ :: _, [], _, _, _, _, h => by rw [restoreAll, restoreAll] at h; cases h
  | c :: cs, d :: ds, _, _, h1, h2, h => by
    rw [restoreAll, restoreAll] at h
    injection h with h3 h4
    cases h1 with
    | cons a b =>
    cases h2 with
    | cons a' b' =>
    rw [restore_inj ho hnull hne c d a a' h3, restores_inj ho hnull hne cs ds b b' h4]
end

mutual
theorem restore_surj (hw : g.WF) (hu : NullUnique g) (ho : IsOrigin g g' origin)
    (hnull : ∀ A, g.cfg.Generates A [] → IsTree g kind (.nonterm A) (nullTree A) ∧
      (nullTree A).yield = []) : (d : DTree L (Prod T NT AK AV)) → {e : Elem T NT} →
    IsTree g kind e d → Solid g d → d.yield ≠ [] →
    ∃ d', IsTree g' kind e d' ∧ restore nullTree origin d' = d
  | .leaf l, _, h, _, _ => by cases h; exact ⟨.leaf l, .leaf l, by rw [restore]⟩
  | .node p cs, _, h, hs, hy => by
    cases h with
    | node _ _ hp hf =>
    cases hs with
    | node _ _ h1 h2 =>
    rw [DTree.yield] at hy
    obtain ⟨c, k, d, cs', hc, hf', hr⟩ := restores_surj hw hu ho hnull cs p.prodElements hf h2
    obtain ⟨p', hp', e1, e2, e3⟩ := ho.surj p hp (h1 hy) c k d hc
    refine ⟨.node p' cs', ?_, ?_⟩
    · have hh := (ho.ok p' hp').2.1
      rw [e1] at hh
      rw [hh]
      refine .node p' cs' hp' ?_
      show IsForest g' kind (p'.prodElements.map (·.element)) cs'
      rw [e3]; exact hf'
    · rw [restore, e1, e2, hr]
theorem restores_surj (hw : g.WF) (hu : NullUnique g) (ho : IsOrigin g g' origin)
    (hnull : ∀ A, g.cfg.Generates A [] → IsTree g kind (.nonterm A) (nullTree A) ∧
      (nullTree A).yield = []) : (cs : List (DTree L (Prod T NT AK AV))) →
    (es : List (ProdElement T NT)) → IsForest g kind (es.map (·.element)) cs → (∀ c ∈ cs, Solid g c) →
    ∃ c k d cs', Choice (fun A => g.cfg.Generates A []) es c k d ∧
      IsForest g' kind (k.map (·.element)) cs' ∧
      refill nullTree es c (restoreAll nullTree origin cs') = cs
  | [], [], _, _ => ⟨[], [], [], [], .nil, .nil, rfl⟩
  | [], _ :: _, h, _ => by cases h
  | _ :: _, [], h, _ => by cases h
  | x :: cs, ⟨id, .term t⟩ :: es, h, hs => by
    cases h with
    | cons h1 h2 =>
    obtain ⟨c, k, d, cs', a1, a2, a3⟩ := restores_surj hw hu ho hnull cs es h2
      (fun y hy => hs y (List.mem_cons_of_mem _ hy))
    obtain ⟨x', b1, b2⟩ := restore_surj hw hu ho hnull x h1 (hs x (List.mem_cons_self ..)) (by
      cases h1; simp [DTree.yield])
    exact ⟨c, _, d, x' :: cs', .term id t a1, .cons b1 a2, by rw [restoreAll, refill, a3, b2]⟩
  | x :: cs, ⟨id, .nonterm A⟩ :: es, h, hs => by
    cases h with
    | cons h1 h2 =>
    obtain ⟨c, k, d, cs', a1, a2, a3⟩ := restores_surj hw hu ho hnull cs es h2
      (fun y hy => hs y (List.mem_cons_of_mem _ hy))
    by_cases hx : x.yield = []
    · have hg : g.cfg.Generates A [] := by
        have := h1.yields hw
        rw [hx] at this
        exact Cfg.yields_nonterm_iff.1 this
      refine ⟨true :: c, k, _, cs', .null id A hg a1, a2, ?_⟩
      rw [refill, a3, emptyTree_unique hw hu _ _ (hnull A hg).1 h1 (hnull A hg).2 hx]
    · obtain ⟨x', b1, b2⟩ := restore_surj hw hu ho hnull x h1 (hs x (List.mem_cons_self ..)) hx
      exact ⟨false :: c, _, d, x' :: cs', .nonNull id A a1, .cons b1 a2,
        by rw [restoreAll, refill, a3, b2]⟩
end
end trees

/-! ## Dead ends -/
section dead
variable [Ord NT] [TransOrd NT] [LawfulEqOrd NT]
variable {fuel : Nat} {addr : NT → Nat → Nat} {g : Grammar T NT AK AV} (h : g.WF)
    (ha : AddrInj g addr) {info : GrammarNullableInfo NT AK}
    (hn : calculateNullables fuel addr g = .ok (.ok info))
include h ha hn

/-- What derives a word derives one in the non-null grammar when everything nullable is left out. -/
theorem nn_productive {s w} (hy : g.cfg.Yields s w) :
    ∀ es : List (ProdElement T NT), es.map (·.element) = s →
      ∃ c k d w', Choice (fun A => g.cfg.Generates A []) es c k d ∧
        (nnGrammar info g).cfg.Yields (k.map (·.element)) w' := by
  classical
  induction hy with
  | nil =>
    intro es hes
    have : es = [] := by simpa using hes
    subst this
    exact ⟨[], [], [], [], .nil, .nil⟩
  | term t _ ih =>
    intro es hes
    cases es with
    | nil => cases hes
    | cons e es =>
      obtain ⟨id, el⟩ := e
      simp only [List.map_cons, List.cons.injEq] at hes
      obtain ⟨rfl, hes⟩ := hes
      obtain ⟨c, k, d, w', hc, hy⟩ := ih es hes
      exact ⟨c, _, d, _, .term id t hc, .term t hy⟩
  | @nonterm A β s w₁ w₂ hp _ _ ih1 ih2 =>
    intro es hes
    cases es with
    | nil => cases hes
    | cons e es =>
      obtain ⟨id, el⟩ := e
      simp only [List.map_cons, List.cons.injEq] at hes
      obtain ⟨rfl, hes⟩ := hes
      obtain ⟨c, k, d, w', hc, hy⟩ := ih2 es hes
      by_cases hA : g.cfg.Generates A []
      · exact ⟨_, _, _, _, .null id A hA hc, hy⟩
      · obtain ⟨p, hp', rfl, rfl⟩ := (Grammar.cfg_prod_iff h).1 hp
        obtain ⟨c', k', d', w'', hc', hy'⟩ := ih1 p.prodElements rfl
        have hnd : ¬ g.cfg.Derives p.elements [] := fun hd =>
          hA (Cfg.generates_iff.2 ⟨_, hp, (Cfg.yields_iff (w := [])).2 hd⟩)
        exact ⟨_, _, _, _, .nonNull id _ hc,
          .nonterm ((nn_cfg_prod h ha hn).2 ⟨p, hp', rfl, hnd, c', k', d', hc', rfl⟩) hy' hy⟩

theorem nn_noDeadEnds (hv : (nnGrammar info g).Valid) (hd : g.NoDeadEnds) :
    (nnGrammar info g).NoDeadEnds := by
  let Live : NT → Prop := fun A => ∃ u v, g.cfg.Derives [.nonterm g.startSymbol] (u ++ .nonterm A :: v)
  -- every live nonterminal derives something in the result
  have hprod : ∀ A, Live A → ∃ w, (nnGrammar info g).cfg.Generates A w := by
    rintro A ⟨u, v, hl⟩
    obtain ⟨w, hw⟩ := hd _ hl
    obtain ⟨-, w1, -, -, h1⟩ := (Cfg.yields_iff.2 hw).split
    obtain ⟨w2, -, -, h2, -⟩ := Cfg.yields_cons_nonterm_iff.1 h1
    obtain ⟨β, h3, -⟩ := Cfg.generates_iff.1 h2
    obtain ⟨p0, hp0, rfl, rfl⟩ := (Grammar.cfg_prod_iff h).1 h3
    obtain ⟨r, hr, -⟩ := (Grammar.mem_prods h).1 hp0
    have hr' := (nn_tryGetRule (info := info) h p0.head _).2 ⟨r, hr, rfl⟩
    have hne := hv.nonempty _ _ hr'
    have hex : ∃ β, (nnGrammar info g).cfg.prod p0.head β := by
      cases hps : nnProds info r with
      | nil => exact absurd hps hne
      | cons q qs =>
        exact ⟨_, _, q, (Grammar.tryGetRule_iff hv.toWF).1 hr', by show q ∈ nnProds info r; rw [hps]; simp, rfl⟩
    obtain ⟨β, hβ⟩ := hex
    obtain ⟨p, hp, hph, hnd, -⟩ := (nn_cfg_prod h ha hn).1 hβ
    have hpc := (Grammar.cfg_prod_iff h).2 ⟨p, hp, hph, rfl⟩
    have hl2 : g.cfg.Derives [.nonterm g.startSymbol] (u ++ p.elements ++ v) :=
      Relation.ReflTransGen.tail hl (.mk u v _ _ hpc)
    obtain ⟨w, hw⟩ := hd _ hl2
    obtain ⟨w3, -, -, h4, -⟩ := (Cfg.yields_iff.2 hw).split
    obtain ⟨-, w4, -, -, h5⟩ := h4.split
    obtain ⟨c, k, d, w', hc, hy⟩ := nn_productive h ha hn h5 p.prodElements rfl
    exact ⟨w', Cfg.generates_iff.2 ⟨_, (nn_cfg_prod h ha hn).2 ⟨p, hp, hph, hnd, c, k, d, hc, rfl⟩, hy⟩⟩
  have hform : ∀ γ : List (Elem T NT), (∀ A, Elem.nonterm A ∈ γ → Live A) →
      ∃ w : List T, (nnGrammar info g).cfg.Derives γ (w.map .term) := by
    intro γ
    induction γ with
    | nil => intro _; exact ⟨[], .refl _⟩
    | cons e γ ih =>
      intro hγ
      obtain ⟨w, hw⟩ := ih (fun A hA => hγ A (List.mem_cons_of_mem _ hA))
      cases e with
      | term a => exact ⟨a :: w, Cfg.Derives.append (Cfg.Derives.refl [.term a]) hw⟩
      | nonterm A =>
        obtain ⟨w', hw'⟩ := hprod A (hγ A (List.mem_cons_self ..))
        refine ⟨w' ++ w, ?_⟩
        rw [List.map_append]
        exact Cfg.Derives.append hw' hw
  intro γ hγ
  apply hform
  unfold Cfg.Derives at hγ
  induction hγ with
  | refl =>
    intro A hA
    rw [List.mem_singleton] at hA
    cases hA
    exact ⟨[], [], .refl _⟩
  | tail _ hs ih =>
    cases hs with
    | mk u v A β hp =>
      intro B hB
      simp only [List.mem_append] at hB
      rcases hB with (hB | hB) | hB
      · exact ih B (by simp [hB])
      · obtain ⟨u', v', hl⟩ := ih A (by simp)
        obtain ⟨p, hp', hph, hnd, c, k, d, hc, rfl⟩ := (nn_cfg_prod h ha hn).1 hp
        have hB' : Elem.nonterm B ∈ p.elements := (hc.kept_sublist.map (·.element)).subset hB
        obtain ⟨s, t, hst⟩ := List.append_of_mem hB'
        have hpc := (Grammar.cfg_prod_iff h).2 ⟨p, hp', hph, rfl⟩
        refine ⟨u' ++ s, t ++ v', ?_⟩
        have hl2 : g.cfg.Derives [.nonterm g.startSymbol] (u' ++ p.elements ++ v') :=
          Relation.ReflTransGen.tail hl (.mk u' v' _ _ hpc)
        rw [hst] at hl2
        simpa using hl2
      · exact ih B (by simp [hB])
end dead
end Bongo
