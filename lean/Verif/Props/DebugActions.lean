import Verif.Proof.DebugActions
import Verif.Props.Debug
import Verif.Props.NonNull
import Verif.Props.Nullable
/-!
# C121, C122: what is printed of actions, null trees and errors
-/
set_option linter.unusedSectionVars false
namespace Bongo
open Fmt Std
variable {T NT AK AV : Type}

/-! ## C121: `Debug` -/

/-- Names; not the empty name, whose text is nothing. -/
instance : PlainDbg Name where
  Plain n := (∀ c ∈ n.toList, c ∉ debugReserved) ∧ ∃ c l, n.toList = c :: l ∧ c ≠ ')'
  chars n h := h.1
  first n h := h.2
  inj a b _ _ h := String.ext h
  layout _ _ _ := rfl

instance : PlainDbg Unit where
  Plain _ := True
  chars _ _ := by show ∀ c ∈ ['(', ')'], _; decide
  first _ _ := ⟨'(', [')'], rfl, by decide⟩
  inj _ _ _ _ _ := rfl
  layout _ _ _ := rfl

instance : PlainDbg Bool where
  Plain _ := True
  chars b _ := by cases b <;> (show ∀ c ∈ String.toList _, _; decide)
  first b _ := by cases b; exacts [⟨'f', _, rfl, by decide⟩, ⟨'t', _, rfl, by decide⟩]
  inj a b _ _ h := by revert h; cases a <;> cases b <;> decide
  layout _ _ _ := rfl

/-- The action keys of wrapped grammars. -/
instance [Dbg AK] [PlainDbg AK] : PlainDbg (StartActionKey AK) where
  Plain t := ∀ t', t = .actionKey t' → PlainDbg.Plain t'
  chars t h := match t with
    | .start => by show ∀ c ∈ "Start".toList, _; decide
    | .actionKey t => debugTuple_chars (by decide) (by decide) (PlainDbg.chars t (h t rfl))
  first t _ := match t with
    | .start => ⟨'S', _, rfl, by decide⟩
    | .actionKey t => ⟨'A', _, rfl, by decide⟩
  inj a b ha hb h := match a, b, ha, hb, h with
    | .start, .start, _, _, _ => rfl
    | .start, .actionKey _, _, _, h => absurd (List.cons.inj h).1 (by decide)
    | .actionKey _, .start, _, _, h => absurd (List.cons.inj h).1 (by decide)
    | .actionKey a, .actionKey b, ha, hb, h => congrArg _ (PlainDbg.inj a b (ha a rfl) (hb b rfl) (debugTuple_inj (by decide) h))
  layout t h r := match t with
    | .start => rfl
    | .actionKey t => debugTuple_layout _ _ _ (by decide) (PlainDbg.layout t (h t rfl)) r

/-- The action values of wrapped grammars. -/
instance [Dbg AV] [PlainDbg AV] : PlainDbg (StartActionValue AV) where
  Plain t := ∀ t', t = .actionValue t' → PlainDbg.Plain t'
  chars t h := match t with
    | .start => by show ∀ c ∈ "Start".toList, _; decide
    | .actionValue t => debugTuple_chars (by decide) (by decide) (PlainDbg.chars t (h t rfl))
  first t _ := match t with
    | .start => ⟨'S', _, rfl, by decide⟩
    | .actionValue t => ⟨'A', _, rfl, by decide⟩
  inj a b ha hb h := match a, b, ha, hb, h with
    | .start, .start, _, _, _ => rfl
    | .start, .actionValue _, _, _, h => absurd (List.cons.inj h).1 (by decide)
    | .actionValue _, .start, _, _, h => absurd (List.cons.inj h).1 (by decide)
    | .actionValue a, .actionValue b, ha, hb, h => congrArg _ (PlainDbg.inj a b (ha a rfl) (hb b rfl) (debugTuple_inj (by decide) h))
  layout t h r := match t with
    | .start => rfl
    | .actionValue t => debugTuple_layout _ _ _ (by decide) (PlainDbg.layout t (h t rfl)) r

section
variable [Dbg NT] [Dbg AK] [Dbg AV] [PlainDbg NT] [PlainDbg AK] [PlainDbg AV]

/-- The tidied text of the key of a transformed production. -/
def nNNKey (k : NNActionKey AK) : List Char → List Char :=
  nStruct2 "ActionKey".toList "action".toList "nt_nullable_states".toList nSym (nList nSym)
    (k.action, k.ntNullableStates)

theorem nnKey_reads : ReadsAny (fun k : NNActionKey AK => PlainDbg.Plain k.action) Dbg.fmt nNNKey := by
  have h := (sym_reads AK).struct2Any (sym_reads Bool).list (name := "ActionKey".toList) (w1 := "action".toList)
    (w2 := "nt_nullable_states".toList) ⟨by decide, 'A', _, rfl, by decide⟩ ⟨by decide, 'a', _, rfl, by decide⟩
    ⟨by decide, 'n', _, rfl, by decide⟩
  refine ⟨fun k hk alt => h.tidies (k.action, k.ntNullableStates) ⟨hk, fun _ _ => trivial⟩ alt, fun a b ha hb s t e => ?_⟩
  obtain ⟨e1, e2⟩ := h.uniq (a.action, a.ntNullableStates) (b.action, b.ntNullableStates) ⟨ha, fun _ _ => trivial⟩
    ⟨hb, fun _ _ => trivial⟩ s t e
  cases a; cases b
  simp only [_root_.Prod.mk.injEq] at e1
  exact ⟨by rw [e1.1, e1.2], e2⟩

/-- C121: the text of the key of a transformed production determines the original key and which of its
nonterminals were left out; both texts, `{:?}` and `{:#?}`, also when blanks, line breaks and commas
before closing brackets are ignored. -/
theorem nonnull_key_debug {k k' : NNActionKey AK} (h : PlainDbg.Plain k.action) (h' : PlainDbg.Plain k'.action)
    {alt alt' : Bool} (e : tidy (Dbg.fmt alt k) = tidy (Dbg.fmt alt' k')) : k = k' :=
  nnKey_reads.back.det h h' e

/-- C121: and so does the text of the key of a production that was transformed and then wrapped. -/
theorem wrapped_nonnull_key_debug {k k' : StartActionKey (NNActionKey AK)}
    (h : ∀ a, k = .actionKey a → PlainDbg.Plain a.action) (h' : ∀ a, k' = .actionKey a → PlainDbg.Plain a.action)
    {alt alt' : Bool} (e : tidy (Dbg.fmt alt k) = tidy (Dbg.fmt alt' k')) : k = k' := by
  have hr := (nnKey_reads (AK := AK)).tuple1 (name := "ActionKey".toList) ⟨by decide, 'A', _, rfl, by decide⟩
  have hs : ∀ (a : NNActionKey AK) (b b' : Bool), PlainDbg.Plain a.action →
      tidy (Dbg.fmt b (StartActionKey.start : StartActionKey (NNActionKey AK))) ≠
        tidy (Dbg.fmt b' (StartActionKey.actionKey a)) := by
    intro a b b' ha e
    have e : tidyOn "Start".toList [] = tidyOn (debugTuple b' "ActionKey".toList [Dbg.fmt b' a]) [] := e
    rw [(hr.tidies a ha b').1] at e
    exact absurd (List.cons.inj e).1 (by decide)
  cases k with
  | start =>
    cases k' with
    | start => rfl
    | actionKey a => exact absurd e (hs a _ _ (h' a rfl))
  | actionKey a =>
    cases k' with
    | start => exact absurd e.symm (hs a _ _ (h a rfl))
    | actionKey b => exact congrArg _ (hr.back.det (h a rfl) (h' b rfl) e)

/-- C121: the text of a null tree determines it. -/
theorem null_tree_debug {t t' : TreeNode (ProdKey NT AK)} (h : t.PlainTree) (h' : t'.PlainTree)
    {alt alt' : Bool} (e : tidy (Dbg.fmt alt t) = tidy (Dbg.fmt alt' t')) : t = t' :=
  tree_reads.back.det h h' e

/-- C121: the text of the value of a transformed production determines the original value and the null
trees of the named nonterminals that were left out. -/
theorem nonnull_value_debug {v v' : NNActionValue NT AK AV} (h : v.PlainValue) (h' : v'.PlainValue)
    {alt alt' : Bool} (e : tidy (Dbg.fmt alt v) = tidy (Dbg.fmt alt' v')) : v = v' := by
  have hr := (sym_reads AV).struct2 (tree_reads (NT := NT) (AK := AK)).back.nameMap (name := "ActionValue".toList)
    (w1 := "parent_value".toList) (w2 := "nullable_arguments".toList) ⟨by decide, 'A', _, rfl, by decide⟩
    ⟨by decide, 'p', _, rfl, by decide⟩ ⟨by decide, 'n', _, rfl, by decide⟩
  have := hr.det (a := (v.parentValue, v.nullableArguments)) (b := (v'.parentValue, v'.nullableArguments))
    ⟨h.parent, fun e he => ⟨h.names e he, h.trees e he⟩⟩ ⟨h'.parent, fun e he => ⟨h'.names e he, h'.trees e he⟩⟩ e
  cases v; cases v'
  simp only [_root_.Prod.mk.injEq] at this
  rw [this.1, this.2]

/-- C121: the text of the result of the nullable pass determines it: the nullable nonterminals and their
null trees. -/
theorem nullable_info_debug {i i' : GrammarNullableInfo NT AK} (h : i.PlainInfo) (h' : i'.PlainInfo)
    {alt alt' : Bool} (e : tidy (Dbg.fmt alt i) = tidy (Dbg.fmt alt' i')) : i = i' := by
  have hr := (((tree_reads (NT := NT) (AK := AK)).back.struct1 (name := "NonTermNullableInfo".toList)
    (w := "nullable_action".toList) ⟨by decide, 'N', _, rfl, by decide⟩ ⟨by decide, 'n', _, rfl, by decide⟩).back.symMap (α := NT)).struct1
    (name := "GrammarNullableInfo".toList) (w := "nonterm_info".toList) ⟨by decide, 'G', _, rfl, by decide⟩
    ⟨by decide, 'n', _, rfl, by decide⟩
  have := hr.back.det (a := i.nontermInfo) (b := i'.nontermInfo)
    (fun e he => ⟨h.heads e he, h.trees e he⟩) (fun e he => ⟨h'.heads e he, h'.trees e he⟩) e
  cases i; cases i'
  exact congrArg _ this

/-! ### What the library makes of plain grammars is plain -/
section
variable [Ord T] [TransOrd T] [LawfulEqOrd T] [Ord NT] [TransOrd NT] [LawfulEqOrd NT]
variable {g : Grammar T NT AK AV} {addr : NT → Nat → Nat}

theorem mem_ofList_imp {V : Type} {l : List (Name × V)} {n : Name} {u : V}
    (h : BMap.get? compare (BMap.ofList compare l) n = some u) : (n, u) ∈ l := by
  rw [BMap.get?_ofList] at h
  cases hf : l.reverse.find? (fun kv => compare n kv.1 == .eq) with
  | none => rw [hf] at h; cases h
  | some kv =>
    rw [hf] at h
    cases h
    have h1 := List.find?_some hf
    have h2 := List.mem_of_find?_eq_some hf
    have h3 : n = kv.1 := by simpa using h1
    subst h3
    simpa using h2

theorem mem_namedNonterms' {es : List (ProdElement T NT)} {n : Name} {B : NT}
    (h : (n, B) ∈ namedNonterms es) : ⟨some n, .nonterm B⟩ ∈ es := by
  unfold namedNonterms at h
  obtain ⟨e, he, h2⟩ := List.mem_filterMap.1 h
  obtain ⟨id, el⟩ := e
  cases id <;> cases el <;> simp at h2
  obtain ⟨rfl, rfl⟩ := h2
  exact he

/-- C121: all null trees of a plain grammar are plain. -/
theorem nullable_info_plain (hg : g.Accepted) (ha : AddrInj g addr) (hp : g.PlainActions) {fuel : Nat}
    {info : GrammarNullableInfo NT AK} (h : calculateNullables fuel addr g = .ok (.ok info)) :
    info.PlainInfo := by
  rcases calculateNullables_ok hg.valid.toWF ha h with ⟨-, info', he, hs, -, hn⟩ | ⟨-, he⟩
  case inr => cases he
  cases he
  have key : ∀ k, ∀ A t, BMap.get? compare info.nontermInfo A = some t → sizeOf t ≤ k → t.PlainTree := by
    intro k
    induction k with
    | zero => rintro A ⟨a, ps⟩ - h; simp at h
    | succ k ih =>
      rintro A ⟨a, ps⟩ ht hk
      obtain ⟨p, hq, h1, ts, h2, h3⟩ := hn A _ ht
      have hm : ∀ e ∈ ps, ∃ nB ∈ namedNonterms p.prodElements, nB.1 = e.1 ∧
          BMap.get? compare info.nontermInfo nB.2 = some e.2 := by
        rintro ⟨n, u⟩ he
        change ps = _ at h3
        rw [h3] at he
        have := mem_ofList_imp ((BMap.mem_iff_get? (BMap.sorted_ofList _) n u).1 he)
        generalize namedNonterms p.prodElements = l at h2 this
        clear h3 he
        induction l generalizing ts with
        | nil => simp at this
        | cons x l ihl =>
          cases ts with
          | nil => simp at this
          | cons t ts =>
            simp only [List.map_cons, List.cons.injEq] at h2
            simp only [List.map_cons, List.zip_cons_cons, List.mem_cons] at this
            rcases this with h | h
            · cases h
              exact ⟨x, List.mem_cons_self, rfl, h2.1⟩
            · obtain ⟨y, hy, h4⟩ := ihl ts h2.2 h
              exact ⟨y, List.mem_cons_of_mem _ hy, h4⟩
      refine .mk ?_ (fun e he => ?_) fun e he => ?_
      · change a = p.prodKey at h1
        rw [h1]
        exact ⟨hp.heads p hq.1, hp.keys p hq.1⟩
      · obtain ⟨nB, hnB, h4, -⟩ := hm e he
        rw [← h4]
        exact hp.names p hq.1 _ (mem_namedNonterms' hnB) _ rfl
      · obtain ⟨nB, -, -, h4⟩ := hm e he
        refine ih nB.2 e.2 h4 ?_
        have := List.sizeOf_lt_of_mem he
        have h6 : sizeOf e = 1 + sizeOf e.1 + sizeOf e.2 := by cases e; rfl
        simp at hk
        omega
  refine ⟨fun e he => ?_, fun e he => key _ e.1 e.2 ((BMap.mem_iff_get? hs e.1 e.2).1 he) (Nat.le_refl _)⟩
  obtain ⟨p, hq, -⟩ := hn e.1 e.2 ((BMap.mem_iff_get? hs e.1 e.2).1 he)
  rw [← hq.2.1]
  exact hp.heads p hq.1

theorem Choice.dropped_mem {nullable : NT → Prop} {es : List (ProdElement T NT)} {c k d}
    (h : Choice nullable es c k d) : ∀ e ∈ d, e ∈ es := by
  induction h with
  | nil => simp
  | term id t _ ih => exact fun e he => List.mem_cons_of_mem _ (ih e he)
  | nonNull id A _ ih => exact fun e he => List.mem_cons_of_mem _ (ih e he)
  | null id A _ _ ih =>
    intro e he
    rcases List.mem_cons.1 he with rfl | he
    · exact List.mem_cons_self
    · exact List.mem_cons_of_mem _ (ih e he)

/-- C121: the keys and values of the transformed productions of a plain grammar are plain. -/
theorem nonnull_actions_plain (hg : g.Accepted) (ha : AddrInj g addr) (hp : g.PlainActions) {fuel : Nat}
    {g' : NonNullGrammar T NT AK AV} (h : transformToNonnull fuel addr g = .ok (.ok g')) :
    ∀ p ∈ g'.prods, PlainDbg.Plain p.actionKey.action ∧ p.actionValue.PlainValue := by
  have hwf := hg.valid.toWF
  have hwf' : g'.WF := by
    obtain ⟨info, -, h1, -⟩ := transform_ok hwf h
    rw [h1]
    exact nnGrammar_wf hwf
  obtain ⟨-, info, hn, variants, hr, he, hne⟩ := nonnull_prods_exact g hg addr ha fuel g' h
  have hi := nullable_info_plain hg ha hp hn
  intro p hm
  obtain ⟨r', h1, h2⟩ := (Grammar.mem_prods hwf').1 hm
  obtain ⟨r, h3, rfl⟩ := (hr _ _).1 h1
  obtain ⟨q, hq, hv⟩ := List.mem_flatMap.1 (List.mem_of_getElem? h2)
  have hqg := ((Grammar.mem_prods_of_rule hwf h3).1 hq).1
  by_cases hd : g.cfg.Derives q.elements []
  · rw [he q hd] at hv
    cases hv
  obtain ⟨c, kept, dropped, hc, ha', -, hpv, hsrt, hg'⟩ := ((hne q hd).2.2 _).1 hv
  refine ⟨?_, ?_, fun e hme => ?_, fun e hme => ?_⟩
  · have : p.actionKey = ⟨q.actionKey, c⟩ := ha'
    rw [this]
    exact hp.keys q hqg
  · have : p.actionValue.parentValue = q.actionValue := hpv
    rw [this]
    exact hp.values q hqg
  · obtain ⟨pre, B, post, h5, -⟩ := (hg' e.1 e.2).1 ((BMap.mem_iff_get? hsrt e.1 e.2).1 hme)
    exact hp.names q hqg _ (hc.dropped_mem ⟨some e.1, .nonterm B⟩ (by rw [h5]; simp)) _ rfl
  · obtain ⟨pre, B, post, h5, -, h6⟩ := (hg' e.1 e.2).1 ((BMap.mem_iff_get? hsrt e.1 e.2).1 hme)
    obtain ⟨B', h7, -⟩ := BMap.get?_mem h6
    exact hi.trees _ h7
end
end

/-- The hypotheses are met: `nullExample` and `nonnullExample` are plain, their names being numbers. -/
theorem nullExample_plainActions : nullExample.PlainActions := by
  refine ⟨fun _ _ => trivial, fun _ _ => trivial, fun _ _ => trivial, ?_⟩
  have h : ∀ p ∈ nullExample.prods, ∀ e ∈ p.prodElements, ∀ n ∈ e.identifier,
      ∀ c ∈ n.toList, c ∉ ')' :: debugReserved := by decide +kernel
  exact fun p hp e he n hn => h p hp e he n hn

theorem nonnullExample_plainActions : nonnullExample.PlainActions := by
  refine ⟨fun _ _ => trivial, fun _ _ => trivial, fun _ _ => trivial, ?_⟩
  have h : ∀ p ∈ nonnullExample.prods, ∀ e ∈ p.prodElements, ∀ n ∈ e.identifier,
      ∀ c ∈ n.toList, c ∉ ')' :: debugReserved := by decide +kernel
  exact fun p hp e he n hn => h p hp e he n hn

/-- What the pass says of `nullExample`, as text. -/
example : ∃ info, calculateNullables 9 exampleAddr nullExample = .ok (.ok info) ∧ info.PlainInfo ∧
    Dbg.fmt false info = ("GrammarNullableInfo { nonterm_info: {0: NonTermNullableInfo { nullable_action: " ++
      "TreeNode { action_name: ProdKey { head: 0, action_key: 1 }, params: {" ++
      "x: Node(TreeNode { action_name: ProdKey { head: 1, action_key: 3 }, params: {} }), " ++
      "y: Node(TreeNode { action_name: ProdKey { head: 1, action_key: 3 }, params: {} })} } }, " ++
      "1: NonTermNullableInfo { nullable_action: " ++
      "TreeNode { action_name: ProdKey { head: 1, action_key: 3 }, params: {} } }} }").toList := by
  have h : calculateNullables 9 exampleAddr nullExample = .ok (.ok ⟨[(0, .mk ⟨0, 1⟩ [("x", .mk ⟨1, 3⟩ []),
    ("y", .mk ⟨1, 3⟩ [])]), (1, .mk ⟨1, 3⟩ [])]⟩) := by rfl
  exact ⟨_, h, nullable_info_plain nullExample_accepted (exampleAddr_addrInj _) nullExample_plainActions h,
    by decide +kernel⟩

/-- The four productions that the transform makes of `S → x:E y:E 11`, as texts. -/
theorem nonnullExample_texts : ∃ g', transformToNonnull 9 exampleAddr nonnullExample = .ok (.ok g') ∧
    (∀ p ∈ g'.prods, PlainDbg.Plain p.actionKey.action ∧ p.actionValue.PlainValue) ∧
    (g'.prods.take 4).map (fun p => String.ofList (Dbg.fmt false p.actionKey)) =
      ["ActionKey { action: 1, nt_nullable_states: [false, false] }",
       "ActionKey { action: 1, nt_nullable_states: [true, false] }",
       "ActionKey { action: 1, nt_nullable_states: [false, true] }",
       "ActionKey { action: 1, nt_nullable_states: [true, true] }"] ∧
    (g'.prods.drop 1).head?.map (fun p => String.ofList (Dbg.fmt false p.actionValue)) =
      some ("ActionValue { parent_value: (), nullable_arguments: {x: TreeNode { action_name: " ++
        "ProdKey { head: 1, action_key: 3 }, params: {} }} }") := by
  have h : ∃ g', transformToNonnull 9 exampleAddr nonnullExample = .ok (.ok g') ∧
    (g'.prods.take 4).map (fun p => String.ofList (Dbg.fmt false p.actionKey)) =
      ["ActionKey { action: 1, nt_nullable_states: [false, false] }",
       "ActionKey { action: 1, nt_nullable_states: [true, false] }",
       "ActionKey { action: 1, nt_nullable_states: [false, true] }",
       "ActionKey { action: 1, nt_nullable_states: [true, true] }"] ∧
    (g'.prods.drop 1).head?.map (fun p => String.ofList (Dbg.fmt false p.actionValue)) =
      some ("ActionValue { parent_value: (), nullable_arguments: {x: TreeNode { action_name: " ++
        "ProdKey { head: 1, action_key: 3 }, params: {} }} }") :=
    ⟨_, rfl, by decide +kernel, by decide +kernel⟩
  obtain ⟨g', h, h1, h2⟩ := h
  exact ⟨g', h, nonnull_actions_plain nonnullExample_accepted (exampleAddr_addrInj _) nonnullExample_plainActions h,
    h1, h2⟩

/-! ## C122: `ToDoc` of actions, and the errors of the transform -/
section
variable [ToDoc AK] [ToDoc AV]

theorem Doc.prints_nil_append {d : Doc} {f : Bool} {i : Nat} {s : List Char} :
    (Doc.append .nil d).Prints f i s ↔ d.Prints f i s := by
  constructor
  · intro h
    cases h with
    | append h1 h2 =>
      cases h1
      exact h2
  · intro h
    exact .append .nil h

/-- C122: the key of a transformed production is printed like the original key, whatever was left out. -/
theorem printed_nonnull_key (k : NNActionKey AK) (s : List Char) :
    (toDoc k).Layout s ↔ (toDoc k.action).Layout s := Doc.prints_nil_append

/-- C122: the value of a transformed production is printed like the original value, whatever its null
trees are. -/
theorem printed_nonnull_value (v : NNActionValue NT AK AV) (s : List Char) :
    (toDoc v).Layout s ↔ (toDoc v.parentValue).Layout s := Doc.prints_nil_append

/-- C122: the action value `()` is printed as `()`. -/
theorem printed_unit (s : List Char) : (toDoc ()).Layout s ↔ s = ['(', ')'] := by
  constructor
  · intro h
    cases h
    decide
  · rintro rfl
    have h : (toDoc ()).Layout "()".toList := .text
    exact h

/-- C122: wrapped actions are printed like the original ones, and those of the start production as
`<START>`. -/
theorem printed_wrapped_actions (k : AK) (v : AV) (s : List Char) :
    ((toDoc (StartActionKey.actionKey k)).Layout s ↔ (toDoc k).Layout s) ∧
    ((toDoc (StartActionValue.actionValue v)).Layout s ↔ (toDoc v).Layout s) ∧
    ((toDoc (StartActionKey.start : StartActionKey AK)).Layout s ↔ s = "<START>".toList) ∧
    ((toDoc (StartActionValue.start : StartActionValue AV)).Layout s ↔ s = "<START>".toList) := by
  refine ⟨.rfl, .rfl, ⟨fun h => ?_, ?_⟩, ⟨fun h => ?_, ?_⟩⟩
  · cases h; rfl
  · rintro rfl; exact .text
  · cases h; rfl
  · rintro rfl; exact .text
end

section
variable [Ord T] [TransOrd T] [LawfulEqOrd T] [Ord NT] [TransOrd NT] [LawfulEqOrd NT]

/-- C122: when the transform fails, the text of its error says why: that of an ambiguity iff some
nonterminal has two different empty trees; otherwise the grammar that was made is not valid. -/
theorem nonnull_error_text (g : Grammar T NT AK AV) (hg : g.Accepted) (addr : NT → Nat → Nat)
    (ha : AddrInj g addr) :
    let Ambiguous := ∃ (A : NT) (t₁ t₂ : DTree T (Prod T NT AK AV)), t₁ ≠ t₂ ∧
        IsTree g id (.nonterm A) t₁ ∧ IsTree g id (.nonterm A) t₂ ∧
        t₁.yield = [] ∧ t₂.yield = []
    let Kept := fun A B => ∃ p ∈ g.prods, p.head = A ∧ ¬ g.cfg.Derives p.elements [] ∧
      Elem.nonterm B ∈ p.elements
    let Good := (∀ r ∈ g.rules, ∃ p ∈ r.prodRefs, ¬ g.cfg.Derives p.elements []) ∧
      ∀ A B, Kept A B → Relation.TransGen Kept g.startSymbol B
    ∃ N, ∀ fuel, N ≤ fuel →
      ((∃ e, transformToNonnull fuel addr g = .ok (.error e) ∧
        e.display = "found nullable ambiguities in grammar") ↔ Ambiguous) ∧
      ((∃ e, transformToNonnull fuel addr g = .ok (.error e) ∧
        e.display = "Grammar failed to build") ↔ ¬ Ambiguous ∧ ¬ Good) ∧
      ((∃ g', transformToNonnull fuel addr g = .ok (.ok g')) ↔ ¬ Ambiguous ∧ Good) := by
  intro Ambiguous Kept Good
  obtain ⟨N, hN⟩ := nonnull_outcome g hg addr ha
  refine ⟨max N (g.prods.length + 1), fun fuel hf => ?_⟩
  obtain ⟨h1, h2, -⟩ := hN fuel (by omega)
  obtain ⟨h4, h5⟩ := nullable_ambiguity_exact g hg addr ha fuel (by omega)
  by_cases hA : Ambiguous
  · have h6 := h1 _ (h4.2 hA)
    refine ⟨⟨fun _ => hA, fun _ => ⟨_, h6, rfl⟩⟩, ⟨fun ⟨e, he, hd⟩ => ?_, fun h => absurd hA h.1⟩,
      ⟨fun ⟨g', h⟩ => ?_, fun h => absurd hA h.1⟩⟩
    · rw [h6] at he
      cases he
      exact absurd hd (by decide)
    · rw [h6] at h; cases h
  · obtain ⟨info, hi⟩ := h5.2 hA
    by_cases hG : Good
    · obtain ⟨g', hg'⟩ := (h2 info hi).1 hG
      refine ⟨⟨fun ⟨e, he, _⟩ => ?_, fun h => absurd h hA⟩, ⟨fun ⟨e, he, _⟩ => ?_, fun h => absurd hG h.2⟩,
        ⟨fun _ => ⟨hA, hG⟩, fun _ => ⟨g', hg'⟩⟩⟩
      all_goals rw [hg'] at he; cases he
    · have h6 := (h2 info hi).2 hG
      refine ⟨⟨fun ⟨e, he, hd⟩ => ?_, fun h => absurd h hA⟩, ⟨fun _ => ⟨hA, hG⟩, fun _ => ⟨_, h6, rfl⟩⟩,
        ⟨fun ⟨g', h⟩ => ?_, fun h => absurd h.2 hG⟩⟩
      · rw [h6] at he
        cases he
        exact absurd hd (by decide)
      · rw [h6] at h; cases h
end

/-- C122: two productions of one rule of a transformed grammar can be printed alike, elements, key and
value: their null choices are not shown. -/
theorem nonnull_printed_alike : ∃ g' p q, transformToNonnull 9 exampleAddr nonnullExample = .ok (.ok g') ∧
    p ∈ g'.prods ∧ q ∈ g'.prods ∧ p.head = q.head ∧ p.elements = q.elements ∧ p.actionKey ≠ q.actionKey ∧
    ∀ (_ : ToDoc Nat) (s : List Char), ((toDoc p.actionKey).Layout s ↔ (toDoc q.actionKey).Layout s) ∧
      ((toDoc p.actionValue).Layout s ↔ (toDoc q.actionValue).Layout s) := by
  have h : ∃ g' p q, transformToNonnull 9 exampleAddr nonnullExample = .ok (.ok g') ∧
      g'.prods[1]? = some p ∧ g'.prods[2]? = some q ∧ p.head = q.head ∧ p.elements = q.elements ∧
      p.actionKey ≠ q.actionKey ∧ p.actionKey.action = q.actionKey.action :=
    ⟨_, _, _, rfl, rfl, rfl, rfl, rfl, by decide, rfl⟩
  obtain ⟨g', p, q, h, hp, hq, h1, h2, h3, h4⟩ := h
  refine ⟨g', p, q, h, List.mem_of_getElem? hp, List.mem_of_getElem? hq, h1, h2, h3, fun d s => ⟨?_, ?_⟩⟩
  · rw [printed_nonnull_key, printed_nonnull_key, h4]
  · rw [printed_nonnull_value, printed_nonnull_value]

/-- The three outcomes occur. -/
example : (∃ e, transformToNonnull 9 exampleAddr nullAmbiguous = .ok (.error e) ∧
      e.display = "found nullable ambiguities in grammar") ∧
    (∃ g', transformToNonnull 9 exampleAddr nonnullExample = .ok (.ok g')) ∧
    (∃ e, transformToNonnull 9 exampleAddr (⟨0, [(0, ⟨0, [⟨1, (), [⟨none, .nonterm 1⟩, ⟨none, .term 7⟩]⟩]⟩),
      (1, ⟨1, [⟨2, (), []⟩]⟩)]⟩ : Grammar Nat Nat Nat Unit) = .ok (.error e) ∧
      e.display = "Grammar failed to build") :=
  ⟨⟨_, rfl, rfl⟩, ⟨_, rfl⟩, ⟨_, rfl, rfl⟩⟩
end Bongo
