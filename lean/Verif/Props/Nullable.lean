import Verif.Proof.Layout
import Verif.Proof.NullableSpec
import Verif.Proof.GrammarBuild
/-!
# Properties C15–C18: the Nullable pass
-/
set_option linter.unusedSectionVars false
namespace Bongo
open Std

section
variable {T NT AK AV : Type} [Ord NT] [TransOrd NT] [LawfulEqOrd NT]

/-- C17.  For every accepted grammar and every memory layout the pass returns `Ok` or `Err`:
with more fuel than there are productions it never runs out, and it never panics. -/
theorem nullable_terminates (g : Grammar T NT AK AV) (hg : g.Accepted) (addr : NT → Nat → Nat)
    (ha : AddrInj g addr) (fuel : Nat) (hf : g.prods.length < fuel) :
    ∃ r, calculateNullables fuel addr g = .ok r := by
  rcases calculateNullables_spec hg.valid.toWF ha hf with ⟨-, info, h, -⟩ | ⟨-, h⟩
  · exact ⟨_, h⟩
  · exact ⟨_, h⟩

/-- The outcome is the same for every sufficient fuel, so "the" result of the pass is well
defined. -/
theorem calculateNullables_mono {g : Grammar T NT AK AV} {addr : NT → Nat → Nat} {n m : Nat}
    (hnm : n ≤ m) {r} (h : calculateNullables n addr g = .ok r) :
    calculateNullables m addr g = .ok r := by
  have hloop : ∀ (am : BMap NT (Prod T NT AK AV)) (n m : Nat), n ≤ m →
      ∀ (rem : BSet NT) (infos : BMap NT (TreeNode (ProdKey NT AK))) r,
      nullTreeLoop n am rem infos = .ok r → nullTreeLoop m am rem infos = .ok r := by
    intro am n
    induction n with
    | zero => intro m _ rem infos r h; simp [nullTreeLoop] at h
    | succ n ih =>
      intro m hm rem infos r h
      obtain ⟨m, rfl⟩ : ∃ k, m = k + 1 := ⟨m - 1, by omega⟩
      rw [nullTreeLoop] at h ⊢
      cases hr : nullTreeRound am rem infos with
      | ok infos' =>
        simp only [hr] at h ⊢
        cases hrem : (BMap.keys infos').foldl (BSet.remove compare) rem with
        | nil => simpa [hrem] using h
        | cons r rs =>
          simp only [hrem] at h ⊢
          exact ih m (by omega) _ _ _ h
      | panic w => simp [hr] at h
      | oof => simp [hr] at h
  unfold calculateNullables at h ⊢
  cases h1 : innerCalculateNullables n addr g with
  | oof => simp [h1] at h
  | panic w => simp [h1] at h
  | ok m1 =>
    have h1' : innerCalculateNullables m addr g = .ok m1 := by
      unfold innerCalculateNullables at h1 ⊢
      rw [changeLoop_mono hnm (by rw [h1]; simp), h1]
    simp only [h1, h1'] at h ⊢
    cases h2 : nullableSanity (BMap.values m1) with
    | oof => simp [h2] at h
    | panic w => simp [h2] at h
    | ok x =>
      cases x with
      | error e => simpa [h2] using h
      | ok u =>
        simp only [h2] at h ⊢
        cases h3 : buildActionMap [] m1 with
        | oof => simp [h3] at h
        | panic w => simp [h3] at h
        | ok am =>
          simp only [h3] at h ⊢
          cases h4 : nullTreeLoop n am (BSet.ofList compare (BMap.keys m1)) [] with
          | oof => simp [h4] at h
          | panic w => simp [h4] at h
          | ok infos =>
            rw [hloop am n m hnm _ _ _ h4]
            simpa [h4] using h

/-- What any successful run returned, for whatever fuel. -/
theorem calculateNullables_ok {g : Grammar T NT AK AV} (hw : g.WF) {addr : NT → Nat → Nat}
    (ha : AddrInj g addr) {fuel : Nat} {r} (h : calculateNullables fuel addr g = .ok r) :
    (NullUnique g ∧ ∃ info, r = .ok info ∧ BMap.Sorted compare info.nontermInfo ∧
      (∀ A, BMap.get? compare info.nontermInfo A ≠ none ↔ g.cfg.Null A) ∧
      ∀ A t, BMap.get? compare info.nontermInfo A = some t → ∃ p, NullProd g A p ∧
        NodeFor (BMap.get? compare info.nontermInfo) p t) ∨
    (¬ NullUnique g ∧ r = .error .ambiguity) := by
  have h' := calculateNullables_mono (Nat.le_max_left fuel (g.prods.length + 1)) h
  rcases calculateNullables_spec hw ha (fuel := max fuel (g.prods.length + 1)) (by omega)
    with ⟨h1, info, h2, h3⟩ | ⟨h1, h2⟩
  · rw [h'] at h2
    injection h2 with h2
    exact Or.inl ⟨h1, info, h2, h3⟩
  · rw [h'] at h2
    injection h2 with h2
    exact Or.inr ⟨h1, h2⟩

/-- C15.  When the pass succeeds, `is_nullable(A)` holds iff `A` derives the empty word,
`is_prod_nullable(p)` iff every element of `p` derives the empty word (equivalently, the body
does), and `get_nullable_set` lists exactly the nonterminals deriving the empty word, each once,
in increasing order. -/
theorem nullable_exact (g : Grammar T NT AK AV) (hg : g.Accepted) (addr : NT → Nat → Nat)
    (ha : AddrInj g addr) (fuel : Nat) (info : GrammarNullableInfo NT AK)
    (h : calculateNullables fuel addr g = .ok (.ok info)) :
    (∀ A, info.isNullable A = true ↔ g.cfg.Generates A []) ∧
    (∀ p : Prod T NT AK AV, info.prodNullable p = true ↔
      ∀ e ∈ p.elements, g.cfg.Derives [e] []) ∧
    (∀ p : Prod T NT AK AV, info.prodNullable p = true ↔ g.cfg.Derives p.elements []) ∧
    (∀ A, A ∈ info.getNullableSet ↔ g.cfg.Generates A []) ∧
    BSet.Sorted compare info.getNullableSet := by
  rcases calculateNullables_ok hg.valid.toWF ha h with ⟨-, info', he, -, hk, -⟩ | ⟨-, he⟩
  · cases he
    have hnull : ∀ A, info.isNullable A = true ↔ g.cfg.Generates A [] := by
      intro A
      rw [← Cfg.null_iff, ← hk A]
      unfold GrammarNullableInfo.isNullable BMap.contains
      cases BMap.get? compare info.nontermInfo A <;> simp
    have hbody : ∀ p : Prod T NT AK AV, info.prodNullable p = true ↔
        g.cfg.Derives p.elements [] := by
      intro p
      unfold GrammarNullableInfo.prodNullable
      rw [isProdNullable_iff, show g.cfg.Derives p.elements [] ↔ g.cfg.Yields p.elements [] from
        (Cfg.yields_iff (w := [])).symm, Cfg.yields_nil_word_iff]
      constructor
      · intro h e he
        obtain ⟨B, rfl, hB⟩ := h e he
        exact ⟨B, rfl, Cfg.null_iff.2 ((hnull B).1 hB)⟩
      · intro h e he
        obtain ⟨B, rfl, hB⟩ := h e he
        exact ⟨B, rfl, (hnull B).2 (Cfg.null_iff.1 hB)⟩
    refine ⟨hnull, ?_, hbody, ?_, BSet.sorted_ofList _⟩
    · intro p
      rw [hbody, show g.cfg.Derives p.elements [] ↔ g.cfg.Yields p.elements [] from
        (Cfg.yields_iff (w := [])).symm, Cfg.yields_nil_word_iff]
      constructor
      · intro h e he
        obtain ⟨B, rfl, hB⟩ := h e he
        exact Cfg.null_iff.1 hB
      · intro h e he
        have : g.cfg.Yields [e] [] := (Cfg.yields_iff (w := [])).2 (h e he)
        exact Cfg.yields_nil_word_iff.1 this e (by simp)
    · intro A
      unfold GrammarNullableInfo.getNullableSet
      rw [BSet.mem_ofList, mem_keys_iff, hk, Cfg.null_iff]
  · cases he

/-- C16.  The pass reports `Ambiguity` iff some nonterminal has two different derivation trees
without leaves (and otherwise succeeds). -/
theorem nullable_ambiguity_exact (g : Grammar T NT AK AV) (hg : g.Accepted)
    (addr : NT → Nat → Nat) (ha : AddrInj g addr) (fuel : Nat) (hf : g.prods.length < fuel) :
    (calculateNullables fuel addr g = .ok (.error .ambiguity) ↔
      ∃ (A : NT) (t₁ t₂ : DTree T (Prod T NT AK AV)), t₁ ≠ t₂ ∧
        IsTree g id (.nonterm A) t₁ ∧ IsTree g id (.nonterm A) t₂ ∧
        t₁.yield = [] ∧ t₂.yield = []) ∧
    ((∃ info, calculateNullables fuel addr g = .ok (.ok info)) ↔
      ¬ ∃ (A : NT) (t₁ t₂ : DTree T (Prod T NT AK AV)), t₁ ≠ t₂ ∧
        IsTree g id (.nonterm A) t₁ ∧ IsTree g id (.nonterm A) t₂ ∧
        t₁.yield = [] ∧ t₂.yield = []) := by
  have hw := hg.valid.toWF
  rw [← nullUnique_iff hw, ← not_iff_not (b := ∃ _, _), ← nullUnique_iff hw]
  rcases calculateNullables_spec hw ha hf with ⟨h1, info, h2, -⟩ | ⟨h1, h2⟩
  · rw [h2]
    simp [h1]
  · rw [h2]
    simp [h1]

/-- Looking up a name in the parameters of a node: the last element with that name counts. -/
theorem nodeFor_params {f : NT → Option (TreeNode (ProdKey NT AK))} {p : Prod T NT AK AV}
    {t : TreeNode (ProdKey NT AK)} (h : NodeFor f p t)
    (hnt : ∀ e ∈ p.elements, ∃ B, e = .nonterm B) (n : Name) (u : TreeNode (ProdKey NT AK)) :
    BMap.get? compare t.params n = some u ↔
      ∃ pre B post, p.prodElements = pre ++ ⟨some n, .nonterm B⟩ :: post ∧
        (∀ e ∈ post, e.identifier ≠ some n) ∧ f B = some u := by
  obtain ⟨-, ts, h2, h3⟩ := h
  rw [h3]
  have hnt' : ∀ e ∈ p.prodElements, ∃ B, e.element = .nonterm B := by
    intro e he
    exact hnt _ (List.mem_map.2 ⟨e, he, rfl⟩)
  clear h3 hnt
  generalize p.prodElements = es at h2 hnt'
  have key : ∀ (acc : BMap Name (TreeNode (ProdKey NT AK))),
      BMap.get? compare ((((namedNonterms es).map (·.1)).zip ts).foldl
        (fun m kv => BMap.insert compare m kv.1 kv.2) acc) n = some u ↔
      (∃ pre B post, es = pre ++ ⟨some n, .nonterm B⟩ :: post ∧
        (∀ e ∈ post, e.identifier ≠ some n) ∧ f B = some u) ∨
      ((∀ e ∈ es, e.identifier ≠ some n) ∧ BMap.get? compare acc n = some u) := by
    induction es generalizing ts with
    | nil => intro acc; simp [namedNonterms]
    | cons e es ih =>
      intro acc
      obtain ⟨id, el⟩ := e
      obtain ⟨B, hB⟩ := hnt' _ (List.mem_cons_self)
      simp only at hB
      subst hB
      have hnt'' : ∀ e ∈ es, ∃ B, e.element = .nonterm B := fun e he => hnt' e (by simp [he])
      cases id with
      | none =>
        have hn : namedNonterms (⟨none, .nonterm B⟩ :: es) = namedNonterms es := by
          simp [namedNonterms]
        rw [hn] at h2 ⊢
        rw [ih ts h2 hnt'' acc]
        constructor
        · rintro (⟨pre, C, post, rfl, hpost, hf⟩ | ⟨hes, hacc⟩)
          · exact Or.inl ⟨⟨none, .nonterm B⟩ :: pre, C, post, rfl, hpost, hf⟩
          · exact Or.inr ⟨by simpa using hes, hacc⟩
        · rintro (⟨pre, C, post, heq, hpost, hf⟩ | ⟨hes, hacc⟩)
          · cases pre with
            | nil => simp at heq
            | cons x pre =>
              simp at heq
              exact Or.inl ⟨pre, C, post, heq.2, hpost, hf⟩
          · exact Or.inr ⟨fun e he => hes e (by simp [he]), hacc⟩
      | some n' =>
        have hn : namedNonterms (⟨some n', .nonterm B⟩ :: es) = (n', B) :: namedNonterms es := by
          simp [namedNonterms]
        rw [hn] at h2 ⊢
        cases ts with
        | nil => simp at h2
        | cons t0 ts =>
          simp only [List.map_cons, List.cons.injEq] at h2
          simp only [List.map_cons, List.zip_cons_cons, List.foldl_cons]
          rw [ih ts h2.2 hnt'' _]
          constructor
          · rintro (⟨pre, C, post, rfl, hpost, hf⟩ | ⟨hes, hacc⟩)
            · exact Or.inl ⟨⟨some n', .nonterm B⟩ :: pre, C, post, rfl, hpost, hf⟩
            · by_cases hnn : n' = n
              · subst hnn
                rw [BMap.get?_insert_self] at hacc
                exact Or.inl ⟨[], B, es, rfl, hes, by rw [h2.1]; exact hacc⟩
              · rw [BMap.get?_insert_ne _ (fun h => hnn h.symm)] at hacc
                right
                refine ⟨?_, hacc⟩
                intro e he
                rcases List.mem_cons.1 he with rfl | he
                · simpa using hnn
                · exact hes e he
          · rintro (⟨pre, C, post, heq, hpost, hf⟩ | ⟨hes, hacc⟩)
            · cases pre with
              | nil =>
                simp at heq
                obtain ⟨⟨rfl, rfl⟩, rfl⟩ := heq
                right
                refine ⟨hpost, ?_⟩
                rw [BMap.get?_insert_self, ← h2.1, hf]
              | cons x pre =>
                simp at heq
                exact Or.inl ⟨pre, C, post, heq.2, hpost, hf⟩
            · right
              have hnn : n' ≠ n := by simpa using hes ⟨some n', .nonterm B⟩ (by simp)
              refine ⟨fun e he => hes e (by simp [he]), ?_⟩
              rw [BMap.get?_insert_ne _ (fun h => hnn h.symm)]
              exact hacc
  have := key []
  simpa [BMap.ofList] using this

/-- C18.  When the pass succeeds, `get_nullable_action(A)` is `Some` iff `A` derives the empty
word; then `A` has exactly one production `p` whose body derives the empty word, the root of the
tree is the key of `p`, and the tree has a parameter `n` iff `p` has an element named `n`, namely
the tree recorded for the (last) nonterminal so named. -/
theorem null_tree_exact (g : Grammar T NT AK AV) (hg : g.Accepted) (addr : NT → Nat → Nat)
    (ha : AddrInj g addr) (fuel : Nat) (info : GrammarNullableInfo NT AK)
    (h : calculateNullables fuel addr g = .ok (.ok info)) :
    (∀ A, (info.getNullableAction A).isSome = true ↔ g.cfg.Generates A []) ∧
    ∀ A t, info.getNullableAction A = some t →
      ∃ p ∈ g.prods, p.head = A ∧ g.cfg.Derives p.elements [] ∧
        (∀ q ∈ g.prods, q.head = A → g.cfg.Derives q.elements [] → q = p) ∧
        t.action = p.prodKey ∧
        ∀ n u, BMap.get? compare t.params n = some u ↔
          ∃ pre B post, p.prodElements = pre ++ ⟨some n, .nonterm B⟩ :: post ∧
            (∀ e ∈ post, e.identifier ≠ some n) ∧ info.getNullableAction B = some u := by
  rcases calculateNullables_ok hg.valid.toWF ha h with ⟨hu, info', he, -, hk, hn⟩ | ⟨-, he⟩
  · cases he
    constructor
    · intro A
      rw [← Cfg.null_iff, ← hk A]
      unfold GrammarNullableInfo.getNullableAction
      cases BMap.get? compare info.nontermInfo A <;> simp
    · intro A t ht
      obtain ⟨p, hp, hnode⟩ := hn A t ht
      refine ⟨p, hp.1, hp.2.1, (Cfg.yields_iff (w := [])).1 hp.2.2, ?_, hnode.1, ?_⟩
      · intro q hq hqh hqy
        exact hu A q p ⟨hq, hqh, (Cfg.yields_iff (w := [])).2 hqy⟩ hp
      · intro n u
        refine nodeFor_params hnode ?_ n u
        intro e he
        obtain ⟨B, rfl, -⟩ := Cfg.yields_nil_word_iff.1 hp.2.2 e he
        exact ⟨B, rfl⟩
  · cases he
end

/-! ## Witnesses -/

/-- `S(0) → x:E y:E | a`, `E(1) → ε | b E`. -/
def nullExample : Grammar Nat Nat Nat Unit :=
  ⟨0, [(0, ⟨0, [⟨1, (), [⟨some "x", .nonterm 1⟩, ⟨some "y", .nonterm 1⟩]⟩,
                ⟨2, (), [⟨none, .term 7⟩]⟩]⟩),
       (1, ⟨1, [⟨3, (), []⟩, ⟨4, (), [⟨none, .term 8⟩, ⟨none, .nonterm 1⟩]⟩]⟩)]⟩

/-- `S(0) → E E | E`, `E(1) → ε`: two empty trees for `S`. -/
def nullAmbiguous : Grammar Nat Nat Nat Unit :=
  ⟨0, [(0, ⟨0, [⟨1, (), [⟨none, .nonterm 1⟩, ⟨none, .nonterm 1⟩]⟩, ⟨2, (), [⟨none, .nonterm 1⟩]⟩]⟩),
       (1, ⟨1, [⟨3, (), []⟩]⟩)]⟩

/-- A layout for grammars over numbers: the arrays of the rules, of 1000 cells of size 2 each, one after
the other.  (Productions from number 1000 on, which no example has, are somewhere else.) -/
def exampleAddr (A i : Nat) : Nat :=
  if i < 1000 then 2000 * A + 2 * i else 2 * ((A + i) * (A + i) + A) + 1

theorem exampleAddr_inj {A i B j : Nat} (h : exampleAddr A i = exampleAddr B j) :
    A = B ∧ i = j := by
  unfold exampleAddr at h
  split at h <;> split at h
  · omega
  · omega
  · omega
  · have h : (A + i) * (A + i) + A = (B + j) * (B + j) + B := by omega
    have key : ∀ s t a b : Nat, a ≤ s → b ≤ t → s * s + a = t * t + b → ¬ s < t := by
      intro s t a b ha hb he hst
      have : (s + 1) * (s + 1) ≤ t * t := Nat.mul_le_mul hst hst
      have h2 : (s + 1) * (s + 1) = s * s + 2 * s + 1 := by
        simp only [Nat.add_mul, Nat.mul_add]; omega
      omega
    have h1 := key (A + i) (B + j) A B (by omega) (by omega) h
    have h2 := key (B + j) (A + i) B A (by omega) (by omega) h.symm
    have h3 : A + i = B + j := by omega
    rw [h3] at h
    omega

/-- Layouts made of `exampleAddr`. -/
theorem placed_exampleAddr {T NT AK AV : Type} (f : NT → Nat) (hf : ∀ A B, f A = f B → A = B)
    (g : Grammar T NT AK AV) (h : ∀ r ∈ g.rules, r.prods.length ≤ 1000) :
    AddrPlaced g (fun A i => exampleAddr (f A) i) := by
  refine ⟨fun A => 2000 * f A, 2, by decide, ?_, ?_⟩
  · intro p hp
    obtain ⟨r, r1, r2, r3⟩ := Grammar.prod_rule hp
    have := h r r1
    simp only [exampleAddr]
    rw [if_pos (by omega)]; omega
  · intro r h1 r' h2 hne
    have l1 := h r h1
    have l2 := h r' h2
    rcases Nat.lt_trichotomy (f r.head) (f r'.head) with hl | hl | hl
    · left; simp only; omega
    · exact absurd (hf _ _ hl) hne
    · right; simp only; omega

theorem exampleAddr_placed {T AK AV : Type} (g : Grammar T Nat AK AV)
    (h : ∀ r ∈ g.rules, r.prods.length ≤ 1000) : AddrPlaced g exampleAddr :=
  placed_exampleAddr id (fun _ _ h => h) g h

theorem exampleAddr_addrInj {T AK AV : Type} (g : Grammar T Nat AK AV) : AddrInj g exampleAddr :=
  fun _ _ _ _ h => exampleAddr_inj h

theorem nullExample_accepted : nullExample.Accepted :=
  ⟨9, 0, [⟨0, [.addProd 1 () [.addNamedNonterm "x" 1, .addNamedNonterm "y" 1],
                .addProd 2 () [.addTerm 7]]⟩,
          ⟨1, [.addProd 3 () [], .addProd 4 () [.addTerm 8, .addNonterm 1]]⟩], by decide⟩

theorem nullAmbiguous_accepted : nullAmbiguous.Accepted :=
  ⟨9, 0, [⟨0, [.addProd 1 () [.addNonterm 1, .addNonterm 1], .addProd 2 () [.addNonterm 1]]⟩,
          ⟨1, [.addProd 3 () []]⟩], by decide⟩

/-- Hypotheses of C15 and C18 are met: the pass succeeds on `nullExample`, whose start symbol is
nullable through a production with two named elements. -/
example : ∃ info, calculateNullables 9 exampleAddr nullExample = .ok (.ok info) ∧
    info.isNullable 0 = true ∧ info.getNullableSet = [0, 1] ∧
    (∃ t, info.getNullableAction 0 = some t ∧ t.action = ⟨0, 1⟩ ∧
      (t.params.map (·.1)) = ["x", "y"]) := by
  refine ⟨⟨[(0, .mk ⟨0, 1⟩ [("x", .mk ⟨1, 3⟩ []), ("y", .mk ⟨1, 3⟩ [])]), (1, .mk ⟨1, 3⟩ [])]⟩,
    by rfl, by rfl, by rfl, ⟨_, rfl, rfl, rfl⟩⟩

/-- Both sides of C16 occur. -/
example : calculateNullables 9 exampleAddr nullAmbiguous = .ok (.error .ambiguity) := by rfl

end Bongo
