import Verif.Model.Nullable
import Verif.Proof.Tree
import Verif.Proof.CollectMap
import Verif.Spec.Api
/-! The nullable analysis computes derivability of the empty word. -/
set_option linter.unusedSectionVars false
namespace Bongo
open Std

namespace Cfg
variable {T N : Type} {G : Cfg T N}
/-- Nonterminals deriving the empty word, inductively. -/
inductive Null (G : Cfg T N) : N → Prop where
  | intro (A : N) (Bs : List N) : G.prod A (Bs.map .nonterm) → (∀ B ∈ Bs, Null G B) → Null G A

theorem yields_eps {β : List (Elem T N)} {w : List T} (h : G.Yields β w) (hw : w = []) :
    ∃ Bs : List N, β = Bs.map .nonterm ∧ ∀ B ∈ Bs, G.Null B := by
  induction h with
  | nil => exact ⟨[], rfl, by simp⟩
  | term t _ _ => simp at hw
  | nonterm hp _ _ ih1 ih2 =>
    simp at hw
    obtain ⟨Bs1, rfl, h1⟩ := ih1 hw.1
    obtain ⟨Bs2, rfl, h2⟩ := ih2 hw.2
    refine ⟨_ :: Bs2, rfl, ?_⟩
    intro B hB
    rcases List.mem_cons.1 hB with rfl | hB
    · exact .intro _ Bs1 hp h1
    · exact h2 B hB

theorem Null.generates {A : N} (h : G.Null A) : G.Generates A [] := by
  induction h with
  | intro A Bs hp hn ih =>
    rw [generates_iff]
    refine ⟨_, hp, ?_⟩
    clear hp hn
    induction Bs with
    | nil => exact .nil
    | cons B Bs ihB =>
      rw [List.map_cons, yields_cons_nonterm_iff]
      exact ⟨[], [], rfl, ih B (by simp), ihB (fun B' h => ih B' (by simp [h]))⟩

theorem null_iff {A : N} : G.Null A ↔ G.Generates A [] := by
  refine ⟨Null.generates, ?_⟩
  rw [generates_iff]
  rintro ⟨β, hp, hy⟩
  obtain ⟨Bs, rfl, h⟩ := yields_eps hy rfl
  exact .intro A Bs hp h

theorem yields_nil_word_iff {β : List (Elem T N)} :
    G.Yields β [] ↔ ∀ e ∈ β, ∃ B, e = .nonterm B ∧ G.Null B := by
  constructor
  · intro h e he
    obtain ⟨Bs, rfl, hB⟩ := yields_eps h rfl
    obtain ⟨B, hB', rfl⟩ := List.mem_map.1 he
    exact ⟨B, rfl, hB B hB'⟩
  · intro h
    induction β with
    | nil => exact .nil
    | cons e β ih =>
      obtain ⟨B, rfl, hB⟩ := h e (by simp)
      rw [yields_cons_nonterm_iff]
      exact ⟨[], [], rfl, hB.generates, ih (fun e he => h e (by simp [he]))⟩
end Cfg

section
variable {T NT AK AV : Type}

instance prodCmp_trans (addr : NT → Nat → Nat) :
    TransCmp (prodCmp (T := T) (AK := AK) (AV := AV) addr) where
  eq_swap := by intro a b; exact OrientedCmp.eq_swap (cmp := compare)
  isLE_trans := by intro a b c; exact TransCmp.isLE_trans (cmp := compare)

variable [Ord NT] [TransOrd NT] [LawfulEqOrd NT]
variable {g : Grammar T NT AK AV} {addr : NT → Nat → Nat}

theorem prodCmp_eq (hw : g.WF) (ha : AddrInj g addr) {p q : Prod T NT AK AV} (hp : p ∈ g.prods)
    (hq : q ∈ g.prods) : prodCmp addr p q = .eq ↔ p = q := by
  unfold prodCmp
  rw [LawfulEqCmp.compare_eq_iff_eq]
  constructor
  · intro h
    obtain ⟨h1, h2⟩ := ha p hp q hq h
    exact Grammar.prod_ext hw hp hq h1 h2
  · rintro rfl; rfl

theorem contains_prods (hw : g.WF) (ha : AddrInj g addr) {s : BSet (Prod T NT AK AV)}
    (hs : ∀ q ∈ s, q ∈ g.prods) {p : Prod T NT AK AV} (hp : p ∈ g.prods) :
    BSet.contains (prodCmp addr) s p = true ↔ p ∈ s := by
  rw [BSet.contains_iff]
  constructor
  · rintro ⟨q, hq, h⟩
    rw [(prodCmp_eq hw ha hp (hs q hq)).1 h]; exact hq
  · intro h; exact ⟨p, h, (prodCmp_eq hw ha hp hp).2 rfl⟩

theorem mem_insert_prods (hw : g.WF) (ha : AddrInj g addr) {s : BSet (Prod T NT AK AV)}
    (hs : ∀ q ∈ s, q ∈ g.prods) {p q : Prod T NT AK AV} (hp : p ∈ g.prods) :
    q ∈ BSet.insert (prodCmp addr) s p ↔ q = p ∨ q ∈ s := by
  constructor
  · exact BSet.mem_insert_imp
  · rintro (rfl | h)
    · have : BSet.contains (prodCmp addr) (BSet.insert (prodCmp addr) s q) q = true := by
        rw [BSet.contains_insert]; simp [cmp_self]
      obtain ⟨r, hr, he⟩ := BSet.contains_iff.1 this
      rcases BSet.mem_insert_imp hr with rfl | hr'
      · exact hr
      · have e := (prodCmp_eq hw ha hp (hs r hr')).1 he
        exact e.symm ▸ hr
    · exact BSet.insert_of_contains_aux h

theorem isProdNullable_iff {V : Type} {m : BMap NT V} {p : Prod T NT AK AV} :
    isProdNullable m p = true ↔
      ∀ e ∈ p.elements, ∃ B, e = .nonterm B ∧ BMap.contains compare m B = true := by
  unfold isProdNullable
  rw [List.all_eq_true]
  constructor
  · intro h e he
    have := h e he
    cases e with
    | term t => simp at this
    | nonterm B => exact ⟨B, rfl, this⟩
  · intro h e he
    obtain ⟨B, rfl, hB⟩ := h e he
    exact hB

/-- The recorded fact "production `p` is nullable". -/
def NullFact (m : BMap NT (InternalNullableInfo T NT AK AV)) (p : Prod T NT AK AV) : Prop :=
  ∃ s, BMap.get? compare m p.head = some s ∧ p ∈ s

/-- Loop invariant of the first nullable loop. -/
structure NullInv (addr : NT → Nat → Nat) (g : Grammar T NT AK AV)
    (m : BMap NT (InternalNullableInfo T NT AK AV)) : Prop where
  sorted : BMap.Sorted compare m
  setSorted : ∀ A s, BMap.get? compare m A = some s → BSet.Sorted (prodCmp addr) s
  sub : ∀ A s, BMap.get? compare m A = some s → ∀ p ∈ s, p ∈ g.prods ∧ p.head = A ∧
    g.cfg.Yields p.elements []
  ne : ∀ A s, BMap.get? compare m A = some s → s ≠ []

theorem NullInv.key_null (hw : g.WF) {m} (h : NullInv addr g m) {A : NT}
    (hc : BMap.contains compare m A = true) : g.cfg.Null A := by
  unfold BMap.contains at hc
  cases hg : BMap.get? compare m A with
  | none => simp [hg] at hc
  | some s =>
    cases s with
    | nil => exact absurd rfl (h.ne A [] hg)
    | cons p s =>
      obtain ⟨h1, h2, h3⟩ := h.sub A _ hg p (by simp)
      rw [Cfg.null_iff, Cfg.generates_iff]
      exact ⟨p.elements, (Grammar.cfg_prod_iff hw).2 ⟨p, h1, h2, rfl⟩, h3⟩

theorem NullInv.getD_sub {m} (h : NullInv addr g m) (A : NT) :
    ∀ q ∈ (BMap.get? compare m A).getD [], q ∈ g.prods ∧ q.head = A ∧ g.cfg.Yields q.elements [] := by
  cases hg : BMap.get? compare m A with
  | none => simp
  | some s => simpa using h.sub A s hg

theorem nullableVisit_fact (hw : g.WF) (ha : AddrInj g addr) {m} (h : NullInv addr g m)
    {p : Prod T NT AK AV} (hp : p ∈ g.prods) (q : Prod T NT AK AV) :
    NullFact (nullableVisit addr m p).1 q ↔ (q = p ∧ isProdNullable m p = true) ∨ NullFact m q := by
  unfold nullableVisit
  split
  · rename_i hn
    unfold NullFact
    simp only [BMap.get?_insert]
    by_cases hh : q.head = p.head
    · rw [hh, if_pos (cmp_self _)]
      simp only [Option.some.injEq, exists_eq_left']
      rw [mem_insert_prods hw ha (fun q hq => (h.getD_sub p.head q hq).1) hp]
      simp only [hn, and_true]
      cases hg : BMap.get? compare m p.head <;> simp
    · rw [if_neg (fun he => hh (LawfulEqCmp.eq_of_compare he))]
      constructor
      · exact Or.inr
      · rintro (⟨rfl, _⟩ | h)
        · exact absurd rfl hh
        · exact h
  · rename_i hn; simp [hn]

theorem nullableVisit_changed (hw : g.WF) (ha : AddrInj g addr) {m} (h : NullInv addr g m)
    {p : Prod T NT AK AV} (hp : p ∈ g.prods) :
    (nullableVisit addr m p).2 = .changed ↔ isProdNullable m p = true ∧ ¬ NullFact m p := by
  unfold nullableVisit
  split
  · rename_i hn
    simp only [WasChanged.fromChanged_eq_changed, Bool.not_eq_true', hn, true_and]
    rw [← Bool.not_eq_true,
      contains_prods hw ha (fun q hq => (h.getD_sub p.head q hq).1) hp]
    unfold NullFact
    cases hg : BMap.get? compare m p.head <;> simp
  · rename_i hn; simp [hn]

theorem nullableVisit_inv (hw : g.WF) (ha : AddrInj g addr) {m} (h : NullInv addr g m)
    {p : Prod T NT AK AV} (hp : p ∈ g.prods) : NullInv addr g (nullableVisit addr m p).1 := by
  unfold nullableVisit
  split
  · rename_i hn
    have hset : BSet.Sorted (prodCmp addr) ((BMap.get? compare m p.head).getD []) := by
      cases hg : BMap.get? compare m p.head with
      | none => exact List.Pairwise.nil
      | some s => exact h.setSorted _ _ hg
    refine ⟨BMap.sorted_insert h.sorted _ _, ?_, ?_, ?_⟩
    · intro A s hg
      simp only [BMap.get?_insert] at hg
      split at hg
      · cases hg; exact BSet.sorted_insert hset p
      · exact h.setSorted A s hg
    · intro A s hg q hq
      simp only [BMap.get?_insert] at hg
      split at hg
      · rename_i hA
        have := LawfulEqCmp.eq_of_compare hA
        subst this
        cases hg
        rcases BSet.mem_insert_imp hq with rfl | hq
        · refine ⟨hp, rfl, ?_⟩
          rw [Cfg.yields_nil_word_iff]
          intro e he
          obtain ⟨B, rfl, hB⟩ := isProdNullable_iff.1 hn e he
          exact ⟨B, rfl, h.key_null hw hB⟩
        · exact h.getD_sub p.head q hq
      · exact h.sub A s hg q hq
    · intro A s hg
      simp only [BMap.get?_insert] at hg
      split at hg
      · cases hg
        intro he
        have : p ∈ BSet.insert (prodCmp addr) ((BMap.get? compare m p.head).getD []) p :=
          (mem_insert_prods hw ha (fun q hq => (h.getD_sub p.head q hq).1) hp).2 (Or.inl rfl)
        rw [he] at this; simp at this
      · exact h.ne A s hg
  · exact h

theorem nullFactPass (hw : g.WF) (ha : AddrInj g addr) :
    FactPass g.prods (nullableVisit addr) (NullInv addr g) NullFact g.prods := by
  refine ⟨fun m p hp h => nullableVisit_inv hw ha h hp, ?_, ?_, ?_⟩
  · intro m p hp h q hq
    rw [nullableVisit_fact hw ha h hp]; exact Or.inr hq
  · intro m p hp h hc
    obtain ⟨h1, h2⟩ := (nullableVisit_changed hw ha h hp).1 hc
    exact ⟨p, hp, h2, (nullableVisit_fact hw ha h hp p).2 (Or.inl ⟨rfl, h1⟩)⟩
  · intro m p hp h hc q hq
    rcases (nullableVisit_fact hw ha h hp q).1 hq with ⟨rfl, hn⟩ | hq
    · by_contra hnf
      have := (nullableVisit_changed hw ha h hp).2 ⟨hn, hnf⟩
      rw [this] at hc; cases hc
    · exact hq

theorem nullInv_nil : NullInv addr g [] := ⟨BMap.sorted_nil, by simp, by simp, by simp⟩

theorem NullInv.contains_iff {m} (h : NullInv addr g m) (A : NT) :
    BMap.contains compare m A = true ↔ ∃ p, p.head = A ∧ NullFact m p := by
  unfold BMap.contains
  constructor
  · intro hc
    cases hg : BMap.get? compare m A with
    | none => simp [hg] at hc
    | some s =>
      cases s with
      | nil => exact absurd rfl (h.ne A [] hg)
      | cons p s =>
        obtain ⟨h1, rfl, h3⟩ := h.sub A _ hg p (by simp)
        exact ⟨p, rfl, _, hg, by simp⟩
  · rintro ⟨p, rfl, s, hg, -⟩; simp [hg]

/-- The first loop terminates, and the recorded productions are exactly the nullable ones. -/
theorem innerNullables_spec (hw : g.WF) (ha : AddrInj g addr) {fuel : Nat}
    (hf : g.prods.length < fuel) :
    ∃ m, innerCalculateNullables fuel addr g = .ok m ∧ NullInv addr g m ∧
      (∀ A, BMap.contains compare m A = true ↔ g.cfg.Null A) ∧
      ∀ p ∈ g.prods, NullFact m p ↔ g.cfg.Yields p.elements [] := by
  obtain ⟨m, h1, h2, -, h3⟩ := (nullFactPass hw ha).loop nullInv_nil hf
  have closed : ∀ p ∈ g.prods, isProdNullable m p = true → NullFact m p := by
    intro p hp hn
    obtain ⟨m', k1, k2, k3⟩ := h3 p hp
    by_contra hnf
    have hn' : isProdNullable m' p = true := by
      rw [isProdNullable_iff] at hn ⊢
      intro e he
      obtain ⟨B, rfl, hB⟩ := hn e he
      refine ⟨B, rfl, ?_⟩
      rw [h2.contains_iff] at hB
      rw [k1.contains_iff]
      obtain ⟨q, hq, hf⟩ := hB
      exact ⟨q, hq, (k2 q).2 hf⟩
    have := (nullableVisit_changed hw ha k1 hp).2 ⟨hn', fun h => hnf ((k2 p).1 h)⟩
    rw [this] at k3; cases k3
  have hnull : ∀ A, g.cfg.Null A → BMap.contains compare m A = true := by
    intro A hA
    induction hA with
    | intro A Bs hp _ ih =>
      obtain ⟨p, hp', rfl, he⟩ := (Grammar.cfg_prod_iff hw).1 hp
      rw [h2.contains_iff]
      refine ⟨p, rfl, closed p hp' ?_⟩
      rw [isProdNullable_iff, he]
      intro e he
      obtain ⟨B, hB, rfl⟩ := List.mem_map.1 he
      exact ⟨B, rfl, ih B hB⟩
  refine ⟨m, h1, h2, fun A => ⟨h2.key_null hw, hnull A⟩, ?_⟩
  intro p hp
  constructor
  · rintro ⟨s, hs, hps⟩; exact (h2.sub p.head s hs p hps).2.2
  · intro hy
    apply closed p hp
    rw [isProdNullable_iff]
    intro e he
    obtain ⟨B, rfl, hB⟩ := Cfg.yields_nil_word_iff.1 hy e he
    exact ⟨B, rfl, hnull B hB⟩

/-! ### Second phase -/

theorem nullableSanity_spec {l : List (InternalNullableInfo T NT AK AV)} (h : ∀ s ∈ l, s ≠ []) :
    (nullableSanity l = .ok (.ok ()) ∧ ∀ s ∈ l, s.length = 1) ∨
      (nullableSanity l = .ok (.error .ambiguity) ∧ ∃ s ∈ l, 1 < s.length) := by
  induction l with
  | nil => exact Or.inl ⟨rfl, by simp⟩
  | cons s l ih =>
    have hs : s.length ≠ 0 := by
      have := h s (by simp)
      simpa using this
    rw [nullableSanity]
    by_cases h1 : 1 < s.length
    · right; simp [hs, h1]
    · simp only [hs, ↓reduceIte, h1, gt_iff_lt]
      rcases ih (fun s hs => h s (by simp [hs])) with ⟨h2, h3⟩ | ⟨h2, s', h3, h4⟩
      · left
        refine ⟨h2, ?_⟩
        intro s' hs'
        rcases List.mem_cons.1 hs' with rfl | hs'
        · omega
        · exact h3 s' hs'
      · exact Or.inr ⟨h2, s', by simp [h3], h4⟩

theorem buildActionMap_spec {rest : BMap NT (InternalNullableInfo T NT AK AV)}
    {acc : BMap NT (Prod T NT AK AV)} (h : ∀ A s, (A, s) ∈ rest → s.length = 1)
    (hs : BMap.Sorted compare rest) :
    ∃ am, buildActionMap acc rest = .ok am ∧
      ∀ A, BMap.get? compare am A = match BMap.get? compare rest A with
        | some s => s.head?
        | none => BMap.get? compare acc A := by
  induction rest generalizing acc with
  | nil => exact ⟨acc, rfl, by simp⟩
  | cons x rest ih =>
    obtain ⟨k, s⟩ := x
    have hl := h k s (by simp)
    obtain ⟨p, rfl⟩ := List.length_eq_one_iff.1 hl
    have hs' : BMap.Sorted compare rest := (List.pairwise_cons.1 hs).2
    obtain ⟨am, h1, h2⟩ := ih (acc := BMap.insert compare acc k p)
      (fun A s hm => h A s (by simp [hm])) hs'
    refine ⟨am, by simp [buildActionMap, getOnly, h1], ?_⟩
    intro A
    rw [h2]
    by_cases hA : A = k
    · subst hA
      have : BMap.get? compare rest A = none := by
        cases hg : BMap.get? compare rest A with
        | none => rfl
        | some s' =>
          have hm := (BMap.mem_iff_get? hs' A s').2 hg
          have := (List.pairwise_cons.1 hs).1 _ hm
          simp [cmp_self] at this
      simp [this, BMap.get?_insert, BMap.get?_cons, cmp_self]
    · have : compare A k ≠ .eq := fun h => hA (LawfulEqCmp.eq_of_compare h)
      simp [BMap.get?_insert, BMap.get?_cons, this]

/-- The named nonterminal elements of a production body, in order. -/
def namedNonterms (es : List (ProdElement T NT)) : List (Name × NT) :=
  es.filterMap fun e => match e.identifier, e.element with
    | some n, .nonterm B => some (n, B)
    | _, _ => none

theorem nullTreeFields_spec {infos : BMap NT (TreeNode (ProdKey NT AK))}
    {es : List (ProdElement T NT)} {acc : BMap Name (TreeNode (ProdKey NT AK))} :
    (nullTreeFields infos es acc = none ∧
        ∃ nB ∈ namedNonterms es, BMap.get? compare infos nB.2 = none) ∨
      (∃ ts : List (TreeNode (ProdKey NT AK)),
        (namedNonterms es).map (fun nB => BMap.get? compare infos nB.2) = ts.map some ∧
        nullTreeFields infos es acc =
          some (((namedNonterms es).map (·.1)).zip ts |>.foldl
            (fun m kv => BMap.insert compare m kv.1 kv.2) acc)) := by
  induction es generalizing acc with
  | nil => exact Or.inr ⟨[], rfl, rfl⟩
  | cons e es ih =>
    obtain ⟨id, el⟩ := e
    cases id with
    | none =>
      have : namedNonterms (⟨none, el⟩ :: es) = namedNonterms es := by simp [namedNonterms]
      rw [this]
      have h2 : nullTreeFields infos (⟨none, el⟩ :: es) acc = nullTreeFields infos es acc := by
        simp [nullTreeFields]
      rw [h2]; exact ih
    | some n =>
      cases el with
      | term t =>
        have : namedNonterms (⟨some n, .term t⟩ :: es) = namedNonterms es := by
          simp [namedNonterms]
        rw [this]
        have h2 : nullTreeFields infos (⟨some n, .term t⟩ :: es) acc =
            nullTreeFields infos es acc := by simp [nullTreeFields]
        rw [h2]; exact ih
      | nonterm B =>
        have : namedNonterms (⟨some n, .nonterm B⟩ :: es) = (n, B) :: namedNonterms es := by
          simp [namedNonterms]
        rw [this]
        cases hg : BMap.get? compare infos B with
        | none => left; exact ⟨by simp [nullTreeFields, hg], (n, B), by simp, hg⟩
        | some t =>
          have h2 : nullTreeFields infos (⟨some n, .nonterm B⟩ :: es) acc =
              nullTreeFields infos es (BMap.insert compare acc n t) := by
            simp [nullTreeFields, hg]
          rw [h2]
          rcases ih (acc := BMap.insert compare acc n t) with ⟨h3, nB, h4, h5⟩ | ⟨ts, h3, h4⟩
          · exact Or.inl ⟨h3, nB, by simp [h4], h5⟩
          · right
            refine ⟨t :: ts, by simp [hg, h3], ?_⟩
            rw [h4]; simp

/-- `t` is the tree node built for production `p` from the trees `infos`. -/
def NodeFor (infos : NT → Option (TreeNode (ProdKey NT AK))) (p : Prod T NT AK AV)
    (t : TreeNode (ProdKey NT AK)) : Prop :=
  t.action = p.prodKey ∧
    ∃ ts : List (TreeNode (ProdKey NT AK)),
      (namedNonterms p.prodElements).map (fun nB => infos nB.2) = ts.map some ∧
      t.params = BMap.ofList compare (((namedNonterms p.prodElements).map (·.1)).zip ts)

/-- Invariant of the tree-building loop, for a function `u` giving each nullable nonterminal its
only nullable production. -/
structure TreeInv (am : BMap NT (Prod T NT AK AV)) (infos : BMap NT (TreeNode (ProdKey NT AK))) :
    Prop where
  sorted : BMap.Sorted compare infos
  ok : ∀ A t, BMap.get? compare infos A = some t → ∃ p, BMap.get? compare am A = some p ∧
    NodeFor (BMap.get? compare infos) p t

/-- A visit keeps everything that was recorded. -/
def Extends (a b : BMap NT (TreeNode (ProdKey NT AK))) : Prop :=
  ∀ A t, BMap.get? compare a A = some t → BMap.get? compare b A = some t

theorem NodeFor.mono {a b : NT → Option (TreeNode (ProdKey NT AK))} {p : Prod T NT AK AV} {t}
    (h : NodeFor a p t) (hab : ∀ A t, a A = some t → b A = some t) : NodeFor b p t := by
  obtain ⟨h1, ts, h2, h3⟩ := h
  refine ⟨h1, ts, ?_, h3⟩
  clear h3
  generalize namedNonterms p.prodElements = l at h2
  induction l generalizing ts with
  | nil => simpa using h2
  | cons x l ih =>
    cases ts with
    | nil => simp at h2
    | cons t ts =>
      simp only [List.map_cons, List.cons.injEq] at h2 ⊢
      exact ⟨hab _ _ h2.1, ih ts h2.2⟩

/-- The tree node of a nonterminal is determined by the trees of the others, so re-inserting
gives the same value; here we only visit nonterminals without a tree. -/
theorem nullTreeRound_spec {am : BMap NT (Prod T NT AK AV)} {todo : List NT}
    {infos : BMap NT (TreeNode (ProdKey NT AK))} (h : TreeInv am infos)
    (htodo : ∀ A ∈ todo, BMap.get? compare am A ≠ none) (hnd : todo.Nodup)
    (hfresh : ∀ A ∈ todo, BMap.get? compare infos A = none) :
    ∃ infos', nullTreeRound am todo infos = .ok infos' ∧ TreeInv am infos' ∧
      Extends infos infos' ∧
      (∀ A, BMap.get? compare infos' A ≠ none → BMap.get? compare infos A ≠ none ∨ A ∈ todo) ∧
      (∀ A ∈ todo, ∀ p, BMap.get? compare am A = some p →
        (∀ nB ∈ namedNonterms p.prodElements, BMap.get? compare infos nB.2 ≠ none) →
        BMap.get? compare infos' A ≠ none) := by
  induction todo generalizing infos with
  | nil => exact ⟨infos, rfl, h, fun _ _ h => h, fun A hA => Or.inl hA, by simp⟩
  | cons A todo ih =>
    rw [nullTreeRound]
    cases hg : BMap.get? compare am A with
    | none => exact absurd hg (htodo A (by simp))
    | some p =>
      simp only
      have hnd' := List.nodup_cons.1 hnd
      rcases nullTreeFields_spec (infos := infos) (es := p.prodElements) (acc := [])
        with ⟨h1, nB, h2, h3⟩ | ⟨ts, h1, h2⟩
      · simp only [h1]
        obtain ⟨infos', k1, k2, k3, k4, k5⟩ := ih h (fun B hB => htodo B (by simp [hB])) hnd'.2
          (fun B hB => hfresh B (by simp [hB]))
        refine ⟨infos', k1, k2, k3, ?_, ?_⟩
        · intro B hB
          rcases k4 B hB with h | h
          · exact Or.inl h
          · exact Or.inr (by simp [h])
        · intro B hB q hq hall
          rcases List.mem_cons.1 hB with rfl | hB
          · rw [hg] at hq; cases hq
            exact absurd h3 (hall nB h2)
          · exact k5 B hB q hq hall
      · simp only [h2]
        have hAnone := hfresh A (by simp)
        generalize hnode : TreeNode.mk p.prodKey (((namedNonterms p.prodElements).map (·.1)).zip ts
            |>.foldl (fun m kv => BMap.insert compare m kv.1 kv.2) []) = node
        have hext : Extends infos (BMap.insert compare infos A node) := by
          intro B t hB
          rw [BMap.get?_insert]
          split
          · rename_i hBA
            have := LawfulEqCmp.eq_of_compare hBA
            subst this
            rw [hAnone] at hB; cases hB
          · exact hB
        have hinv : TreeInv am (BMap.insert compare infos A node) := by
          refine ⟨BMap.sorted_insert h.sorted _ _, ?_⟩
          intro B t hB
          rw [BMap.get?_insert] at hB
          split at hB
          · rename_i hBA
            have := LawfulEqCmp.eq_of_compare hBA
            subst this
            cases hB
            refine ⟨p, hg, NodeFor.mono ?_ hext⟩
            subst hnode
            exact ⟨rfl, ts, h1, rfl⟩
          · obtain ⟨q, hq, hn⟩ := h.ok B t hB
            exact ⟨q, hq, hn.mono hext⟩
        obtain ⟨infos', k1, k2, k3, k4, k5⟩ := ih hinv (fun B hB => htodo B (by simp [hB])) hnd'.2
          (fun B hB => by
            rw [BMap.get?_insert]
            have : compare B A ≠ .eq := fun h => hnd'.1 (LawfulEqCmp.eq_of_compare h ▸ hB)
            simp [this, hfresh B (by simp [hB])])
        refine ⟨infos', k1, k2, ?_, ?_, ?_⟩
        · intro B t hB; exact k3 B t (hext B t hB)
        · intro B hB
          rcases k4 B hB with h | h
          · rw [BMap.get?_insert] at h
            split at h
            · rename_i hBA
              exact Or.inr (by simp [LawfulEqCmp.eq_of_compare hBA])
            · exact Or.inl h
          · exact Or.inr (by simp [h])
        · intro B hB q hq hall
          rcases List.mem_cons.1 hB with rfl | hB
          · have : BMap.get? compare infos' B = some node :=
              k3 B node (by rw [BMap.get?_insert]; simp [cmp_self])
            simp [this]
          · refine k5 B hB q hq (fun nB hnB => ?_)
            have h0 := hall nB hnB
            cases h1 : BMap.get? compare infos nB.2 with
            | none => exact absurd h1 h0
            | some t => simp [hext _ _ h1]

theorem foldl_remove_mem {ks : List NT} {s : BSet NT} (hs : BSet.Sorted compare s) (A : NT) :
    A ∈ ks.foldl (BSet.remove compare) s ↔ A ∈ s ∧ A ∉ ks := by
  induction ks generalizing s with
  | nil => simp
  | cons k ks ih =>
    rw [List.foldl_cons, ih (BSet.sorted_remove hs k), BSet.mem_remove hs, List.mem_cons]
    grind

theorem foldl_remove_sublist {ks : List NT} {s : BSet NT} :
    (ks.foldl (BSet.remove compare) s).Sublist s := by
  induction ks generalizing s with
  | nil => exact List.Sublist.refl _
  | cons k ks ih => exact ih.trans (BSet.remove_sublist s k)

theorem mem_keys_iff {V : Type} {m : BMap NT V} {A : NT} :
    A ∈ BMap.keys m ↔ BMap.get? compare m A ≠ none := by
  rw [BMap.mem_keys (cmp := compare)]
  unfold BMap.contains
  cases BMap.get? compare m A <;> simp

/-- The second loop terminates when the recorded productions are well-founded in the sense that
any nonempty set of remaining nonterminals contains one whose production only mentions
nonterminals that are done. -/
theorem nullTreeLoop_spec {am : BMap NT (Prod T NT AK AV)}
    (hprog : ∀ (R : NT → Prop) (A : NT), (∀ B, R B → BMap.get? compare am B ≠ none) → R A →
      ∃ C p, R C ∧ BMap.get? compare am C = some p ∧
        ∀ nB ∈ namedNonterms p.prodElements, BMap.get? compare am nB.2 ≠ none ∧ ¬ R nB.2)
    {remaining : BSet NT} {infos : BMap NT (TreeNode (ProdKey NT AK))} (h : TreeInv am infos)
    (hrs : BSet.Sorted compare remaining)
    (hsplit : ∀ A, BMap.get? compare am A ≠ none ↔ (A ∈ remaining ∨ BMap.get? compare infos A ≠ none))
    (hdisj : ∀ A ∈ remaining, BMap.get? compare infos A = none)
    {fuel : Nat} (hf : remaining.length < fuel) :
    ∃ infos', nullTreeLoop fuel am remaining infos = .ok infos' ∧ TreeInv am infos' ∧
      ∀ A, BMap.get? compare infos' A ≠ none ↔ BMap.get? compare am A ≠ none := by
  induction fuel generalizing remaining infos with
  | zero => omega
  | succ n ih =>
    rw [nullTreeLoop]
    obtain ⟨infos', k1, k2, k3, k4, k5⟩ := nullTreeRound_spec h
      (fun A hA => (hsplit A).2 (Or.inl hA)) (BSet.sorted_nodup hrs) hdisj
    simp only [k1]
    have hext : ∀ A, BMap.get? compare infos A ≠ none → BMap.get? compare infos' A ≠ none := by
      intro A hA
      cases h1 : BMap.get? compare infos A with
      | none => exact absurd h1 hA
      | some t => simp [k3 A t h1]
    have hmem : ∀ A, A ∈ (BMap.keys infos').foldl (BSet.remove compare) remaining ↔
        A ∈ remaining ∧ BMap.get? compare infos' A = none := by
      intro A
      rw [foldl_remove_mem hrs, mem_keys_iff]; simp
    have hsub := foldl_remove_sublist (ks := BMap.keys infos') (s := remaining)
    generalize hrem : (BMap.keys infos').foldl (BSet.remove compare) remaining = rem' at hmem hsub
    have hsplit' : ∀ A, BMap.get? compare am A ≠ none ↔
        (A ∈ rem' ∨ BMap.get? compare infos' A ≠ none) := by
      intro A
      rw [hsplit, hmem]
      constructor
      · rintro (h1 | h1)
        · by_cases h2 : BMap.get? compare infos' A = none
          · exact Or.inl ⟨h1, h2⟩
          · exact Or.inr h2
        · exact Or.inr (hext A h1)
      · rintro (h1 | h1)
        · exact Or.inl h1.1
        · rcases k4 A h1 with h2 | h2
          · exact Or.inr h2
          · exact Or.inl h2
    cases rem' with
    | nil =>
      refine ⟨infos', rfl, k2, ?_⟩
      intro A
      rw [hsplit']; simp
    | cons r rs =>
      simp only
      have hrs' : BSet.Sorted compare (r :: rs) := List.Pairwise.sublist hsub hrs
      apply ih k2 hrs' hsplit'
      · intro A hA; exact ((hmem A).1 hA).2
      · -- progress
        have hr : r ∈ remaining := ((hmem r).1 (by simp)).1
        obtain ⟨C, p, c1, c2, c3⟩ := hprog (· ∈ remaining) r
          (fun B hB => (hsplit B).2 (Or.inl hB)) hr
        have hC : BMap.get? compare infos' C ≠ none := by
          apply k5 C c1 p c2
          intro nB hnB
          obtain ⟨d1, d2⟩ := c3 nB hnB
          rcases (hsplit nB.2).1 d1 with d | d
          · exact absurd d d2
          · exact d
        have hlt : (r :: rs).length < remaining.length := by
          have hCn : C ∉ (r :: rs) := fun hm => hC ((hmem C).1 hm).2
          have := nodup_subset_length (l := C :: r :: rs) (U := remaining)
            (List.nodup_cons.2 ⟨hCn, BSet.sorted_nodup hrs'⟩) (by
              intro x hx
              rcases List.mem_cons.1 hx with rfl | hx
              · exact c1
              · exact ((hmem x).1 hx).1)
          simp at this ⊢
          omega
        omega

end
end Bongo
