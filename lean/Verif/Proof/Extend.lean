import Verif.Spec.Extend
import Verif.Spec.Follow
import Verif.Spec.Earley
import Verif.Spec.LL1
import Verif.Proof.Cfg
import Verif.Proof.Grammar
import Verif.Proof.GrammarBuild
import Verif.Proof.RenameGrammar
import Verif.Proof.Reordered
import Verif.Proof.EarleyComplete
import Mathlib.Data.List.NodupEquivFin
/-! # Lemmas: adding productions -/
set_option linter.unusedSectionVars false
namespace Bongo
open Std

section
variable {T N : Type} {G G' : Cfg T N}

theorem Cfg.Derives.mono (h : ∀ A β, G.prod A β → G'.prod A β) {a b : List (Elem T N)} (hd : G.Derives a b) :
    G'.Derives a b := by
  induction hd with
  | refl => exact .refl _
  | tail _ hs ih =>
    refine Relation.ReflTransGen.tail ih ?_
    cases hs with
    | mk u v A β hp => exact .mk u v A β (h A β hp)

theorem Cfg.DirectFollow.mono (h : ∀ A β, G.prod A β → G'.prod A β) {A : N} {t : T} (hd : G.DirectFollow A t) :
    G'.DirectFollow A t := by
  induction hd with
  | next hp hb => exact .next (h _ _ hp) (hb.mono h)
  | last hp _ ih => exact .last (h _ _ hp) ih
end

variable {T NT AK AV L : Type} {g g' : Grammar T NT AK AV}

section
variable {P Q : Type}
mutual
theorem DTree.mapNodes_inj {f : P → Q} (hf : ∀ a b, f a = f b → a = b) : (s s' : DTree L P) →
    s.mapNodes f = s'.mapNodes f → s = s'
  | .leaf _, .leaf _, h => by simpa [DTree.mapNodes] using h
  | .leaf _, .node _ _, h => by simp [DTree.mapNodes] at h
  | .node _ _, .leaf _, h => by simp [DTree.mapNodes] at h
  | .node k cs, .node k' cs', h => by
    simp only [DTree.mapNodes, DTree.node.injEq] at h
    rw [hf _ _ h.1, DTree.mapNodesAll_inj hf cs cs' h.2]
theorem DTree.mapNodesAll_inj {f : P → Q} (hf : ∀ a b, f a = f b → a = b) : (cs cs' : List (DTree L P)) →
    DTree.mapNodesAll f cs = DTree.mapNodesAll f cs' → cs = cs'
  | [], [], _ => rfl
  | [], _ :: _, h => by simp [DTree.mapNodesAll] at h
  | _ :: _, [], h => by simp [DTree.mapNodesAll] at h
  | c :: cs, c' :: cs', h => by
    simp only [DTree.mapNodesAll, List.cons.injEq] at h
    rw [DTree.mapNodes_inj hf c c' h.1, DTree.mapNodesAll_inj hf cs cs' h.2]
end
end

section
variable {φ : Prod T NT AK AV → Prod T NT AK AV} (h1 : ∀ p, (φ p).head = p.head ∧ (φ p).inner = p.inner)
  (h2 : ∀ p ∈ g.prods, φ p ∈ g'.prods) {kind : L → T}
include h1 h2
mutual
theorem IsTree.embed : {e : Elem T NT} → {d : DTree L (Prod T NT AK AV)} →
    IsTree g kind e d → IsTree g' kind e (d.mapNodes φ)
  | _, _, .leaf l => .leaf l
  | _, _, .node p cs hp hcs => by
    rw [DTree.mapNodes, ← (h1 p).1]
    refine .node (φ p) _ (h2 p hp) ?_
    have : (φ p).elements = p.elements := by unfold Prod.elements; rw [(h1 p).2]
    rw [this]
    exact IsForest.embed hcs
theorem IsForest.embed : {es : List (Elem T NT)} → {ds : List (DTree L (Prod T NT AK AV))} →
    IsForest g kind es ds → IsForest g' kind es (DTree.mapNodesAll φ ds)
  | _, _, .nil => .nil
  | _, _, .cons hc hcs => .cons (IsTree.embed hc) (IsForest.embed hcs)
end
end

variable [Ord NT] [TransOrd NT] [LawfulEqOrd NT]

theorem Grammar.ExtendedTo.embed (h : g.ExtendedTo g') (hw : g.WF) :
    ∃ φ : Prod T NT AK AV → Prod T NT AK AV, (∀ p q, φ p = φ q → p = q) ∧
      (∀ p, (φ p).head = p.head ∧ (φ p).inner = p.inner) ∧ ∀ p ∈ g.prods, φ p ∈ g'.prods := by
  classical
  have hF : ∀ A : NT, ∃ f : Nat → Nat, (∀ a b, f a = f b → a = b) ∧ ∀ r ∈ g.rules, r.head = A →
      ∃ r' ∈ g'.rules, r'.head = A ∧ ∀ i : Nat, r.prods[i]? = r'.prods[f i]? := by
    intro A
    cases hr : g.tryGetRule A with
    | none =>
      refine ⟨id, fun _ _ h => h, fun r hr' hA => ?_⟩
      have := (Grammar.tryGetRule_iff_rules hw).2 ⟨hr', hA⟩
      rw [hr] at this; cases this
    | some r =>
      obtain ⟨k1, k2⟩ := (Grammar.tryGetRule_iff_rules hw).1 hr
      obtain ⟨r', k3, k4, k5⟩ := h.2 r k1
      obtain ⟨f, hf⟩ := List.sublist_iff_exists_orderEmbedding_getElem?_eq.1 k5
      refine ⟨f, fun a b e => f.injective e, fun r₁ hr₁ hA => ?_⟩
      have := (Grammar.tryGetRule_iff_rules hw).2 ⟨hr₁, hA⟩
      rw [hr] at this
      cases this
      exact ⟨r', k3, k4.trans hA, hf⟩
  choose F hF1 hF2 using hF
  refine ⟨fun p => ⟨p.head, F p.head p.index, p.inner⟩, ?_, fun p => ⟨rfl, rfl⟩, ?_⟩
  · rintro ⟨a, i, x⟩ ⟨b, j, y⟩ he
    simp only [Prod.mk.injEq] at he
    obtain ⟨rfl, he, rfl⟩ := he
    rw [hF1 _ _ _ he]
  · intro p hp
    obtain ⟨r, hr, hp⟩ := List.mem_flatMap.1 hp
    obtain ⟨hp1, hp2⟩ := (RuleInner.mem_prodRefs).1 hp
    obtain ⟨r', k1, k2, k3⟩ := hF2 p.head r hr hp1.symm
    refine List.mem_flatMap.2 ⟨r', k1, (RuleInner.mem_prodRefs).2 ⟨k2.symm, ?_⟩⟩
    rw [← k3]; exact hp2

theorem Grammar.ExtendedTo.carries (h : g.ExtendedTo g') (hw : g.WF) : g.Carries g' := by
  obtain ⟨φ, -, h1, h2⟩ := h.embed hw
  exact fun p hp => ⟨φ p, h2 p hp, (h1 p).1, (h1 p).2⟩

theorem Grammar.ExtendedTo.cfg (h : g.ExtendedTo g') (hw : g.WF) (hw' : g'.WF) :
    ∀ A β, g.cfg.prod A β → g'.cfg.prod A β := by
  intro A β hp
  obtain ⟨p, h1, h2, h3⟩ := (Grammar.cfg_prod_iff hw).1 hp
  obtain ⟨p', k1, k2, k3⟩ := h.carries hw p h1
  refine (Grammar.cfg_prod_iff hw').2 ⟨p', k1, by rw [k2, h2], ?_⟩
  rw [← h3]; unfold Prod.elements; rw [k3]

theorem Grammar.ExtendedTo.viable (h : g.ExtendedTo g') (hw : g.WF) (hw' : g'.WF) {u : List T} (hv : g.Viable u) :
    g'.Viable u := by
  obtain ⟨δ, hd⟩ := hv
  refine ⟨δ, ?_⟩
  rw [h.1]; exact hd.mono (h.cfg hw hw')

theorem Grammar.ExtendedTo.inLanguage (h : g.ExtendedTo g') (hw : g.WF) (hw' : g'.WF) {u : List T}
    (hv : g.cfg.InLanguage u) : g'.cfg.InLanguage u := by
  have hs : g'.cfg.start = g.cfg.start := h.1
  unfold Cfg.InLanguage at hv ⊢
  rw [hs]
  exact Cfg.Derives.mono (h.cfg hw hw') hv

theorem Grammar.ExtendedTo.clash (h : g.ExtendedTo g') (hw : g.WF) (hw' : g'.WF) {u : List T} (hv : g.Clash u) :
    g'.Clash u := by
  have hm := h.cfg hw hw'
  rcases hv with ⟨h1, h2⟩ | ⟨u, v, A, β, δ, d₁, d₂, h1, h2, h3, h4, h5, h6, h7⟩
  · refine .inl ⟨h1, ?_⟩
    rw [h.1]
    exact Cfg.Derives.mono hm h2
  · refine .inr ⟨u, v, A, β, δ, d₁, d₂, h1, ?_, hm _ _ h3, h4, h5, h6.mono hm, h7.mono hm⟩
    rw [h.1]; exact h2.mono hm

theorem Grammar.ExtendedTo.splitsOnce (h : g.ExtendedTo g') (hw : g.WF) (hw' : g'.WF) {w : List T}
    (hv : g'.SplitsOnce w) : g.SplitsOnce w := by
  have hm := h.cfg hw hw'
  intro u x y x' y' A β δ d e k1 k2 k3 k4 k5 k6 k7 k8 k9
  refine hv u x y x' y' A β δ d e k1 k2 ?_ (hm _ _ k4) k5 (k6.mono hm) (k7.mono hm) (k8.mono hm) (k9.mono hm)
  rw [h.1]; exact k3.mono hm

theorem Grammar.ExtendedTo.prefixFree (h : g.ExtendedTo g') (hw : g.WF) (hw' : g'.WF)
    (hv : g'.PrefixFreeInside) : g.PrefixFreeInside := by
  have hm := h.cfg hw hw'
  have he : ∀ {p p' : Prod T NT AK AV}, p'.inner = p.inner → p'.elements = p.elements := by
    intro p p' e; unfold Prod.elements; rw [e]
  constructor
  · intro p hp
    obtain ⟨p', k1, -, k3⟩ := h.carries hw p hp
    rw [← he k3]; exact hv.nonempty p' k1
  · intro p hp B hB u v h1 h2
    obtain ⟨p', k1, -, k3⟩ := h.carries hw p hp
    exact hv.free p' k1 B (by rw [he k3]; exact hB) u v (Cfg.Derives.mono hm h1) (Cfg.Derives.mono hm h2)

/-! ## Sentences that begin with the input -/

theorem Grammar.Valid.sentential (hv : g.Valid) {s : List (Elem T NT)} (hd : g.cfg.Derives [.nonterm g.startSymbol] s) :
    ∀ A, Elem.nonterm A ∈ s → ∃ r, g.tryGetRule A = some r := by
  induction hd with
  | refl =>
    intro A hA
    rw [List.mem_singleton] at hA
    cases hA
    exact hv.startRule
  | tail _ hs ih =>
    cases hs with
    | mk u v B β hp =>
      intro A hA
      rw [List.mem_append, List.mem_append] at hA
      rcases hA with (hA | hA) | hA
      · exact ih A (by simp [hA])
      · exact hv.closed B A ⟨β, hp, hA⟩
      · exact ih A (by simp [hA])

theorem Grammar.Productive.derives (hv : g.Valid) (hp : g.Productive) : ∀ s : List (Elem T NT),
    (∀ A, Elem.nonterm A ∈ s → ∃ r, g.tryGetRule A = some r) → ∃ u : List T, g.cfg.Derives s (u.map .term) := by
  intro s
  induction s with
  | nil => exact fun _ => ⟨[], .refl _⟩
  | cons e s ih =>
    intro h
    obtain ⟨u, hu⟩ := ih (fun A hA => h A (List.mem_cons_of_mem _ hA))
    have he : ∃ v : List T, g.cfg.Derives [e] (v.map .term) := by
      cases e with
      | term t => exact ⟨[t], .refl _⟩
      | nonterm A =>
        obtain ⟨r, hr⟩ := h A (by simp)
        obtain ⟨h1, h2⟩ := (Grammar.tryGetRule_iff_rules hv.toWF).1 hr
        obtain ⟨v, hv⟩ := hp r h1
        rw [h2] at hv
        exact ⟨v, hv⟩
    obtain ⟨v, hv⟩ := he
    refine ⟨v ++ u, ?_⟩
    rw [List.map_append]
    exact Cfg.Derives.append hv hu

theorem Grammar.Productive.viable_iff (hv : g.Valid) (hp : g.Productive) {u : List T} :
    g.Viable u ↔ ∃ v, g.cfg.InLanguage (u ++ v) := by
  constructor
  · rintro ⟨δ, hd⟩
    obtain ⟨v, hv'⟩ := hp.derives hv δ (fun A hA => hv.sentential hd A (List.mem_append_right _ hA))
    refine ⟨v, hd.trans ?_⟩
    rw [List.map_append]
    exact (Cfg.Derives.refl _).append hv'
  · rintro ⟨v, hv'⟩
    refine ⟨v.map .term, ?_⟩
    rw [← List.map_append]; exact hv'

theorem Grammar.viable_of_continues {u v : List T} (h : g.cfg.InLanguage (u ++ v)) : g.Viable u :=
  ⟨v.map .term, by rw [← List.map_append]; exact h⟩
end Bongo
