import Verif.Spec.Dot
import Verif.Proof.Dot
/-! # Lemmas about the output of `to_dot` -/
namespace Bongo
open Std
set_option linter.unusedSectionVars false

theorem toDigits_inj {m n : Nat} (h : Nat.toDigits 10 m = Nat.toDigits 10 n) : m = n := by
  have := congrArg (fun l => Nat.ofDigitChars 10 l 0) h
  simpa [Nat.ofDigitChars_toDigits] using this

theorem dotIdNew_digits {c : Char} (hc : c.isAlpha = true) (n : Nat) :
    dotIdNew (c :: Nat.toDigits 10 n) = some (c :: Nat.toDigits 10 n) := by
  have : (Nat.toDigits 10 n).all (fun d => d.isAlpha || d.isDigit || d == '_') = true := by
    rw [List.all_eq_true]
    intro d hd
    simp [Nat.isDigit_of_mem_toDigits (by omega) (by omega) hd]
  simp [dotIdNew, hc, this]

theorem DotNode.name_inj {x y : DotNode} (h : x.name = y.name) : x = y := by
  cases x <;> cases y <;> simp [DotNode.name] at h ⊢
  · exact toDigits_inj h
  · exact toDigits_inj h

theorem dotNodeId_eq (x : DotNode) : dotNodeId x = .ok x.name := by
  cases x <;> simp only [dotNodeId, DotNode.name, dotIdNew_digits (c := 'n') (by decide),
    dotIdNew_digits (c := 'a') (by decide), Res.expect]

section
variable {T AK V : Type}

theorem dotNodeEdges_source {i : Inner T AK V} {l : List Nat} {es}
    (h : dotNodeEdges i l = .ok es) : ∀ e ∈ es, ∃ n ∈ l, e.1 = .node n := by
  induction l generalizing es with
  | nil => simp only [dotNodeEdges, Res.ok.injEq] at h; subst h; simp
  | cons m l ih =>
    simp only [dotNodeEdges] at h
    cases hm : i.getNode m with
    | panic p => simp [hm] at h
    | oof => simp [hm] at h
    | ok s =>
      cases hr : dotNodeEdges i l with
      | panic p => simp [hm, hr] at h
      | oof => simp [hm, hr] at h
      | ok es' =>
        simp only [hm, hr, Res.ok.injEq] at h
        subst h
        intro e he
        rcases List.mem_append.1 he with he | he
        · obtain ⟨a, -, rfl⟩ := List.mem_map.1 he
          exact ⟨m, by simp, rfl⟩
        · obtain ⟨n, hn, h⟩ := ih hr e he
          exact ⟨n, by simp [hn], h⟩

theorem dotNodeEdges_filter {i : Inner T AK V} {l : List Nat} {es} (hl : l.Nodup)
    (h : dotNodeEdges i l = .ok es) {n : Nat} (hn : n ∈ l) {s} (hs : i.getNode n = .ok s) :
    es.filter (fun e => e.1 = DotNode.node n) = s.map (fun a => (.node n, .alt a)) := by
  induction l generalizing es with
  | nil => simp at hn
  | cons m l ih =>
    simp only [dotNodeEdges] at h
    cases hm : i.getNode m with
    | panic p => simp [hm] at h
    | oof => simp [hm] at h
    | ok s' =>
      cases hr : dotNodeEdges i l with
      | panic p => simp [hm, hr] at h
      | oof => simp [hm, hr] at h
      | ok es' =>
        simp only [hm, hr, Res.ok.injEq] at h
        subst h
        rw [List.filter_append]
        by_cases hmn : m = n
        · subst hmn
          rw [hm] at hs; cases hs
          have h0 : es'.filter (fun e => e.1 = DotNode.node m) = [] := by
            rw [List.filter_eq_nil_iff]
            intro e he
            obtain ⟨k, hk, h⟩ := dotNodeEdges_source hr e he
            rw [h]
            have : k ≠ m := fun hkm => (List.nodup_cons.1 hl).1 (hkm ▸ hk)
            simp [this]
          rw [h0, List.append_nil, List.filter_eq_self.2]
          intro e he
          obtain ⟨a, -, rfl⟩ := List.mem_map.1 he
          simp
        · have hn' : n ∈ l := by
            rcases List.mem_cons.1 hn with h | h
            · exact absurd h.symm hmn
            · exact h
          rw [ih (List.nodup_cons.1 hl).2 hr hn', List.filter_eq_nil_iff.2, List.nil_append]
          intro e he
          obtain ⟨a, -, rfl⟩ := List.mem_map.1 he
          simp [hmn]

theorem dotAltEdges_source {i : Inner T AK V} {l : List Nat} {es}
    (h : dotAltEdges i l = .ok es) : ∀ e ∈ es, ∃ n ∈ l, e.1 = .alt n := by
  induction l generalizing es with
  | nil => simp only [dotAltEdges, Res.ok.injEq] at h; subst h; simp
  | cons m l ih =>
    simp only [dotAltEdges] at h
    cases hm : i.getAlt m with
    | panic p => simp [hm] at h
    | oof => simp [hm] at h
    | ok s =>
      cases hr : dotAltEdges i l with
      | panic p => cases s <;> simp [hm, hr] at h
      | oof => cases s <;> simp [hm, hr] at h
      | ok es' =>
        have key : ∀ e ∈ es', ∃ n ∈ m :: l, e.1 = .alt n := fun e he => by
          obtain ⟨n, hn, h⟩ := ih hr e he
          exact ⟨n, by simp [hn], h⟩
        cases s with
        | leaf k v => simp only [hm, hr, Res.ok.injEq] at h; subst h; exact key
        | branch act ns =>
          simp only [hm, hr, Res.ok.injEq] at h
          subst h
          intro e he
          rcases List.mem_append.1 he with he | he
          · obtain ⟨a, -, rfl⟩ := List.mem_map.1 he
            exact ⟨m, by simp, rfl⟩
          · exact key e he

theorem dotAltEdges_filter {i : Inner T AK V} {l : List Nat} {es} (hl : l.Nodup)
    (h : dotAltEdges i l = .ok es) {n : Nat} (hn : n ∈ l) {act ns}
    (hs : i.getAlt n = .ok (.branch act ns)) :
    es.filter (fun e => e.1 = DotNode.alt n) = ns.map (fun a => (.alt n, .node a)) := by
  induction l generalizing es with
  | nil => simp at hn
  | cons m l ih =>
    simp only [dotAltEdges] at h
    cases hm : i.getAlt m with
    | panic p => simp [hm] at h
    | oof => simp [hm] at h
    | ok s' =>
      cases hr : dotAltEdges i l with
      | panic p => cases s' <;> simp [hm, hr] at h
      | oof => cases s' <;> simp [hm, hr] at h
      | ok es' =>
        by_cases hmn : m = n
        · subst hmn
          rw [hm] at hs; cases hs
          simp only [hm, hr, Res.ok.injEq] at h
          subst h
          rw [List.filter_append]
          have h0 : es'.filter (fun e => e.1 = DotNode.alt m) = [] := by
            rw [List.filter_eq_nil_iff]
            intro e he
            obtain ⟨k, hk, h⟩ := dotAltEdges_source hr e he
            rw [h]
            have : k ≠ m := fun hkm => (List.nodup_cons.1 hl).1 (hkm ▸ hk)
            simp [this]
          rw [h0, List.append_nil, List.filter_eq_self.2]
          intro e he
          obtain ⟨a, -, rfl⟩ := List.mem_map.1 he
          simp
        · have hn' : n ∈ l := by
            rcases List.mem_cons.1 hn with h | h
            · exact absurd h.symm hmn
            · exact h
          have hi := ih (List.nodup_cons.1 hl).2 hr hn'
          cases s' with
          | leaf k v => simp only [hm, hr, Res.ok.injEq] at h; subst h; exact hi
          | branch act' ns' =>
            simp only [hm, hr, Res.ok.injEq] at h
            subst h
            rw [List.filter_append, hi, List.filter_eq_nil_iff.2, List.nil_append]
            intro e he
            obtain ⟨a, -, rfl⟩ := List.mem_map.1 he
            simp [hmn]

theorem filter_source_none {es : List (DotNode × DotNode)} {x : DotNode}
    (h : ∀ e ∈ es, e.1 ≠ x) : es.filter (fun e => e.1 = x) = [] := by
  rw [List.filter_eq_nil_iff]; intro e he; simpa using h e he

/-- The edges that leave a vertex, in order and with repetitions. -/
theorem dotGraph_filter {fuel : Nat} {w : World T AK V} {n : Node} {ns es}
    (h : dotGraph fuel w n = .ok (ns, es)) (hnd : ns.Nodup) :
    (∀ m s, .node m ∈ ns → (w n.tree).getNode m = .ok s →
      es.filter (fun e => e.1 = DotNode.node m) = s.map (fun a => (.node m, .alt a))) ∧
    (∀ a act l, .alt a ∈ ns → (w n.tree).getAlt a = .ok (.branch act l) →
      es.filter (fun e => e.1 = DotNode.alt a) = l.map (fun m => (.alt a, .node m))) := by
  unfold dotGraph at h
  cases hc : collectNodesAndAlts fuel w n with
  | panic p => simp [hc] at h
  | oof => simp [hc] at h
  | ok r =>
    obtain ⟨l1, l2⟩ := r
    simp only [hc] at h
    cases h1 : dotNodeEdges (w n.tree) l1 with
    | panic p => simp [h1] at h
    | oof => simp [h1] at h
    | ok e1 =>
      cases h2 : dotAltEdges (w n.tree) l2 with
      | panic p => simp [h1, h2] at h
      | oof => simp [h1, h2] at h
      | ok e2 =>
        simp only [h1, h2, Res.ok.injEq, _root_.Prod.mk.injEq] at h
        obtain ⟨rfl, rfl⟩ := h
        unfold dotNodes at hnd
        rw [List.nodup_append] at hnd
        obtain ⟨d1, d2, -⟩ := hnd
        have d1 := List.Nodup.of_map _ d1
        have d2 := List.Nodup.of_map _ d2
        constructor
        · intro m s hm hs
          have hm : m ∈ l1 := by simpa [dotNodes] using hm
          rw [List.filter_append, dotNodeEdges_filter d1 h1 hm hs, filter_source_none, List.append_nil]
          intro e he
          obtain ⟨_, _, h⟩ := dotAltEdges_source h2 e he
          simp [h]
        · intro m act l hm hs
          have hm : m ∈ l2 := by simpa [dotNodes] using hm
          rw [List.filter_append, dotAltEdges_filter d2 h2 hm hs, filter_source_none, List.nil_append]
          intro e he
          obtain ⟨_, _, h⟩ := dotNodeEdges_source h1 e he
          simp [h]

theorem dotEdgeIds_eq (es : List (DotNode × DotNode)) :
    dotEdgeIds es = .ok (es.map (fun e => (e.1.name, e.2.name))) := by
  induction es with
  | nil => rfl
  | cons e es ih =>
    obtain ⟨x, y⟩ := e
    simp only [dotEdgeIds, dotNodeId_eq, ih, List.map_cons]

theorem dotVertices_ok (dbgT : T → String) (dbgAK : AK → String) (dbgV : V → String)
    {i : Inner T AK V} {l : List DotNode}
    (h : ∀ x ∈ l, ∃ s, dotNodeLabel dbgT dbgAK dbgV i x = .ok s) :
    ∃ vs, dotVertices dbgT dbgAK dbgV i l = .ok vs ∧ vs.map (·.id) = l.map DotNode.name ∧
      ∀ v, v ∈ vs ↔ ∃ x ∈ l, ∃ s, dotNodeLabel dbgT dbgAK dbgV i x = .ok s ∧
        v = ⟨x.name, s, dotNodeShape x⟩ := by
  induction l with
  | nil => exact ⟨[], rfl, rfl, by simp⟩
  | cons x l ih =>
    obtain ⟨vs, h1, h2, h3⟩ := ih (fun y hy => h y (by simp [hy]))
    obtain ⟨s, hs⟩ := h x (by simp)
    refine ⟨⟨x.name, s, dotNodeShape x⟩ :: vs, by simp only [dotVertices, dotNodeId_eq, hs, h1],
      by simp [h2], ?_⟩
    intro v
    rw [List.mem_cons, h3]
    constructor
    · rintro (rfl | ⟨y, hy, h⟩)
      · exact ⟨x, by simp, s, hs, rfl⟩
      · exact ⟨y, by simp [hy], h⟩
    · rintro ⟨y, hy, s', hs', rfl⟩
      rcases List.mem_cons.1 hy with rfl | hy
      · rw [hs] at hs'; cases hs'; exact Or.inl rfl
      · exact Or.inr ⟨y, hy, s', hs', rfl⟩
end
end Bongo
