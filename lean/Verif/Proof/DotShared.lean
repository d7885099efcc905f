import Verif.Model.DotShared
import Verif.Spec.DotShared
import Verif.Proof.DotText
import Verif.Proof.Dot
/-! # Lemmas: drawing a forest while other threads use the tree -/
set_option linter.unusedSectionVars false
namespace Bongo
open Std
variable {T AK V : Type} [Ord T] [Ord AK] [Ord V]

theorem ForestArrow.mono {w w' : World T AK V} {t : Nat} (h : (w t).Le (w' t)) {x y : DotNode}
    (ha : ForestArrow w t x y) : ForestArrow w' t x y := by
  cases x with
  | node n =>
    obtain ⟨a, rfl, hh⟩ := forestArrow_node.1 ha
    exact forestArrow_node.2 ⟨a, rfl, h.has _ _ hh⟩
  | alt a =>
    obtain ⟨act, ns, n, hc, hn, rfl⟩ := forestArrow_alt.1 ha
    exact forestArrow_alt.2 ⟨act, ns, n, h.alts _ _ hc, hn, rfl⟩

theorem DotNode.Exists.mono {i j : Inner T AK V} (h : i.Le j) {x : DotNode} (hx : x.Exists i) :
    x.Exists j := by
  cases x with
  | node n => exact Nat.lt_of_lt_of_le hx h.nodesLen
  | alt a => exact Nat.lt_of_lt_of_le hx h.altsLen

/-- A tree that only grows. -/
structure Grows (ws : Nat → World T AK V) (t : Nat) : Prop where
  wf : ∀ k, (ws k t).WF
  le : ∀ {i j}, i ≤ j → (ws i t).Le (ws j t)

section
variable [TransOrd T] [TransOrd AK] [TransOrd V] [LawfulEqOrd T] [LawfulEqOrd AK] [LawfulEqOrd V]

theorem Later.history {w w' : World T AK V} {held held' : List Handle} {log : TreeLog T AK V}
    (h : History log w held) (hl : Later w held w' held') :
    (∃ log', History log' w' held') ∧ w.Le w' := by
  induction hl with
  | now => exact ⟨⟨log, h⟩, World.Le.refl _⟩
  | newOwner t _ ho ih =>
    obtain ⟨⟨log', h'⟩, hle⟩ := ih
    exact ⟨⟨_, .newOwner t h' ho⟩, hle⟩
  | call op _ ho ih =>
    obtain ⟨⟨log', h'⟩, hle⟩ := ih
    exact ⟨⟨_, .call op h' ho⟩, hle.trans (exec_inv h'.inv op ho).2.1⟩

theorem Moments.histories {ws : Nat → World T AK V} {held : Nat → List Handle} (hm : Moments ws held)
    {log : TreeLog T AK V} (h : History log (ws 0) (held 0)) (k : Nat) :
    ∃ log', History log' (ws k) (held k) := by
  induction k with
  | zero => exact ⟨log, h⟩
  | succ k ih => obtain ⟨log', h'⟩ := ih; exact ((hm k).history h').1

theorem Moments.grows {ws : Nat → World T AK V} {held : Nat → List Handle} (hm : Moments ws held)
    {log : TreeLog T AK V} (h : History log (ws 0) (held 0)) (t : Nat) : Grows ws t := by
  refine ⟨fun k => ?_, fun {i j} hij => ?_⟩
  · obtain ⟨log', h'⟩ := hm.histories h k
    exact h'.inv.wf t
  · induction j with
    | zero =>
      obtain rfl : i = 0 := by omega
      exact Inner.Le.refl _
    | succ j ih =>
      rcases Nat.lt_or_ge j i with hji | hji
      · obtain rfl : i = j + 1 := by omega
        exact Inner.Le.refl _
      · obtain ⟨log', h'⟩ := hm.histories h j
        exact (ih hji).trans (((hm j).history h').2 t)
end

variable {ws : Nat → World T AK V} {t : Nat}

theorem dotLevelAmong_ok (hg : Grows ws t) {curr : List DotNode} {st₀ st : BSet DotNode × BSet DotNode} {k : Nat}
    (h : BfsInv (cmp := DotNode.cmp) st₀ st) (hc : ∀ c ∈ curr, c.Exists (ws k t)) :
    ∃ st', dotLevelAmong ws t curr st k = .ok (st', k + curr.length) ∧
      BfsInv (cmp := DotNode.cmp) st₀ st' ∧ (∀ x ∈ st.2, x ∈ st'.2) ∧
      (∀ x ∈ st'.2, x ∈ st.2 ∨ ∃ c ∈ curr, ForestArrow (ws (k + curr.length)) t c x) ∧
      ∀ c ∈ curr, ∀ y, ForestArrow (ws k) t c y → y ∈ st'.2 := by
  induction curr generalizing st k with
  | nil => exact ⟨st, rfl, h, fun x hx => hx, fun x hx => Or.inl hx, by simp⟩
  | cons c curr ih =>
    obtain ⟨l, hl⟩ := (hc c (by simp)).step_ok
    obtain ⟨h1, h2⟩ := bfsVisits l h
    obtain ⟨st', g1, g2, g3, g4, g5⟩ := ih (k := k + 1) h1
      (fun d hd => (hc d (by simp [hd])).mono (hg.le (by omega)))
    have hlen : k + (c :: curr).length = k + 1 + curr.length := by simp; omega
    refine ⟨st', by simp only [dotLevelAmong, hl, g1, hlen], g2, fun x hx => g3 x ((h2 x).2 (Or.inr hx)),
      ?_, ?_⟩
    · intro x hx
      rw [hlen]
      rcases g4 x hx with hx | ⟨d, hd, ha⟩
      · rcases (h2 x).1 hx with hx | hx
        · exact Or.inr ⟨c, by simp, (dotStep_stepTo.1 ⟨l, hl, hx⟩).mono (hg.le (by omega))⟩
        · exact Or.inl hx
      · exact Or.inr ⟨d, by simp [hd], ha⟩
    · intro d hd y hy
      rcases List.mem_cons.1 hd with rfl | hd
      · obtain ⟨l', hl', hy'⟩ := dotStep_stepTo.2 hy
        rw [hl] at hl'; cases hl'
        exact g3 y ((h2 y).2 (Or.inl hy'))
      · exact g5 d hd y (hy.mono (hg.le (by omega)))

theorem bfsVisits_length {st₀ : BSet DotNode × BSet DotNode} (l : List DotNode) {st : BSet DotNode × BSet DotNode}
    (h : BfsInv (cmp := DotNode.cmp) st₀ st) :
    (l.foldl (bfsVisit DotNode.cmp) st).2.length + st.1.length =
      st.2.length + (l.foldl (bfsVisit DotNode.cmp) st).1.length := by
  induction l generalizing st with
  | nil => rfl
  | cons a l ih =>
    have h1 := ih (bfsInv_visit h a)
    rw [List.foldl_cons]
    have h2 : (bfsVisit DotNode.cmp st a).2.length + st.1.length =
        st.2.length + (bfsVisit DotNode.cmp st a).1.length := by
      unfold bfsVisit
      split
      · rfl
      · rename_i hc
        have hc2 : BSet.contains DotNode.cmp st.2 a = false := by simpa using hc
        have hc1 : BSet.contains DotNode.cmp st.1 a = false := by
          rw [Bool.eq_false_iff]
          intro hx
          rw [BSet.contains_iff_mem] at hx
          exact hc (BSet.contains_iff_mem.2 (h.next a hx))
        rw [BSet.length_insert_of_not_contains hc1, BSet.length_insert_of_not_contains hc2]
        omega
    omega

theorem dotLevelAmong_length {curr : List DotNode} {st₀ st st' : BSet DotNode × BSet DotNode} {k k' : Nat}
    (h : BfsInv (cmp := DotNode.cmp) st₀ st) (he : dotLevelAmong ws t curr st k = .ok (st', k')) :
    k' = k + curr.length ∧ st'.2.length + st.1.length = st.2.length + st'.1.length := by
  induction curr generalizing st k with
  | nil => simp only [dotLevelAmong, Res.ok.injEq, _root_.Prod.mk.injEq] at he; obtain ⟨rfl, rfl⟩ := he; simp
  | cons c curr ih =>
    rw [dotLevelAmong] at he
    cases hl : dotStep (ws k t) c with
    | panic p => simp [hl] at he
    | oof => simp [hl] at he
    | ok l =>
      simp only [hl] at he
      have h1 := bfsVisits_length l h
      have h2 := ih (bfsVisits l h).1 he
      simp only [List.length_cons]
      omega

theorem dotLevelAmong_sorted {curr : List DotNode} {st st' : BSet DotNode × BSet DotNode} {k k' : Nat}
    (h : BSet.Sorted DotNode.cmp st.2) (he : dotLevelAmong ws t curr st k = .ok (st', k')) :
    BSet.Sorted DotNode.cmp st'.2 := by
  induction curr generalizing st k with
  | nil => simp only [dotLevelAmong, Res.ok.injEq, _root_.Prod.mk.injEq] at he; obtain ⟨rfl, rfl⟩ := he; exact h
  | cons c curr ih =>
    rw [dotLevelAmong] at he
    cases hl : dotStep (ws k t) c with
    | panic p => simp [hl] at he
    | oof => simp [hl] at he
    | ok l =>
      simp only [hl] at he
      refine ih ?_ he
      clear hl he
      induction l generalizing st with
      | nil => exact h
      | cons a l ihl =>
        refine ihl ?_
        unfold bfsVisit
        split
        · exact h
        · exact BSet.sorted_insert h _

/-- Every thing that was found is looked at once, and the root once more. -/
theorem dotLoopAmong_reads {fuel k k' : Nat} {curr seen seen' : BSet DotNode}
    (hs : BSet.Sorted DotNode.cmp seen) (he : dotLoopAmong fuel ws t curr seen k = .ok (seen', k')) :
    k' + seen.length = k + curr.length + seen'.length := by
  induction fuel generalizing curr seen k with
  | zero =>
    cases curr with
    | nil => simp only [dotLoopAmong, Res.ok.injEq, _root_.Prod.mk.injEq] at he; obtain ⟨rfl, rfl⟩ := he; simp
    | cons c cs => simp [dotLoopAmong] at he
  | succ fuel ih =>
    cases curr with
    | nil => simp only [dotLoopAmong, Res.ok.injEq, _root_.Prod.mk.injEq] at he; obtain ⟨rfl, rfl⟩ := he; simp
    | cons c cs =>
      rw [dotLoopAmong] at he
      cases hl : dotLevelAmong ws t (c :: cs) ([], seen) k with
      | panic p => simp [hl] at he
      | oof => simp [hl] at he
      | ok r =>
        obtain ⟨⟨next, seen1⟩, k1⟩ := r
        simp only [hl] at he
        obtain ⟨h1, h2⟩ := dotLevelAmong_length (bfsInv_start hs) hl
        have hs1 : BSet.Sorted DotNode.cmp seen1 := dotLevelAmong_sorted hs hl
        have := ih hs1 he
        simp only [List.length_nil] at h2
        omega

/-- The invariant of the search, `k` reads after the beginning. -/
structure DotLoopInv (ws : Nat → World T AK V) (t : Nat) (r : DotNode) (k : Nat) (curr seen : BSet DotNode) :
    Prop where
  sorted : BSet.Sorted DotNode.cmp seen
  sound : ∀ x ∈ seen, Relation.TransGen (fun a b => ForestArrow (ws k) t a b ∧ b ∈ seen) r x
  cur : ∀ x ∈ curr, x = r ∨ x ∈ seen
  done : ∀ x, x = r ∨ x ∈ seen → x ∈ curr ∨ ∀ y, ForestArrow (ws 0) t x y → y ∈ seen

theorem DotLoopInv.exists (hg : Grows ws t) {r : DotNode} (hr : r.Exists (ws 0 t)) {k : Nat}
    {curr seen : BSet DotNode} (h : DotLoopInv ws t r k curr seen) :
    ∀ x, x = r ∨ x ∈ seen → x.Exists (ws k t) := by
  rintro x (rfl | hx)
  · exact hr.mono (hg.le (by omega))
  · exact ForestArrow.exists' (hg.wf k) ((h.sound x hx).lift id (fun _ _ hab => hab.1))

theorem DotLoopInv.step (hg : Grows ws t) {r : DotNode} {k : Nat} {c : DotNode} {cs : List DotNode}
    {seen next seen' : BSet DotNode} (h : DotLoopInv ws t r k (c :: cs) seen)
    (h2 : BfsInv (cmp := DotNode.cmp) ([], seen) (next, seen')) (h3 : ∀ x ∈ seen, x ∈ seen')
    (h4 : ∀ x ∈ seen', x ∈ seen ∨ ∃ d ∈ c :: cs, ForestArrow (ws (k + (c :: cs).length)) t d x)
    (h5 : ∀ d ∈ c :: cs, ∀ y, ForestArrow (ws k) t d y → y ∈ seen') :
    DotLoopInv ws t r (k + (c :: cs).length) next seen' := by
  have hold : ∀ x ∈ seen, Relation.TransGen
      (fun a b => ForestArrow (ws (k + (c :: cs).length)) t a b ∧ b ∈ seen') r x := fun x hx =>
    (h.sound x hx).lift id (fun _ _ hab => ⟨hab.1.mono (hg.le (by omega)), h3 _ hab.2⟩)
  refine ⟨h2.sorted, ?_, fun x hx => Or.inr (h2.next x hx), ?_⟩
  · intro x hx
    rcases h4 x hx with hx' | ⟨d, hd, ha⟩
    · exact hold x hx'
    · rcases h.cur d hd with rfl | hd'
      · exact .single ⟨ha, hx⟩
      · exact (hold d hd').tail ⟨ha, hx⟩
  · have key : ∀ x, x = r ∨ x ∈ seen → x ∈ next ∨ ∀ y, ForestArrow (ws 0) t x y → y ∈ seen' := by
      intro x hx
      rcases h.done x hx with hc | hd
      · exact Or.inr fun y hy => h5 x hc y (hy.mono (hg.le (by omega)))
      · exact Or.inr fun y hy => h3 y (hd y hy)
    rintro x (hx | hx)
    · exact key x (Or.inl hx)
    · rcases h2.newNext x hx with h6 | h6
      · exact key x (Or.inr h6)
      · exact Or.inl h6

theorem dotLoopAmong_ok (hg : Grows ws t) {r : DotNode} (hr : r.Exists (ws 0 t)) {fuel k : Nat}
    {curr seen : BSet DotNode} (h : DotLoopInv ws t r k curr seen) :
    dotLoopAmong fuel ws t curr seen k = .oof ∨
      ∃ seen' k', dotLoopAmong fuel ws t curr seen k = .ok (seen', k') ∧ k ≤ k' ∧
        DotLoopInv ws t r k' [] seen' := by
  induction fuel generalizing curr seen k with
  | zero =>
    cases curr with
    | nil => exact Or.inr ⟨seen, k, rfl, Nat.le_refl _, h⟩
    | cons c cs => exact Or.inl rfl
  | succ fuel ih =>
    cases curr with
    | nil => exact Or.inr ⟨seen, k, rfl, Nat.le_refl _, h⟩
    | cons c cs =>
      obtain ⟨⟨next, seen'⟩, h1, h2, h3, h4, h5⟩ := dotLevelAmong_ok hg (curr := c :: cs) (k := k)
        (bfsInv_start h.sorted) (fun d hd => h.exists hg hr d (h.cur d hd))
      have hinv := h.step hg h2 h3 h4 h5
      rcases ih hinv with hi | ⟨s, k', hi, hk, hi'⟩
      · exact Or.inl (by simp only [dotLoopAmong, h1, hi])
      · exact Or.inr ⟨s, k', by simp only [dotLoopAmong, h1, hi], by omega, hi'⟩

theorem dotLoopAmong_ends (hg : Grows ws t) {r : DotNode} (hr : r.Exists (ws 0 t)) {B : Nat}
    (hB : ∀ k, (ws k).size t ≤ B) {fuel k : Nat} {curr seen : BSet DotNode}
    (h : DotLoopInv ws t r k curr seen) (hf : B + 1 ≤ fuel + seen.length) :
    dotLoopAmong fuel ws t curr seen k ≠ .oof := by
  have hlen : ∀ {k curr seen}, DotLoopInv ws t r k curr seen → seen.length ≤ B := by
    intro k curr seen h
    let U : List DotNode := (List.range (ws k t).nodes.length).map .node ++
      (List.range (ws k t).alternatives.idToValue.length).map .alt
    have hU : ∀ x ∈ seen, x ∈ U := by
      intro x hx
      have := h.exists hg hr x (Or.inr hx)
      cases x <;> simpa [U, DotNode.Exists] using this
    have h1 := ((BSet.sorted_nodup h.sorted).subperm hU).length_le
    have h2 : U.length = (ws k).size t := by simp [U, World.size]
    have := hB k
    omega
  induction fuel generalizing curr seen k with
  | zero => have := hlen h; omega
  | succ fuel ih =>
    cases curr with
    | nil => simp [dotLoopAmong]
    | cons c cs =>
      obtain ⟨⟨next, seen'⟩, h1, h2, h3, h4, h5⟩ := dotLevelAmong_ok hg (curr := c :: cs) (k := k)
        (bfsInv_start h.sorted) (fun d hd => h.exists hg hr d (h.cur d hd))
      have hinv := h.step hg h2 h3 h4 h5
      simp only [dotLoopAmong, h1]
      cases next with
      | nil => cases fuel <;> simp [dotLoopAmong]
      | cons d ds =>
        refine ih hinv ?_
        have hnd : (d :: seen).Nodup :=
          List.nodup_cons.2 ⟨h2.fresh d (by simp), BSet.sorted_nodup h.sorted⟩
        have hsub : ∀ x ∈ d :: seen, x ∈ seen' := by
          intro x hx
          rcases List.mem_cons.1 hx with rfl | hx
          · exact h2.next x (by simp)
          · exact h3 x hx
        have := (hnd.subperm hsub).length_le
        simp only [List.length_cons] at this
        omega

theorem Inner.Le.label {i j : Inner T AK V} (h : i.Le j) (dbgT : T → String) (dbgAK : AK → String)
    (dbgV : V → String) {x : DotNode} (hx : x.Exists i) :
    dotNodeLabel dbgT dbgAK dbgV j x = dotNodeLabel dbgT dbgAK dbgV i x := by
  cases x with
  | node n => rfl
  | alt a =>
    have h1 : i.altAt a = some i.alternatives.idToValue[a] := List.getElem?_eq_getElem hx
    simp only [dotNodeLabel, Inner.getAlt_some.2 h1, Inner.getAlt_some.2 (h.alts _ _ h1)]

theorem DotNode.Exists.label {i : Inner T AK V} (dbgT : T → String) (dbgAK : AK → String)
    (dbgV : V → String) {x : DotNode} (hx : x.Exists i) :
    ∃ s, dotNodeLabel dbgT dbgAK dbgV i x = .ok s := by
  cases x with
  | node n => exact ⟨"", rfl⟩
  | alt a =>
    have h1 : i.altAt a = some i.alternatives.idToValue[a] := List.getElem?_eq_getElem hx
    simp only [dotNodeLabel, Inner.getAlt_some.2 h1]
    cases i.alternatives.idToValue[a] <;> exact ⟨_, rfl⟩

theorem dotVerticesAmong_eq (hg : Grows ws t) (dbgT : T → String) (dbgAK : AK → String)
    (dbgV : V → String) {l : List DotNode} {k₀ k : Nat} (hk : k₀ ≤ k) (hl : ∀ x ∈ l, x.Exists (ws k₀ t)) :
    ∃ vs, dotVertices dbgT dbgAK dbgV (ws k₀ t) l = .ok vs ∧
      dotVerticesAmong dbgT dbgAK dbgV ws t l k = .ok (vs, k + (l.map dotLabelReads).sum) := by
  induction l generalizing k with
  | nil => exact ⟨[], rfl, rfl⟩
  | cons x l ih =>
    obtain ⟨vs, h1, h3⟩ := ih (k := k + dotLabelReads x) (by omega) (fun y hy => hl y (by simp [hy]))
    obtain ⟨s, hs⟩ := (hl x (by simp)).label dbgT dbgAK dbgV
    have hs' := (hg.le hk).label dbgT dbgAK dbgV (hl x (by simp))
    rw [hs] at hs'
    exact ⟨⟨x.name, s, dotNodeShape x⟩ :: vs, by simp only [dotVertices, dotNodeId_eq, hs, h1],
      by simp only [dotVerticesAmong, dotNodeId_eq, hs', h3, List.map_cons, List.sum_cons, Nat.add_assoc]⟩

theorem dotAltEdgesAmong_eq (hg : Grows ws t) {l : List Nat} {k₀ k : Nat} (hk : k₀ ≤ k)
    (hl : ∀ a ∈ l, (DotNode.alt a).Exists (ws k₀ t)) :
    ∃ es, dotAltEdges (ws k₀ t) l = .ok es ∧ dotAltEdgesAmong ws t l k = .ok (es, k + l.length) := by
  induction l generalizing k with
  | nil => exact ⟨[], rfl, rfl⟩
  | cons a l ih =>
    have hlen : k + (a :: l).length = k + 1 + l.length := by simp; omega
    obtain ⟨es, h1, h3⟩ := ih (k := k + 1) (by omega) (fun y hy => hl y (by simp [hy]))
    have hlt : a < (ws k₀ t).alternatives.idToValue.length := hl a (by simp)
    have ha : (ws k₀ t).altAt a = some (ws k₀ t).alternatives.idToValue[a] := List.getElem?_eq_getElem hlt
    cases hc : (ws k₀ t).alternatives.idToValue[a] with
    | leaf kd v =>
      rw [hc] at ha
      have hb := (hg.le hk).alts _ _ ha
      exact ⟨es, by simp only [dotAltEdges, Inner.getAlt_some.2 ha, h1],
        by simp only [dotAltEdgesAmong, Inner.getAlt_some.2 hb, h3, hlen]⟩
    | branch act ns =>
      rw [hc] at ha
      have hb := (hg.le hk).alts _ _ ha
      exact ⟨ns.map (fun n => (.alt a, .node n)) ++ es,
        by simp only [dotAltEdges, Inner.getAlt_some.2 ha, h1],
        by simp only [dotAltEdgesAmong, Inner.getAlt_some.2 hb, h3, hlen]⟩

theorem dotNodeEdgesAmong_ok (hg : Grows ws t) {l : List Nat} (hnd : l.Nodup) {k : Nat}
    (hl : ∀ n ∈ l, (DotNode.node n).Exists (ws k t)) :
    ∃ es, dotNodeEdgesAmong ws t l k = .ok (es, k + l.length) ∧
      (∀ e ∈ es, ∃ n ∈ l, e.1 = .node n) ∧
      ∀ n ∈ l, ∃ j s, k ≤ j ∧ j < k + l.length ∧ (ws j t).getNode n = .ok s ∧
        es.filter (fun e => e.1 = DotNode.node n) = s.map (fun a => (.node n, .alt a)) := by
  induction l generalizing k with
  | nil => exact ⟨[], rfl, by simp, by simp⟩
  | cons n l ih =>
    obtain ⟨es, h1, h2, h3⟩ := ih (List.nodup_cons.1 hnd).2 (k := k + 1)
      (fun y hy => (hl y (by simp [hy])).mono (hg.le (by omega)))
    have hn : n < (ws k t).nodes.length := hl n (by simp)
    have hlen : k + (n :: l).length = k + 1 + l.length := by simp; omega
    refine ⟨(ws k t).nodes[n].map (fun a => (.node n, .alt a)) ++ es,
      by simp only [dotNodeEdgesAmong, Inner.getNode_ok hn, h1, hlen], ?_, ?_⟩
    · intro e he
      rcases List.mem_append.1 he with he | he
      · obtain ⟨a, -, rfl⟩ := List.mem_map.1 he
        exact ⟨n, by simp, rfl⟩
      · obtain ⟨m, hm, h⟩ := h2 e he
        exact ⟨m, by simp [hm], h⟩
    · intro m hm
      rw [hlen]
      by_cases hmn : m = n
      · subst hmn
        refine ⟨k, _, Nat.le_refl _, by omega, Inner.getNode_ok hn, ?_⟩
        rw [List.filter_append, filter_source_none (es := es), List.append_nil, List.filter_eq_self.2]
        · intro e he
          obtain ⟨a, -, rfl⟩ := List.mem_map.1 he
          simp
        · intro e he hem
          obtain ⟨m', hm', h⟩ := h2 e he
          rw [h] at hem
          cases hem
          exact (List.nodup_cons.1 hnd).1 hm'
      · have hm' : m ∈ l := by
          rcases List.mem_cons.1 hm with h | h
          · exact absurd h hmn
          · exact h
        obtain ⟨j, s, j1, j2, j3, j4⟩ := h3 m hm'
        refine ⟨j, s, by omega, by omega, j3, ?_⟩
        rw [List.filter_append, j4, filter_source_none, List.nil_append]
        intro e he hem
        obtain ⟨a, -, rfl⟩ := List.mem_map.1 he
        cases hem
        exact hmn rfl
end Bongo
