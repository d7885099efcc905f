import Verif.Model.Machine
import Verif.Props.State
/-!
# C111: machine integers

A `w`-bit machine; `Overflow.checked` are builds with overflow checks, `Overflow.wrapping` builds
without.  The elements of a production fit into memory: there are fewer than `2 ^ w`.
-/
set_option linter.unusedSectionVars false
namespace Bongo
variable {T NT AK AV : Type}

theorem Visits.index {p : Prod T NT AK AV} {es : List (ProdElement T NT)} {s : ProdState T NT AK AV}
    (h : Visits p es s) : s = ⟨p, es.length⟩ ∧ es.length ≤ p.prodElements.length := by
  obtain ⟨rest, hr⟩ := (prodState_visits p es).1 ⟨s, h⟩
  have hle : es.length ≤ p.prodElements.length := by rw [← hr]; simp
  refine ⟨?_, hle⟩
  clear hle hr rest
  induction h with
  | start => rfl
  | next _ hn ih =>
    subst ih
    obtain ⟨h1, rfl⟩ := ProdStateSet.nextElemState_some.1 hn
    simp

/-- C111, what holds: looking `i` elements ahead gives the `i`-th element after the position, or `None`
if there is none, as long as the position and `i` add up to less than `2 ^ w`.  (The full statement is
this for all `i < 2 ^ w`; it is false, see `offset_wraps` and `offset_overflows`.) -/
theorem offset_machine_partial (w : Nat) (o : Overflow) (p : Prod T NT AK AV)
    (es : List (ProdElement T NT)) (s : ProdState T NT AK AV) (h : Visits p es s) (i : Nat)
    (hi : es.length + i < 2 ^ w) :
    s.offsetProdElemW w o i = .ok (p.prodElements.drop es.length)[i]? ∧
    s.offsetElemW w o i = .ok ((p.prodElements.drop es.length)[i]?.map (·.element)) := by
  obtain ⟨rfl, -⟩ := h.index
  have : (⟨p, es.length⟩ : ProdState T NT AK AV).offsetProdElemW w o i =
      .ok (p.prodElements.drop es.length)[i]? := by
    simp [ProdState.offsetProdElemW, usizeAdd, hi]
  exact ⟨this, by simp only [ProdState.offsetElemW, this]⟩

/-- C111 is false with overflow checks: otherwise the call panics. -/
theorem offset_overflows (w : Nat) (p : Prod T NT AK AV) (es : List (ProdElement T NT))
    (s : ProdState T NT AK AV) (h : Visits p es s) (i : Nat) (hi : 2 ^ w ≤ es.length + i) :
    s.offsetProdElemW w .checked i = .panic .overflow ∧
    s.offsetElemW w .checked i = .panic .overflow := by
  obtain ⟨rfl, -⟩ := h.index
  have : (⟨p, es.length⟩ : ProdState T NT AK AV).offsetProdElemW w .checked i = .panic .overflow := by
    simp [ProdState.offsetProdElemW, usizeAdd, Nat.not_lt.2 hi]
  exact ⟨this, by simp only [ProdState.offsetElemW, this]⟩

/-- C111 is false without overflow checks: looking `2 ^ w - j` elements ahead gives the `j`-th element
*before* the position. -/
theorem offset_wraps (w : Nat) (p : Prod T NT AK AV) (hp : p.prodElements.length < 2 ^ w)
    (es : List (ProdElement T NT)) (s : ProdState T NT AK AV) (h : Visits p es s) (j : Nat)
    (hj : 0 < j) (hje : j ≤ es.length) :
    s.offsetProdElemW w .wrapping (2 ^ w - j) = .ok es[es.length - j]? ∧
      (es[es.length - j]?).isSome := by
  obtain ⟨rest, hr⟩ := (prodState_visits p es).1 ⟨s, h⟩
  obtain ⟨rfl, hle⟩ := h.index
  have e1 : es.length + (2 ^ w - j) = (es.length - j) + 2 ^ w := by omega
  have e2 : ¬ (es.length + (2 ^ w - j) < 2 ^ w) := by omega
  have e3 : (es.length + (2 ^ w - j)) % 2 ^ w = es.length - j := by
    rw [e1, Nat.add_mod_right, Nat.mod_eq_of_lt (by omega)]
  refine ⟨?_, ?_⟩
  · simp only [ProdState.offsetProdElemW, usizeAdd, e2, if_false, e3, Res.ok.injEq]
    rw [← hr, List.getElem?_append_left (by omega)]
  · rw [List.getElem?_eq_getElem (by omega)]; rfl

/-- C111: reading on never overflows: on a machine on which the elements of the production fit into
memory, `next_elem_state`, `next_prod_elem` and `advance_if` do, in both kinds of builds, what they do
with unbounded integers. -/
theorem next_machine (w : Nat) (o : Overflow) (p : Prod T NT AK AV) (hp : p.prodElements.length < 2 ^ w)
    (es : List (ProdElement T NT)) (s : ProdState T NT AK AV) (h : Visits p es s) :
    s.offsetProdElemW w o 0 = .ok s.nextProdElem ∧ s.offsetElemW w o 0 = .ok s.nextElem ∧
    s.nextElemStateW w o = .ok s.nextElemState := by
  obtain ⟨rfl, hle⟩ := h.index
  have h0 : (⟨p, es.length⟩ : ProdState T NT AK AV).offsetProdElemW w o 0 =
      .ok (⟨p, es.length⟩ : ProdState T NT AK AV).nextProdElem := by
    have : es.length < 2 ^ w := by omega
    simp [ProdState.offsetProdElemW, usizeAdd, ProdState.nextProdElem, ProdState.offsetProdElem, this]
  refine ⟨h0, by simp only [ProdState.offsetElemW, h0]; rfl, ?_⟩
  unfold ProdState.nextElemStateW ProdState.nextElemState
  rw [h0]
  cases hn : (⟨p, es.length⟩ : ProdState T NT AK AV).nextProdElem with
  | none => rfl
  | some e =>
    have hlt : es.length < p.prodElements.length := by
      unfold ProdState.nextProdElem ProdState.offsetProdElem at hn
      exact (List.getElem?_eq_some_iff.1 hn).1
    have : es.length + 1 < 2 ^ w := by omega
    simp [usizeAdd, this]

/-- C111: the same for `advance_if`. -/
theorem advanceIf_machine [DecidableEq T] [DecidableEq NT] (w : Nat) (o : Overflow)
    (p : Prod T NT AK AV) (hp : p.prodElements.length < 2 ^ w) (es : List (ProdElement T NT))
    (s : ProdState T NT AK AV) (h : Visits p es s) (e : Elem T NT) :
    s.advanceIfW w o e = .ok (s.advanceIf e) := by
  unfold ProdState.advanceIfW ProdState.advanceIf
  rw [(next_machine w o p hp es s h).2.2]

/-- C111: token streams never overflow. -/
theorem tokenStream_machine {K V : Type} (w : Nat) (o : Overflow) (s : VecTokenStream K V) :
    s.nextW w o = s.next := by
  unfold VecTokenStream.nextW VecTokenStream.next
  split
  · rw [List.getElem?_eq_none (by omega)]
  · rfl

/-- After the first element of `⟨a b⟩` on a 64-bit machine: 0 ahead is `b`, 1 ahead nothing; and
`usize::MAX` ahead is `a`, without overflow checks, and a panic with them. -/
example :
    let p : Prod Nat Nat Unit Unit := ⟨0, 0, ⟨(), (), [⟨none, .term 1⟩, ⟨none, .term 2⟩]⟩⟩
    Visits p [⟨none, .term 1⟩] ⟨p, 1⟩ ∧
    (⟨p, 1⟩ : ProdState Nat Nat Unit Unit).offsetElemW 64 .wrapping 0 = .ok (some (.term 2)) ∧
    (⟨p, 1⟩ : ProdState Nat Nat Unit Unit).offsetElemW 64 .wrapping 1 = .ok none ∧
    (⟨p, 1⟩ : ProdState Nat Nat Unit Unit).offsetElemW 64 .wrapping (2 ^ 64 - 1) = .ok (some (.term 1)) ∧
    (⟨p, 1⟩ : ProdState Nat Nat Unit Unit).offsetElemW 64 .checked (2 ^ 64 - 1) = .panic .overflow :=
  ⟨Visits.start.next rfl, rfl, rfl, rfl, rfl⟩

end Bongo
