import Verif.Proof.Rounds
import Verif.Proof.Lalr
/-! How many rounds the closure loop of an LALR state takes. -/
set_option linter.unusedSectionVars false
namespace Bongo
open Std
variable {T NT AK AV : Type} [Ord T] [TransOrd T] [LawfulEqOrd T]
  [Ord NT] [TransOrd NT] [LawfulEqOrd NT]
variable {g : Grammar T NT AK AV} {addr : NT → Nat → Nat}
  {K : BMap (ProdState T NT AK AV) (BSet T)} {f : Firsts T NT}

/-- `s` leads to the production `q`. -/
def Leads (g : Grammar T NT AK AV) (s : ProdState T NT AK AV) (q : Prod T NT AK AV) : Prop :=
  q ∈ g.prods ∧ s.prod.elements[s.index]? = some (.nonterm q.head)

/-- `s` gives the lookahead `t` to what it leads to, whatever its own are. -/
def Gives (g : Grammar T NT AK AV) (s : ProdState T NT AK AV) (t : T) : Prop :=
  s.prod.elements[s.index + 1]? = some (.term t) ∨
    ∃ C, s.prod.elements[s.index + 1]? = some (.nonterm C) ∧ g.cfg.First [.nonterm C] t

/-- One round: the productions whose item has a lookahead. -/
def litRule (g : Grammar T NT AK AV) (K : BMap (ProdState T NT AK AV) (BSet T))
    (S : Prod T NT AK AV → Prop) (q : Prod T NT AK AV) : Prop :=
  (∃ e ∈ K, e.1.prod = q ∧ ∃ t, t ∈ e.2) ∨
  (∃ s t, KernelItem K s.prod s ∧ ((∃ la, (s, la) ∈ K) ∨ S s.prod) ∧ Leads g s q ∧ Gives g s t) ∨
  ∃ s, KernelItem K s.prod s ∧ S s.prod ∧ Leads g s q ∧ s.prod.elements[s.index + 1]? = none

/-- One round: the productions whose item has the lookahead `t`. -/
def laRule (g : Grammar T NT AK AV) (K : BMap (ProdState T NT AK AV) (BSet T)) (t : T)
    (S : Prod T NT AK AV → Prop) (q : Prod T NT AK AV) : Prop :=
  (∃ e ∈ K, e.1.prod = q ∧ t ∈ e.2) ∨
  (∃ s, KernelItem K s.prod s ∧ ((∃ la, (s, la) ∈ K) ∨ level (litRule g K) g.prods.length s.prod) ∧
    Leads g s q ∧ Gives g s t) ∨
  ∃ s, KernelItem K s.prod s ∧ S s.prod ∧ Leads g s q ∧ s.prod.elements[s.index + 1]? = none

theorem litRule_mono : MonoRule (litRule g K) := by
  rintro P Q h q (h1 | ⟨s, t, h1, h2 | h2, h3, h4⟩ | ⟨s, h1, h2, h3, h4⟩)
  · exact Or.inl h1
  · exact Or.inr (Or.inl ⟨s, t, h1, Or.inl h2, h3, h4⟩)
  · exact Or.inr (Or.inl ⟨s, t, h1, Or.inr (h _ h2), h3, h4⟩)
  · exact Or.inr (Or.inr ⟨s, h1, h _ h2, h3, h4⟩)

theorem laRule_mono {t : T} : MonoRule (laRule g K t) := by
  rintro P Q h q (h1 | h1 | ⟨s, h1, h2, h3, h4⟩)
  · exact Or.inl h1
  · exact Or.inr (Or.inl h1)
  · exact Or.inr (Or.inr ⟨s, h1, h _ h2, h3, h4⟩)

theorem lit_mem (hK : ∀ e ∈ K, e.1.prod ∈ g.prods) (k : Nat) (q : Prod T NT AK AV)
    (h : level (litRule g K) k q) : q ∈ g.prods := by
  cases k with
  | zero => exact h.elim
  | succ k =>
    rcases h with ⟨e, he, rfl, -⟩ | ⟨s, t, -, -, h, -⟩ | ⟨s, -, -, h, -⟩
    · exact hK e he
    · exact h.1
    · exact h.1

theorem la_mem (hK : ∀ e ∈ K, e.1.prod ∈ g.prods) {t : T} (k : Nat) (q : Prod T NT AK AV)
    (h : level (laRule g K t) k q) : q ∈ g.prods := by
  cases k with
  | zero => exact h.elim
  | succ k =>
    rcases h with ⟨e, he, rfl, -⟩ | ⟨s, -, -, h, -⟩ | ⟨s, -, -, h, -⟩
    · exact hK e he
    · exact h.1
    · exact h.1

theorem kernelItem_prod {q : Prod T NT AK AV} {s : ProdState T NT AK AV} (h : KernelItem K q s) :
    s.prod = q := by
  rcases h with ⟨-, h⟩ | ⟨rfl, -⟩
  · exact h
  · rfl

/-- Every item of a state is in the kernel or has a lookahead within as many rounds as there are
productions; and it has each of its lookaheads within as many more. -/
theorem lalrFact_level (hK : ∀ e ∈ K, e.1.prod ∈ g.prods) {s o} (h : LalrFact g K s o) :
    ((∃ la, (s, la) ∈ K) ∨ level (litRule g K) g.prods.length s.prod) ∧
    ∀ t, o = some t → level (litRule g K) g.prods.length s.prod ∧
      level (laRule g K t) g.prods.length s.prod := by
  have lit : ∀ {q}, litRule g K (level (litRule g K) g.prods.length) q →
      level (litRule g K) g.prods.length q := fun {q} h =>
    level_bound litRule_mono (lit_mem hK) (g.prods.length + 1) q h
  have la : ∀ {q t}, laRule g K t (level (laRule g K t) g.prods.length) q →
      level (laRule g K t) g.prods.length q := fun {q t} h =>
    level_bound laRule_mono (la_mem hK) (g.prods.length + 1) q h
  have both : ∀ {q : Prod T NT AK AV} {s' t},
      level (litRule g K) g.prods.length q ∧ level (laRule g K t) g.prods.length q →
      KernelItem K q s' →
      ((∃ la, (s', la) ∈ K) ∨ level (litRule g K) g.prods.length s'.prod) ∧
      ∀ t', some t = some t' → level (litRule g K) g.prods.length s'.prod ∧
        level (laRule g K t') g.prods.length s'.prod := by
    intro q s' t h hk
    rw [kernelItem_prod hk]
    exact ⟨Or.inr h.1, by rintro t' ⟨⟩; exact h⟩
  induction h with
  | item h => exact ⟨Or.inl ⟨_, h⟩, by simp⟩
  | lookahead h ht =>
    exact ⟨Or.inl ⟨_, h⟩, by
      rintro _ ⟨⟩
      exact ⟨lit (Or.inl ⟨_, h, rfl, _, ht⟩), la (Or.inl ⟨_, h, rfl, ht⟩)⟩⟩
  | present _ ih => exact ⟨ih.1, by simp⟩
  | term h hn h1 hq hh hk ih =>
    subst hh
    exact both ⟨lit (Or.inr (Or.inl ⟨_, _, (h.kernelItem hK).1, ih.1, ⟨hq, hn⟩, Or.inl h1⟩)),
      la (Or.inr (Or.inl ⟨_, (h.kernelItem hK).1, ih.1, ⟨hq, hn⟩, Or.inl h1⟩))⟩ hk
  | first h hn h1 hC hq hh hk ih =>
    subst hh
    exact both ⟨lit (Or.inr (Or.inl ⟨_, _, (h.kernelItem hK).1, ih.1, ⟨hq, hn⟩, Or.inr ⟨_, h1, hC⟩⟩)),
      la (Or.inr (Or.inl ⟨_, (h.kernelItem hK).1, ih.1, ⟨hq, hn⟩, Or.inr ⟨_, h1, hC⟩⟩))⟩ hk
  | last h hn h1 hq hh hk ih =>
    subst hh
    obtain ⟨i1, i2⟩ := ih.2 _ rfl
    exact both ⟨lit (Or.inr (Or.inr ⟨_, (h.kernelItem hK).1, i1, ⟨hq, hn⟩, h1⟩)),
      la (Or.inr (Or.inr ⟨_, (h.kernelItem hK).1, i2, ⟨hq, hn⟩, h1⟩))⟩ hk

/-- The loop takes at most one round more than twice the number of productions. -/
theorem lalr_rounds (hv : g.Valid) (ha : AddrInj g addr) (hK : ∀ e ∈ K, e.1.prod ∈ g.prods)
    (hwf : ItemWF addr K) (hfe : FirstsExact g f) {fuel : Nat} (hf : 2 * g.prods.length < fuel) :
    changeLoop fuel (ParseState.closureRound addr g f) K ≠ .oof := by
  have hsame : ∀ {e : ProdState T NT AK AV × BSet T} {s}, e ∈ K → KernelItem K e.1.prod s →
      s = e.1 := by
    rintro e s he (⟨⟨la, h⟩, hp⟩ | ⟨-, h⟩)
    · have hc : ProdState.cmp addr s e.1 = .eq := (prodCmp_eq hv.toWF ha (hK _ h) (hK e he)).2 hp
      exact congrArg (fun e => e.1) (BMap.sorted_unique hwf.sorted h he hc)
    · exact absurd rfl (h e he)
  refine changeLoop_rounds (Q := fun k m => LalrInv addr g K m ∧
      (∀ q s, level (litRule g K) k q → KernelItem K q s → ∃ t, ItemIn m s (some t)) ∧
      ∀ t j, k = g.prods.length + j → ∀ q s, level (laRule g K t) j q → KernelItem K q s →
        ItemIn m s (some t)) (n := 2 * g.prods.length)
    ?_ ?_ ?_ (k := 0) ⟨LalrInv.start hwf, ?_, ?_⟩ (by omega) (by omega)
  · rintro k m ⟨h1, -, -⟩
    rcases lalr_round hv hK hfe h1 with ⟨-, h⟩ | ⟨-, ops, -, h, -⟩ <;> rw [h] <;> simp
  · rintro k m m' ⟨h1, h2, h3⟩ he
    rcases lalr_round hv hK hfe h1 with ⟨-, h⟩ | ⟨hng, ops, h4, h5, h6⟩
    · rw [h] at he; cases he
    rw [h5] at he
    simp only [Res.ok.injEq] at he
    have hm' : m' = (changeIter ops (lalrVisit addr) m).1 := by rw [he]
    subst hm'
    have hfp := lalr_factPass hv.toWF ha hK hfe h4
    have hop : ∀ {q s la l s' t}, q ∈ g.prods → (s, la) ∈ m →
        s.prod.elements[s.index]? = some (.nonterm q.head) → ParseState.newLa f s la = .ok l →
        t ∈ l → KernelItem K q s' → ItemIn (changeIter ops (lalrVisit addr) m).1 s' (some t) := by
      intro q s la l s' t hq hs hn hl ht hk
      obtain ⟨m₁, i1, i2, i3⟩ := hfp.iter_visit h1
        ((h6 (ProdState.fromStart q) l).2 ⟨q, hq, rfl, s, la, hs, hn, hl⟩)
      obtain ⟨-, c2, -, -⟩ := insertIter_items i1.wf (ProdState.fromStart q) l
      exact i3 (s', some t) ((c2 s' t).2 (Or.inr ⟨ht, (i1.slot_iff hv.toWF ha hK hq s').2 hk⟩))
    have hla : ∀ {s la}, (s, la) ∈ m → ∀ B, s.prod.elements[s.index]? = some (.nonterm B) →
        ∃ l, ParseState.newLa f s la = .ok l := by
      intro s la hs B hB
      unfold ParseState.newLa
      rw [offsetElem_eq]
      split
      · rename_i C hC
        cases hfc : f.get C with
        | none => exact absurd ⟨s, ⟨la, hs, by simp⟩, B, C, hB, hC, hfc⟩ hng
        | some l => exact ⟨l, rfl⟩
      · exact ⟨_, rfl⟩
      · exact ⟨_, rfl⟩
    have hker : ∀ {s la}, (s, la) ∈ K → ItemIn m s none := fun h =>
      h1.kernel _ _ ⟨_, h, by simp⟩
    have hgive : ∀ {s q s' t}, ItemIn m s none → Leads g s q → Gives g s t → KernelItem K q s' →
        ItemIn (changeIter ops (lalrVisit addr) m).1 s' (some t) := by
      rintro s q s' t ⟨la, hs, -⟩ ⟨hq, hn⟩ hgv hk
      obtain ⟨l, hl⟩ := hla hs _ hn
      refine hop hq hs hn hl ((newLa_cases hfe hl t).2 ?_) hk
      rcases hgv with h | h
      · exact Or.inl h
      · exact Or.inr (Or.inl h)
    have hpass : ∀ {s q s' t}, ItemIn m s (some t) → Leads g s q →
        s.prod.elements[s.index + 1]? = none → KernelItem K q s' →
        ItemIn (changeIter ops (lalrVisit addr) m).1 s' (some t) := by
      rintro s q s' t ⟨la, hs, ht⟩ ⟨hq, hn⟩ he hk
      obtain ⟨l, hl⟩ := hla hs _ hn
      exact hop hq hs hn hl ((newLa_cases hfe hl t).2 (Or.inr (Or.inr ⟨he, ht t rfl⟩))) hk
    have hi := (hfp.iter h1).1
    refine ⟨hi, ?_, ?_⟩
    · rintro q s (⟨e, he, rfl, t, ht⟩ | ⟨s₀, t, hk0, hs0, hl, hgv⟩ | ⟨s₀, hk0, hs0, hl, hgv⟩) hk
      · obtain rfl := hsame he hk
        exact ⟨t, hi.kernel _ _ ⟨_, he, by rintro _ ⟨⟩; exact ht⟩⟩
      · refine ⟨t, hgive ?_ hl hgv hk⟩
        rcases hs0 with ⟨la, h⟩ | h
        · exact hker h
        · obtain ⟨_, h⟩ := h2 _ _ h hk0
          exact h.toNone
      · obtain ⟨t, h⟩ := h2 _ _ hs0 hk0
        exact ⟨t, hpass h hl hgv hk⟩
    · intro t j hj q s hlev hk
      cases j with
      | zero => exact hlev.elim
      | succ j =>
        have hkj : k = g.prods.length + j := by omega
        rcases hlev with ⟨e, he, rfl, ht⟩ | ⟨s₀, hk0, hs0, hl, hgv⟩ | ⟨s₀, hk0, hs0, hl, hgv⟩
        · obtain rfl := hsame he hk
          exact hi.kernel _ _ ⟨_, he, by rintro _ ⟨⟩; exact ht⟩
        · refine hgive ?_ hl hgv hk
          rcases hs0 with ⟨la, h⟩ | h
          · exact hker h
          · obtain ⟨_, h⟩ := h2 _ _ (level_mono litRule_mono (by omega) _ h) hk0
            exact h.toNone
        · exact hpass (h3 t j hkj _ _ hs0 hk0) hl hgv hk
  · rintro m m' ⟨h1, h2, h3⟩ he
    rcases lalr_round hv hK hfe h1 with ⟨-, h⟩ | ⟨hng, ops, h4, h5, h6⟩
    · rw [h] at he; cases he
    rw [h5] at he
    simp only [Res.ok.injEq] at he
    obtain ⟨i1, -, i3, -⟩ := (lalr_factPass hv.toWF ha hK hfe h4).iter h1
    rw [he] at i1 i3
    obtain ⟨⟨s, o⟩, -, j1, j2⟩ := i3 rfl
    have hfact := i1.sound s o j2
    have hki := (hfact.kernelItem hK).1
    obtain ⟨l1, l2⟩ := lalrFact_level hK hfact
    apply j1
    cases o with
    | some t => exact h3 t g.prods.length (by omega) _ _ (l2 t rfl).2 hki
    | none =>
      rcases l1 with ⟨la, h⟩ | h
      · exact h1.kernel _ _ ⟨_, h, by simp⟩
      · obtain ⟨_, h⟩ := h2 _ _ (level_mono litRule_mono (by omega) _ h) hki
        exact h.toNone
  · intro q s h; exact h.elim
  · intro t j _ q s h
    cases j with
    | zero => exact h.elim
    | succ j => omega

/-- The outcome of the loop, with the sharp bound. -/
theorem lalr_loop_sharp (hv : g.Valid) (ha : AddrInj g addr) (hK : ∀ e ∈ K, e.1.prod ∈ g.prods)
    (hwf : ItemWF addr K) (hfe : FirstsExact g f) {fuel : Nat} (hf : 2 * g.prods.length < fuel) :
    ((∃ s, LalrFact g K s none ∧ LaGap f s) ∧
      changeLoop fuel (ParseState.closureRound addr g f) K = .panic .noFirsts) ∨
    ((¬ ∃ s, LalrFact g K s none ∧ LaGap f s) ∧
      ∃ m, changeLoop fuel (ParseState.closureRound addr g f) K = .ok m ∧ ItemWF addr m ∧
        ∀ s o, ItemIn m s o ↔ LalrFact g K s o) := by
  have h := lalr_loop hv ha hK hwf hfe (fuel := max fuel ((lalrUniverse g K f).length + 1)) (by omega)
  rwa [changeLoop_mono (Nat.le_max_left _ _) (lalr_rounds hv ha hK hwf hfe hf)] at h
end Bongo
